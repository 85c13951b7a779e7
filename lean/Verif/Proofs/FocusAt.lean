import Verif.Proofs.Greedy
/-
Where the node at a path is, in the greedy layout of a tree.
-/
namespace PPP
variable {P : PrettyDoc}

/-- The node does not display its child `i` in this tree. -/
def NTree.NoChild (i : Nat) : NTree P → Prop
  | .child j _ _ => j ≠ i
  | .concat a b => a.NoChild i ∧ b.NoChild i
  | .choice a b => a.NoChild i ∧ b.NoChild i
  | _ => True

/-- In the tree `t` (of the node `id`, starting in the state `st` and followed by `k`) the child `i` comes after `B`.  Its id is
    `c`, and its tree is `t'`, which starts in `st'` and is followed by `k'`. -/
inductive Own (w i : Nat) (c : P.Id) (t' : NTree P) (k' : List (NTree P)) (st' : LineSt) :
    P.Id → NTree P → List (NTree P) → LineSt → List (GTok P) → Prop where
  | child {id} : Own w i c t' k' st' id (.child i (.ok c) t') k' st' []
  | left {id a b k st B} : Own w i c t' k' st' id a (b :: k) st B → Own w i c t' k' st' id (.concat a b) k st B
  | right {id a b k st st1 T B} : a.NoChild i → Greedy w id a (b :: k) st st1 T → Own w i c t' k' st' id b k st1 B →
      Own w i c t' k' st' id (.concat a b) k st (T ++ B)
  | first {id a b k st B} : SecondsFit w st (a :: k) → Own w i c t' k' st' id a k st B →
      Own w i c t' k' st' id (.choice a b) k st (.first :: B)
  | second {id a b k st B} : ¬ SecondsFit w st (a :: k) → Own w i c t' k' st' id b k st B →
      Own w i c t' k' st' id (.choice a b) k st (.second :: B)

/-- The node at the path comes after `B`, and displays `U`. -/
inductive PathAt (w : Nat) (U : List (GTok P)) : P.Id → NTree P → List (NTree P) → LineSt → List Nat → List (GTok P) → Prop where
  | here {id t k st st'} : Greedy w id t k st st' U → PathAt w U id t k st [] []
  | step {id t k st i path c t' k' st' B C} : Own w i c t' k' st' id t k st B → PathAt w U c t' k' st' path C →
      PathAt w U id t k st (i :: path) (B ++ C)

theorem noChild_find {w i : Nat} : ∀ (t : NTree P), t.NoChild i → ∀ {id k st st' L}, t.layout w id k st = .ok (st', L) →
    L.findChild i = none := by
  intro t
  induction t with
  | fail f => intro _ id k st st' L h; simp [NTree.layout] at h
  | empty =>
    intro _ id k st st' L h
    simp only [NTree.layout, Except.ok.injEq, Prod.mk.injEq] at h
    obtain ⟨_, rfl⟩ := h
    rfl
  | mark =>
    intro _ id k st st' L h
    simp only [NTree.layout, Except.ok.injEq, Prod.mk.injEq] at h
    obtain ⟨_, rfl⟩ := h
    rfl
  | eol =>
    intro _ id k st st' L h
    simp only [NTree.layout, Except.ok.injEq, Prod.mk.injEq] at h
    obtain ⟨_, rfl⟩ := h
    rfl
  | newline ind =>
    intro _ id k st st' L h
    simp only [NTree.layout] at h
    split at h
    · simp only [Except.ok.injEq, Prod.mk.injEq] at h
      obtain ⟨_, rfl⟩ := h
      rfl
    · simp at h
  | text x =>
    intro _ id k st st' L h
    simp only [NTree.layout] at h
    split at h
    · simp at h
    · split at h
      · simp only [Except.ok.injEq, Prod.mk.injEq] at h
        obtain ⟨_, rfl⟩ := h
        rfl
      · simp at h
  | child j c t ih =>
    intro hn id k st st' L h
    simp only [NTree.layout, Except.bind_eq] at h
    cases c with
    | error f => simp at h
    | ok c =>
      simp only at h
      split at h
      rotate_left
      · simp at h
      simp only [Except.ok.injEq, Prod.mk.injEq] at h
      obtain ⟨_, rfl⟩ := h
      exact if_neg hn
  | concat a b iha ihb =>
    intro hn id k st st' L h
    simp only [NTree.layout, Except.bind_eq] at h
    split at h
    rotate_left
    · simp at h
    rename_i r hr
    split at h
    rotate_left
    · simp at h
    rename_i r2 hr2
    simp only [Except.ok.injEq, Prod.mk.injEq] at h
    obtain ⟨_, rfl⟩ := h
    have h1 := iha hn.1 (st' := r.1) (L := r.2) hr
    have h2 := ihb hn.2 (st' := r2.1) (L := r2.2) hr2
    simp only [LTree.findChild, h1, h2]
  | choice a b iha ihb =>
    intro hn id k st st' L h
    simp only [NTree.layout, Except.bind_eq] at h
    split at h
    rotate_left
    · simp at h
    split at h
    rotate_left
    · simp at h
    split at h
    · exact iha hn.1 h
    · exact ihb hn.2 h

theorem Own.find {w i : Nat} {c : P.Id} {t' : NTree P} {k' st' id t k st B} (h : Own w i c t' k' st' id t k st B) :
    ∀ {st2 L}, t.layout w id k st = .ok (st2, L) → ∃ l, L.findChild i = some l ∧ l.before = erase B ∧ l.id = c ∧
      ∃ st3, t'.layout w c k' st' = .ok (st3, l.node) := by
  induction h with
  | child =>
    intro st2 L h
    simp only [NTree.layout, Except.bind_eq] at h
    split at h
    rotate_left
    · simp at h
    rename_i r hr
    simp only [Except.ok.injEq, Prod.mk.injEq] at h
    obtain ⟨rfl, rfl⟩ := h
    exact ⟨_, if_pos rfl, rfl, rfl, _, hr⟩
  | left _ ih =>
    intro st2 L h
    simp only [NTree.layout, Except.bind_eq] at h
    split at h
    rotate_left
    · simp at h
    rename_i r hr
    split at h
    rotate_left
    · simp at h
    rename_i r2 hr2
    simp only [Except.ok.injEq, Prod.mk.injEq] at h
    obtain ⟨_, rfl⟩ := h
    obtain ⟨l, h1, h2, h3, h4⟩ := ih (st2 := r.1) (L := r.2) hr
    refine ⟨{ l with after := l.after ++ r2.2.toks }, ?_, h2, h3, h4⟩
    simp only [LTree.findChild, h1]
  | right hn hg _ ih =>
    intro st2 L h
    simp only [NTree.layout, Except.bind_eq] at h
    split at h
    rotate_left
    · simp at h
    rename_i r hr
    split at h
    rotate_left
    · simp at h
    rename_i r2 hr2
    simp only [Except.ok.injEq, Prod.mk.injEq] at h
    obtain ⟨_, rfl⟩ := h
    obtain ⟨T, g, ht⟩ := layout_greedy w _ (st' := r.1) (L := r.2) hr
    obtain ⟨e1, e2⟩ := greedy_unique g hg
    rw [e1] at hr2
    obtain ⟨l, h1, h2, h3, h4⟩ := ih (st2 := r2.1) (L := r2.2) hr2
    have h0 := noChild_find _ hn (st' := r.1) (L := r.2) hr
    refine ⟨{ l with before := r.2.toks ++ l.before }, ?_, ?_, h3, h4⟩
    · simp only [LTree.findChild, h0, h1]
    · simp only [erase_append, h2, ← ht, e2]
  | first hf _ ih =>
    intro st2 L h
    simp only [NTree.layout, Except.bind_eq] at h
    split at h
    rotate_left
    · simp at h
    split at h
    rotate_left
    · simp at h
    rename_i r hr
    have := (fitsLine_spec hr).1 hf
    subst this
    exact ih h
  | second hf _ ih =>
    intro st2 L h
    simp only [NTree.layout, Except.bind_eq] at h
    split at h
    rotate_left
    · simp at h
    split at h
    rotate_left
    · simp at h
    rename_i r hr
    have := fitsLine_spec hr
    cases r with
    | true => exact absurd (this.2 rfl) hf
    | false => exact ih h

theorem PathAt.locate {w : Nat} {U : List (GTok P)} {id : P.Id} {t k st path B} (h : PathAt w U id t k st path B) :
    ∀ {st2 L}, t.layout w id k st = .ok (st2, L) → ∃ l, L.locate id path = .ok l ∧ l.before = erase B ∧
      l.node.toks = erase U := by
  induction h with
  | here hg =>
    intro st2 L h
    obtain ⟨T, g, ht⟩ := layout_greedy w _ h
    obtain ⟨_, rfl⟩ := greedy_unique g hg
    exact ⟨_, rfl, rfl, ht.symm⟩
  | step ho _ ih =>
    intro st2 L h
    obtain ⟨l, h1, h2, h3, st3, h4⟩ := ho.find h
    obtain ⟨l', h5, h6, h7⟩ := ih h4
    subst h3
    refine ⟨{ l' with before := l.before ++ l'.before, after := l'.after ++ l.after }, ?_, ?_, h7⟩
    · simp only [LTree.locate, h1, h5]
    · simp only [erase_append, h2, h6]

end PPP
