import Verif.Proofs.Main
/-
Facts about the tokens of a layout.
-/
namespace PPP
variable {P : PrettyDoc}

/-- Displayed texts and indentations are leaves of the tree. -/
theorem layout_leaves {Q : Pred P} {t : NTree P} (h : t.FailIn Q) : ∀ {w id k st st' L},
    t.layout w id k st = .ok (st', L) → ∀ tok ∈ L.toks,
      (∀ x, tok = .text x → Q.text x) ∧ (∀ ind, tok = .nl ind → Q.nl ind) := by
  induction t with
  | fail f => intro w id k st st' L hl; simp [NTree.layout] at hl
  | empty =>
    intro w id k st st' L hl
    simp only [NTree.layout, Except.ok.injEq, Prod.mk.injEq] at hl
    obtain ⟨_, rfl⟩ := hl
    simp [LTree.toks]
  | eol =>
    intro w id k st st' L hl
    simp only [NTree.layout, Except.ok.injEq, Prod.mk.injEq] at hl
    obtain ⟨_, rfl⟩ := hl
    simp [LTree.toks]
  | mark =>
    intro w id k st st' L hl
    simp only [NTree.layout, Except.ok.injEq, Prod.mk.injEq] at hl
    obtain ⟨_, rfl⟩ := hl
    simp [LTree.toks]
  | newline ind =>
    intro w id k st st' L hl
    simp only [NTree.layout] at hl
    split at hl
    · simp only [Except.ok.injEq, Prod.mk.injEq] at hl
      obtain ⟨_, rfl⟩ := hl
      simp only [LTree.toks, List.mem_singleton]
      rintro tok rfl
      exact ⟨by simp, by rintro _ ⟨⟩; exact h⟩
    · simp at hl
  | text x =>
    intro w id k st st' L hl
    simp only [NTree.layout] at hl
    split at hl
    · simp at hl
    · split at hl
      · simp only [Except.ok.injEq, Prod.mk.injEq] at hl
        obtain ⟨_, rfl⟩ := hl
        simp only [LTree.toks, List.mem_singleton]
        rintro tok rfl
        exact ⟨by rintro _ ⟨⟩; exact h, by simp⟩
      · simp at hl
  | concat a b iha ihb =>
    intro w id k st st' L hl
    simp only [NTree.layout, Except.bind_eq] at hl
    split at hl
    rotate_left
    · simp at hl
    · rename_i r hr
      split at hl
      rotate_left
      · simp at hl
      · rename_i r' hr'
        simp only [Except.ok.injEq, Prod.mk.injEq] at hl
        obtain ⟨_, rfl⟩ := hl
        intro tok htok
        rcases List.mem_append.1 htok with htok | htok
        · exact iha h.1 hr tok htok
        · exact ihb h.2 hr' tok htok
  | choice a b iha ihb =>
    intro w id k st st' L hl
    simp only [NTree.layout, Except.bind_eq] at hl
    split at hl
    rotate_left
    · simp at hl
    · split at hl
      rotate_left
      · simp at hl
      · split at hl
        · exact iha h.1 hl
        · exact ihb h.2 hl
  | child i cid t ih =>
    intro w id k st st' L hl
    simp only [NTree.layout, Except.bind_eq] at hl
    split at hl
    rotate_left
    · simp at hl
    · split at hl
      rotate_left
      · simp at hl
      · rename_i r hr
        simp only [Except.ok.injEq, Prod.mk.injEq] at hl
        obtain ⟨_, rfl⟩ := hl
        exact ih (st' := r.1) (L := r.2) h.2 hr

theorem layoutDoc_leaves {Q : Pred P} {t : NTree P} (h : t.FailIn Q) {w id L}
    (hl : t.layoutDoc w id = .ok L) : ∀ tok ∈ L.toks,
      (∀ x, tok = .text x → Q.text x) ∧ (∀ ind, tok = .nl ind → Q.nl ind) := by
  unfold NTree.layoutDoc at hl
  simp only [Except.bind_eq] at hl
  split at hl
  rotate_left
  · simp at hl
  · rename_i r hr
    simp only [Except.ok.injEq] at hl
    subst hl
    exact layout_leaves h hr

theorem linesFrom_head (cur : List (Segment P)) (T : List (Tok P)) :
    ∃ l ls, linesFrom [] T = l :: ls ∧ linesFrom cur T = (cur ++ l) :: ls := by
  suffices h : ∀ c, ∃ l ls, linesFrom c T = (c ++ l) :: ls ∧ linesFrom (cur ++ c) T = (cur ++ (c ++ l)) :: ls by
    obtain ⟨l, ls, h1, h2⟩ := h []
    exact ⟨l, ls, by simpa using h1, by simpa using h2⟩
  induction T with
  | nil => intro c; exact ⟨[], [], by simp [linesFrom], by simp [linesFrom]⟩
  | cons t T ih =>
    intro c
    cases t with
    | text t =>
      obtain ⟨l, ls, h1, h2⟩ := ih (c ++ [t.segment])
      refine ⟨t.segment :: l, ls, ?_, ?_⟩
      · rw [linesFrom, h1]; simp
      · rw [linesFrom, List.append_assoc, h2]; simp
    | nl ind => exact ⟨[], linesFrom ind T, by simp [linesFrom], by simp [linesFrom]⟩
    | eol => exact ih c
    | mark i => exact ih c

/-- Cutting the lines of `B ++ A` at the end of `B` leaves the lines of `A`. -/
theorem lines_after {B A : List (Tok P)} {above below : List (List (Segment P))} {left right}
    (h1 : above ++ [left] = linesOf B) (h2 : above ++ [left ++ right] ++ below = linesOf (B ++ A)) :
    right :: below = linesOf A := by
  rw [linesOf, linesFrom_append h1] at h2
  obtain ⟨l, ls, h3, h4⟩ := linesFrom_head left A
  rw [h4] at h2
  simp only [List.append_assoc, List.singleton_append, List.append_cancel_left_eq, List.cons.injEq] at h2
  rw [linesOf, h3, h2.1, h2.2]

/-! ### Marks -/

/-- The ids of the nodes displayed in a tree do not occur as marks. -/
theorem layout_mark_absent {i : P.Id} {t : NTree P} (h : t.IdAbsent i) : ∀ {w id k st st' L}, id ≠ i →
    t.layout w id k st = .ok (st', L) → .mark i ∉ L.toks := by
  induction t with
  | fail f => intro w id k st st' L hi hl; simp [NTree.layout] at hl
  | empty =>
    intro w id k st st' L hi hl
    simp only [NTree.layout, Except.ok.injEq, Prod.mk.injEq] at hl
    obtain ⟨_, rfl⟩ := hl
    simp [LTree.toks]
  | eol =>
    intro w id k st st' L hi hl
    simp only [NTree.layout, Except.ok.injEq, Prod.mk.injEq] at hl
    obtain ⟨_, rfl⟩ := hl
    simp [LTree.toks]
  | mark =>
    intro w id k st st' L hi hl
    simp only [NTree.layout, Except.ok.injEq, Prod.mk.injEq] at hl
    obtain ⟨_, rfl⟩ := hl
    simp [LTree.toks, Ne.symm hi]
  | newline ind =>
    intro w id k st st' L hi hl
    simp only [NTree.layout] at hl
    split at hl
    · simp only [Except.ok.injEq, Prod.mk.injEq] at hl
      obtain ⟨_, rfl⟩ := hl
      simp [LTree.toks]
    · simp at hl
  | text x =>
    intro w id k st st' L hi hl
    simp only [NTree.layout] at hl
    split at hl
    · simp at hl
    · split at hl
      · simp only [Except.ok.injEq, Prod.mk.injEq] at hl
        obtain ⟨_, rfl⟩ := hl
        simp [LTree.toks]
      · simp at hl
  | concat a b iha ihb =>
    intro w id k st st' L hi hl
    simp only [NTree.layout, Except.bind_eq] at hl
    split at hl
    rotate_left
    · simp at hl
    · rename_i r hr
      split at hl
      rotate_left
      · simp at hl
      · rename_i r' hr'
        simp only [Except.ok.injEq, Prod.mk.injEq] at hl
        obtain ⟨_, rfl⟩ := hl
        simp only [LTree.toks, List.mem_append, not_or]
        exact ⟨iha h.1 hi hr, ihb h.2 hi hr'⟩
  | choice a b iha ihb =>
    intro w id k st st' L hi hl
    simp only [NTree.layout, Except.bind_eq] at hl
    split at hl
    rotate_left
    · simp at hl
    · split at hl
      rotate_left
      · simp at hl
      · split at hl
        · exact iha h.1 hi hl
        · exact ihb h.2 hi hl
  | child j cid t ih =>
    intro w id k st st' L hi hl
    simp only [NTree.layout, Except.bind_eq] at hl
    split at hl
    rotate_left
    · simp at hl
    · split at hl
      rotate_left
      · simp at hl
      · rename_i c hc r hr
        simp only [Except.ok.injEq, Prod.mk.injEq] at hl
        obtain ⟨_, rfl⟩ := hl
        refine ih (st' := r.1) (L := r.2) h.2 ?_ hr
        rintro rfl
        exact h.1 rfl

/-- `L` is the layout of a node whose id does not occur below it. -/
def MarkOwn (id : P.Id) : LTree P → Prop
  | .concat a b => MarkOwn id a ∧ MarkOwn id b
  | .mark i => i = id
  | .child _ _ c t => .mark id ∉ t.toks ∧ MarkOwn c t
  | _ => True

theorem layout_markOwn {t : NTree P} : ∀ {w id k st st' L}, t.IdsDistinct id →
    t.layout w id k st = .ok (st', L) → MarkOwn id L := by
  induction t with
  | fail f => intro w id k st st' L hi hl; simp [NTree.layout] at hl
  | empty =>
    intro w id k st st' L hi hl
    simp only [NTree.layout, Except.ok.injEq, Prod.mk.injEq] at hl
    obtain ⟨_, rfl⟩ := hl
    trivial
  | eol =>
    intro w id k st st' L hi hl
    simp only [NTree.layout, Except.ok.injEq, Prod.mk.injEq] at hl
    obtain ⟨_, rfl⟩ := hl
    trivial
  | mark =>
    intro w id k st st' L hi hl
    simp only [NTree.layout, Except.ok.injEq, Prod.mk.injEq] at hl
    obtain ⟨_, rfl⟩ := hl
    rfl
  | newline ind =>
    intro w id k st st' L hi hl
    simp only [NTree.layout] at hl
    split at hl
    · simp only [Except.ok.injEq, Prod.mk.injEq] at hl
      obtain ⟨_, rfl⟩ := hl
      trivial
    · simp at hl
  | text x =>
    intro w id k st st' L hi hl
    simp only [NTree.layout] at hl
    split at hl
    · simp at hl
    · split at hl
      · simp only [Except.ok.injEq, Prod.mk.injEq] at hl
        obtain ⟨_, rfl⟩ := hl
        trivial
      · simp at hl
  | concat a b iha ihb =>
    intro w id k st st' L hi hl
    simp only [NTree.layout, Except.bind_eq] at hl
    split at hl
    rotate_left
    · simp at hl
    · rename_i r hr
      split at hl
      rotate_left
      · simp at hl
      · rename_i r' hr'
        simp only [Except.ok.injEq, Prod.mk.injEq] at hl
        obtain ⟨_, rfl⟩ := hl
        exact ⟨iha hi.1 hr, ihb hi.2 hr'⟩
  | choice a b iha ihb =>
    intro w id k st st' L hi hl
    simp only [NTree.layout, Except.bind_eq] at hl
    split at hl
    rotate_left
    · simp at hl
    · split at hl
      rotate_left
      · simp at hl
      · split at hl
        · exact iha hi.1 hl
        · exact ihb hi.2 hl
  | child j cid t ih =>
    intro w id k st st' L hi hl
    simp only [NTree.layout, Except.bind_eq] at hl
    split at hl
    rotate_left
    · simp at hl
    · split at hl
      rotate_left
      · simp at hl
      · rename_i c hc r hr
        simp only [Except.ok.injEq, Prod.mk.injEq] at hl
        obtain ⟨_, rfl⟩ := hl
        refine ⟨layout_mark_absent hi.2.1 ?_ hr, ih (hi.2.2 c rfl) hr⟩
        rintro rfl
        exact hi.1 rfl

theorem MarkOwn.findChild {id : P.Id} {L : LTree P} (h : MarkOwn id L) {i l}
    (hl : L.findChild i = some l) : MarkOwn l.id l.node := by
  induction L generalizing l with
  | child p j c t _ =>
    simp only [LTree.findChild] at hl
    split at hl
    · simp only [Option.some.injEq] at hl
      subst hl
      exact h.2
    · simp at hl
  | concat a b iha ihb =>
    simp only [LTree.findChild] at hl
    cases ha : a.findChild i with
    | some l0 =>
      rw [ha] at hl
      simp only [Option.some.injEq] at hl
      subst hl
      exact iha h.1 (l := l0) ha
    | none =>
      rw [ha] at hl
      cases hb : b.findChild i with
      | none => rw [hb] at hl; simp at hl
      | some l0 =>
        rw [hb] at hl
        simp only [Option.some.injEq] at hl
        subst hl
        exact ihb h.2 (l := l0) hb
  | _ => simp [LTree.findChild] at hl

theorem MarkOwn.locate (path : List Nat) : ∀ {id : P.Id} {L : LTree P}, MarkOwn id L → ∀ {l},
    L.locate id path = .ok l → MarkOwn l.id l.node := by
  induction path with
  | nil => intro id L h l hl; simp [LTree.locate] at hl; subst hl; exact h
  | cons i path ih =>
    intro id L h l hl
    simp only [LTree.locate] at hl
    cases hf : L.findChild i with
    | none => rw [hf] at hl; simp at hl
    | some l0 =>
      rw [hf] at hl
      simp only at hl
      cases hl' : l0.node.locate l0.id path with
      | error j => rw [hl'] at hl; simp at hl
      | ok l1 =>
        rw [hl'] at hl
        simp only [Except.ok.injEq] at hl
        subst hl
        exact ih (h.findChild hf) (l := l1) hl'

theorem splitAtTok_append_some {p : Tok P → Bool} {T U b a : List (Tok P)} {x}
    (h : splitAtTok p T = some (b, x, a)) : splitAtTok p (T ++ U) = some (b, x, a ++ U) := by
  induction T generalizing b with
  | nil => simp [splitAtTok] at h
  | cons t T ih =>
    simp only [splitAtTok, List.cons_append] at h ⊢
    split at h
    · simp only [Option.some.injEq, Prod.mk.injEq] at h
      obtain ⟨rfl, rfl, rfl⟩ := h
      simp_all
    · cases hs : splitAtTok p T with
      | none => rw [hs] at h; simp at h
      | some r =>
        obtain ⟨b', x', a'⟩ := r
        rw [hs] at h
        simp only [Option.map_some, Option.some.injEq, Prod.mk.injEq] at h
        obtain ⟨rfl, rfl, rfl⟩ := h
        rw [ih hs]
        simp_all

theorem splitAtTok_append_none {p : Tok P → Bool} {T U : List (Tok P)}
    (h : ∀ t ∈ T, p t = false) :
    splitAtTok p (T ++ U) = (splitAtTok p U).map fun r => (T ++ r.1, r.2.1, r.2.2) := by
  induction T with
  | nil => rw [List.nil_append]; cases splitAtTok p U <;> rfl
  | cons t T ih =>
    rw [List.cons_append, splitAtTok, h t (by simp), ih (fun t ht => h t (by simp [ht]))]
    cases splitAtTok p U <;> rfl

/-- The first mark of a node in its own layout is its own first mark. -/
theorem ownMark_split {id : P.Id} {L : LTree P} (h : MarkOwn id L) :
    match L.ownMark with
    | some (b, a) => splitAtTok (Tok.isMark id) L.toks = some (b, .mark id, a)
    | none => ∀ t ∈ L.toks, Tok.isMark id t = false := by
  induction L with
  | mark i =>
    have : i = id := h
    subst this
    simp [LTree.ownMark, LTree.toks, splitAtTok, Tok.isMark]
  | child p j c t _ =>
    simp only [LTree.ownMark, LTree.toks]
    intro tok ht
    cases tok with
    | mark i =>
      simp only [Tok.isMark, decide_eq_false_iff_not]
      rintro rfl
      exact h.1 ht
    | _ => rfl
  | concat a b iha ihb =>
    have ha := iha h.1
    have hb := ihb h.2
    simp only [LTree.ownMark, LTree.toks]
    cases hoa : a.ownMark with
    | some r =>
      rw [hoa] at ha
      exact splitAtTok_append_some ha
    | none =>
      rw [hoa] at ha
      cases hob : b.ownMark with
      | some r =>
        rw [hob] at hb
        simp only at ha hb ⊢
        rw [splitAtTok_append_none ha, hb]
        rfl
      | none =>
        rw [hob] at hb
        simp only at ha hb ⊢
        intro t ht
        rcases List.mem_append.1 ht with ht | ht
        · exact ha t ht
        · exact hb t ht
  | empty => simp [LTree.ownMark, LTree.toks]
  | eol => simp [LTree.ownMark, LTree.toks, Tok.isMark]
  | newline ind => simp [LTree.ownMark, LTree.toks, Tok.isMark]
  | text t => simp [LTree.ownMark, LTree.toks, Tok.isMark]

theorem layoutDoc_markOwn {t : NTree P} {w id L} (hi : t.IdsDistinct id)
    (hl : t.layoutDoc w id = .ok L) : MarkOwn id L := by
  unfold NTree.layoutDoc at hl
  simp only [Except.bind_eq] at hl
  split at hl
  rotate_left
  · simp at hl
  · rename_i r hr
    simp only [Except.ok.injEq] at hl
    subst hl
    exact layout_markOwn hi hr

theorem splitAtTok_eq_none {p : Tok P → Bool} {T : List (Tok P)} (h : splitAtTok p T = none) :
    ∀ t ∈ T, p t = false := by
  induction T with
  | nil => simp
  | cons t T ih =>
    simp only [splitAtTok] at h
    split at h
    · simp at h
    · rename_i hp
      simp only [Option.map_eq_none_iff] at h
      intro y hy
      rcases List.mem_cons.1 hy with rfl | hy
      · exact Bool.eq_false_iff.2 hp
      · exact ih h y hy

theorem splitAtTok_none_mark {id : P.Id} {T : List (Tok P)} (h : splitAtTok (Tok.isMark id) T = none) :
    .mark id ∉ T := by
  intro hm
  have := splitAtTok_eq_none h _ hm
  simp [Tok.isMark] at this

end PPP
