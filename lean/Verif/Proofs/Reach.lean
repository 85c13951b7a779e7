import Verif.Props.Layout
import Verif.Props.Focus
/-
Notations that display all of the children, whatever choices are taken: every path is accepted.
-/
namespace PPP
variable {P : PrettyDoc}

/-- Child `i` is displayed by this node itself, however the choices are taken (or displaying fails). -/
def NTree.Has (i : Nat) : NTree P → Prop
  | .fail _ => True
  | .child j _ _ => j = i
  | .concat a b => a.Has i ∨ b.Has i
  | .choice a b => a.Has i ∧ b.Has i
  | _ => False

/-- Everything displayed as child `i` by this node itself satisfies `Φ`. -/
def NTree.EachKid (i : Nat) (Φ : NTree P → Prop) : NTree P → Prop
  | .child j _ t => j = i → Φ t
  | .concat a b => a.EachKid i Φ ∧ b.EachKid i Φ
  | .choice a b => a.EachKid i Φ ∧ b.EachKid i Φ
  | _ => True

theorem layout_findChild (w : Nat) {i : Nat} {Φ : NTree P → Prop} (t : NTree P) :
    ∀ {id : P.Id} {k st st' L}, t.EachKid i Φ → t.layout w id k st = .ok (st', L) →
      (t.Has i → ∃ l, L.findChild i = some l) ∧
      ∀ l, L.findChild i = some l → ∃ sub k st st', Φ sub ∧ sub.layout w l.id k st = .ok (st', l.node) := by
  induction t with
  | fail f => intro id k st st' L _ h; simp [NTree.layout] at h
  | empty => intro id k st st' L _ h; simp only [NTree.layout, Except.ok.injEq, Prod.mk.injEq] at h; obtain ⟨_, rfl⟩ := h; simp [NTree.Has, LTree.findChild]
  | eol => intro id k st st' L _ h; simp only [NTree.layout, Except.ok.injEq, Prod.mk.injEq] at h; obtain ⟨_, rfl⟩ := h; simp [NTree.Has, LTree.findChild]
  | mark => intro id k st st' L _ h; simp only [NTree.layout, Except.ok.injEq, Prod.mk.injEq] at h; obtain ⟨_, rfl⟩ := h; simp [NTree.Has, LTree.findChild]
  | newline ind =>
    intro id k st st' L _ h
    simp only [NTree.layout] at h
    split at h
    · simp only [Except.ok.injEq, Prod.mk.injEq] at h; obtain ⟨_, rfl⟩ := h; simp [NTree.Has, LTree.findChild]
    · simp at h
  | text x =>
    intro id k st st' L _ h
    simp only [NTree.layout] at h
    split at h
    · simp at h
    · split at h
      · simp only [Except.ok.injEq, Prod.mk.injEq] at h; obtain ⟨_, rfl⟩ := h; simp [NTree.Has, LTree.findChild]
      · simp at h
  | child j cid t ih =>
    intro id k st st' L hk h
    simp only [NTree.layout, Except.bind_eq] at h
    cases hc : cid with
    | error e => rw [hc] at h; simp at h
    | ok c =>
      rw [hc] at h
      simp only at h
      cases hl : t.layout w c k st with
      | error e => rw [hl] at h; simp at h
      | ok r =>
        rw [hl] at h
        simp only [Except.ok.injEq, Prod.mk.injEq] at h
        obtain ⟨rfl, rfl⟩ := h
        simp only [NTree.Has, LTree.findChild]
        constructor
        · intro hj; exact ⟨_, if_pos hj⟩
        · intro l hl'
          split at hl'
          · rename_i hj
            simp only [Option.some.injEq] at hl'
            subst hl'
            exact ⟨t, k, st, _, hk hj, hl⟩
          · simp at hl'
  | concat a b iha ihb =>
    intro id k st st' L hk h
    simp only [NTree.layout, Except.bind_eq] at h
    cases hla : a.layout w id (b :: k) st with
    | error e => rw [hla] at h; simp at h
    | ok ra =>
      rw [hla] at h
      simp only at h
      cases hlb : b.layout w id k ra.1 with
      | error e => rw [hlb] at h; simp at h
      | ok rb =>
        rw [hlb] at h
        simp only [Except.ok.injEq, Prod.mk.injEq] at h
        obtain ⟨rfl, rfl⟩ := h
        obtain ⟨a1, a2⟩ := iha hk.1 hla
        obtain ⟨b1, b2⟩ := ihb hk.2 hlb
        simp only [NTree.Has, LTree.findChild]
        cases hfa : ra.2.findChild i with
        | some l =>
          refine ⟨fun _ => ⟨_, rfl⟩, ?_⟩
          rintro l' h'
          simp only [Option.some.injEq] at h'
          subst h'
          exact a2 l hfa
        | none =>
          cases hfb : rb.2.findChild i with
          | some l =>
            refine ⟨fun _ => ⟨_, rfl⟩, ?_⟩
            rintro l' h'
            simp only [Option.some.injEq] at h'
            subst h'
            exact b2 l hfb
          | none =>
            simp only [reduceCtorEq, exists_false, false_implies, implies_true, and_true]
            rintro (h | h)
            · obtain ⟨l, hl⟩ := a1 h; rw [hfa] at hl; cases hl
            · obtain ⟨l, hl⟩ := b1 h; rw [hfb] at hl; cases hl
  | choice a b iha ihb =>
    intro id k st st' L hk h
    simp only [NTree.layout, Except.bind_eq] at h
    split at h
    rotate_left
    · simp at h
    · split at h
      rotate_left
      · simp at h
      · split at h
        · exact ⟨fun hh => (iha hk.1 h).1 hh.1, (iha hk.1 h).2⟩
        · exact ⟨fun hh => (ihb hk.2 h).1 hh.2, (ihb hk.2 h).2⟩

/-- The path leads to a node that is displayed, however the choices are taken. -/
def NTree.Reach : List Nat → NTree P → Prop
  | [], _ => True
  | i :: path, t => t.Has i ∧ t.EachKid i (NTree.Reach path)

theorem layout_locate (w : Nat) (path : List Nat) : ∀ {t : NTree P} {id : P.Id} {k st st' L}, t.Reach path →
    t.layout w id k st = .ok (st', L) → ∃ l, L.locate id path = .ok l := by
  induction path with
  | nil => intro t id k st st' L _ _; exact ⟨_, rfl⟩
  | cons i path ih =>
    intro t id k st st' L hr h
    obtain ⟨h1, h2⟩ := layout_findChild w t hr.2 h
    obtain ⟨l, hl⟩ := h1 hr.1
    obtain ⟨sub, k', st1, st2, hs, hlay⟩ := h2 l hl
    obtain ⟨l', hl'⟩ := ih hs hlay
    simp only [LTree.locate, hl, hl']
    exact ⟨_, rfl⟩

theorem NTree.orFail_has {i : Nat} {α : Type} {c : Call P.Err α} {f : α → NTree P}
    (h : ∀ a, c = .ok a → (f a).Has i) : (NTree.orFail c f).Has i := by
  unfold NTree.orFail
  split
  · trivial
  · exact h _ rfl

theorem NTree.orFail_each {i : Nat} {Φ : NTree P → Prop} {α : Type} {c : Call P.Err α} {f : α → NTree P}
    (h : ∀ a, c = .ok a → (f a).EachKid i Φ) : (NTree.orFail c f).EachKid i Φ := by
  unfold NTree.orFail
  split
  · trivial
  · exact h _ rfl

/-- All that a notation displays as child `i` is what child `i` displays. -/
theorem tree_eachKid {node : P.Node} {kid : Nat → Ctx P → NTree P} {i : Nat} {Φ : NTree P → Prop}
    (hk : ∀ j c, (kid j c).EachKid i Φ) (a : Notation P.Label P.Cond) :
    ∀ (env : Option (FoldEnv P)) c, (∀ e, env = some e → ∀ c, (e.acc c).EachKid i Φ) →
      (a.tree node kid env c).EachKid i Φ := by
  induction a with
  | empty => intros; trivial
  | endOfLine => intros; trivial
  | newline => intros; trivial
  | literal s => intros; trivial
  | focusMark => intros; trivial
  | text =>
    intro env c _
    simp only [Notation.tree]
    refine NTree.orFail_each fun x _ => ?_
    cases x with
    | some _ => trivial
    | none => exact NTree.orFail_each fun _ _ => trivial
  | flat a ih => intro env c h; exact ih env _ h
  | indent pre l a ih =>
    intro env c h
    cases l with
    | none => exact ih env _ h
    | some l => exact NTree.orFail_each fun _ _ => ih env _ h
  | concat a b iha ihb => intro env c h; exact ⟨iha env c h, ihb env c h⟩
  | choice a b iha ihb =>
    intro env c h
    simp only [Notation.tree]
    split
    · exact iha env c h
    · exact ⟨iha env c h, ihb env c h⟩
  | check cond pos a b iha ihb =>
    intro env c h
    simp only [Notation.tree]
    split
    · trivial
    · refine NTree.orFail_each fun x _ => ?_
      cases x
      · exact ihb env c h
      · exact iha env c h
  | child k =>
    intro env c _
    simp only [Notation.tree]
    refine NTree.orFail_each fun x _ => ?_
    cases x with
    | none => trivial
    | some n =>
      simp only
      split
      · trivial
      · exact hk _ _
  | style l a ih => intro env c h; exact NTree.orFail_each fun _ _ => ih env _ h
  | count z o m ihz iho ihm =>
    intro env c h
    simp only [Notation.tree]
    refine NTree.orFail_each fun x _ => ?_
    match x with
    | none => trivial
    | some 0 => exact ihz env c h
    | some 1 => exact iho env c h
    | some (n + 2) => exact ihm env c h
  | fold first join ih1 ih2 =>
    intro env c h
    simp only [Notation.tree]
    refine NTree.orFail_each fun x _ => ?_
    match x with
    | none => trivial
    | some 0 => trivial
    | some (n + 1) =>
      simp only
      have key : ∀ k c, ((Nat.rec (motive := fun _ => Ctx P → NTree P)
          (fun c => first.tree node kid none c)
          (fun k acc c => .orFail (P.childAt node (k + 1)) fun _ =>
            join.tree node kid (some ⟨acc, k + 1⟩) c)
          k : Ctx P → NTree P) c).EachKid i Φ := by
        intro k
        induction k with
        | zero => intro c; exact ih1 none c (fun e he => by cases he)
        | succ k ih =>
          intro c
          refine NTree.orFail_each fun _ _ => ?_
          refine ih2 _ c ?_
          rintro e he c
          cases he
          exact ih c
      exact key n c
  | left =>
    intro env c h
    cases env with
    | none => trivial
    | some e => exact h e rfl c
  | right =>
    intro env c h
    cases env with
    | none => trivial
    | some e => exact hk _ _

/-- `a.Surely p`: a part of the notation satisfying `p` is displayed, whatever choices are taken. -/
def Notation.Surely {L C : Type} (p : Notation L C → Prop) : Notation L C → Prop
  | .concat a b => a.Surely p ∨ b.Surely p
  | .choice a b => a.Surely p ∧ b.Surely p
  | .check _ _ a b => a.Surely p ∧ b.Surely p
  | .flat a => a.Surely p
  | .indent _ _ a => a.Surely p
  | .style _ a => a.Surely p
  | a => p a

theorem surely_has {node : P.Node} {kid : Nat → Ctx P → NTree P} {i : Nat} {p : Notation P.Label P.Cond → Prop}
    {env : Option (FoldEnv P)} (hp : ∀ a, p a → ∀ c, (a.tree node kid env c).Has i) (a : Notation P.Label P.Cond) :
    ∀ c, a.Surely p → (a.tree node kid env c).Has i := by
  induction a with
  | flat a ih => intro c h; exact ih _ h
  | indent pre l a ih =>
    intro c h
    cases l with
    | none => exact ih _ h
    | some l => exact NTree.orFail_has fun _ _ => ih _ h
  | concat a b iha ihb => intro c h; exact h.imp (iha c) (ihb c)
  | choice a b iha ihb =>
    intro c h
    simp only [Notation.tree]
    split
    · exact iha c h.1
    · exact ⟨iha c h.1, ihb c h.2⟩
  | check cond pos a b iha ihb =>
    intro c h
    simp only [Notation.tree]
    split
    · trivial
    · refine NTree.orFail_has fun x _ => ?_
      cases x
      · exact ihb c h.2
      · exact iha c h.1
  | style l a ih => intro c h; exact NTree.orFail_has fun _ _ => ih _ h
  | _ => intro c h; exact hp _ h c

/-- A fold displays all children if `first` displays child 0, and `join` displays `Left` and `Right`. -/
theorem fold_has {node : P.Node} {kid : Nat → Ctx P → NTree P} (hk : ∀ j c, (kid j c).Has j)
    {first join : Notation P.Label P.Cond} (h0 : first.Surely (· = .child 0)) (hl : join.Surely (· = .left))
    (hr : join.Surely (· = .right)) {n i : Nat} (hn : P.numChildren node = .ok (some n)) (hi : i < n)
    (env : Option (FoldEnv P)) (c : Ctx P) : ((Notation.fold first join).tree node kid env c).Has i := by
  obtain ⟨n, rfl⟩ : ∃ m, n = m + 1 := ⟨n - 1, by omega⟩
  simp only [Notation.tree]
  refine NTree.orFail_has fun x hx => ?_
  rw [hn] at hx
  cases hx
  simp only
  have key : ∀ k c, ∀ i, i ≤ k → ((Nat.rec (motive := fun _ => Ctx P → NTree P)
      (fun c => first.tree node kid none c)
      (fun k acc c => .orFail (P.childAt node (k + 1)) fun _ =>
        join.tree node kid (some ⟨acc, k + 1⟩) c)
      k : Ctx P → NTree P) c).Has i := by
    intro k
    induction k with
    | zero =>
      intro c i hi
      obtain rfl : i = 0 := by omega
      refine surely_has (p := (· = .child 0)) ?_ first c h0
      rintro a rfl c
      simp only [Notation.tree]
      refine NTree.orFail_has fun x hx => ?_
      rw [hn] at hx
      cases hx
      have : childIndex 0 (n + 1) = some 0 := by simp [childIndex]
      simp only [this]
      exact hk 0 c
    | succ k ih =>
      intro c i hi
      refine NTree.orFail_has fun _ _ => ?_
      rcases Nat.lt_or_ge k i with h | h
      · obtain rfl : i = k + 1 := by omega
        refine surely_has (p := (· = .right)) ?_ join c hr
        rintro a rfl c
        exact hk _ c
      · refine surely_has (p := (· = .left)) ?_ join c hl
        rintro a rfl c
        exact ih c i h
  exact key n c i (by omega)

theorem docKid_has (law : P.Lawful) (node : P.Node) (j : Nat) (c : Ctx P) : (docKid law node j c).Has j := by
  unfold docKid
  refine NTree.orFail_has fun ch _ => ?_
  split <;> trivial

/-- `p` leads to a node of the document. -/
inductive PathIn (P : PrettyDoc) : P.Node → List Nat → Prop where
  | nil {doc} : PathIn P doc []
  | cons {doc child i path} : P.childAt doc i = .ok child → PathIn P child path → PathIn P doc (i :: path)

/-- If all nodes display all of their children, however the choices are taken, then all paths are displayed. -/
theorem docTree_reach (law : P.Lawful) (Ψ : P.Node → Prop)
    (hΨ : ∀ node i child, Ψ node → P.childAt node i = .ok child → Ψ child)
    (hhas : ∀ node i child a c, Ψ node → P.childAt node i = .ok child → P.notn node = .ok a →
      (a.tree node (docKid law node) none c).Has i) :
    ∀ (path : List Nat) (node : P.Node), Ψ node → PathIn P node path → ∀ flat ind outer nt,
      docTree law node flat ind outer = .ok nt → nt.Reach path := by
  intro path
  induction path with
  | nil => intros; trivial
  | cons i path ih =>
    intro node hn hp flat ind outer nt ht
    cases hp with
    | cons hc hp =>
      rename_i child
      cases ha : P.notn node with
      | error e => rw [docTree_eq, ha] at ht; simp [Call.toRes, Except.bind_eq] at ht
      | ok a =>
        cases hs : P.nodeStyle node with
        | error e => rw [docTree_eq, ha, hs] at ht; simp [Call.toRes, Except.bind_eq] at ht
        | ok s =>
          rw [docTree_of law ha hs] at ht
          cases ht
          refine ⟨hhas node i child a _ hn hc ha, ?_⟩
          refine tree_eachKid ?_ a none _ (fun e he => by cases he)
          intro j c
          unfold docKid
          refine NTree.orFail_each fun ch hch => ?_
          split
          · trivial
          · rename_i t htt
            rintro rfl
            rw [hc] at hch
            cases hch
            exact ih child (hΨ _ _ _ hn hc) hp _ _ _ _ htt

end PPP
