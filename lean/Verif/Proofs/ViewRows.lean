import Verif.Proofs.ViewMain
/-
Documents with rows: what is near a row.
-/
namespace PPP
variable {P : PrettyDoc}

/-! ### Clean views -/

/-- Nothing in the view fails. -/
def Clean (V : View P) : Prop := ∀ y ∈ V, y.2.NoFail

theorem Clean.append {U V : View P} (h : Clean U) (h' : Clean V) : Clean (U ++ V) := by
  intro y hy
  rcases List.mem_append.1 hy with hy | hy
  · exact h y hy
  · exact h' y hy
theorem Clean.mono {U V : View P} (h : Clean V) (hs : ∀ y ∈ U, y ∈ V) : Clean U := fun y hy => h y (hs y hy)

theorem NTree.NoFail.parts {t : NTree P} (h : t.NoFail) : ∀ p ∈ t.parts, p.NoFail := by
  induction t with
  | concat a b iha ihb =>
    intro p hp
    simp only [NTree.parts, List.mem_append] at hp
    rcases hp with hp | hp
    · exact iha h.1 p hp
    · exact ihb h.2 p hp
  | empty => intro p hp; cases hp
  | _ =>
    intro p hp
    simp only [NTree.parts, List.mem_singleton] at hp
    subst hp; exact h

theorem clean_shown {t : NTree P} (id : P.Id) (h : t.NoFail) : Clean (shown id t) := by
  intro y hy
  simp only [shown, List.mem_map] at hy
  obtain ⟨p, hp, rfl⟩ := hy
  exact h.parts p hp

theorem LooksInto.clean {x : P.Id × NTree P} {X} (h : LooksInto w x X) (hx : x.2.NoFail) : Clean X := by
  cases h with
  | child => exact clean_shown _ hx.2
  | first => exact clean_shown _ hx.1
  | second => exact clean_shown _ hx.2

theorem clean_step {A X B : View P} {x} (h : Clean (A ++ x :: B)) (hX : x.2.NoFail → Clean X) : Clean (A ++ X ++ B) :=
  ((h.mono (by intro y hy; simp [hy])).append (hX (h x (by simp)))).append (h.mono (by intro y hy; simp [hy]))

theorem Expands.clean {U V : View P} (h : Expands w U V) (hU : Clean U) : Clean V := by
  induction h with
  | refl => exact hU
  | step _ ho ih => exact clean_step ih ho.clean

theorem Peeks.clean {U V : View P} (h : Peeks U V) (hU : Clean U) : Clean V := by
  induction h with
  | refl => exact hU
  | child _ ih => exact clean_step ih fun h => clean_shown _ h.2
  | second _ ih => exact clean_step ih fun h => clean_shown _ h.2
  | noId _ ih =>
    have := ih _ (List.mem_append_right _ List.mem_cons_self)
    obtain ⟨⟨i, hi⟩, _⟩ := this
    cases hi

theorem OpenFails.notClean {z : P.Id × NTree P} {f} (h : OpenFails z f) : ¬ z.2.NoFail := by
  obtain ⟨id, t⟩ := z
  intro hn
  cases t with
  | child i cid t =>
    rcases h with rfl | h
    · obtain ⟨⟨i, hi⟩, _⟩ := hn
      cases hi
    · exact hn.2.parts _ h
  | choice a b =>
    rcases h with h | h
    · exact hn.1.parts _ h
    · exact hn.2.parts _ h
  | _ => exact h

theorem ReadFails.notClean {w : Nat} {L : View P} {f} (h : ReadFails w L f) : ¬ Clean L := by
  obtain ⟨R, z, rest, _, hz, h⟩ := h
  intro hc
  rcases h with rfl | ⟨R0, id, a, b, rest0, _, rfl, h, _⟩
  · exact hz.notClean (hc z (by simp))
  · exact hz.notClean (h.clean (clean_step hc fun h => clean_shown _ h.1) z (by simp))

/-! ### Expanding -/

theorem Expands.split {A B W : View P} (h : Expands w (A ++ B) W) : ∃ A' B', W = A' ++ B' ∧ Expands w A A' ∧ Expands w B B' := by
  induction h with
  | refl => exact ⟨A, B, rfl, .refl _, .refl _⟩
  | @step C x X D _ ho ih =>
    obtain ⟨A', B', h1, h2, h3⟩ := ih
    rcases List.append_eq_append_iff.1 h1 with ⟨as, ha, hb⟩ | ⟨bs, ha, hb⟩
    · cases as with
      | nil =>
        simp only [List.append_nil, List.nil_append] at ha hb
        subst ha
        exact ⟨A', X ++ D, by simp, h2, by simpa using Expands.step (A := []) (by simpa [hb] using h3) ho⟩
      | cons a as =>
        simp only [List.cons_append, List.cons.injEq] at hb
        obtain ⟨rfl, rfl⟩ := hb
        exact ⟨C ++ X ++ as, B', by simp, .step (ha ▸ h2) ho, h3⟩
    · subst ha
      exact ⟨A', bs ++ X ++ D, by simp, h2, .step (hb ▸ h3) ho⟩

theorem LooksInto.notPlain {x : P.Id × NTree P} {X} (h : LooksInto w x X) : ¬ Plain x := by
  cases h <;> exact fun h => h

theorem Expands.newlines_le {U V : View P} (h : Expands w U V) : newlines U ≤ newlines V := by
  induction h with
  | refl => exact Nat.le_refl _
  | @step A x X B _ ho ih =>
    refine Nat.le_trans ih ?_
    have : newlines (x :: B) = newlines B := by cases ho <;> rfl
    simp only [newlines_append, this]
    omega

/-! ### Ids -/

theorem NTree.IdAbsent.parts {pid : P.Id} {t : NTree P} (h : t.IdAbsent pid) : ∀ p ∈ t.parts, p.IdAbsent pid := by
  induction t with
  | concat a b iha ihb =>
    intro p hp
    simp only [NTree.parts, List.mem_append] at hp
    rcases hp with hp | hp
    · exact iha h.1 p hp
    · exact ihb h.2 p hp
  | empty => intro p hp; cases hp
  | _ =>
    intro p hp
    simp only [NTree.parts, List.mem_singleton] at hp
    subst hp; exact h

theorem shown_absent {pid : P.Id} {t : NTree P} (id : P.Id) (h : t.IdAbsent pid) :
    ∀ y ∈ shown id t, y.1 = id ∧ y.2.IdAbsent pid := by
  intro y hy
  simp only [shown, List.mem_map] at hy
  obtain ⟨p, hp, rfl⟩ := hy
  exact ⟨rfl, h.parts p hp⟩

theorem LooksInto.absent {pid : P.Id} {x : P.Id × NTree P} {X} (h : LooksInto w x X) (hx : x.2.IdAbsent pid) :
    ∀ y ∈ X, y.2.IdAbsent pid ∧ (y.1 ≠ pid ∨ y.1 = x.1 ∧ ∃ a b, x.2 = .choice a b) := by
  intro y hy
  cases h with
  | @child _ _ cid t =>
    obtain ⟨h1, h2⟩ := shown_absent cid hx.2 y hy
    refine ⟨h2, .inl ?_⟩
    rw [h1]
    intro h; exact hx.1 (by rw [h])
  | first =>
    obtain ⟨h1, h2⟩ := shown_absent _ hx.1 y hy
    exact ⟨h2, .inr ⟨h1, _, _, rfl⟩⟩
  | second =>
    obtain ⟨h1, h2⟩ := shown_absent _ hx.2 y hy
    exact ⟨h2, .inr ⟨h1, _, _, rfl⟩⟩

theorem Expands.absent {pid : P.Id} {U V : View P} (h : Expands w U V) (hU : ∀ y ∈ U, y.2.IdAbsent pid) :
    ∀ y ∈ V, y.2.IdAbsent pid := by
  induction h with
  | refl => exact hU
  | @step A x X B _ ho ih =>
    intro y hy
    simp only [List.mem_append] at hy
    rcases hy with (hy | hy) | hy
    · exact ih y (by simp [hy])
    · exact (ho.absent (ih x (by simp)) y hy).1
    · exact ih y (by simp [hy])

/-- Items of a node that is not inside the view are the items that were there at the start, if no choices of that node were
    there. -/
theorem Expands.own {pid : P.Id} {U V : View P} (h : Expands w U V) (hU : ∀ y ∈ U, y.2.IdAbsent pid)
    (hc : ∀ y ∈ U, y.1 = pid → ¬ ∃ a b, y.2 = .choice a b) : ∀ y ∈ V, y.1 = pid → y ∈ U := by
  induction h with
  | refl => exact fun y hy _ => hy
  | @step A x X B h ho ih =>
    intro y hy hp
    simp only [List.mem_append] at hy
    rcases hy with (hy | hy) | hy
    · exact ih y (by simp [hy]) hp
    · rcases (ho.absent (h.absent hU x (by simp)) y hy).2 with h1 | ⟨h1, h2⟩
      · exact absurd hp h1
      · have hx : x.1 = pid := h1.symm.trans hp
        exact absurd h2 (hc x (ih x (by simp) hx) hx)
    · exact ih y (by simp [hy]) hp

/-! ### Lists -/

theorem append_locate {α : Type} {A M B A' B' : List α} {y : α} (h : A' ++ y :: B' = A ++ M ++ B) (hA : y ∉ A)
    (hB : y ∉ B) : ∃ M1 M2, M = M1 ++ y :: M2 ∧ A' = A ++ M1 ∧ B' = M2 ++ B := by
  rw [List.append_assoc] at h
  rcases List.append_eq_append_iff.1 h with ⟨as, ha, hb⟩ | ⟨bs, ha, hb⟩
  · cases as with
    | nil =>
      simp only [List.nil_append, List.append_nil] at ha hb
      subst ha
      cases M with
      | nil => exact absurd (by rw [List.nil_append] at hb; rw [← hb]; simp) hB
      | cons m M =>
        simp only [List.cons_append, List.cons.injEq] at hb
        obtain ⟨rfl, rfl⟩ := hb
        exact ⟨[], M, rfl, by simp, rfl⟩
    | cons a as =>
      simp only [List.cons_append, List.cons.injEq] at hb
      obtain ⟨rfl, _⟩ := hb
      exact absurd (by rw [ha]; simp) hA
  · rcases List.append_eq_append_iff.1 hb with ⟨cs, hc, hd⟩ | ⟨cs, hc, hd⟩
    · exact absurd (by rw [hd]; simp) hB
    · cases cs with
      | nil =>
        simp only [List.nil_append] at hd
        exact absurd (by rw [← hd]; simp) hB
      | cons c cs =>
        simp only [List.cons_append, List.cons.injEq] at hd
        obtain ⟨rfl, rfl⟩ := hd
        exact ⟨bs, cs, hc, ha, rfl⟩

theorem newlines_suffix {S T : View P} (h : S <:+ T) : newlines S ≤ newlines T := by
  obtain ⟨U, rfl⟩ := h
  simp
theorem newlines_prefix {S T : View P} (h : S <+: T) : newlines S ≤ newlines T := by
  obtain ⟨U, rfl⟩ := h
  simp

theorem suffix_within {S D E C : View P} (h : S <:+ D ++ (E ++ C)) (hn : D = [] ∨ newlines S < newlines E) :
    S <:+ E ++ C := by
  rcases hn with rfl | hn
  · simpa using h
  · rcases List.suffix_or_suffix_of_suffix h (List.suffix_append D (E ++ C)) with h | h
    · exact h
    · have := newlines_suffix h
      simp only [newlines_append] at this
      omega
theorem prefix_within {S D E C : View P} (h : S <+: C ++ E ++ D) (hn : D = [] ∨ newlines S < newlines E) :
    S <+: C ++ E := by
  rcases hn with rfl | hn
  · simpa using h
  · rcases List.prefix_or_prefix_of_prefix h (List.prefix_append (C ++ E) D) with h | h
    · exact h
    · have := newlines_prefix h
      simp only [newlines_append] at this
      omega

/-! ### The neighbourhood of a row -/

/-- The view `D ++ E ++ [c] ++ E' ++ D'`, where `c` is the row with the focus, `E` and `E'` are near it, and `D` and `D'` are
    further away: `E` has more than `k` newlines and `E'` more than `j`. -/
structure Near (id : P.Id) (t : NTree P) (i k j : Nat) (cid : P.Id) (tc : NTree P) (D E E' D' : View P) : Prop where
  view : shown id t = D ++ E ++ [(id, .child i (.ok cid) tc)] ++ E' ++ D'
  before : D = [] ∨ k < newlines E
  after : D' = [] ∨ j < newlines E'
  cleanE : Clean E
  cleanE' : Clean E'
  cleanC : tc.NoFail
  /-- nothing in the other rows is mistaken for a part of this row -/
  other : ∀ pid i', (pid = id ∧ i' = i ∨ cid = pid ∨ ¬ tc.IdAbsent pid) → ∀ X ∈ [D, E, E', D'], ∀ X', Expands w X X' →
    ∀ y ∈ X', ¬ MayBeChild pid i' y
  top : ∀ f, .fail f ∉ t.parts
  /-- the row with the focus does not contain the root -/
  notRoot : cid ≠ id ∧ tc.IdAbsent id

variable {id : P.Id} {t : NTree P} {i k j : Nat} {cid : P.Id} {tc : NTree P} {D E E' D' : View P}

theorem Near.clean (h : Near id t i k j cid tc D E E' D') {M} (hM : Expands w [(id, .child i (.ok cid) tc)] M) : Clean M :=
  hM.clean (by intro y hy; simp only [List.mem_singleton] at hy; subst hy; exact ⟨⟨_, rfl⟩, h.cleanC⟩)

/-- Expanding all regions. -/
theorem Near.expands {W C : View P} (hW : Expands w (D ++ E ++ C ++ E' ++ D') W) :
    ∃ D1 E1 M E1' D1', W = D1 ++ E1 ++ M ++ E1' ++ D1' ∧ Expands w D D1 ∧ Expands w E E1 ∧ Expands w C M ∧ Expands w E' E1' ∧
      Expands w D' D1' := by
  obtain ⟨W1, D1', rfl, h1, hD'⟩ := hW.split
  obtain ⟨W2, E1', rfl, h2, hE'⟩ := h1.split
  obtain ⟨W3, M, rfl, h3, hM⟩ := h2.split
  obtain ⟨D1, E1, rfl, hD, hE⟩ := h3.split
  exact ⟨D1, E1, M, E1', D1', rfl, hD, hE, hM, hE', hD'⟩

/-- Where the nodes in the row with the focus are seen. -/
structure InRow (w : Nat) (id : P.Id) (i : Nat) (cid : P.Id) (tc : NTree P) (D E E' D' A : View P) (x : P.Id × NTree P) (B : View P) :
    Prop where
  regions : ∃ D1 E1 A2 B2 E1' D1', A = D1 ++ E1 ++ A2 ∧ B = B2 ++ E1' ++ D1' ∧ Expands w D D1 ∧ Expands w E E1 ∧
    Expands w E' E1' ∧ Expands w D' D1' ∧ Expands w [(id, .child i (.ok cid) tc)] (A2 ++ shown x.1 x.2 ++ B2)
  noFail : x.2.NoFail
  mine : cid = x.1 ∨ ¬ tc.IdAbsent x.1

/-- The next node of the path is searched in the row with the focus. -/
theorem Near.search (h : Near id t i k j cid tc D E E' D') {A W W' : View P} {C : View P} {y : P.Id × NTree P} {pid i'}
    (hC : Expands w [(id, .child i (.ok cid) tc)] C)
    (hU : A = D ++ E ++ C ++ E' ++ D') (hW : Expands w A (W ++ y :: W')) (hy : MayBeChild pid i' y)
    (hp : pid = id ∧ i' = i ∨ cid = pid ∨ ¬ tc.IdAbsent pid) :
    ∃ D1 E1 M1 M2 E1' D1', W = D1 ++ E1 ++ M1 ∧ W' = M2 ++ E1' ++ D1' ∧ Expands w D D1 ∧ Expands w E E1 ∧
      Expands w E' E1' ∧ Expands w D' D1' ∧ Expands w [(id, .child i (.ok cid) tc)] (M1 ++ y :: M2) := by
  subst hU
  obtain ⟨D1, E1, M, E1', D1', hW', hD, hE, hM, hE', hD'⟩ := Near.expands hW
  have ho := h.other (w := w) pid i' hp
  have h1 : y ∉ D1 ++ E1 := by
    intro hm
    rcases List.mem_append.1 hm with hm | hm
    · exact ho D (by simp) D1 hD y hm hy
    · exact ho E (by simp) E1 hE y hm hy
  have h2 : y ∉ E1' ++ D1' := by
    intro hm
    rcases List.mem_append.1 hm with hm | hm
    · exact ho E' (by simp) E1' hE' y hm hy
    · exact ho D' (by simp) D1' hD' y hm hy
  obtain ⟨M1, M2, rfl, h3, h4⟩ := append_locate (M := M) (B := E1' ++ D1') (by rw [hW']; simp) h1 h2
  exact ⟨D1, E1, M1, M2, E1', D1', h3, by rw [h4]; simp, hD, hE, hE', hD', hC.trans hM⟩

theorem Zoom.nil {A x B} (h : Zoom w id t [] A x B) : A = [] ∧ x = (id, t) ∧ B = [] := by
  generalize hp : ([] : List Nat) = path at h
  cases h with
  | root => exact ⟨rfl, rfl, rfl⟩
  | child _ _ => simp at hp

theorem Expands.single {x : P.Id × NTree P} {M : View P} (h : Expands w [x] M) : M = [x] ∨ ∃ X, LooksInto w x X ∧ Expands w X M := by
  induction h with
  | refl => exact .inl rfl
  | @step A y Y B h ho ih =>
    rcases ih with h1 | ⟨X, h1, h2⟩
    · cases A with
      | nil =>
        simp only [List.nil_append, List.cons.injEq] at h1
        obtain ⟨rfl, rfl⟩ := h1
        exact .inr ⟨Y, ho, by simpa using .refl _⟩
      | cons a A => simp at h1
    · exact .inr ⟨X, h1, .step h2 ho⟩

/-- Looking at the row itself means not having looked into it. -/
theorem Near.rowItself (h : Near id t i k j cid tc D E E' D') {M1 M2 : View P} {y : P.Id × NTree P}
    (hM : Expands w [(id, .child i (.ok cid) tc)] (M1 ++ y :: M2)) (hy : y.1 = id) :
    M1 = [] ∧ M2 = [] ∧ y = (id, .child i (.ok cid) tc) := by
  rcases hM.single with h1 | ⟨X, h1, h2⟩
  · cases M1 with
    | nil => simp only [List.nil_append, List.cons.injEq] at h1; exact ⟨rfl, h1.2, h1.1⟩
    | cons a A => simp at h1
  · cases h1 with
    | child =>
      have hs := shown_absent cid h.notRoot.2
      have := h2.own (pid := id) (fun y hy => (hs y hy).2) (fun y hy hp => absurd ((hs y hy).1.symm.trans hp) h.notRoot.1)
        y (by simp) hy
      exact absurd ((hs y this).1.symm.trans hy) h.notRoot.1

theorem Near.regions_root (h : Near id t i k j cid tc D E E' D') :
    ([] : View P) ++ shown id t ++ [] = D ++ E ++ [(id, .child i (.ok cid) tc)] ++ E' ++ D' := by
  simpa using h.view

/-- Where the nodes of the row are. -/
theorem Near.zoom (h : Near id t i k j cid tc D E E' D') {path : List Nat} {A x B} (hz : Zoom w id t path A x B) :
    ∀ q, path = i :: q → InRow w id i cid tc D E E' D' A x B := by
  induction hz with
  | root => intro q hq; cases hq
  | @child path A pid tp B i' A' cid' tc' B' hz hE ih =>
    intro q hq
    cases path with
    | nil =>
      simp only [List.nil_append, List.cons.injEq] at hq
      obtain ⟨rfl, _⟩ := hq
      obtain ⟨rfl, hx, rfl⟩ := hz.nil
      cases hx
      · obtain ⟨D1, E1, M1, M2, E1', D1', h1, h2, h3, h4, h5, h6, h7⟩ :=
          h.search (.refl _) h.regions_root hE ⟨rfl, .inl ⟨_, _, rfl⟩⟩ (.inl ⟨rfl, rfl⟩)
        obtain ⟨rfl, rfl, hy⟩ := h.rowItself h7 rfl
        simp only [Prod.mk.injEq, NTree.child.injEq, Except.ok.injEq, true_and] at hy
        obtain ⟨rfl, rfl⟩ := hy
        refine ⟨⟨D1, E1, [], [], E1', D1', h1, h2, h3, h4, h5, h6, ?_⟩, h.cleanC, .inl rfl⟩
        simpa using Expands.one (P := P) (.child (id := id) (i := i') (cid := cid') (t := tc')) [] []
    | cons a path =>
      simp only [List.cons_append, List.cons.injEq] at hq
      obtain ⟨rfl, _⟩ := hq
      obtain ⟨⟨D0, E0, A2, B2, E0', D0', rfl, rfl, k1, k2, k3, k4, k5⟩, hnf, hm⟩ := ih path rfl
      have hE0 : Expands w (D ++ E ++ [(id, .child a (.ok cid) tc)] ++ E' ++ D') (A' ++ (pid, .child i' (.ok cid') tc') :: B') := by
        refine Expands.trans ?_ hE
        have := (((k1.append k2).append k5).append k3).append k4
        simpa using this
      obtain ⟨D1, E1, M1, M2, E1', D1', h1, h2, h3, h4, h5, h6, h7⟩ :=
        h.search (.refl _) rfl hE0 ⟨rfl, .inl ⟨_, _, rfl⟩⟩ (.inr hm)
      have hcl := h.clean h7 (pid, .child i' (.ok cid') tc') (by simp)
      refine ⟨⟨D1, E1, M1, M2, E1', D1', h1, h2, h3, h4, h5, h6, .step h7 .child⟩, hcl.2, ?_⟩
      by_cases hc : cid = cid'
      · exact .inl hc
      · refine .inr fun hab => ?_
        have := h7.absent (pid := cid') (by
          intro y hy
          simp only [List.mem_singleton] at hy; subst hy
          exact ⟨by simpa using hc, hab⟩) (pid, .child i' (.ok cid') tc') (by simp)
        exact this.1 rfl

theorem Near.lineBefore (h : Near id t i k j cid tc D E E' D') {S D1 E1 C : View P} (hD : Expands w D D1) (hE : Expands w E E1)
    (hS : S <:+ D1 ++ E1 ++ C) (hn : newlines S ≤ k) (hC : Clean C) : Clean S := by
  have hd : D1 = [] ∨ newlines S < newlines E1 := by
    rcases h.before with rfl | h
    · left
      have : ∀ {U V : View P}, Expands w U V → U = [] → V = [] := by
        intro U V h
        induction h with
        | refl => exact fun h => h
        | step _ _ ih => intro h; exact absurd (ih h) (by simp)
      exact this hD rfl
    · exact .inr (by have := hE.newlines_le; omega)
  have := suffix_within (by simpa using hS) hd
  exact ((hE.clean h.cleanE).append hC).mono fun y hy => this.subset hy

theorem Near.lineAfter (h : Near id t i k j cid tc D E E' D') {S D1 E1 C : View P} (hD : Expands w D' D1) (hE : Expands w E' E1)
    (hS : S <+: C ++ E1 ++ D1) (hn : newlines S ≤ j) (hC : Clean C) : Clean S := by
  have hd : D1 = [] ∨ newlines S < newlines E1 := by
    rcases h.after with rfl | h
    · left
      have : ∀ {U V : View P}, Expands w U V → U = [] → V = [] := by
        intro U V h
        induction h with
        | refl => exact fun h => h
        | step _ _ ih => intro h; exact absurd (ih h) (by simp)
      exact this hD rfl
    · exact .inr (by have := hE.newlines_le; omega)
  have := prefix_within hS hd
  exact (hC.append (hE.clean h.cleanE')).mono fun y hy => this.subset hy

theorem OneLine.sub {L L' : View P} (h : OneLine L) (hs : ∀ y ∈ L', y ∈ L) : OneLine L' := fun y hy => h y (hs y hy)

/-- Reading a line on which the next node of the path may be does not fail. -/
theorem Near.pathLine (h : Near id t i k j cid tc D E E' D') {U V L V' : View P} {y : P.Id × NTree P} {pid i'} {w : Nat} {f}
    {C : View P} (hC : Expands w [(id, .child i (.ok cid) tc)] C) (hU : U = D ++ E ++ C ++ E' ++ D')
    (hE : Expands w U (V ++ L ++ V')) (hl : OneLine L) (hy : y ∈ L) (hm : MayBeChild pid i' y)
    (hp : pid = id ∧ i' = i ∨ cid = pid ∨ ¬ tc.IdAbsent pid) : ¬ ReadFails w L f := by
  obtain ⟨L1, L2, rfl⟩ := List.append_of_mem hy
  obtain ⟨D1, E1, M1, M2, E1', D1', h1, h2, h3, h4, h5, h6, h7⟩ :=
    h.search (W := V ++ L1) (W' := L2 ++ V') (y := y) hC hU (by simpa using hE) hm hp
  have hc := h.clean h7
  have hl1 : OneLine L1 := hl.sub (by intro z hz; simp [hz])
  have hl2 : OneLine L2 := hl.sub (by intro z hz; simp [hz])
  have c1 : Clean L1 := h.lineBefore h3 h4 (C := M1) (by rw [← h1]; exact List.suffix_append _ _)
    (by rw [newlines_oneLine hl1]; exact Nat.zero_le _) (hc.mono (by intro z hz; simp [hz]))
  have c2 : Clean L2 := h.lineAfter h6 h5 (C := M2) (by rw [← h2]; exact List.prefix_append _ _)
    (by rw [newlines_oneLine hl2]; exact Nat.zero_le _) (hc.mono (by intro z hz; simp [hz]))
  intro hr
  refine hr.notClean (c1.append ?_)
  intro z hz
  rcases List.mem_cons.1 hz with rfl | hz
  · exact hc _ (by simp)
  · exact c2 z hz

theorem Near.noPathFails (h : Near id t i k j cid tc D E E' D') {w : Nat} {q f} : ¬ PathFails w id t (i :: q) f := by
  rintro (⟨q0, rest, A, x, B, h1, hz, hf⟩ | ⟨q0, i', rest, A, pid, tp, B, V, L, V', y, h1, hz, hE, _, hl, _, hy, hm, hr⟩)
  · cases q0 with
    | nil =>
      obtain ⟨rfl, hx, rfl⟩ := hz.nil
      cases hx
      · exact h.top f hf
    | cons a q0 =>
      simp only [List.cons_append, List.cons.injEq] at h1
      obtain ⟨rfl, _⟩ := h1
      exact (h.zoom hz q0 rfl).noFail.parts _ hf
  · cases q0 with
    | nil =>
      simp only [List.nil_append, List.cons.injEq] at h1
      obtain ⟨rfl, _⟩ := h1
      obtain ⟨rfl, hx, rfl⟩ := hz.nil
      cases hx
      exact h.pathLine (.refl _) h.regions_root hE hl hy hm (.inl ⟨rfl, rfl⟩) hr
    | cons a q0 =>
      simp only [List.cons_append, List.cons.injEq] at h1
      obtain ⟨rfl, _⟩ := h1
      obtain ⟨⟨D0, E0, A2, B2, E0', D0', rfl, rfl, k1, k2, k3, k4, k5⟩, hnf, hx⟩ := h.zoom hz q0 rfl
      have hE0 : Expands w (D ++ E ++ [(id, .child i (.ok cid) tc)] ++ E' ++ D') (V ++ L ++ V') := by
        refine Expands.trans ?_ hE
        have := (((k1.append k2).append k5).append k3).append k4
        simpa using this
      exact h.pathLine (.refl _) rfl hE0 hl hy hm (.inr hx) hr

/-- The focus targets that are found in the node itself. -/
theorem Near.noNearFails (h : Near id t i k j cid tc D E E' D') {w : Nat} {q f} {target : FocusTarget}
    (ht : target = .start ∨ target = .end) : ¬ NearFails w id t (i :: q) target k j f := by
  rintro (hp | ⟨A, ⟨xid, xt⟩, B, hz, hf⟩)
  · exact h.noPathFails hp
  obtain ⟨⟨D0, E0, A2, B2, E0', D0', rfl, rfl, k1, k2, k3, k4, k5⟩, hnf, hx⟩ := h.zoom hz q rfl
  have hc := h.clean k5
  have cA : Clean A2 := hc.mono (by intro y hy; simp [hy])
  have cB : Clean B2 := hc.mono (by intro y hy; simp [hy])
  have cX : Clean (shown xid xt) := hc.mono (by intro y hy; simp [hy])
  have up : ∀ {C : View P}, Clean C → ¬ UpFails w k (D0 ++ E0 ++ C) f := by
    rintro C hC ⟨V, L, R, g1, g2, g3, g4, g5, g6, g7, g8⟩
    obtain ⟨W, C', hW, j1, j2⟩ := g1.split
    obtain ⟨D1, E1, rfl, j3, j4⟩ := j1.split
    have := h.lineBefore (k1.trans j3) (k2.trans j4) (S := L ++ R) (C := C')
      (by rw [← hW, List.append_assoc]; exact List.suffix_append _ _)
      (by rw [newlines_append, newlines_oneLine g6]; omega) (j2.clean hC)
    exact g8.notClean (this.mono (by intro y hy; simp [hy]))
  have down : ∀ {C : View P}, Clean C → ¬ DownFails w j (C ++ E0' ++ D0') f := by
    rintro C hC ⟨R, L, V, g1, g2, g3, g4, g5, g6, g7⟩
    obtain ⟨W, D1, hW, j1, j2⟩ := g1.split
    obtain ⟨C', E1, rfl, j3, j4⟩ := j1.split
    have := h.lineAfter (k4.trans j2) (k3.trans j4) (S := R ++ L) (C := C')
      (by rw [← hW]; exact List.prefix_append _ _)
      (by rw [newlines_append, newlines_oneLine g5]; omega) (j3.clean hC)
    exact g7.notClean (this.mono (by intro y hy; simp [hy]))
  rcases ht with rfl | rfl
  · rcases hf with hf | ⟨left, right, hfo, hf⟩
    · cases hf
    · cases hfo with
      | start =>
        rcases hf with hf | hf
        · exact up cA hf
        · exact down (C := shown xid xt ++ B2) (cX.append cB) (by simpa using hf)
  · rcases hf with hf | ⟨left, right, hfo, hf⟩
    · generalize hB : B2 ++ E0' ++ D0' = B0 at hf
      cases hf with
      | @«end» _ _ _ V L V' B1 _ g1 g2 g3 g4 g5 =>
        obtain ⟨W, C', hW, j1, j2⟩ := (show Expands w (D0 ++ E0 ++ (A2 ++ shown xid xt)) (V ++ L) by simpa using g1).split
        obtain ⟨D1, E1, rfl, j3, j4⟩ := j1.split
        have hl : OneLine L := g3.sub (by intro z hz; simp [hz])
        have hl' : OneLine V' := g3.sub (by intro z hz; simp [hz])
        have c1 := h.lineBefore (k1.trans j3) (k2.trans j4) (S := L) (C := C')
          (by rw [← hW]; exact List.suffix_append _ _)
          (by rw [newlines_oneLine hl]; exact Nat.zero_le _) (j2.clean (cA.append cX))
        have c2 := h.lineAfter k4 k3 (S := V') (C := B2)
          (by rw [hB]; exact List.prefix_append _ _)
          (by rw [newlines_oneLine hl']; exact Nat.zero_le _) cB
        exact g5.notClean (c1.append c2)
    · cases hfo with
      | «end» =>
        rcases hf with hf | hf
        · exact up (C := A2 ++ shown xid xt) (cA.append cX) (by simpa using hf)
        · exact down cB hf

end PPP
