import Verif.Proofs.PlanView
/-
Reading lines of a document with groups, each of which is displayed either on one line or with its children on separate
lines: where the nodes are, and which of them may be looked into.
-/
namespace PPP
variable {Q : PrettyDoc}

/-- Which node there is where: the path to the node with the given id; the numbers of its first and its last line, if
    every node that fits on a line is put on one line; whether it is open; whether it is only a text; and whether it
    would fit on a line. -/
structure GPlan (Q : PrettyDoc) where
  loc : Q.Id → List Nat
  st : Q.Id → Nat
  en : Q.Id → Nat
  oi : Q.Id → Bool
  leaf : Q.Id → Bool
  small : Q.Id → Bool

/-- The node that an item of a view shows. -/
def nodeOf : Q.Id × NTree Q → Option Q.Id
  | (_, .child _ (.ok cid) _) => some cid
  | (p, .choice _ _) => some p
  | (p, .fail _) => some p
  | _ => none

theorem nodeOf_plain {x : Q.Id × NTree Q} {n} (h : nodeOf x = some n) : ¬ Plain x := by
  obtain ⟨p, x⟩ := x
  cases x with
  | child i c t => exact fun h => h
  | choice a b => exact fun h => h
  | fail f => exact fun h => h
  | _ => cases h

variable {S : GPlan Q} {w : Nat}

/-- From one line to another one, and whether there may be a long node on it. -/
inductive GPlan.Step (S : GPlan Q) (x : Q.Id × NTree Q) : Nat → Bool → Nat → Bool → Prop where
  | flat {a f} : Plain x → ¬ IsNewline x → S.Step x a f a f
  | soft {a f} : IsNewline x → S.small x.1 = true → S.Step x a f a f
  | newline {a f} : IsNewline x → S.small x.1 = false → S.Step x a f (a + 1) true
  | leaf {n f} : nodeOf x = some n → S.leaf n = true → S.st n = S.en n → S.Step x (S.st n) f (S.en n) f
  | small {n f} : nodeOf x = some n → S.leaf n = false → S.small n = true → S.st n = S.en n →
      S.Step x (S.st n) f (S.en n) false
  | long {n} : nodeOf x = some n → S.leaf n = false → S.Step x (S.st n) true (S.en n) false

/-- A view from one line to another one. -/
inductive GPlan.Run (S : GPlan Q) : View Q → Nat → Bool → Nat → Bool → Prop where
  | nil {a f} : S.Run [] a f a f
  | cons {x V a f b g c h} : S.Step x a f b g → S.Run V b g c h → S.Run (x :: V) a f c h

theorem GPlan.Run.append {A B : View Q} {a f b g c h} (hA : S.Run A a f b g) (hB : S.Run B b g c h) :
    S.Run (A ++ B) a f c h := by
  induction hA with
  | nil => exact hB
  | cons h1 _ ih => exact .cons h1 (ih hB)

theorem GPlan.Run.split {A B : View Q} {a f c h} (hAB : S.Run (A ++ B) a f c h) :
    ∃ b g, S.Run A a f b g ∧ S.Run B b g c h := by
  induction A generalizing a f with
  | nil => exact ⟨a, f, .nil, hAB⟩
  | cons x A ih =>
    cases hAB with
    | cons h1 h2 =>
      obtain ⟨b, g, h3, h4⟩ := ih h2
      exact ⟨b, g, .cons h1 h3, h4⟩

theorem GPlan.Run.one {x : Q.Id × NTree Q} {a f b g} (h : S.Step x a f b g) : S.Run [x] a f b g := .cons h .nil

theorem GPlan.Step.weaken {x : Q.Id × NTree Q} {a f b g} (h : S.Step x a f b g) :
    ∃ g', S.Step x a true b g' ∧ (g = true → g' = true) := by
  cases h with
  | flat h1 h2 => exact ⟨_, .flat h1 h2, fun _ => rfl⟩
  | soft h1 h2 => exact ⟨_, .soft h1 h2, fun _ => rfl⟩
  | newline h1 h2 => exact ⟨_, .newline h1 h2, fun h => h⟩
  | leaf h1 h2 h3 => exact ⟨_, .leaf h1 h2 h3, fun _ => rfl⟩
  | small h1 h2 h3 h4 => exact ⟨_, .small h1 h2 h3 h4, fun h => h⟩
  | long h1 h2 => exact ⟨_, .long h1 h2, fun h => h⟩

theorem GPlan.Run.weaken {V : View Q} {a f b g} (h : S.Run V a f b g) : ∃ g', S.Run V a true b g' := by
  suffices H : ∀ f', (f = true → f' = true) → ∃ g', S.Run V a f' b g' ∧ (g = true → g' = true) by
    obtain ⟨g', h1, _⟩ := H true (fun _ => rfl)
    exact ⟨g', h1⟩
  induction h with
  | nil => exact fun f' hf => ⟨f', .nil, hf⟩
  | cons h1 _ ih =>
    intro f' hf
    cases f' with
    | true =>
      obtain ⟨g1, h2, h3⟩ := h1.weaken
      obtain ⟨g2, h4, h5⟩ := ih g1 h3
      exact ⟨g2, .cons h2 h4, h5⟩
    | false =>
      rename_i f _ _ _ _ _
      cases f with
      | true => cases hf rfl
      | false =>
        obtain ⟨g2, h4, h5⟩ := ih _ (fun h => h)
        exact ⟨g2, .cons h1 h4, h5⟩

theorem GPlan.Run.from {V : View Q} {a f f' b g} (h : S.Run V a f b g) (hf : f = true → f' = true) :
    ∃ g', S.Run V a f' b g' := by
  cases f' with
  | true => exact h.weaken
  | false =>
    cases f with
    | true => cases hf rfl
    | false => exact ⟨g, h⟩

/-! ### Reading a long group on one line -/

/-- Reading on from column `col`, nothing dark is met in the first `w` columns, and there is no choice or newline either. -/
inductive EarlyV (w : Nat) : Nat → View Q → Prop where
  | far {col V} : w < col → EarlyV w col V
  | plain {col p t V} : Plain (p, t) → ¬ IsNewline (p, t) → EarlyV w (col + columns [(p, t)]) V → EarlyV w col ((p, t) :: V)
  | child {col p i cid tc V} : (∀ f, .fail f ∉ tc.parts) → EarlyV w col (shown cid tc ++ V) →
      EarlyV w col ((p, .child i (.ok cid) tc) :: V)

theorem EarlyV.append {col : Nat} {V : View Q} (h : EarlyV w col V) (W : View Q) : EarlyV w col (V ++ W) := by
  induction h with
  | far h => exact .far h
  | plain h1 h2 _ ih => exact .plain h1 h2 ih
  | child h1 _ ih =>
    rw [List.append_assoc] at ih
    exact .child h1 ih

theorem EarlyV.mono {col col' : Nat} {V : View Q} (h : EarlyV w col V) (hc : col ≤ col') : EarlyV w col' V := by
  induction h generalizing col' with
  | far h => exact .far (by omega)
  | plain h1 h2 _ ih => exact .plain h1 h2 (ih (by omega))
  | child h1 _ ih => exact .child h1 (ih hc)

theorem columns_cons (x : Q.Id × NTree Q) (V : View Q) : columns (x :: V) = columns [x] + columns V := by
  obtain ⟨p, x⟩ := x
  cases x <;> simp [columns]

theorem EarlyV.flatly {col : Nat} {R V : View Q} (hR : ∀ x ∈ R, Plain x ∧ ¬ IsNewline x)
    (h : EarlyV w (col + columns R) V) : EarlyV w col (R ++ V) := by
  induction R generalizing col with
  | nil => exact h
  | cons x R ih =>
    obtain ⟨h1, h2⟩ := hR x (by simp)
    refine .plain h1 h2 (ih (fun y hy => hR y (by simp [hy])) ?_)
    rw [columns_cons] at h
    rwa [Nat.add_assoc]

theorem EarlyV.noFail {col : Nat} {R rest : View Q} {z : Q.Id × NTree Q} {f}
    (hR : ∀ x ∈ R, Plain x ∧ ¬ IsNewline x) (h : EarlyV w col (R ++ z :: rest)) (hc : col + columns R ≤ w) :
    ¬ OpenFails z f := by
  induction R generalizing col with
  | nil =>
    intro hz
    cases h with
    | far h => simp [columns] at hc; omega
    | @plain _ p t _ h1 h2 _ => cases t <;> first | exact hz | exact h1
    | child h1 _ =>
      rcases hz with hz | hz
      · cases hz
      · exact h1 f hz
  | cons x R ih =>
    rw [columns_cons] at hc
    cases h with
    | far h => omega
    | plain _ _ h => exact ih (fun y hy => hR y (by simp [hy])) h (by omega)
    | child => exact absurd (hR _ (List.mem_cons_self ..)).1 (fun h => h)

theorem EarlyV.replace {col : Nat} {U : View Q} (h : EarlyV w col U) : ∀ {A B X : View Q} {x}, U = A ++ x :: B →
    (∀ p i cid tc, x = (p, .child i (.ok cid) tc) → X = shown cid tc) → ¬ Plain x → EarlyV w col (A ++ X ++ B) := by
  induction h with
  | far h => intros; exact .far h
  | plain h1 h2 _ ih =>
    intro A B X x e hx hp
    cases A with
    | nil => cases e; exact absurd h1 hp
    | cons y A =>
      cases e
      exact .plain h1 h2 (ih rfl hx hp)
  | child h1 h2 ih =>
    intro A B X x e hx hp
    cases A with
    | nil =>
      cases e
      cases hx _ _ _ _ rfl
      exact h2
    | cons y A =>
      cases e
      refine .child h1 ?_
      rename_i cid tc
      have := ih (A := shown cid tc ++ A) (B := B) (x := x) (by simp) hx hp
      simpa using this

theorem EarlyV.peeks {U V : View Q} (h : EarlyV w 0 U) (hp : Peeks U V) : EarlyV w 0 V := by
  induction hp with
  | refl => exact h
  | child _ ih =>
    refine ih.replace rfl ?_ (fun h => h)
    intro _ _ _ _ e
    cases e
    rfl
  | noId _ ih => exact ih.replace rfl (fun _ _ _ _ e => (by cases e)) (fun h => h)
  | second _ ih => exact ih.replace rfl (fun _ _ _ _ e => (by cases e)) (fun h => h)

/-- The first line of a view. -/
def lineCols : View Q → Nat × Bool
  | [] => (0, false)
  | x :: V => if x.2.firstLine.2 then x.2.firstLine else (x.2.firstLine.1 + (lineCols V).1, (lineCols V).2)

theorem lineCols_append (A B : View Q) : lineCols (A ++ B) =
    if (lineCols A).2 then lineCols A else ((lineCols A).1 + (lineCols B).1, (lineCols B).2) := by
  induction A with
  | nil => simp [lineCols]
  | cons x A ih =>
    simp only [List.cons_append, lineCols]
    by_cases h : x.2.firstLine.2 = true
    · simp [h]
    · simp only [h, Bool.false_eq_true, if_false, ih]
      by_cases h' : (lineCols A).2 = true
      · simp [h']
      · simp [h', Nat.add_assoc]

theorem lineCols_shown (id : Q.Id) (t : NTree Q) : lineCols (shown id t) = t.firstLine := by
  have one : ∀ p : NTree Q, lineCols [(id, p)] = p.firstLine := by
    intro p
    simp only [lineCols]
    by_cases h : p.firstLine.2 = true
    · simp [h]
    · simp only [h, Bool.false_eq_true, if_false, Nat.add_zero]
      exact Prod.ext rfl (by simpa using h)
  induction t with
  | empty => rfl
  | concat a b iha ihb =>
    unfold shown at iha ihb ⊢
    simp only [NTree.parts, List.map_append, lineCols_append, iha, ihb, NTree.firstLine]
  | _ => exact one _

theorem EarlyV.lineCols {col : Nat} {V : View Q} (h : EarlyV w col V) : w < col + (lineCols V).1 := by
  induction h with
  | far h => omega
  | @plain col p t V h1 h2 _ ih =>
    cases t with
    | text t => simp only [PPP.lineCols, NTree.firstLine, columns, Bool.false_eq_true, if_false] at ih ⊢; omega
    | newline ind => exact absurd ⟨ind, rfl⟩ h2
    | mark => simp only [PPP.lineCols, NTree.firstLine, columns, Bool.false_eq_true, if_false] at ih ⊢; omega
    | eol => simp only [PPP.lineCols, NTree.firstLine, columns, Bool.false_eq_true, if_false] at ih ⊢; omega
    | _ => exact h1.elim
  | @child col p i cid tc V _ _ ih =>
    rw [lineCols_append, lineCols_shown] at ih
    simp only [PPP.lineCols, NTree.firstLine]
    exact ih

theorem EarlyV.notFits {id : Q.Id} {a : NTree Q} (h : EarlyV w 0 (shown id a)) : ¬ FitsIn w a := by
  have := h.lineCols
  rw [lineCols_shown] at this
  unfold FitsIn
  omega

/-! ### What is inside of the nodes -/

/-- What one sees in a node when looking into it. -/
def GPlan.Content (S : GPlan Q) (t : NTree Q) (id : Q.Id) : Prop :=
  (S.leaf id = true → ∀ x ∈ shown id t, Plain x ∧ ¬ IsNewline x) ∧
  (S.leaf id = false → ∃ g, S.Run (shown id t) (S.st id) (!S.small id) (S.en id) g)

/-- The nodes in the tree `t` are where they should be; they are missing if they are not open. -/
def GPlan.Ok (S : GPlan Q) (w : Nat) : NTree Q → Q.Id → Prop
  | .concat a b, id => S.Ok w a id ∧ S.Ok w b id
  | .child i (.ok cid) tc, id => S.loc cid = S.loc id ++ [i] ∧ (S.oi cid = true → S.Content tc cid ∧ S.Ok w tc cid) ∧
      (S.oi cid = false → ∃ g, tc = .fail g)
  | .child _ (.error _) _, _ => False
  | .choice a b, id => S.leaf id = false ∧ (S.Content b id ∧ S.Ok w b id) ∧
      (S.small id = true → S.Content a id ∧ S.Ok w a id) ∧ (S.small id = false → EarlyV w 0 (shown id a)) ∧
      ∀ f, .fail f ∉ a.parts
  | .fail _, _ => False
  | _, _ => True

theorem GPlan.Ok.parts {t : NTree Q} {id : Q.Id} (h : S.Ok w t id) : ∀ p ∈ t.parts, S.Ok w p id := by
  induction t with
  | concat a b iha ihb =>
    intro p hp
    rcases List.mem_append.1 hp with hp | hp
    · exact iha h.1 p hp
    · exact ihb h.2 p hp
  | empty => intro p hp; simp [NTree.parts] at hp
  | _ => intro p hp; simp only [NTree.parts, List.mem_singleton] at hp; subst hp; exact h

theorem GPlan.Ok.noFail {t : NTree Q} {id : Q.Id} (h : S.Ok w t id) (f) : .fail f ∉ t.parts := fun hf => h.parts _ hf

/-- An item of a view. -/
def GPlan.Item (S : GPlan Q) (w : Nat) (x : Q.Id × NTree Q) : Prop := S.Ok w x.2 x.1 ∨ ∃ g, x.2 = .fail g

theorem GPlan.Ok.items {t : NTree Q} {id : Q.Id} (h : S.Ok w t id) : ∀ x ∈ shown id t, S.Item w x := by
  intro x hx
  simp only [shown, List.mem_map] at hx
  obtain ⟨p, hp, rfl⟩ := hx
  exact .inl (h.parts p hp)

/-- A view from line `a` to line `b`. -/
structure GPlan.Inv (S : GPlan Q) (w : Nat) (V : View Q) (a b : Nat) : Prop where
  run : ∃ g, S.Run V a true b g
  items : ∀ x ∈ V, S.Item w x

theorem GPlan.Inv.split {A B : View Q} {a c : Nat} (h : S.Inv w (A ++ B) a c) :
    ∃ b, S.Inv w A a b ∧ S.Inv w B b c := by
  obtain ⟨⟨g, h1⟩, h2⟩ := h
  obtain ⟨b, g', h3, h4⟩ := h1.split
  exact ⟨b, ⟨⟨g', h3⟩, fun x hx => h2 x (by simp [hx])⟩, h4.weaken, fun x hx => h2 x (by simp [hx])⟩

theorem run_flatly {V : View Q} (hV : ∀ x ∈ V, Plain x ∧ ¬ IsNewline x) (a : Nat) (f : Bool) : S.Run V a f a f := by
  induction V with
  | nil => exact .nil
  | cons x V ih =>
    obtain ⟨h1, h2⟩ := hV x (by simp)
    exact .cons (.flat h1 h2) (ih fun y hy => hV y (by simp [hy]))

/-- Replacing an item by what is inside of it. -/
theorem GPlan.Content.run {t : NTree Q} {id : Q.Id} (h : S.Content t id) {x : Q.Id × NTree Q} (hx : nodeOf x = some id)
    {a f b g} (hs : S.Step x a f b g) : ∃ g', S.Run (shown id t) a f b g' ∧ (g = true → g' = true) := by
  cases hs with
  | flat hp => exact absurd hp (nodeOf_plain hx)
  | soft hp => exact absurd hp.plain (nodeOf_plain hx)
  | newline hp => exact absurd hp.plain (nodeOf_plain hx)
  | leaf h1 h2 h3 =>
    cases hx.symm.trans h1
    rw [h3]
    exact ⟨_, run_flatly (h.1 h2) _ _, fun h => h⟩
  | @small _ f h1 h2 h3 h4 =>
    cases hx.symm.trans h1
    obtain ⟨g, h5⟩ := h.2 h2
    rw [h3] at h5
    obtain ⟨g', h6⟩ := h5.from (f' := f) (fun h => (by cases h))
    exact ⟨g', h6, fun h => (by cases h)⟩
  | long h1 h2 =>
    cases hx.symm.trans h1
    obtain ⟨g, h5⟩ := h.2 h2
    obtain ⟨g', h6⟩ := h5.weaken
    exact ⟨g', h6, fun h => (by cases h)⟩

theorem GPlan.Inv.replace {A X B : View Q} {x : Q.Id × NTree Q} {a b : Nat} (h : S.Inv w (A ++ x :: B) a b)
    (hr : ∀ {a f b g}, S.Step x a f b g → ∃ g', S.Run X a f b g' ∧ (g = true → g' = true))
    (hi : ∀ y ∈ X, S.Item w y) : S.Inv w (A ++ X ++ B) a b := by
  obtain ⟨⟨g, h1⟩, h2⟩ := h
  obtain ⟨m, f, h3, h4⟩ := h1.split
  constructor
  · cases h4 with
    | cons h4 h5 =>
      obtain ⟨g', h6, h7⟩ := hr h4
      obtain ⟨g'', h8⟩ := h5.from h7
      exact ⟨g'', (h3.append h6).append h8⟩
  · intro y hy
    simp only [List.mem_append] at hy
    rcases hy with (hy | hy) | hy
    · exact h2 y (by simp [hy])
    · exact hi y hy
    · exact h2 y (by simp [hy])

/-- Looking into a child. -/
theorem GPlan.Inv.child {A B : View Q} {p i cid tc} {a b : Nat} (h : S.Inv w (A ++ (p, .child i (.ok cid) tc) :: B) a b) :
    S.Inv w (A ++ shown cid tc ++ B) a b := by
  rcases h.items (p, .child i (.ok cid) tc) (by simp) with hi | ⟨g, hi⟩
  rotate_left
  · cases hi
  obtain ⟨h1, h2, h3⟩ := hi
  cases ho : S.oi cid with
  | true =>
    obtain ⟨h4, h5⟩ := h2 ho
    exact h.replace (h4.run rfl) h5.items
  | false =>
    obtain ⟨e, rfl⟩ := h3 ho
    refine h.replace ?_ ?_
    · intro a f b g hs
      refine ⟨g, .one ?_, fun h => h⟩
      cases hs with
      | flat hp => exact hp.elim
      | soft hp => exact hp.plain.elim
      | newline hp => exact hp.plain.elim
      | leaf h1 h2 h3 => exact .leaf h1 h2 h3
      | small h1 h2 h3 h4 => exact .small h1 h2 h3 h4
      | long h1 h2 => exact .long h1 h2
    · intro y hy
      simp only [shown, NTree.parts, List.map_cons, List.map_nil, List.mem_singleton] at hy
      exact .inr ⟨e, by rw [hy]⟩

/-- Looking into the second option of a choice. -/
theorem GPlan.Inv.second {A B : View Q} {p t u} {a b : Nat} (h : S.Inv w (A ++ (p, .choice t u) :: B) a b) :
    S.Inv w (A ++ shown p u ++ B) a b := by
  rcases h.items (p, .choice t u) (by simp) with hi | ⟨g, hi⟩
  rotate_left
  · cases hi
  exact h.replace (hi.2.1.1.run rfl) hi.2.1.2.items

/-- Looking into the first option of a choice. -/
theorem GPlan.Inv.first {A B : View Q} {p t u} {a b : Nat} (h : S.Inv w (A ++ (p, .choice t u) :: B) a b)
    (hs : S.small p = true) : S.Inv w (A ++ shown p t ++ B) a b := by
  rcases h.items (p, .choice t u) (by simp) with hi | ⟨g, hi⟩
  rotate_left
  · cases hi
  obtain ⟨h1, h2⟩ := hi.2.2.1 hs
  exact h.replace (h1.run rfl) h2.items

theorem GPlan.Inv.step {A X B : View Q} {x : Q.Id × NTree Q} {a b : Nat} (h : S.Inv w (A ++ x :: B) a b)
    (hx : LooksInto w x X) : S.Inv w (A ++ X ++ B) a b := by
  cases hx with
  | child => exact h.child
  | second => exact h.second
  | @first id t u hf =>
    refine h.first ?_
    rcases h.items (id, .choice t u) (by simp) with hi | ⟨g, hi⟩
    rotate_left
    · cases hi
    cases hs : S.small id with
    | true => rfl
    | false => exact absurd hf (hi.2.2.2.1 hs).notFits

theorem GPlan.Inv.expands {U V : View Q} {a b : Nat} (h : S.Inv w U a b) (hE : Expands w U V) : S.Inv w V a b := by
  induction hE with
  | refl => exact h
  | step _ hx ih => exact ih.step hx

theorem GPlan.Inv.peeks {U V C D : View Q} {a b : Nat} (h : S.Inv w (C ++ U ++ D) a b) (hE : Peeks U V) :
    S.Inv w (C ++ V ++ D) a b := by
  induction hE with
  | refl => exact h
  | @child A id i cid t B _ ih =>
    have := GPlan.Inv.child (A := C ++ A) (B := B ++ D) (p := id) (i := i) (cid := cid) (tc := t) (by simpa using ih)
    simpa using this
  | @noId A id i f t B _ ih =>
    rcases ih.items (id, .child i (.error f) t) (by simp) with h | ⟨_, h⟩
    · exact h.elim
    · cases h
  | @second A id t u B _ ih =>
    have := GPlan.Inv.second (A := C ++ A) (B := B ++ D) (p := id) (t := t) (u := u) (by simpa using ih)
    simpa using this

/-! ### Lines -/

theorem GPlan.Run.thin {R : View Q} {a f b g} (h : S.Run R a f b g) (hR : ∀ x ∈ R, Plain x ∧ ¬ IsNewline x) :
    b = a ∧ g = f := by
  induction h with
  | nil => exact ⟨rfl, rfl⟩
  | cons hs _ ih =>
    obtain ⟨rfl, rfl⟩ := ih fun y hy => hR y (by simp [hy])
    obtain ⟨h1, h2⟩ := hR _ (List.mem_cons_self ..)
    cases hs with
    | flat => exact ⟨rfl, rfl⟩
    | soft h => exact absurd h h2
    | newline h => exact absurd h h2
    | leaf h => exact absurd h1 (nodeOf_plain h)
    | small h => exact absurd h1 (nodeOf_plain h)
    | long h => exact absurd h1 (nodeOf_plain h)

/-- After a node that is more than a text, there are only small nodes on the line. -/
theorem GPlan.Run.after {R : View Q} {a b g} (h : S.Run R a false b g) (hR : OneLine R) : b = a ∧ g = false ∧
    ∀ x ∈ R, ∀ n, nodeOf x = some n → S.st n = a ∧ S.en n = a := by
  generalize hf : false = f at h
  induction h with
  | nil => subst hf; exact ⟨rfl, rfl, by simp⟩
  | cons hs _ ih =>
    subst hf
    have ho : ¬ IsNewline _ := hR _ (List.mem_cons_self ..)
    have hR' : OneLine _ := hR.sub (fun z hz => List.mem_cons_of_mem _ hz)
    cases hs with
    | flat hp _ =>
      obtain ⟨h1, h2, h3⟩ := ih hR' rfl
      refine ⟨h1, h2, fun x hx n hn => ?_⟩
      rcases List.mem_cons.1 hx with rfl | hx
      · exact absurd hp (nodeOf_plain hn)
      · exact h3 x hx n hn
    | soft h => exact absurd h ho
    | newline h => exact absurd h ho
    | leaf hn' _ he =>
      obtain ⟨h1, h2, h3⟩ := ih hR' rfl
      refine ⟨h1.trans he.symm, h2, fun x hx n hn => ?_⟩
      rcases List.mem_cons.1 hx with rfl | hx
      · cases hn.symm.trans hn'; exact ⟨rfl, he.symm⟩
      · rw [he]; exact h3 x hx n hn
    | small hn' _ _ he =>
      obtain ⟨h1, h2, h3⟩ := ih hR' rfl
      refine ⟨h1.trans he.symm, h2, fun x hx n hn => ?_⟩
      rcases List.mem_cons.1 hx with rfl | hx
      · cases hn.symm.trans hn'; exact ⟨rfl, he.symm⟩
      · rw [he]; exact h3 x hx n hn

theorem GPlan.Step.node {x : Q.Id × NTree Q} {n a f b g} (h : S.Step x a f b g) (hx : nodeOf x = some n) :
    a = S.st n ∧ b = S.en n ∧ (S.leaf n = false → g = false) := by
  cases h with
  | flat h => exact absurd h (nodeOf_plain hx)
  | soft h => exact absurd h.plain (nodeOf_plain hx)
  | newline h => exact absurd h.plain (nodeOf_plain hx)
  | leaf h h' => cases hx.symm.trans h; exact ⟨rfl, rfl, fun e => (by rw [e] at h'; cases h')⟩
  | small h => cases hx.symm.trans h; exact ⟨rfl, rfl, fun _ => rfl⟩
  | long h => cases hx.symm.trans h; exact ⟨rfl, rfl, fun _ => rfl⟩

theorem GPlan.Run.plain {R : View Q} {a f b g} (h : S.Run R a f b g) (hR : ∀ x ∈ R, Plain x) :
    a ≤ b ∧ b ≤ a + newlines R := by
  induction h with
  | nil => simp [newlines]
  | @cons x V a f b g c h hs _ ih =>
    have ih := ih fun y hy => hR y (by simp [hy])
    have hx := hR x (by simp)
    have hle : newlines V ≤ newlines (x :: V) := by
      obtain ⟨p, x⟩ := x
      cases x <;> simp [newlines]
    cases hs with
    | flat => omega
    | soft => omega
    | newline hn =>
      have : newlines (x :: V) = newlines V + 1 := by
        obtain ⟨p, x⟩ := x
        obtain ⟨ind, hn⟩ := hn
        dsimp only at hn
        subst hn
        rfl
      omega
    | leaf h => exact absurd hx (nodeOf_plain h)
    | small h => exact absurd hx (nodeOf_plain h)
    | long h => exact absurd hx (nodeOf_plain h)

theorem GPlan.Step.det {x : Q.Id × NTree Q} {a f f' b b' g g'} (hs : S.Step x a f b g) (hs' : S.Step x a f' b' g') :
    b = b' := by
  cases hs with
  | flat hp hq =>
    cases hs' with
    | flat => rfl
    | soft hp' => exact absurd hp' hq
    | newline hp' => exact absurd hp' hq
    | leaf hn => exact absurd hp (nodeOf_plain hn)
    | small hn => exact absurd hp (nodeOf_plain hn)
    | long hn => exact absurd hp (nodeOf_plain hn)
  | soft hp hq =>
    cases hs' with
    | flat _ hq' => exact absurd hp hq'
    | soft => rfl
    | newline _ hq' => rw [hq] at hq'; cases hq'
    | leaf hn => exact absurd hp.plain (nodeOf_plain hn)
    | small hn => exact absurd hp.plain (nodeOf_plain hn)
    | long hn => exact absurd hp.plain (nodeOf_plain hn)
  | newline hp hq =>
    cases hs' with
    | flat _ hq' => exact absurd hp hq'
    | soft _ hq' => rw [hq] at hq'; cases hq'
    | newline => rfl
    | leaf hn => exact absurd hp.plain (nodeOf_plain hn)
    | small hn => exact absurd hp.plain (nodeOf_plain hn)
    | long hn => exact absurd hp.plain (nodeOf_plain hn)
  | leaf hn => exact (hs'.node hn).2.1.symm
  | small hn => exact (hs'.node hn).2.1.symm
  | long hn => exact (hs'.node hn).2.1.symm

theorem GPlan.Run.det {U : View Q} {a f f' b b' g g'} (h : S.Run U a f b g) (h' : S.Run U a f' b' g') : b = b' := by
  induction h generalizing f' with
  | nil => cases h'; rfl
  | cons hs _ ih =>
    cases h' with
    | cons hs' h' =>
      have := hs.det hs'
      subst this
      exact ih h'

/-! ### Failures -/

/-- The numbers of the lines that are read: the focus is on line `F`; from line `lo` to line `hi`. -/
structure GPlan.Covers (S : GPlan Q) (path : List Nat) (F lo hi : Nat) : Prop where
  /-- Whatever is on these lines is open. -/
  window : ∀ cid, S.st cid ≤ hi → lo ≤ S.en cid → S.oi cid = true
  /-- The nodes on the path are where the focus is. -/
  onPath : ∀ cid, S.loc cid <+: path → S.st cid ≤ F ∧ F ≤ S.en cid
  leaves : ∀ cid, S.leaf cid = true → S.oi cid = true
  le : ∀ cid, S.st cid ≤ S.en cid
  small : ∀ cid, S.small cid = true → S.st cid = S.en cid
  lo_le : lo ≤ F
  le_hi : F ≤ hi

variable {path : List Nat} {F lo hi : Nat}

/-- If reading a line fails, then the first node on the line (that is more than a text) is outside of the window. -/
theorem GPlan.Inv.fails (hS : S.Covers path F lo hi) {V L V' : View Q} {a b f} (h : S.Inv w (V ++ L ++ V') a b)
    (hr : ReadFails w L f) : ∃ R z rest n, L = R ++ z :: rest ∧ (∀ x ∈ R, Plain x ∧ ¬ IsNewline x ) ∧
      nodeOf z = some n ∧ S.leaf n = false ∧ ¬ (S.st n ≤ hi ∧ lo ≤ S.en n) := by
  -- an item that cannot be opened
  have dark : ∀ {z : Q.Id × NTree Q} {f}, S.Item w z → OpenFails z f → ∃ n, nodeOf z = some n ∧ S.leaf n = false ∧
      ¬ (S.st n ≤ hi ∧ lo ≤ S.en n) := by
    rintro ⟨p, z⟩ f hi hz
    cases z with
    | child i cid tc =>
      rcases hi with hi | ⟨g, hi⟩
      rotate_left
      · cases hi
      cases cid with
      | error e => exact hi.elim
      | ok cid =>
        have ho : S.oi cid = false := by
          cases ho : S.oi cid with
          | false => rfl
          | true =>
            rcases hz with hz | hz
            · cases hz
            · exact absurd hz ((hi.2.1 ho).2.noFail f)
        refine ⟨cid, rfl, ?_, ?_⟩
        · cases hl : S.leaf cid with
          | false => rfl
          | true => rw [hS.leaves cid hl] at ho; cases ho
        · rintro ⟨h1, h2⟩
          rw [hS.window cid h1 h2] at ho
          cases ho
    | choice t u =>
      rcases hi with hi | ⟨g, hi⟩
      rotate_left
      · cases hi
      rcases hz with hz | hz
      · exact absurd hz (hi.2.2.2.2 f)
      · exact absurd hz (hi.2.1.2.noFail f)
    | _ => exact hz.elim
  obtain ⟨R, z, rest, h1, h2, rfl | ⟨R0, id, t, u, rest0, h3, rfl, h4, h5⟩⟩ := hr
  · obtain ⟨n, h3, h4, h5⟩ := dark (h.items z (by simp)) h2
    exact ⟨R, z, rest, n, rfl, h1, h3, h4, h5⟩
  · have hi := h.items (id, .choice t u) (by simp)
    rcases hi with hi | ⟨g, hi⟩
    rotate_left
    · cases hi
    refine ⟨R0, _, rest0, id, rfl, h3, rfl, hi.1, ?_⟩
    cases hs : S.small id with
    | false =>
      have e := (hi.2.2.2.1 hs).mono (Nat.zero_le (0 + columns R0))
      have e := ((e.append rest0).flatly h3).peeks (by rw [← List.append_assoc]; exact h4)
      exact absurd h2 (e.noFail h1 (by omega))
    | true =>
      have h6 := GPlan.Inv.first (A := V ++ R0) (B := rest0 ++ V') (by simpa using h) hs
      have h7 := GPlan.Inv.peeks (C := V) (D := V') (U := R0 ++ shown id t ++ rest0) (by simpa using h6) h4
      obtain ⟨n, h8, h9, h10⟩ := dark (h7.items z (by simp)) h2
      -- both are on the same line
      obtain ⟨g, h11⟩ := h.run
      obtain ⟨g', h12⟩ := h7.run
      have e1 : ∀ {U : View Q} {x n m f c g}, (∀ x ∈ U, Plain x ∧ ¬ IsNewline x) → ∀ {W}, nodeOf x = some n →
          S.Run (U ++ x :: W) m f c g → S.st n = m := by
        intro U x n m f c g hU W hx hr
        obtain ⟨b, f', hr1, hr2⟩ := hr.split
        obtain ⟨rfl, _⟩ := hr1.thin hU
        cases hr2 with
        | cons hs _ => exact (hs.node hx).1.symm
      rw [List.append_assoc] at h11 h12
      obtain ⟨m, f1, h13, h14⟩ := h11.split
      obtain ⟨m', f1', h15, h16⟩ := h12.split
      have := h13.det h15
      subst this
      have e2 : S.st id = m := e1 (W := rest0 ++ V') h3 rfl (by simpa using h14)
      have e3 : S.st n = m := e1 (W := rest ++ V') h1 h8 (by simpa using h16)
      have e4 := hS.small id hs
      have e5 := hS.le n
      rintro ⟨h17, h18⟩
      exact h10 ⟨by omega, by omega⟩

/-- Reading on from line `F`. -/
theorem GPlan.Inv.noDown (hS : S.Covers path F lo hi) {B : View Q} {b j : Nat} {f} (h : S.Inv w B F b)
    (hj : F + j ≤ hi) : ¬ DownFails w j B f := by
  rintro ⟨R, L, V, hE, hR, _, hn, _, _, hr⟩
  have h' := h.expands hE
  obtain ⟨R2, z, rest, n, rfl, h2, h3, h4, h5⟩ := h'.fails hS hr
  obtain ⟨g, h6⟩ := h'.run
  rw [show R ++ (R2 ++ z :: rest) ++ V = R ++ (R2 ++ (z :: (rest ++ V))) by simp] at h6
  obtain ⟨m, _, h7, h8⟩ := h6.split
  obtain ⟨m', _, h9, h10⟩ := h8.split
  obtain ⟨rfl, rfl⟩ := h9.thin h2
  have e1 := h7.plain hR
  cases h10 with
  | cons hs _ =>
    have e2 := (hs.node h3).1
    have := hS.le n
    have := hS.lo_le
    exact h5 ⟨by omega, by omega⟩

/-- What is on a line, if there is a node on it. -/
theorem GPlan.Inv.onLine {V V' R rest : View Q} {z : Q.Id × NTree Q} {n a b}
    (h : S.Inv w (V ++ (R ++ z :: rest) ++ V') a b) (hz : nodeOf z = some n) (hn : S.leaf n = false) (hl : OneLine rest)
    (hR : ∀ x ∈ R, Plain x ∧ ¬ IsNewline x) :
    (∃ g, S.Run V a true (S.st n) g) ∧ (∃ g, S.Run V' (S.en n) false b g) ∧
      ∀ x ∈ rest, ∀ n', nodeOf x = some n' → S.st n' = S.en n ∧ S.en n' = S.en n := by
  obtain ⟨g, h1⟩ := h.run
  rw [show V ++ (R ++ z :: rest) ++ V' = V ++ (R ++ (z :: (rest ++ V'))) by simp] at h1
  obtain ⟨m, g1, h2, h3⟩ := h1.split
  obtain ⟨m', g2, h4, h5⟩ := h3.split
  obtain ⟨rfl, rfl⟩ := h4.thin hR
  cases h5 with
  | cons hs h5 =>
    obtain ⟨rfl, rfl, hg⟩ := hs.node hz
    cases hg hn
    obtain ⟨m3, g3, h6, h7⟩ := h5.split
    obtain ⟨rfl, rfl, h8⟩ := h6.after hl
    exact ⟨⟨_, h2⟩, ⟨_, h7⟩, h8⟩

/-- Reading backwards from line `F`. -/
theorem GPlan.Inv.noUp (hS : S.Covers path F lo hi) {A : View Q} {a k : Nat} {f} (h : S.Inv w A a F)
    (hk : lo = F - k) : ¬ UpFails w k A f := by
  rintro ⟨V, L, R, hE, hR, _, _, hn, hl, _, hr⟩
  have h' := h.expands hE
  obtain ⟨R2, z, rest, n, rfl, h2, h3, h4, h5⟩ := h'.fails hS hr
  have hl' : OneLine rest := hl.sub (by intro z hz; simp [hz])
  obtain ⟨-, ⟨g, h6⟩, -⟩ := h'.onLine h3 h4 hl' h2
  have e := h6.plain hR
  have := hS.le n
  have := hS.le_hi
  exact h5 ⟨by omega, by omega⟩

/-- Reading the line with the number `F`, which is where one view ends and the next one begins. -/
theorem GPlan.Inv.noEnd (hS : S.Covers path F lo hi) {A V L V' B : View Q} {a b : Nat} {f g}
    (h1 : S.Run A a true F g) (h : S.Inv w (A ++ (V' ++ B)) a b) (hE : Expands w A (V ++ L)) (hl : OneLine (L ++ V')) :
    ¬ ReadFails w (L ++ V') f := by
  intro hr
  have h' := h.expands (hE.append (.refl (V' ++ B)))
  have hA : (∃ g, S.Run (V ++ L) a true F g) ∧ ∃ g, S.Run (V' ++ B) F true b g := by
    obtain ⟨m, h3, h4⟩ := h.split
    obtain ⟨g', h5⟩ := h3.run
    have := h5.det h1
    subst this
    exact ⟨(h3.expands hE).run, h4.run⟩
  have h'' : S.Inv w (V ++ (L ++ V') ++ B) a b := by
    have e : V ++ (L ++ V') ++ B = V ++ L ++ (V' ++ B) := by simp
    rw [e]; exact h'
  obtain ⟨R2, z, rest, n, he, h2, h3, h4, h5⟩ := h''.fails hS hr
  rw [he] at hl h''
  have hl' : OneLine rest := hl.sub (by intro z hz; simp [hz])
  suffices S.st n ≤ F ∧ F ≤ S.en n by
    have := hS.le_hi
    have := hS.lo_le
    exact h5 ⟨by omega, by omega⟩
  have hle := hS.le n
  obtain ⟨⟨ga, hA1⟩, gb, hA2⟩ := hA
  rcases List.append_eq_append_iff.1 he with ⟨as, ha, hb⟩ | ⟨bs, ha, hb⟩
  · -- in the second view
    subst ha
    rw [hb, show as ++ z :: rest ++ B = as ++ (z :: (rest ++ B)) by simp] at hA2
    obtain ⟨m, _, h7, h8⟩ := hA2.split
    obtain ⟨rfl, _⟩ := h7.thin fun x hx => h2 x (by simp [hx])
    cases h8 with
    | cons hs _ => have := (hs.node h3).1; omega
  · cases bs with
    | nil =>
      simp only [List.nil_append] at hb
      rw [← hb, List.cons_append] at hA2
      cases hA2 with
      | cons hs _ => have := (hs.node h3).1; omega
    | cons y bs =>
      simp only [List.cons_append, List.cons.injEq] at hb
      obtain ⟨rfl, hb⟩ := hb
      rw [ha, show V ++ (R2 ++ z :: bs) = (V ++ R2) ++ z :: bs by simp] at hA1
      obtain ⟨m, _, h7, h8⟩ := hA1.split
      cases h8 with
      | cons hs h8 =>
        obtain ⟨rfl, rfl, hg⟩ := hs.node h3
        cases hg h4
        have := (h8.after (hl'.sub (by intro z hz; rw [hb]; simp [hz]))).1
        omega

/-! ### Following the path -/

/-- What one sees of a node, and where it is. -/
structure GPlan.At (S : GPlan Q) (w T : Nat) (q : List Nat) (A : View Q) (x : Q.Id × NTree Q) (B : View Q) : Prop where
  inv : S.Inv w (A ++ shown x.1 x.2 ++ B) 0 T
  loc : S.loc x.1 = q
  ok : S.Ok w x.2 x.1
  before : ∃ g, S.Run A 0 true (S.st x.1) g
  inside : ∃ g, S.Run (A ++ shown x.1 x.2) 0 true (S.en x.1) g

theorem GPlan.zoom (hS : S.Covers path F lo hi) {id : Q.Id} {t : NTree Q} {T : Nat} (h0 : S.st id = 0)
    (h1 : S.en id = T) (hl : S.loc id = []) (ht : S.Ok w t id) (hr : S.Inv w (shown id t) 0 T) {q A x B}
    (hz : Zoom w id t q A x B) (hq : q <+: path) : S.At w T q A x B := by
  induction hz with
  | root =>
    refine ⟨by simpa using hr, hl, ht, ?_, ?_⟩
    · rw [h0]; exact ⟨_, .nil⟩
    · rw [h1]; exact hr.run
  | @child q A pid tp B i A' cid tc B' _ hE ih =>
    obtain ⟨h2, h3, h4, -, -⟩ := ih ((List.prefix_append _ _).trans hq)
    have h5 := h2.expands hE
    rcases h5.items (pid, .child i (.ok cid) tc) (by simp) with h6 | ⟨g, h6⟩
    rotate_left
    · cases h6
    have hloc : S.loc cid = q ++ [i] := by rw [h6.1, h3]
    have hF := hS.onPath cid (by rw [hloc]; exact hq)
    have ho := hS.window cid (by have := hS.le_hi; omega) (by have := hS.lo_le; omega)
    obtain ⟨h7, h9⟩ := h6.2.1 ho
    have h10 := h5.child
    obtain ⟨g, h11⟩ := h5.run
    obtain ⟨m, f, h12, h13⟩ := h11.split
    cases h13 with
    | cons hs _ =>
      obtain ⟨g', h14, _⟩ := h7.run (x := (pid, .child i (.ok cid) tc)) rfl hs
      obtain ⟨rfl, rfl, -⟩ := hs.node (n := cid) rfl
      exact ⟨h10, hloc, h9, ⟨_, h12⟩, _, h12.append h14⟩

theorem GPlan.noPathFails (hS : S.Covers path F lo hi) {id : Q.Id} {t : NTree Q} {T : Nat} (h0 : S.st id = 0)
    (h1 : S.en id = T) (hl : S.loc id = []) (ht : S.Ok w t id) (hr : S.Inv w (shown id t) 0 T) {f} :
    ¬ PathFails w id t path f := by
  rintro (⟨q, rest, A, x, B, rfl, hz, hf⟩ | ⟨q, i, rest, A, pid, tp, B, V, L, V', y, rfl, hz, hE, _, hol, _, hy, hm, hrf⟩)
  · exact (GPlan.zoom hS h0 h1 hl ht hr hz (List.prefix_append _ _)).ok.noFail f hf
  · obtain ⟨h2, h3, -, -, -⟩ := GPlan.zoom hS h0 h1 hl ht hr hz (List.prefix_append _ _)
    have h4 := h2.expands hE
    obtain ⟨R, z, rest', n, rfl, h5, h6, h7, h8⟩ := h4.fails hS hrf
    obtain ⟨-, -, h9⟩ := h4.onLine h6 h7 (hol.sub (by intro z hz; simp [hz])) h5
    -- the node that `y` shows
    have hyn : ∃ m, nodeOf y = some m ∧ S.st m ≤ F ∧ F ≤ S.en m := by
      obtain ⟨y1, y2⟩ := y
      obtain ⟨e, hm⟩ := hm
      dsimp only at e hm
      subst e
      rcases hm with ⟨c, t', rfl⟩ | ⟨a, b, rfl⟩
      · rcases h4.items (y1, .child i c t') (by
          simp only [List.mem_append] at hy ⊢
          rcases hy with hy | hy <;> simp [hy]) with h | ⟨_, h⟩
        rotate_left
        · cases h
        cases c with
        | error e => exact h.elim
        | ok c =>
          refine ⟨c, rfl, hS.onPath c ?_⟩
          have h3 : S.loc y1 = q := h3
          rw [h.1, h3, show q ++ i :: rest = q ++ [i] ++ rest by simp]
          exact List.prefix_append _ _
      · refine ⟨y1, rfl, hS.onPath y1 ?_⟩
        have h3 : S.loc y1 = q := h3
        rw [h3]
        exact List.prefix_append _ _
    obtain ⟨m, hm1, hm2, hm3⟩ := hyn
    have := hS.lo_le
    have := hS.le_hi
    have := hS.le n
    simp only [List.mem_append, List.mem_cons] at hy
    rcases hy with hy | rfl | hy
    · exact nodeOf_plain hm1 (h5 y hy).1
    · cases h6.symm.trans hm1
      exact h8 ⟨by omega, by omega⟩
    · obtain ⟨e1, e2⟩ := h9 y hy m hm1
      exact h8 ⟨by omega, by omega⟩

theorem GPlan.noNearFails (hS : S.Covers path F lo hi) {id : Q.Id} {t : NTree Q} {T : Nat} (h0 : S.st id = 0)
    (h1 : S.en id = T) (hl : S.loc id = []) (ht : S.Ok w t id) (hr : S.Inv w (shown id t) 0 T) {k j f}
    {target : FocusTarget}
    (hF : ∀ cid, S.loc cid = path → target = .start ∧ F = S.st cid ∨ target = .end ∧ F = S.en cid)
    (hk : lo = F - k) (hj : F + j ≤ hi) :
    ¬ NearFails w id t path target k j f := by
  rintro (h | ⟨A, ⟨cid, tc⟩, B, hz, h⟩)
  · exact GPlan.noPathFails hS h0 h1 hl ht hr h
  obtain ⟨h2, h3, h4, ⟨g1, h5⟩, g2, h6⟩ := GPlan.zoom hS h0 h1 hl ht hr hz (List.prefix_refl _)
  dsimp only at h2 h3 h4 h5 h6
  rcases hF cid h3 with ⟨rfl, rfl⟩ | ⟨rfl, rfl⟩
  · rcases h with h | ⟨left, right, h8, h9⟩
    · cases h
    · cases h8
      rw [List.append_assoc] at h2
      obtain ⟨m, h10, h11⟩ := h2.split
      obtain ⟨g, h12⟩ := h10.run
      have := h12.det h5
      subst this
      rcases h9 with h9 | h9
      · exact h10.noUp hS hk h9
      · exact h11.noDown hS hj h9
  · rcases h with h | ⟨left, right, h8, h9⟩
    · cases h with
      | «end» hE hV hol hB hrf => exact GPlan.Inv.noEnd hS h6 h2 hE hol hrf
    · cases h8
      obtain ⟨m, h10, h11⟩ := h2.split
      obtain ⟨g, h12⟩ := h10.run
      have := h12.det h6
      subst this
      rcases h9 with h9 | h9
      · exact h10.noUp hS hk h9
      · exact h11.noDown hS hj h9

end PPP
