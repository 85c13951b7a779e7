import Verif.Spec.View
import Verif.Proofs.Blocks
/-
Lemmas about views; partial-correctness triples.
-/
namespace PPP
open Lean.Order
variable {P : PrettyDoc}

/-! ### Partial correctness -/

/-- If the call terminates: `ok` holds of its value, or `er` of its failure. -/
def PSat {E α : Type} (x : Exec E α) (ok : α → Prop) (er : Fail E → Prop) : Prop :=
  ∀ r, x.run = some r → match r with
    | .ok a => ok a
    | .error e => er e

theorem PSat.admissible {E α : Type} (ok : α → Prop) (er : Fail E → Prop) :
    Lean.Order.admissible fun x : Exec E α => PSat x ok er := by
  apply admissible_pi
  intro r
  exact Option.admissible_eq_some _ _

theorem PSat.pure {E α : Type} {a : α} {ok : α → Prop} {er : Fail E → Prop} (h : ok a) :
    PSat (Pure.pure a) ok er := by
  intro r hr
  have hr : (some (.ok a) : Option (Except (Fail E) α)) = some r := hr
  cases hr; exact h

theorem PSat.error {E α : Type} {f} {ok : α → Prop} {er : Fail E → Prop} (h : er f) :
    PSat (Exec.ofRes (.error f)) ok er := by
  intro r hr
  have hr : (some (.error f) : Option (Except (Fail E) α)) = some r := hr
  cases hr; exact h

theorem PSat.bind {E α β : Type} {x : Exec E α} {f : α → Exec E β} {ok : β → Prop} {er er' : Fail E → Prop} {mid}
    (h : PSat x mid er') (h1 : ∀ a, mid a → PSat (f a) ok er) (h2 : ∀ e, er' e → er e) :
    PSat (x >>= f) ok er := by
  intro r hr
  rw [Exec.run_bind] at hr
  match hx : x.run with
  | none => rw [hx] at hr; cases hr
  | some (.ok a) => rw [hx] at hr; exact h1 a (h _ hx) r hr
  | some (.error e) =>
    rw [hx] at hr
    cases hr
    exact h2 e (h _ hx)

theorem PSat.mono {E α : Type} {x : Exec E α} {ok ok' : α → Prop} {er er' : Fail E → Prop} (h : PSat x ok er)
    (h1 : ∀ a, ok a → ok' a) (h2 : ∀ e, er e → er' e) : PSat x ok' er' := by
  intro r hr
  have := h r hr
  match r with
  | .ok a => exact h1 a this
  | .error e => exact h2 e this

theorem Sat.psat {E α : Type} {x : Exec E α} {ok : α → Prop} {er : Fail E → Prop} (h : Sat x ok er) :
    PSat x ok er := by
  intro r hr
  unfold Sat at h
  rw [hr] at h
  match r with
  | .ok a => exact h
  | .error e => exact h

/-! ### Views -/

theorem shown_concat (id : P.Id) (a b : NTree P) : shown id (.concat a b) = shown id a ++ shown id b := by
  simp [shown, NTree.parts]

theorem shown_empty (id : P.Id) : shown id (.empty : NTree P) = [] := rfl

theorem Expands.trans {U V W : View P} (h : Expands w U V) (h' : Expands w V W) : Expands w U W := by
  induction h' with
  | refl => exact h
  | step _ ho ih => exact .step ih ho

theorem Expands.frame {U V : View P} (h : Expands w U V) (A B : View P) : Expands w (A ++ U ++ B) (A ++ V ++ B) := by
  induction h with
  | refl => exact .refl _
  | @step A' x X B' _ ho ih =>
    have := Expands.step (A := A ++ A') (x := x) (X := X) (B := B' ++ B) (by simpa using ih) ho
    simpa using this

theorem Expands.left {U V : View P} (h : Expands w U V) (B : View P) : Expands w (U ++ B) (V ++ B) := by
  simpa using h.frame [] B
theorem Expands.right {U V : View P} (h : Expands w U V) (A : View P) : Expands w (A ++ U) (A ++ V) := by
  simpa using h.frame A []
theorem Expands.append {U V U' V' : View P} (h : Expands w U V) (h' : Expands w U' V') :
    Expands w (U ++ U') (V ++ V') := (h.left U').trans (h'.right V)
theorem Expands.one {x : P.Id × NTree P} {X} (h : LooksInto w x X) (A B : View P) : Expands w (A ++ x :: B) (A ++ X ++ B) :=
  .step (.refl _) h

@[simp] theorem newlines_append (A B : View P) : newlines (A ++ B) = newlines A + newlines B := by
  induction A with
  | nil => simp [newlines]
  | cons x A ih =>
    obtain ⟨i, t⟩ := x
    cases t <;> simp [newlines, ih] <;> omega

@[simp] theorem columns_append (A B : View P) : columns (A ++ B) = columns A + columns B := by
  induction A with
  | nil => simp [columns]
  | cons x A ih =>
    obtain ⟨i, t⟩ := x
    cases t <;> simp [columns, ih] <;> omega

theorem newlines_oneLine {L : View P} (h : OneLine L) : newlines L = 0 := by
  induction L with
  | nil => rfl
  | cons x L ih =>
    obtain ⟨i, t⟩ := x
    have h1 := h _ (by simp : (i, t) ∈ (i, t) :: L)
    have h2 := ih fun y hy => h y (by simp [hy])
    cases t with
    | newline ind => exact absurd ⟨ind, rfl⟩ h1
    | _ => simp [newlines, h2]

theorem OneLine.append {L L' : View P} (h : OneLine L) (h' : OneLine L') : OneLine (L ++ L') := by
  intro x hx
  rcases List.mem_append.1 hx with hx | hx
  · exact h x hx
  · exact h' x hx
theorem OneLine.nil : OneLine ([] : View P) := by intro x hx; cases hx
theorem OneLine.cons {x : P.Id × NTree P} {L : View P} (hx : ¬ IsNewline x) (h : OneLine L) : OneLine (x :: L) := by
  intro y hy
  rcases List.mem_cons.1 hy with rfl | hy
  · exact hx
  · exact h y hy

theorem Atomic.notNewline {x : P.Id × NTree P} (h : x.2.Atomic) : ¬ IsNewline x := by
  rintro ⟨ind, hi⟩
  rw [hi] at h
  exact h

theorem ChunksR.oneLine {cs : List (Chunk P)} {items : View P} (h : ChunksR cs items) : OneLine items := by
  unfold ChunksR at h
  induction h with
  | nil => exact .nil
  | cons h _ ih => exact .cons (Atomic.notNewline h.2) ih

/-- A plain item that is not a newline. -/
def Flatly (R : View P) : Prop := ∀ x ∈ R, Plain x ∧ ¬ IsNewline x

theorem Flatly.nil : Flatly ([] : View P) := by intro x hx; cases hx
theorem Flatly.append {R R' : View P} (h : Flatly R) (h' : Flatly R') : Flatly (R ++ R') := by
  intro x hx
  rcases List.mem_append.1 hx with hx | hx
  · exact h x hx
  · exact h' x hx
theorem Flatly.single {x : P.Id × NTree P} (h : Plain x) (h' : ¬ IsNewline x) : Flatly [x] := by
  intro y hy
  simp only [List.mem_singleton] at hy
  subst hy; exact ⟨h, h'⟩
theorem Flatly.oneLine {R : View P} (h : Flatly R) : OneLine R := fun x hx => (h x hx).2
theorem Flatly.plain {R : View P} (h : Flatly R) : ∀ x ∈ R, Plain x := fun x hx => (h x hx).1
theorem Flatly.text (id : P.Id) (t : Textual P) : Flatly [(id, .text t)] :=
  .single trivial (by rintro ⟨_, h⟩; cases h)
theorem Flatly.mark (id : P.Id) : Flatly [((id, .mark) : P.Id × NTree P)] :=
  .single trivial (by rintro ⟨_, h⟩; cases h)
theorem Flatly.eol (id : P.Id) : Flatly [((id, .eol) : P.Id × NTree P)] :=
  .single trivial (by rintro ⟨_, h⟩; cases h)

/-! ### `fits` -/

/-- The failures in the parts of a tree. -/
def PartsFail (t : NTree P) (f : Fail P.Err) : Prop := .fail f ∈ t.parts

theorem partsFail_concat {a b : NTree P} {f} : PartsFail (.concat a b) f ↔ PartsFail a f ∨ PartsFail b f := by
  simp [PartsFail, NTree.parts]

/-- Finding out whether the line `L` fits fails. -/
def FitFails (w : Nat) (L : View P) (f : Fail P.Err) : Prop :=
  ∃ R z rest, Flatly R ∧ OpenFails z f ∧ Peeks L (R ++ z :: rest) ∧ columns R ≤ w

/-- What is still on the stack of `fits`. -/
def stackView (xs : View P) : View P := xs.flatMap fun x => shown x.1 x.2

/-- The first line of some trees. -/
def firstLines : View P → Nat × Bool
  | [] => (0, false)
  | x :: xs => if x.2.firstLine.2 then x.2.firstLine else (x.2.firstLine.1 + (firstLines xs).1, (firstLines xs).2)

theorem firstLines_congr {x : P.Id × NTree P} {ys xs : View P} (h : x.2.firstLine = firstLines ys) :
    firstLines (x :: xs) = firstLines (ys ++ xs) := by
  have key : ∀ ys : View P, firstLines (ys ++ xs) = if (firstLines ys).2 then firstLines ys
      else ((firstLines ys).1 + (firstLines xs).1, (firstLines xs).2) := by
    intro ys
    induction ys with
    | nil => simp [firstLines]
    | cons y ys ih =>
      rw [List.cons_append, firstLines, firstLines, ih]
      by_cases hy : y.2.firstLine.2 = true <;> by_cases hz : (firstLines ys).2 = true <;> simp [hy, hz, Nat.add_assoc]
  rw [key, ← h]
  rfl

theorem fitsLoop_view {w : Nat} {L : View P} {er : Fail P.Err → Prop} (he : ∀ f, FitFails w L f → er f) :
    ∀ (chunks : List (Chunk P)) (rem : Nat) (nots : List (CN P)) (eol : Bool)
    (R xs items : View P),
    All2 (fun c (x : P.Id × NTree P) => ∃ rid, CNRep rid c x.2) nots xs →
    All2 ChunkR chunks items → Flatly R → columns R + rem ≤ w →
    Peeks L (R ++ stackView xs ++ stackView items) →
    (∀ x ∈ xs, ∀ f, PartsFail x.2 f → er f) →
    (∀ x ∈ items, ∀ f, PartsFail x.2 f → er f) →
    PSat (fitsLoop chunks rem nots eol) (fun r => r = true → (firstLines xs).1 ≤ rem) er := by
  apply fitsLoop.fixpoint_induct (motive := fun fit => ∀ (chunks : List (Chunk P)) (rem : Nat) (nots : List (CN P))
    (eol : Bool) (R xs items : View P),
    All2 (fun c (x : P.Id × NTree P) => ∃ rid, CNRep rid c x.2) nots xs →
    All2 ChunkR chunks items → Flatly R → columns R + rem ≤ w →
    Peeks L (R ++ stackView xs ++ stackView items) →
    (∀ x ∈ xs, ∀ f, PartsFail x.2 f → er f) →
    (∀ x ∈ items, ∀ f, PartsFail x.2 f → er f) →
    PSat (fit chunks rem nots eol) (fun r => r = true → (firstLines xs).1 ≤ rem) er)
  · exact admissible_pi_apply _ fun _ => admissible_pi_apply _ fun _ => admissible_pi_apply _ fun _ =>
      admissible_pi_apply _ fun _ => admissible_pi _ fun _ => admissible_pi _ fun _ => admissible_pi _ fun _ =>
      admissible_pi _ fun _ => admissible_pi _ fun _ => admissible_pi _ fun _ => admissible_pi _ fun _ =>
      admissible_pi _ fun _ => admissible_pi _ fun _ => admissible_pi _ fun _ => PSat.admissible _ _
  intro fit ih chunks rem nots eol R xs items hn hc hR hcol hE hx hi
  cases hn with
  | nil =>
    cases hc with
    | nil => exact .pure fun _ => Nat.zero_le _
    | @cons c x cs items hcx hcs =>
      refine (ih _ _ _ _ R [x] items (.cons ⟨_, hcx.2⟩ .nil) hcs hR hcol ?_ ?_ ?_).mono
        (fun _ _ _ => Nat.zero_le _) fun _ h => h
      · simpa [stackView] using hE
      · intro y hy; simp only [List.mem_singleton] at hy; subst hy; exact hi _ (by simp)
      · exact fun y hy => hi y (by simp [hy])
  | @cons n x nots xs hnx hns =>
    obtain ⟨id, t⟩ := x
    obtain ⟨rid, hnx⟩ := hnx
    have hx' : ∀ y ∈ xs, ∀ f, PartsFail y.2 f → er f := fun y hy => hx y (by simp [hy])
    have plain : ∀ (hf : Flatly [(id, t)]) (hs : shown id t = [(id, t)]) (c : Nat) (_ : columns [(id, t)] = c)
        (_ : t.firstLine = (c, false)) (eol' : Bool), c ≤ rem →
        PSat (fit chunks (rem - c) nots eol') (fun r => r = true → (firstLines ((id, t) :: xs)).1 ≤ rem) er := by
      intro hf hs c hc' hl eol' hle
      refine (ih _ _ _ _ (R ++ [(id, t)]) xs items hns hc (hR.append hf) ?_ ?_ hx' hi).mono ?_ fun _ h => h
      · rw [columns_append, hc']; omega
      · simpa [stackView, hs] using hE
      · intro r hr h
        have := hr h
        rw [firstLines, hl]
        simp only [Bool.false_eq_true, if_false]
        omega
    cases hnx with
    | empty =>
      refine (ih _ _ _ _ R xs items hns hc hR hcol (by simpa [stackView, shown_empty] using hE) hx' hi).mono ?_
        fun _ h => h
      intro r hr h
      simpa [firstLines, NTree.firstLine] using hr h
    | mark => exact plain (.mark _) rfl 0 rfl rfl eol (Nat.zero_le _)
    | eol => exact plain (.eol _) rfl 0 rfl rfl true (Nat.zero_le _)
    | newline => exact .pure fun _ => by simp [firstLines, NTree.firstLine]
    | @text tx =>
      cases eol with
      | true => exact .pure fun h => by cases h
      | false =>
        simp only [Bool.false_eq_true, if_false]
        split
        · exact plain (.text _ _) rfl tx.width rfl rfl false (by assumption)
        · exact .pure fun h => by cases h
    | @concat a b ta tb ha hb =>
      have hab := hx (id, .concat ta tb) (by simp)
      refine .bind hb.eval_sat.psat ?_ ?_
      · rintro n2 ⟨-, h2⟩
        refine .bind ha.eval_sat.psat ?_ ?_
        · rintro n1 ⟨-, h1⟩
          refine (ih _ _ _ _ R ((id, ta) :: (id, tb) :: xs) items (.cons ⟨_, h1⟩ (.cons ⟨_, h2⟩ hns)) hc hR hcol ?_ ?_
            hi).mono ?_ fun _ h => h
          · simpa [stackView, shown_concat] using hE
          · intro y hy f hf
            simp only [List.mem_cons] at hy
            rcases hy with rfl | rfl | hy
            · exact hab f (partsFail_concat.2 (.inl hf))
            · exact hab f (partsFail_concat.2 (.inr hf))
            · exact hx' y hy f hf
          · intro r hr h
            rw [firstLines_congr (ys := [(id, ta), (id, tb)])]
            · exact hr h
            · simp only [NTree.firstLine, firstLines]
              by_cases h1 : ta.firstLine.2 = true <;> by_cases h2 : tb.firstLine.2 = true <;> simp [h1, h2]
        · rintro f rfl
          exact hab f (partsFail_concat.2 (.inl (by simp [PartsFail, NTree.parts])))
      · rintro f rfl
        exact hab f (partsFail_concat.2 (.inr (by simp [PartsFail, NTree.parts])))
    | @choice a b ta tb ha hb =>
      have hz : ∀ f, PartsFail tb f → er f := fun f hf => he f
        ⟨R, (id, .choice ta tb), stackView xs ++ stackView items, hR, .inr hf,
          by simpa [stackView, shown, NTree.parts] using hE, by omega⟩
      refine .bind hb.eval_sat.psat ?_ ?_
      · rintro n2 ⟨-, h2⟩
        refine (ih _ _ _ _ R ((id, tb) :: xs) items (.cons ⟨_, h2⟩ hns) hc hR hcol ?_ ?_ hi).mono (fun _ h => h)
          fun _ h => h
        · have := Peeks.second (A := R) (id := id) (a := ta) (b := tb) (B := stackView xs ++ stackView items)
            (by simpa [stackView, shown, NTree.parts] using hE)
          simpa [stackView] using this
        · intro y hy f hf
          simp only [List.mem_cons] at hy
          rcases hy with rfl | hy
          · exact hz f hf
          · exact hx' y hy f hf
      · rintro f rfl
        exact hz f (by simp [PartsFail, NTree.parts])
    | @child i c cid tc hc' =>
      have hz : ∀ f, PartsFail tc f → er f := fun f hf => he f
        ⟨R, (id, .child i cid tc), stackView xs ++ stackView items, hR, .inr hf,
          by simpa [stackView, shown, NTree.parts] using hE, by omega⟩
      obtain ⟨cid', hcid⟩ : ∃ cid', ∀ {V A B : View P}, Peeks V (A ++ (id, .child i cid tc) :: B) →
          Peeks V (A ++ shown cid' tc ++ B) := by
        cases cid with
        | ok c => exact ⟨c, fun h => .child h⟩
        | error f => exact ⟨id, fun h => .noId h⟩
      refine .bind hc'.eval_sat.psat ?_ ?_
      · rintro n2 ⟨-, h2⟩
        refine (ih _ _ _ _ R ((cid', tc) :: xs) items (.cons ⟨_, h2⟩ hns) hc hR hcol ?_ ?_ hi).mono (fun _ h => h)
          fun _ h => h
        · have := hcid (A := R) (B := stackView xs ++ stackView items)
            (by simpa [stackView, shown, NTree.parts] using hE)
          simpa [stackView] using this
        · intro y hy f hf
          simp only [List.mem_cons] at hy
          rcases hy with rfl | hy
          · exact hz f hf
          · exact hx' y hy f hf
      · rintro f rfl
        exact hz f (by simp [PartsFail, NTree.parts])

end PPP
