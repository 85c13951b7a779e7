import Verif.Proofs.WorkLeast
import Verif.Spec.Nested
/-
Before anything is printed, the notation of the root is written out, up to its choices and children.
-/
namespace PPP
variable {P : PrettyDoc}
open Counted Lean.Order

/-- What remains to be written out for a shape whose outermost construct has been found. -/
def Shape.fixedRest : Shape → Nat
  | .leaf => 0
  | .newline levels => levels
  | .text _ => 0
  | .concat a b => a.fixed + b.fixed
  | .choice _ _ => 0
  | .child _ => 0
  | .step t => t.fixed

theorem Shape.fixed_core (s : Shape) : s.fixed = s.steps + s.core.fixedRest := by
  induction s with
  | step t ih => simp only [Shape.fixed, Shape.steps, Shape.core, ih]; omega
  | _ => simp only [Shape.fixed, Shape.steps, Shape.core, Shape.fixedRest] <;> omega

/-- What remains to be written out for a stack. -/
def fixedL : List Shape → Nat
  | [] => 0
  | s :: ss => s.fixedRest + fixedL ss

theorem evalC_fixed {d : DCN P} {s : Shape} (h : ShapeRep d s) :
    Owes d.evalC s.fixed (fun c φ => CNShape c s.core ∧ φ = s.core.fixedRest) := by
  intro n c hc
  obtain ⟨n', r, h1, _, h3⟩ := h.eval
  rw [hc] at h1
  cases h1
  have := h.steps_le n c hc
  exact ⟨_, ⟨h3 c rfl, rfl⟩, by rw [s.fixed_core]; omega⟩

theorem Chunk.newC_fixed {d : DCN P} {s : Shape} (h : ShapeRep d s) :
    Owes (Chunk.newC d) s.fixed (fun c φ => CNShape c.notn s.core ∧ φ = s.core.fixedRest) := by
  unfold Chunk.newC
  refine Owes.bind (L0 := 0) (k := s.fixed) (Q := fun _ φ => True ∧ φ = 0) (Owes.skip fun _ _ _ => trivial) (by omega) ?_
  rintro id φ ⟨-, rfl⟩
  refine Owes.bind (k := 0) (evalC_fixed h) (by omega) ?_
  rintro c φ ⟨hc, rfl⟩
  exact Owes.pure ⟨hc, rfl⟩

theorem Owes.done {E α : Type} (x : Counted E α) : Owes x 0 (fun _ φ => φ = 0) :=
  fun _ _ _ => ⟨0, rfl, by omega⟩

theorem expandFirstLoopC_fixed (next : List (Block P)) (block : Block P) (stack : List (Chunk P)) :
    ∀ ss, Chunks stack ss → Owes (expandFirstLoopC next block stack) (fixedL ss) (fun _ φ => φ = 0) := by
  revert next block stack
  apply expandFirstLoopC.fixpoint_induct (P := P) (motive := fun f => ∀ next block stack ss, Chunks stack ss →
    Owes (f next block stack) (fixedL ss) (fun _ φ => φ = 0))
  · refine admissible_pi_apply (fun (_ : List (Block P)) (f : Block P → List (Chunk P) → Counted P.Err _) => ∀ block stack ss,
      Chunks stack ss → Owes (f block stack) (fixedL ss) (fun _ φ => φ = 0)) fun next => ?_
    refine admissible_pi_apply (fun (_ : Block P) (f : List (Chunk P) → Counted P.Err _) => ∀ stack ss,
      Chunks stack ss → Owes (f stack) (fixedL ss) (fun _ φ => φ = 0)) fun block => ?_
    refine admissible_pi_apply (fun (stack : List (Chunk P)) x => ∀ ss,
      Chunks stack ss → Owes x (fixedL ss) (fun _ φ => φ = 0)) fun stack => ?_
    exact admissible_pi _ fun ss => admissible_pi _ fun _ => Owes.admissible _ _
  intro f ih next block stack ss hss
  refine Owes.tick ?_
  cases hss with
  | nil => exact Owes.pure (by simp only [fixedL])
  | @cons c s stack ss hc hss =>
    obtain ⟨cn, id⟩ := c
    have push : ∀ next block, s.fixedRest = 0 → Owes (f next block stack) (fixedL (s :: ss) - 1) (fun _ φ => φ = 0) :=
      fun next block h => (ih next block stack ss hss).mono (by simp only [fixedL]; omega) (fun _ _ h => h)
    cases cn <;> dsimp only at hc ⊢
    case empty => exact push _ _ (by cases hc; rfl)
    case focusMark => exact push _ _ (by cases hc; rfl)
    case endOfLine => exact push _ _ (by cases hc; rfl)
    case textual t => exact push _ _ (by cases hc <;> rfl)
    case child i d =>
      obtain ⟨t, rfl, _⟩ := hc.inv
      exact push _ _ rfl
    case choice d1 d2 =>
      obtain ⟨s1, s2, rfl, _, _⟩ := hc.inv
      exact push _ _ rfl
    case newline ind =>
      have hs : s.fixedRest = ind.length := by
        cases hc with
        | leaf h => rcases h with h | h | h <;> cases h
        | newline => rfl
      refine Owes.bind (k := fixedL ss) (Block.newC_owes ind block.chunks) (by simp only [fixedL]; omega) ?_
      rintro b ψ ⟨hb, rfl⟩
      exact (ih _ _ stack ss hss).mono (by omega) (fun _ _ h => h)
    case concat l r =>
      obtain ⟨sa, sb, rfl, ha, hb⟩ : ∃ sa sb, s = .concat sa sb ∧ ShapeRep l sa ∧ ShapeRep r sb := by
        cases hc with
        | leaf h => rcases h with h | h | h <;> cases h
        | concat ha hb => exact ⟨_, _, rfl, ha, hb⟩
      simp only [fixedL, Shape.fixedRest]
      refine Owes.bind (k := fixedL ss + sb.fixed) (Chunk.newC_fixed ha) (by omega) ?_
      rintro c1 ψ ⟨h1, rfl⟩
      refine Owes.bind (k := fixedL ss + sa.core.fixedRest) (Chunk.newC_fixed hb) (by omega) ?_
      rintro c2 ψ ⟨h2, rfl⟩
      exact (ih next block (c2 :: c1 :: stack) (sb.core :: sa.core :: ss)
        (.cons h2 (.cons h1 hss))).mono (by simp only [fixedL]; omega) (fun _ _ h => h)

theorem expandFirstC_fixed (next : List (Block P)) (block : Block P) {c : Chunk P} {s} (h : CNShape c.notn s) :
    Owes (expandFirstC next block c) s.fixedRest (fun _ φ => φ = 0) :=
  (expandFirstLoopC_fixed next block [c] [s] (.cons h .nil)).mono (by simp only [fixedL]; omega) (fun _ _ h => h)

theorem expandLastLoopC_fixed (prev : List (Block P)) (block : Block P) (chunks stack : List (Chunk P)) :
    ∀ ss, Chunks stack ss → Owes (expandLastLoopC prev block chunks stack) (fixedL ss) (fun _ φ => φ = 0) := by
  revert prev block chunks stack
  apply expandLastLoopC.fixpoint_induct (P := P) (motive := fun f => ∀ prev block chunks stack ss, Chunks stack ss →
    Owes (f prev block chunks stack) (fixedL ss) (fun _ φ => φ = 0))
  · refine admissible_pi_apply (fun (_ : List (Block P)) (f : Block P → List (Chunk P) → List (Chunk P) → Counted P.Err _) =>
      ∀ block chunks stack ss, Chunks stack ss → Owes (f block chunks stack) (fixedL ss) (fun _ φ => φ = 0)) fun next => ?_
    refine admissible_pi_apply (fun (_ : Block P) (f : List (Chunk P) → List (Chunk P) → Counted P.Err _) => ∀ chunks stack ss,
      Chunks stack ss → Owes (f chunks stack) (fixedL ss) (fun _ φ => φ = 0)) fun block => ?_
    refine admissible_pi_apply (fun (_ : List (Chunk P)) (f : List (Chunk P) → Counted P.Err _) => ∀ stack ss,
      Chunks stack ss → Owes (f stack) (fixedL ss) (fun _ φ => φ = 0)) fun chunks => ?_
    refine admissible_pi_apply (fun (stack : List (Chunk P)) x => ∀ ss,
      Chunks stack ss → Owes x (fixedL ss) (fun _ φ => φ = 0)) fun stack => ?_
    exact admissible_pi _ fun ss => admissible_pi _ fun _ => Owes.admissible _ _
  intro f ih prev block chunks stack ss hss
  refine Owes.tick ?_
  cases hss with
  | nil => exact (Owes.done _).mono (by simp only [fixedL]; omega) (fun _ _ h => h)
  | @cons c s stack ss hc hss =>
    obtain ⟨cn, id⟩ := c
    have push : ∀ prev block chunks, s.fixedRest = 0 →
        Owes (f prev block chunks stack) (fixedL (s :: ss) - 1) (fun _ φ => φ = 0) :=
      fun prev block chunks h => (ih prev block chunks stack ss hss).mono (by simp only [fixedL]; omega) (fun _ _ h => h)
    cases cn <;> dsimp only at hc ⊢
    case empty => exact push _ _ _ (by cases hc; rfl)
    case focusMark => exact push _ _ _ (by cases hc; rfl)
    case endOfLine => exact push _ _ _ (by cases hc; rfl)
    case textual t => exact push _ _ _ (by cases hc <;> rfl)
    case child i d =>
      obtain ⟨t, rfl, _⟩ := hc.inv
      exact push _ _ _ rfl
    case choice d1 d2 =>
      obtain ⟨s1, s2, rfl, _, _⟩ := hc.inv
      exact push _ _ _ rfl
    case newline ind =>
      have hs : s.fixedRest = ind.length := by
        cases hc with
        | leaf h => rcases h with h | h | h <;> cases h
        | newline => rfl
      refine Owes.tick ?_
      refine (Owes.bind (L := fixedL (s :: ss) - 1) (k := fixedL ss) (Block.newC_owes ind block.chunks)
        (by simp only [fixedL]; omega) ?_).mono (by omega) (fun _ _ h => h)
      rintro b ψ ⟨hb, rfl⟩
      exact (ih _ _ _ stack ss hss).mono (by omega) (fun _ _ h => h)
    case concat l r =>
      obtain ⟨sa, sb, rfl, ha, hb⟩ : ∃ sa sb, s = .concat sa sb ∧ ShapeRep l sa ∧ ShapeRep r sb := by
        cases hc with
        | leaf h => rcases h with h | h | h <;> cases h
        | concat ha hb => exact ⟨_, _, rfl, ha, hb⟩
      simp only [fixedL, Shape.fixedRest]
      refine Owes.bind (k := fixedL ss + sa.fixed) (Chunk.newC_fixed hb) (by omega) ?_
      rintro c1 ψ ⟨h1, rfl⟩
      refine Owes.bind (k := fixedL ss + sb.core.fixedRest) (Chunk.newC_fixed ha) (by omega) ?_
      rintro c2 ψ ⟨h2, rfl⟩
      exact (ih prev block chunks (c2 :: c1 :: stack) (sa.core :: sb.core :: ss)
        (.cons h2 (.cons h1 hss))).mono (by simp only [fixedL]; omega) (fun _ _ h => h)

theorem expandLastC_fixed (prev : List (Block P)) (block : Block P) {c : Chunk P} {s} (h : CNShape c.notn s) :
    Owes (expandLastC prev block c) s.fixedRest (fun _ φ => φ = 0) :=
  (expandLastLoopC_fixed prev block [] [c] [s] (.cons h .nil)).mono (by simp only [fixedL]; omega) (fun _ _ h => h)

theorem Owes.then_done {E α β : Type} {x : Counted E α} {f : α → Counted E β} {L : Nat}
    (h : Owes x L (fun _ φ => φ = 0)) : Owes (x >>= f) L (fun _ φ => φ = 0) :=
  Owes.bind (k := 0) h (by omega) fun _ φ hφ => by subst hφ; exact Owes.done _

theorem seekC_fixed (law : P.Lawful) (scan : Nat) (p : Printer P) (doc : P.Node) (path : List Nat)
    (target : FocusTarget) (style : Option P.Style) :
    Owes (p.seekC scan doc path target style) (docShape law doc false 0).fixed (fun _ φ => φ = 0) := by
  unfold Printer.seekC
  have hroot : Owes (DCN.withOptionalStyleC doc style) 0
      (fun d φ => ShapeRep d (docShape law doc false 0) ∧ φ = 0) := by
    refine Owes.skip fun n d hd => ?_
    obtain ⟨m, r, h1, _, h3⟩ := rootC_pays law doc style
    rw [hd] at h1
    cases h1
    obtain ⟨_, ⟨g, _⟩, _⟩ := h3 _ rfl
    exact g
  refine Owes.bind (k := (docShape law doc false 0).fixed) hroot (by omega) ?_
  rintro d φ ⟨hd, rfl⟩
  refine Owes.bind (k := 0) (Chunk.newC_fixed hd) (by omega) ?_
  rintro c φ ⟨hc, rfl⟩
  obtain ⟨w, prev, next⟩ := p
  cases path with
  | cons i path =>
    show Owes ((Counted.tick 1 >>= fun _ => Printer.seekChildC scan ⟨w, prev, next⟩ c i >>= _) >>= _) _ _
    refine Owes.then_done ?_
    refine Owes.tick ?_
    refine Owes.then_done ?_
    unfold Printer.seekChildC
    cases next with
    | nil => exact Owes.panic
    | cons b bs => exact Owes.then_done ((expandFirstC_fixed bs b hc).mono (by omega) fun _ _ h => h)
  | nil =>
    cases next with
    | nil =>
      unfold Printer.seekPathC
      rw [pure_bind']
      cases target <;> exact Owes.panic
    | cons b bs =>
      unfold Printer.seekPathC
      rw [pure_bind']
      cases target with
      | start => exact Owes.then_done (expandFirstC_fixed bs b hc)
      | «end» => exact Owes.then_done (expandLastC_fixed prev b hc)
      | mark => exact Owes.then_done (expandFirstC_fixed bs b hc)
      | text pos => exact Owes.then_done (expandFirstC_fixed bs b hc)

theorem prettyPrintC_fixed (law : P.Lawful) (scan : Nat) (doc : P.Node) (w : Nat) (path : List Nat)
    (target : FocusTarget) (style : Option P.Style) :
    Owes (prettyPrintC scan doc w path target style) (docShape law doc false 0).fixed (fun _ φ => φ = 0) := by
  unfold prettyPrintC
  refine Owes.bind (L0 := 0) (k := (docShape law doc false 0).fixed) (Owes.done _) (by omega) ?_
  rintro p φ rfl
  rw [Nat.zero_add]
  exact Owes.then_done (seekC_fixed law scan p doc path target style)

end PPP
