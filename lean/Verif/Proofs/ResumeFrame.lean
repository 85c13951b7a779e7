import Verif.Proofs.ResumeMain
/-
What is further down the stack of blocks plays no role until its turn comes.
-/
namespace PPP
variable {P : PrettyDoc}
open Lean.Order

section
variable {β : Type} {E α : Type}

/-- `y` does from the stack `s ++ t` what `x` does from `s`. -/
def KFr (t : List β) (x y : Keep (List β) E α) : Prop :=
  ∀ s r s', x.run s = some (r, s') → y.run (s ++ t) = some (r, s' ++ t)

theorem KFr.admissible (t : List β) (y : Keep (List β) E α) :
    Lean.Order.admissible fun x : Keep (List β) E α => KFr t x y := by
  apply admissible_pi
  intro s
  apply admissible_pi
  intro r
  apply admissible_pi
  intro s'
  exact admissible_apply (P := fun (_ : List β) (x : Option (Except (Fail E) α × List β)) =>
    x = some (r, s') → y.run (s ++ t) = some (r, s' ++ t)) (x := s) (Option.admissible_eq_some _ _)

theorem KFr.of {t : List β} (x : Exec E α) : KFr t (Keep.of x) (Keep.of x) := by
  intro s r s' h
  rw [Keep.run_of] at h ⊢
  cases hx : x.run with
  | none => rw [hx] at h; cases h
  | some r0 =>
    rw [hx] at h
    simp only [Option.map_some, Option.some.injEq, Prod.mk.injEq] at h ⊢
    obtain ⟨rfl, rfl⟩ := h
    exact ⟨rfl, rfl⟩

theorem KFr.pure {t : List β} (a : α) : KFr (E := E) t (pure a) (pure a) := by
  intro s r s' h
  rw [Keep.run_pure] at h ⊢
  simp only [Option.some.injEq, Prod.mk.injEq] at h ⊢
  obtain ⟨rfl, rfl⟩ := h
  exact ⟨rfl, rfl⟩

theorem KFr.bind {γ : Type} {t : List β} {x y : Keep (List β) E α} {f g : α → Keep (List β) E γ}
    (h : KFr t x y) (hf : ∀ a, KFr t (f a) (g a)) : KFr t (x >>= f) (y >>= g) := by
  intro s r s' hr
  rw [Keep.run_bind] at hr ⊢
  match hx : x.run s with
  | none => rw [hx] at hr; cases hr
  | some (.ok a, s1) =>
    rw [hx] at hr
    rw [h _ _ _ hx]
    exact hf a _ _ _ hr
  | some (.error e, s1) =>
    rw [hx] at hr
    rw [h _ _ _ hx]
    simp only [Option.some.injEq, Prod.mk.injEq] at hr ⊢
    obtain ⟨rfl, rfl⟩ := hr
    exact ⟨rfl, rfl⟩
end

theorem KFr.push {t : List (Block P)} (b : Block P) : KFr t (pushBlock b) (pushBlock b) := by
  intro s r s' h
  have h : some (Except.ok (), b :: s) = some (r, s') := h
  simp only [Option.some.injEq, Prod.mk.injEq] at h
  obtain ⟨rfl, rfl⟩ := h
  rfl

theorem expandFirstLoopK_frame (t : List (Block P)) (block : Block P) (stack : List (Chunk P)) :
    KFr t (expandFirstLoopK block stack) (expandFirstLoopK block stack) := by
  revert block stack
  apply expandFirstLoopK.fixpoint_induct (motive := fun F => ∀ block stack,
    KFr t (F block stack) (expandFirstLoopK block stack))
  · exact admissible_pi_apply _ fun _ => admissible_pi_apply _ fun _ => KFr.admissible _ _
  · intro F ih block stack
    rw [expandFirstLoopK.eq_def]
    cases stack with
    | nil => exact .pure _
    | cons chunk stack =>
      obtain ⟨cn, id⟩ := chunk
      cases cn with
      | empty => exact ih _ _
      | textual t => exact ih _ _
      | choice a b => exact ih _ _
      | child i c => exact ih _ _
      | endOfLine => exact ih _ _
      | focusMark => exact ih _ _
      | newline ind => exact .bind (.of _) fun b => .bind (.push _) fun _ => ih _ _
      | concat l r => exact .bind (.of _) fun a => .bind (.of _) fun b => ih _ _

theorem expandLastLoopK_frame (t : List (Block P)) (block : Block P) (chunks stack : List (Chunk P)) :
    KFr t (expandLastLoopK block chunks stack) (expandLastLoopK block chunks stack) := by
  revert block chunks stack
  apply expandLastLoopK.fixpoint_induct (motive := fun F => ∀ block chunks stack,
    KFr t (F block chunks stack) (expandLastLoopK block chunks stack))
  · exact admissible_pi_apply _ fun _ => admissible_pi_apply _ fun _ => admissible_pi_apply _ fun _ =>
      KFr.admissible _ _
  · intro F ih block chunks stack
    rw [expandLastLoopK.eq_def]
    cases stack with
    | nil => exact .pure _
    | cons chunk stack =>
      obtain ⟨cn, id⟩ := chunk
      cases cn with
      | empty => exact ih _ _ _
      | textual t => exact ih _ _ _
      | choice a b => exact ih _ _ _
      | child i c => exact ih _ _ _
      | endOfLine => exact ih _ _ _
      | focusMark => exact ih _ _ _
      | newline ind => exact .bind (.push _) fun _ => .bind (.of _) fun b => ih _ _ _
      | concat l r => exact .bind (.of _) fun a => .bind (.of _) fun b => ih _ _ _

theorem expandK_frame (dir : Dir) (t : List (Block P)) (block : Block P) (chunk : Chunk P) :
    KFr t (expandK dir block chunk) (expandK dir block chunk) := by
  cases dir with
  | up => exact expandLastLoopK_frame t _ _ _
  | down => exact expandFirstLoopK_frame t _ _

theorem printLoopK_frame (dir : Dir) (w : Nat) (t : List (Block P)) (block : Block P) :
    KFr t (printLoopK dir w block) (printLoopK dir w block) := by
  revert block
  apply printLoopK.fixpoint_induct (dir := dir) (width := w) (motive := fun F => ∀ block,
    KFr t (F block) (printLoopK dir w block))
  · exact admissible_pi_apply _ fun _ => KFr.admissible _ _
  · intro F ih block
    rw [printLoopK.eq_def]
    obtain ⟨segs, col, eol, chunks⟩ := block
    cases chunks with
    | nil => exact .of _
    | cons chunk chunks =>
      obtain ⟨cn, id⟩ := chunk
      cases cn with
      | empty => exact .of _
      | textual t => exact .bind (.of _) fun b => ih _
      | choice a b => exact .bind (.of _) fun c => .bind (expandK_frame dir t _ _) fun b => ih _
      | child i c => exact .bind (.of _) fun c => .bind (expandK_frame dir t _ _) fun b => ih _
      | endOfLine => exact ih _
      | focusMark => exact ih _
      | newline ind => exact .of _
      | concat l r => exact .of _

/-- A call of `next` on a stack with something below. -/
theorem nextK_frame {dir : Dir} {w : Nat} {s : List (Block P)} {x s'} (t : List (Block P))
    (h : nextK dir w s = Exec.ofRes (.ok (some x, s'))) :
    nextK dir w (s ++ t) = Exec.ofRes (.ok (some x, s' ++ t)) := by
  cases s with
  | nil => exact absurd (Exec.ofRes_inj h) (by simp)
  | cons b s =>
    unfold nextK at h ⊢
    simp only [List.cons_append] at h ⊢
    match hr : (printLoopK dir w b).run s with
    | none => rw [hr] at h; cases h
    | some (r, s1) =>
      rw [hr] at h
      rw [printLoopK_frame dir w t b _ _ _ hr]
      cases r with
      | ok line =>
        have := Exec.ofRes_inj h
        simp only [Except.ok.injEq, Prod.mk.injEq, Option.some.injEq] at this
        obtain ⟨rfl, rfl⟩ := this
        rfl
      | error f =>
        cases f with
        | err e =>
          have := Exec.ofRes_inj h
          simp only [Except.ok.injEq, Prod.mk.injEq, Option.some.injEq] at this
          obtain ⟨rfl, rfl⟩ := this
          rfl
        | panic => exact absurd (Exec.ofRes_inj h) (by simp)
        | overflow => exact absurd (Exec.ofRes_inj h) (by simp)

end PPP
