import Verif.Proofs.WorkShape
import Mathlib.Data.List.Forall2
/-
How the work of the printer is paid for: every delayed notation, chunk and block carries a potential, and
every function of the printer is shown to take at most as many steps as the potential decreases.
-/
namespace PPP
variable {P : PrettyDoc}
open Counted

/-! ### Looking further ahead is more work -/

theorem Shape.ahead_mono (s : Shape) {h h' : Nat → Nat} (H : ∀ r, h r ≤ h' r) (r : Nat) :
    s.ahead h r ≤ s.ahead h' r := by
  induction s generalizing h h' r with
  | leaf => have := H r; simp only [Shape.ahead]; omega
  | newline => simp only [Shape.ahead]; omega
  | text w =>
    have := H (r - w)
    simp only [Shape.ahead]; split <;> omega
  | concat a b iha ihb =>
    have := iha (fun r => ihb H r) r
    simp only [Shape.ahead]; omega
  | choice a b iha ihb => have := ihb H r; simp only [Shape.ahead]; omega
  | child t ih => have := ih H r; simp only [Shape.ahead]; omega
  | step t ih => have := ih H r; simp only [Shape.ahead]; omega

theorem Shape.ahead_room (s : Shape) {h : Nat → Nat} (H : ∀ r r', r ≤ r' → h r ≤ h r') (r r' : Nat)
    (hr : r ≤ r') : s.ahead h r ≤ s.ahead h r' := by
  induction s generalizing h r r' with
  | leaf => have := H r r' hr; simp only [Shape.ahead]; omega
  | newline => simp only [Shape.ahead]; omega
  | text w =>
    have := H (r - w) (r' - w) (by omega)
    simp only [Shape.ahead]; split <;> split <;> omega
  | concat a b iha ihb =>
    have := iha (fun r r' hr => ihb H r r' hr) r r' hr
    simp only [Shape.ahead]; omega
  | choice a b iha ihb => have := ihb H r r' hr; simp only [Shape.ahead]; omega
  | child t ih => have := ih H r r' hr; simp only [Shape.ahead]; omega
  | step t ih => have := ih H r r' hr; simp only [Shape.ahead]; omega

theorem Shape.work_mono (w : Nat) (s : Shape) {h h' : Nat → Nat} (H : ∀ r, h r ≤ h' r) :
    s.work w h ≤ s.work w h' := by
  induction s generalizing h h' with
  | concat a b iha ihb =>
    have := iha (fun r => b.ahead_mono H r)
    have := ihb H
    simp only [Shape.work]; omega
  | choice a b iha ihb =>
    have := iha H
    have := ihb H
    have := a.ahead_mono H w
    simp only [Shape.work]; omega
  | child t ih => have := ih H; simp only [Shape.work]; omega
  | step t ih => have := ih H; simp only [Shape.work]; omega
  | _ => simp only [Shape.work]; omega

theorem Shape.core_ahead_le (s : Shape) (h : Nat → Nat) (r : Nat) : s.core.ahead h r ≤ s.ahead h r := by
  have := s.ahead_core h r
  have := s.steps_pos
  omega

theorem Shape.ahead_pos (s : Shape) (h : Nat → Nat) (r : Nat) : 1 ≤ s.ahead h r := by
  cases s <;> simp only [Shape.ahead] <;> omega

/-- Nothing comes after. -/
def nil : Nat → Nat := fun _ => 0

/-- What is looked at in a list of shapes. -/
def aheadL : List Shape → (Nat → Nat) → Nat → Nat
  | [], h => h
  | s :: ss, h => s.ahead (aheadL ss h)

theorem aheadL_append (ss ts : List Shape) (h) : aheadL (ss ++ ts) h = aheadL ss (aheadL ts h) := by
  induction ss with
  | nil => rfl
  | cons s ss ih => simp only [List.cons_append, aheadL, ih]

theorem aheadL_mono (ss : List Shape) {h h' : Nat → Nat} (H : ∀ r, h r ≤ h' r) (r : Nat) :
    aheadL ss h r ≤ aheadL ss h' r := by
  induction ss generalizing r with
  | nil => exact H r
  | cons s ss ih => exact s.ahead_mono ih r

theorem aheadL_room (ss : List Shape) {h : Nat → Nat} (H : ∀ r r', r ≤ r' → h r ≤ h r') (r r' : Nat)
    (hr : r ≤ r') : aheadL ss h r ≤ aheadL ss h r' := by
  induction ss generalizing r r' with
  | nil => exact H r r' hr
  | cons s ss ih => exact s.ahead_room ih r r' hr

/-- The potential of a list of shapes that follow each other on a line. -/
def lpot (w δ : Nat) : List Shape → (Nat → Nat) → Nat
  | [], _ => 0
  | s :: ss, h => 12 * s.work w (aheadL ss h) - δ + lpot w δ ss h

theorem lpot_append (w δ) (ss ts : List Shape) (h) :
    lpot w δ (ss ++ ts) h = lpot w δ ss (aheadL ts h) + lpot w δ ts h := by
  induction ss with
  | nil => simp only [List.nil_append, lpot]; omega
  | cons s ss ih => simp only [List.cons_append, lpot, ih, aheadL_append]; omega

theorem lpot_mono (w δ) (ss : List Shape) {h h' : Nat → Nat} (H : ∀ r, h r ≤ h' r) :
    lpot w δ ss h ≤ lpot w δ ss h' := by
  induction ss with
  | nil => exact Nat.le_refl _
  | cons s ss ih =>
    have := s.work_mono w (aheadL_mono ss H)
    simp only [lpot]; omega

theorem lpot_seven (w) (ss : List Shape) (h) : lpot w 8 ss h + ss.length ≤ lpot w 7 ss h := by
  induction ss with
  | nil => exact Nat.le_refl _
  | cons s ss ih =>
    have := s.work_pos w (aheadL ss h)
    simp only [lpot, List.length_cons]; omega

theorem length_le_lpot (w) (ss : List Shape) (h) : ss.length ≤ lpot w 8 ss h := by
  induction ss with
  | nil => exact Nat.le_refl _
  | cons s ss ih =>
    have := s.work_pos w (aheadL ss h)
    simp only [lpot, List.length_cons]; omega

/-! ### Paying -/

/-- The computation ends; its steps, each of which costs `1 / m`, are paid for out of `B`, and if it
    returns a value then something is left over that satisfies `Q`. -/
def Pays {E α : Type} (m : Nat) (x : Counted E α) (B : Nat) (Q : α → Nat → Prop) : Prop :=
  ∃ n r, x = some (n, r) ∧ n ≤ m * B ∧ ∀ a, r = .ok a → ∃ φ, Q a φ ∧ n + m * φ ≤ m * B

namespace Pays
variable {E α β : Type} {m : Nat}

theorem pure {a : α} {B : Nat} {Q : α → Nat → Prop} (h : Q a B) :
    Pays m (Pure.pure a : Counted E α) B Q := by
  refine ⟨0, .ok a, rfl, by omega, fun a' ha => ?_⟩
  injection ha with ha
  subst ha
  exact ⟨B, h, by omega⟩

theorem mono {x : Counted E α} {B B' : Nat} {Q Q' : α → Nat → Prop} (h : Pays m x B Q) (hB : B ≤ B')
    (hQ : ∀ a φ, Q a φ → Q' a φ) : Pays m x B' Q' := by
  obtain ⟨n, r, h1, h2, h3⟩ := h
  have := Nat.mul_le_mul_left m hB
  refine ⟨n, r, h1, by omega, fun a ha => ?_⟩
  obtain ⟨φ, h4, h5⟩ := h3 a ha
  exact ⟨φ, hQ a φ h4, by omega⟩

theorem scale {x : Counted E α} {B : Nat} {Q : α → Nat → Prop} (h : Pays 1 x B Q) (hm : 1 ≤ m) :
    Pays m x B Q := by
  obtain ⟨n, r, h1, h2, h3⟩ := h
  rw [Nat.one_mul] at h2
  have hn : n ≤ m * n := Nat.le_mul_of_pos_left n hm
  have := Nat.mul_le_mul_left m h2
  refine ⟨n, r, h1, by omega, fun a ha => ?_⟩
  obtain ⟨φ, h4, h5⟩ := h3 a ha
  rw [Nat.one_mul, Nat.one_mul] at h5
  have := Nat.mul_le_mul_left m h5
  rw [Nat.mul_add] at this
  exact ⟨φ, h4, by omega⟩

/-- Run `x` with `B0`, and continue with what is left over and the rest. -/
theorem bind {x : Counted E α} {f : α → Counted E β} {B B0 k : Nat} {Q : α → Nat → Prop}
    {R : β → Nat → Prop} (hx : Pays m x B0 Q) (hB : B0 + k ≤ B)
    (hf : ∀ a φ, Q a φ → φ ≤ B0 → Pays m (f a) (φ + k) R) (hm : 1 ≤ m := by omega) :
    Pays m (x >>= f) B R := by
  obtain ⟨n, r, rfl, h2, h3⟩ := hx
  have hB' := Nat.mul_le_mul_left m hB
  rw [Nat.mul_add] at hB'
  match r with
  | .error e =>
    exact ⟨n, .error e, rfl, by omega, fun a ha => by cases ha⟩
  | .ok a =>
    obtain ⟨φ, h4, h5⟩ := h3 a rfl
    have hφ : φ ≤ B0 := by
      have : m * φ ≤ m * B0 := by omega
      exact Nat.le_of_mul_le_mul_left this hm
    obtain ⟨n', r', g1, g2, g3⟩ := hf a φ h4 hφ
    rw [Nat.mul_add] at g2 g3
    refine ⟨n + n', r', ?_, by omega, fun b hb => ?_⟩
    · show Counted.andThen (some (n, .ok a)) f = _
      simp only [andThen, g1]
      rfl
    · obtain ⟨φ', g4, g5⟩ := g3 b hb
      exact ⟨φ', g4, by omega⟩

theorem tick {X : Counted E β} {B j k : Nat} {R : β → Nat → Prop} (hj : j ≤ m * k) (hk : k ≤ B)
    (h : Pays m X (B - k) R) : Pays m (Counted.tick j >>= fun _ => X) B R := by
  obtain ⟨n, r, rfl, h2, h3⟩ := h
  have hB : m * (B - k) + m * k = m * B := by
    rw [← Nat.mul_add]; congr 1; omega
  refine ⟨j + n, r, rfl, by omega, fun a ha => ?_⟩
  obtain ⟨φ, h4, h5⟩ := h3 a ha
  exact ⟨φ, h4, by omega⟩

theorem tick1 {X : Counted E β} {B k : Nat} {R : β → Nat → Prop} (hk : k ≤ B)
    (h : Pays 1 X (B - k) R) : Pays 1 (Counted.tick k >>= fun _ => X) B R :=
  tick (by omega) hk h

theorem free {r : Res E α} {x : Exec E α} {B : Nat} {Q : α → Nat → Prop} (hx : x = Exec.ofRes r)
    (h : ∀ a, r = .ok a → Q a B) : Pays m x.free B Q := by
  subst hx
  exact ⟨0, r, rfl, by omega, fun a ha => ⟨B, h a ha, by omega⟩⟩

theorem panic {B : Nat} {Q : α → Nat → Prop} : Pays m (panicking : Exec E α).free B Q :=
  free rfl fun _ h => by cases h

theorem throw {e : PrintingError E} {B : Nat} {Q : α → Nat → Prop} :
    Pays m (throwErr e : Exec E α).free B Q :=
  free rfl fun _ h => by cases h

theorem call {c : Call E α} {B : Nat} (hB : 1 ≤ B) : Pays 1 (callC c) B (fun a φ => c = .ok a ∧ φ = B - 1) := by
  cases c with
  | error e => exact ⟨1, .error e.toFail, rfl, by omega, fun a h => by cases h⟩
  | ok a =>
    refine ⟨1, .ok a, rfl, by omega, fun a' h => ?_⟩
    injection h with h
    subst h
    exact ⟨B - 1, ⟨rfl, rfl⟩, by omega⟩

end Pays

/-! ### Evaluating -/

theorem evalC_pays {d : DCN P} {s : Shape} (h : ShapeRep d s) :
    Pays 1 d.evalC (5 * s.steps) (fun c φ => CNShape c s.core ∧ φ = 0) := by
  obtain ⟨n, r, h1, h2, h3⟩ := h.eval
  exact ⟨n, r, h1, by omega, fun c hc => ⟨0, ⟨h3 c hc, rfl⟩, by omega⟩⟩

theorem Chunk.newC_pays {d : DCN P} {s : Shape} (h : ShapeRep d s) :
    Pays 1 (Chunk.newC d) (1 + 5 * s.steps) (fun c φ => CNShape c.notn s.core ∧ φ = 0) := by
  unfold Chunk.newC
  refine Pays.bind (B0 := 1) (k := 5 * s.steps) (Pays.call (Nat.le_refl 1)) (Nat.le_refl _) ?_
  rintro id φ ⟨-, rfl⟩ -
  refine Pays.bind (k := 0) (evalC_pays h) (by omega) ?_
  rintro c φ ⟨hc, rfl⟩ -
  exact Pays.pure ⟨hc, rfl⟩

/-- The chunks have these shapes. -/
def Chunks (cs : List (Chunk P)) (ks : List Shape) : Prop :=
  List.Forall₂ (fun c s => CNShape c.notn s) cs ks

theorem Chunks.nil_iff {ks : List Shape} : Chunks ([] : List (Chunk P)) ks ↔ ks = [] := by
  unfold Chunks; simp

theorem Chunks.length {cs : List (Chunk P)} {ks} (h : Chunks cs ks) : cs.length = ks.length :=
  List.Forall₂.length_eq h

theorem fitsLoopC_pays (B : Nat) : ∀ (cs : List (Chunk P)) (ks : List Shape) (room : Nat)
    (ns : List (CN P)) (ss : List Shape) (atEol : Bool), Chunks cs ks → List.Forall₂ CNShape ns ss →
    7 * aheadL (ss ++ ks) nil room + (if ss = [] then 1 else 0) ≤ B →
    Pays 1 (fitsLoopC cs room ns atEol) B (fun _ φ => φ = 0) := by
  induction B using Nat.strongRecOn with
  | _ B ih =>
    intro cs ks room ns ss atEol hcs hns hB
    rw [fitsLoopC.eq_def]
    have done : ∀ b : Bool, 1 ≤ B → Pays 1 (Counted.tick 1 >>= fun _ => (Pure.pure b : Counted P.Err Bool)) B
        (fun _ φ => φ = 0) := by
      intro b hB
      refine Pays.tick1 hB ?_
      exact Pays.mono (B := 0) (Q := fun _ φ => φ = 0) (Pays.pure rfl) (Nat.zero_le _) (fun _ _ h => h)
    cases hns with
    | nil =>
      simp only [if_true, List.nil_append] at hB
      cases hcs with
      | nil => exact done _ (by omega)
      | @cons c k cs ks hc hcs =>
        refine Pays.tick1 (by omega) ?_
        refine ih (B - 1) (by omega) cs ks room [c.notn] [k] atEol hcs (.cons hc .nil) ?_
        simp only [List.singleton_append, List.cons_ne_nil, if_false]
        omega
    | @cons n s ns ss hn hns =>
      simp only [List.cons_ne_nil, if_false, List.cons_append, aheadL, Nat.add_zero] at hB
      have rest : ∀ room at', 7 + 7 * aheadL (ss ++ ks) nil room ≤ B →
          Pays 1 (Counted.tick 1 >>= fun _ => fitsLoopC cs room ns at') B (fun _ φ => φ = 0) := by
        intro room at' h
        refine Pays.tick1 (by omega) ?_
        refine ih (B - 1) (by omega) cs ks room ns ss at' hcs hns ?_
        split <;> omega
      -- replace the head
      have repl : ∀ (d : DCN P) (s' : Shape), ShapeRep d s' →
          7 * s'.ahead (aheadL (ss ++ ks) nil) room + 7 ≤ B → ∀ at',
          Pays 1 (Counted.tick 1 >>= fun _ => d.evalC >>= fun n => fitsLoopC cs room (n :: ns) at') B
            (fun _ φ => φ = 0) := by
        intro d s' hd h at'
        have h1 := s'.ahead_core (aheadL (ss ++ ks) nil) room
        have p1 := s'.steps_pos
        refine Pays.tick1 (by omega) ?_
        refine Pays.bind (k := B - 1 - 5 * s'.steps) (evalC_pays hd) (by omega) ?_
        rintro n φ ⟨hn, rfl⟩ -
        refine ih _ (by omega) cs ks room (n :: ns) (s'.core :: ss) at' hcs (.cons hn hns) ?_
        simp only [List.cons_ne_nil, if_false, List.cons_append, aheadL]
        omega
      cases hn with
      | leaf hl =>
        simp only [Shape.ahead] at hB
        rcases hl with rfl | rfl | rfl <;> exact rest _ _ (by omega)
      | newline =>
        simp only [Shape.ahead] at hB
        exact done _ (by omega)
      | @text t =>
        simp only [Shape.ahead] at hB
        cases atEol with
        | true => exact done _ (by omega)
        | false =>
          simp only [Bool.false_eq_true, if_false]
          split
          · rename_i hw
            rw [if_pos hw] at hB
            exact rest _ _ (by omega)
          · exact done _ (by omega)
      | @child i d s' hd =>
        simp only [Shape.ahead] at hB
        exact repl d s' hd (by omega) _
      | @choice d1 d2 s1 s2 hd1 hd2 =>
        simp only [Shape.ahead] at hB
        exact repl d2 s2 hd2 (by omega) _
      | @concat d1 d2 s1 s2 hd1 hd2 =>
        simp only [Shape.ahead] at hB
        have h1 := s1.ahead_core (s2.ahead (aheadL (ss ++ ks) nil)) room
        have p1 := s1.steps_pos
        have p2 := s2.steps_pos
        have h2 := s1.core.ahead_mono (s2.core_ahead_le (aheadL (ss ++ ks) nil)) room
        refine Pays.tick1 (by omega) ?_
        refine Pays.bind (k := B - 1 - 5 * s2.steps) (evalC_pays hd2) (by omega) ?_
        rintro n2 φ ⟨hn2, rfl⟩ -
        refine Pays.bind (k := B - 1 - 5 * s2.steps - 5 * s1.steps) (evalC_pays hd1) (by omega) ?_
        rintro n1 φ ⟨hn1, rfl⟩ -
        refine ih _ (by omega) cs ks room (n1 :: n2 :: ns) (s1.core :: s2.core :: ss) atEol hcs
          (.cons hn1 (.cons hn2 hns)) ?_
        simp only [List.cons_ne_nil, if_false, List.cons_append, aheadL]
        omega

theorem fitsC_pays {w : Nat} {n : CN P} {s : Shape} {cs : List (Chunk P)} {ks} (hn : CNShape n s)
    (hcs : Chunks cs ks) {room : Nat} (hr : room ≤ w) (atEol) :
    Pays 1 (fitsC room atEol n cs) (7 * s.ahead (aheadL ks nil) w) (fun _ φ => φ = 0) := by
  refine fitsLoopC_pays _ cs ks room [n] [s] atEol hcs (.cons hn .nil) ?_
  simp only [List.cons_ne_nil, if_false, List.singleton_append, aheadL]
  have := s.ahead_room (aheadL_room ks (h := nil) (fun _ _ _ => Nat.le_refl _)) room w hr
  omega

theorem chooseC_pays {w : Nat} {block : Block P} {d1 d2 : DCN P} {s1 s2 : Shape} {ks}
    (h1 : ShapeRep d1 s1) (h2 : ShapeRep d2 s2) (hcs : Chunks block.chunks ks) :
    Pays 1 (chooseC w block d1 d2)
      (3 + 12 * (s1.ahead (aheadL ks nil) w + max (s1.work w (aheadL ks nil)) (s2.work w (aheadL ks nil))))
      (fun c φ => ∃ s, CNShape c.notn s ∧ 12 * s.work w (aheadL ks nil) - 6 + 2 ≤ φ) := by
  generalize hA : aheadL ks nil = h
  have e1 := s1.ahead_core h w
  have e2 := s1.work_core w h
  have e3 := s2.work_core w h
  have p1 := s1.steps_pos
  have p2 := s2.steps_pos
  have p3 := s1.core.ahead_pos h w
  have p4 := s1.core.work_pos w h
  have p5 := s2.core.work_pos w h
  generalize hB : 3 + 12 * (s1.ahead h w + max (s1.work w h) (s2.work w h)) = B
  unfold chooseC
  refine Pays.bind (k := B - (1 + 5 * s1.steps)) (Chunk.newC_pays h1) (by omega) ?_
  rintro c1 φ ⟨hc1, rfl⟩ -
  have second : ∀ B', 12 * s2.core.work w h - 6 + 2 + 1 + 5 * s2.steps ≤ B' →
      Pays 1 (Chunk.newC d2) B' (fun c φ => ∃ s, CNShape c.notn s ∧ 12 * s.work w h - 6 + 2 ≤ φ) := by
    intro B' hB'
    obtain ⟨n, r, g1, g2, g3⟩ := Chunk.newC_pays h2
    refine ⟨n, r, g1, by omega, fun c hc => ?_⟩
    obtain ⟨φ, ⟨g4, rfl⟩, g5⟩ := g3 c hc
    exact ⟨B' - (1 + 5 * s2.steps), ⟨_, g4, by omega⟩, by omega⟩
  split
  · refine Pays.bind (k := B - (1 + 5 * s1.steps) - 7 * s1.core.ahead h w)
      (hA ▸ fitsC_pays hc1 hcs (Nat.sub_le w _) _) (by omega) ?_
    rintro b φ rfl -
    cases b with
    | true =>
      simp only [if_true]
      exact Pays.pure ⟨_, hc1, by omega⟩
    | false =>
      simp only [Bool.false_eq_true, if_false]
      exact second _ (by omega)
  · exact second _ (by omega)

/-! ### Blocks -/

/-- The chunks of a block are paid for. -/
def BlockP (w : Nat) (b : Block P) (φ : Nat) : Prop := ∃ ks, Chunks b.chunks ks ∧ lpot w 8 ks nil ≤ φ

/-- The blocks are paid for, with `β` for each block. -/
def BlocksP (w β : Nat) : List (Block P) → Nat → Prop
  | [], _ => True
  | b :: bs, φ => ∃ φ1 φ2, BlockP w b φ1 ∧ BlocksP w β bs φ2 ∧ φ1 + β + φ2 ≤ φ

theorem BlocksP.weaken {w β β' : Nat} (hβ : β' ≤ β) {bs : List (Block P)} {φ φ'} (h : BlocksP w β bs φ)
    (hφ : φ ≤ φ') : BlocksP w β' bs φ' := by
  induction bs generalizing φ φ' with
  | nil => trivial
  | cons b bs ih =>
    obtain ⟨φ1, φ2, h1, h2, h3⟩ := h
    exact ⟨φ1, φ2, h1, ih h2 (Nat.le_refl _), by omega⟩

/-- What is left over after an expansion: the other blocks and the block in focus are paid for. -/
def ExpandP (w β : Nat) (x : List (Block P) × Block P) (φ : Nat) : Prop :=
  ∃ φ1 φ2, BlocksP w β x.1 φ1 ∧ BlockP w x.2 φ2 ∧ φ1 + φ2 ≤ φ

theorem Block.newC_pays (ind : Indent P) (cs : List (Chunk P)) :
    Pays 1 (Block.newC ind cs) (1 + ind.length) (fun b φ => b.chunks = cs ∧ φ = 0) := by
  unfold Block.newC
  refine Pays.tick1 (Nat.le_refl _) ?_
  rw [Nat.sub_self]
  simp only [Block.new]
  split
  · exact Pays.free (r := .ok _) rfl fun b hb => by cases hb; exact ⟨rfl, rfl⟩
  · exact Pays.free (r := .error _) rfl fun b hb => by cases hb

/-- The potential of the stack of `expand_focusing_first_block`: its top is the rightmost. -/
def spot (w : Nat) : List Shape → (Nat → Nat) → Nat
  | [], _ => 0
  | s :: st, h => 12 * s.work w h - 6 + spot w st (s.ahead h)

theorem spot_mono (w) (st : List Shape) {h h' : Nat → Nat} (H : ∀ r, h r ≤ h' r) :
    spot w st h ≤ spot w st h' := by
  induction st generalizing h h' with
  | nil => exact Nat.le_refl _
  | cons s st ih =>
    have := s.work_mono w H
    have := ih (fun r => s.ahead_mono H r)
    simp only [spot]; omega

/-- Splitting a concatenation: the two parts are paid for by the whole. -/
theorem concat_pays (w : Nat) (a b : Shape) (h : Nat → Nat) :
    12 * b.core.work w h + 12 * a.core.work w (b.core.ahead h) + 12 * (a.steps + b.steps) ≤
      12 * (Shape.concat a b).work w h + 12 := by
  have e1 := a.work_core w (b.ahead h)
  have e2 := b.work_core w h
  have e3 := a.core.work_mono w (b.core_ahead_le h)
  have p1 := a.steps_pos
  have p2 := b.steps_pos
  simp only [Shape.work]
  omega

theorem concat_ahead (a b : Shape) (h : Nat → Nat) (r : Nat) :
    a.core.ahead (b.core.ahead h) r ≤ (Shape.concat a b).ahead h r := by
  have h1 := a.core_ahead_le (b.ahead h) r
  have h2 := a.core.ahead_mono (b.core_ahead_le h) r
  simp only [Shape.ahead]
  omega

theorem expandFirstLoopC_pays {w β : Nat} (hβ : β ≤ 4) (B : Nat) : ∀ (next : List (Block P)) (block : Block P)
    (stack : List (Chunk P)) (ks st : List Shape) (φ : Nat), BlocksP w β next φ →
    Chunks block.chunks ks → Chunks stack st →
    φ + lpot w 8 ks nil + spot w st (aheadL ks nil) + 1 ≤ B →
    Pays 1 (expandFirstLoopC next block stack) B (ExpandP w β) := by
  induction B using Nat.strongRecOn with
  | _ B ih =>
    intro next block stack ks st φ hnext hks hst hB
    rw [expandFirstLoopC.eq_def]
    cases hst with
    | nil =>
      refine Pays.tick1 (by omega) (Pays.pure ⟨φ, lpot w 8 ks nil, hnext, ⟨ks, hks, Nat.le_refl _⟩, ?_⟩)
      simp only [spot] at hB
      omega
    | @cons c s stack st hc hst =>
      simp only [spot] at hB
      have hpos := s.work_pos w (aheadL ks nil)
      refine Pays.tick1 (by omega) ?_
      have push : Pays 1 (expandFirstLoopC next { block with chunks := c :: block.chunks } stack) (B - 1)
          (ExpandP w β) := by
        refine ih (B - 1) (by omega) _ _ _ (s :: ks) st φ hnext (.cons hc hks) hst ?_
        simp only [lpot, aheadL]
        omega
      have drop : s = .leaf → Pays 1 (expandFirstLoopC next block stack) (B - 1) (ExpandP w β) := by
        rintro rfl
        refine ih (B - 1) (by omega) _ _ _ ks st φ hnext hks hst ?_
        have := spot_mono w st (h := aheadL ks nil) (h' := Shape.leaf.ahead (aheadL ks nil))
          (fun r => by simp only [Shape.ahead]; omega)
        simp only [Shape.work] at hB
        omega
      obtain ⟨cn, id⟩ := c
      cases cn <;> dsimp only at hc push ⊢
      case empty =>
        cases hc with
        | leaf _ => exact drop rfl
      case textual => exact push
      case choice => exact push
      case child => exact push
      case endOfLine => exact push
      case focusMark => exact push
      case newline ind =>
        cases hc with
        | leaf hl => rcases hl with h | h | h <;> cases h
        | newline =>
          simp only [Shape.work] at hB
          refine Pays.bind (k := B - 1 - (1 + ind.length)) (Block.newC_pays ind block.chunks) (by omega) ?_
          rintro b ψ ⟨hb, rfl⟩ -
          refine ih _ (by omega) _ _ _ [] st (lpot w 8 ks nil + β + φ)
            ⟨_, _, ⟨ks, by rw [hb]; exact hks, Nat.le_refl _⟩, hnext, Nat.le_refl _⟩ .nil hst ?_
          have := spot_mono w st (h := aheadL [] nil) (h' := (Shape.newline ind.length).ahead (aheadL ks nil))
            (fun r => by simp only [Shape.ahead, aheadL, nil]; omega)
          simp only [lpot]
          omega
      case concat l r =>
        cases hc with
        | leaf hl => rcases hl with h | h | h <;> cases h
        | @concat _ _ sl sr hl hr =>
          have e1 := concat_pays w sl sr (aheadL ks nil)
          have e2 := spot_mono w st (concat_ahead sl sr (aheadL ks nil))
          have p1 := sl.steps_pos
          have p2 := sr.steps_pos
          have p3 := sr.core.work_pos w (aheadL ks nil)
          have p4 := sl.core.work_pos w (sr.core.ahead (aheadL ks nil))
          refine Pays.bind (k := B - 1 - (1 + 5 * sl.steps)) (Chunk.newC_pays hl) (by omega) ?_
          rintro cl ψ ⟨hcl, rfl⟩ -
          refine Pays.bind (k := B - 1 - (1 + 5 * sl.steps) - (1 + 5 * sr.steps)) (Chunk.newC_pays hr)
            (by omega) ?_
          rintro cr ψ ⟨hcr, rfl⟩ -
          refine ih _ (by omega) _ _ _ ks (sr.core :: sl.core :: st) φ hnext hks (.cons hcr (.cons hcl hst)) ?_
          simp only [spot]
          omega

theorem expandFirstC_pays {w β : Nat} (hβ : β ≤ 4) {next : List (Block P)} {block : Block P} {c : Chunk P}
    {ks s φ} (hnext : BlocksP w β next φ) (hks : Chunks block.chunks ks) (hc : CNShape c.notn s) :
    Pays 1 (expandFirstC next block c) (φ + lpot w 8 ks nil + (12 * s.work w (aheadL ks nil) - 6) + 1)
      (ExpandP w β) :=
  expandFirstLoopC_pays hβ _ next block [c] ks [s] φ hnext hks (.cons hc .nil)
    (by simp only [spot]; omega)

theorem expandLastLoopC_pays {w β : Nat} (hβ : β ≤ 4) (B : Nat) : ∀ (prev : List (Block P)) (block : Block P)
    (chunks stack : List (Chunk P)) (ks cs st : List Shape) (φ : Nat), BlocksP w β prev φ →
    Chunks block.chunks ks → Chunks chunks.reverse cs → Chunks stack st →
    φ + lpot w 7 cs (aheadL st (aheadL ks nil)) + lpot w 6 st (aheadL ks nil) + lpot w 8 ks nil + 1 ≤ B →
    Pays 1 (expandLastLoopC prev block chunks stack) B (ExpandP w β) := by
  induction B using Nat.strongRecOn with
  | _ B ih =>
    intro prev block chunks stack ks cs st φ hprev hks hcs hst hB
    rw [expandLastLoopC.eq_def]
    have hlen : chunks.length = cs.length := by rw [← List.length_reverse]; exact hcs.length
    have h7 := lpot_seven w cs (aheadL st (aheadL ks nil))
    cases hst with
    | nil =>
      simp only [lpot, aheadL] at hB h7
      refine Pays.tick1 (by omega) ?_
      refine Pays.tick1 (by omega) (Pays.pure ⟨φ, lpot w 8 (cs ++ ks) nil, hprev,
        ⟨cs ++ ks, List.rel_append hcs hks, Nat.le_refl _⟩, ?_⟩)
      rw [lpot_append]
      omega
    | @cons c s stack st hc hst =>
      simp only [lpot, aheadL] at hB h7
      have hpos := s.work_pos w (aheadL st (aheadL ks nil))
      refine Pays.tick1 (by omega) ?_
      have push : Pays 1 (expandLastLoopC prev block (c :: chunks) stack) (B - 1) (ExpandP w β) := by
        refine ih (B - 1) (by omega) _ _ _ _ ks (cs ++ [s]) st φ hprev hks ?_ hst ?_
        · rw [List.reverse_cons]
          exact List.rel_append hcs (.cons hc .nil)
        · rw [lpot_append]
          simp only [lpot, aheadL]
          omega
      have drop : s = .leaf → Pays 1 (expandLastLoopC prev block chunks stack) (B - 1) (ExpandP w β) := by
        rintro rfl
        refine ih (B - 1) (by omega) _ _ _ _ ks cs st φ hprev hks hcs hst ?_
        have := lpot_mono w 7 cs (h := aheadL st (aheadL ks nil))
          (h' := Shape.leaf.ahead (aheadL st (aheadL ks nil)))
          (fun r => by simp only [Shape.ahead]; omega)
        simp only [Shape.work] at hB
        omega
      obtain ⟨cn, id⟩ := c
      cases cn <;> dsimp only at hc push ⊢
      case empty =>
        cases hc with
        | leaf _ => exact drop rfl
      case textual => exact push
      case choice => exact push
      case child => exact push
      case endOfLine => exact push
      case focusMark => exact push
      case newline ind =>
        cases hc with
        | leaf hl => rcases hl with h | h | h <;> cases h
        | newline =>
          simp only [Shape.work] at hB
          refine Pays.tick1 (by omega) ?_
          have h8 := lpot_mono w 8 cs (h := nil)
            (h' := (Shape.newline ind.length).ahead (aheadL st (aheadL ks nil)))
            (fun r => by simp only [nil]; omega)
          refine Pays.bind (k := B - 1 - chunks.length - (1 + ind.length)) (Block.newC_pays ind block.chunks)
            (by omega) ?_
          rintro b ψ ⟨hb, rfl⟩ -
          refine ih _ (by omega) _ _ _ _ ks [] st (lpot w 8 cs nil + β + φ)
            ⟨_, _, ⟨cs, hcs, Nat.le_refl _⟩, hprev, Nat.le_refl _⟩ (by rw [hb]; exact hks) .nil hst ?_
          simp only [lpot]
          omega
      case concat l r =>
        cases hc with
        | leaf hl => rcases hl with h | h | h <;> cases h
        | @concat _ _ sl sr hl hr =>
          have e1 := concat_pays w sl sr (aheadL st (aheadL ks nil))
          have e2 := lpot_mono w 7 cs (concat_ahead sl sr (aheadL st (aheadL ks nil)))
          have p1 := sl.steps_pos
          have p2 := sr.steps_pos
          have p3 := sr.core.work_pos w (aheadL st (aheadL ks nil))
          have p4 := sl.core.work_pos w (sr.core.ahead (aheadL st (aheadL ks nil)))
          refine Pays.bind (k := B - 1 - (1 + 5 * sr.steps)) (Chunk.newC_pays hr) (by omega) ?_
          rintro cr ψ ⟨hcr, rfl⟩ -
          refine Pays.bind (k := B - 1 - (1 + 5 * sr.steps) - (1 + 5 * sl.steps)) (Chunk.newC_pays hl)
            (by omega) ?_
          rintro cl ψ ⟨hcl, rfl⟩ -
          refine ih _ (by omega) _ _ _ _ ks cs (sl.core :: sr.core :: st) φ hprev hks hcs
            (.cons hcl (.cons hcr hst)) ?_
          simp only [lpot, aheadL]
          omega

theorem expandLastC_pays {w β : Nat} (hβ : β ≤ 4) {prev : List (Block P)} {block : Block P} {c : Chunk P}
    {ks s φ} (hprev : BlocksP w β prev φ) (hks : Chunks block.chunks ks) (hc : CNShape c.notn s) :
    Pays 1 (expandLastC prev block c) (φ + lpot w 8 ks nil + (12 * s.work w (aheadL ks nil) - 6) + 1)
      (ExpandP w β) :=
  expandLastLoopC_pays hβ _ prev block [] [c] ks [] [s] φ hprev hks .nil (.cons hc .nil)
    (by simp only [lpot, aheadL]; omega)

end PPP
