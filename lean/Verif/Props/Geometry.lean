import Verif.Model.PosOrder
import Verif.Spec.Geometry
/-
C80: adding sizes to positions, and the order of positions.
-/
namespace PPP

/-- **C80.**  Adding a size to a position gives the position that is `height` rows down and `width` columns to the right,
    exactly if there is such a position; otherwise it overflows. -/
theorem C80_add (p q : Pos) (s : Size) :
    p.add s = some q ↔ q.InRange ∧ q.row = p.row + s.height ∧ q.col = p.col + s.width := by
  unfold Pos.add Pos.InRange
  cases q with | mk r c =>
  constructor
  · intro h
    split at h
    · cases h; simp only [and_true]; omega
    · cases h
  · rintro ⟨⟨h1, h2⟩, rfl, rfl⟩
    rw [if_pos]
    simp only at h1 h2
    omega

/-- **C80.**  It overflows exactly if the row or the column does not fit. -/
theorem C80_overflow (p : Pos) (s : Size) :
    p.add s = none ↔ ¬ (⟨p.row + s.height, p.col + s.width⟩ : Pos).InRange := by
  constructor
  · intro h hr
    have := (C80_add p ⟨p.row + s.height, p.col + s.width⟩ s).2 ⟨hr, rfl, rfl⟩
    rw [h] at this
    cases this
  · intro h
    cases e : p.add s with
    | none => rfl
    | some q =>
      obtain ⟨hq, h1, h2⟩ := (C80_add p q s).1 e
      cases q
      simp only at h1 h2
      subst h1 h2
      exact absurd hq h

/-- **C80.**  Adding one size and then another is adding their sum; the order does not matter. -/
theorem C80_add_add (p : Pos) (s t : Size) :
    (p.add s).bind (·.add t) = p.add ⟨s.width + t.width, s.height + t.height⟩ ∧
    (p.add s).bind (·.add t) = (p.add t).bind (·.add s) := by
  constructor
  all_goals
    unfold Pos.add
    by_cases h1 : p.row + s.height ≤ 4294967295 ∧ p.col + s.width ≤ 65535
    all_goals by_cases h2 : p.row + t.height ≤ 4294967295 ∧ p.col + t.width ≤ 65535
    all_goals
      simp only [h1, h2, if_true, if_false, Option.bind_some, Option.bind_none, and_self]
    all_goals repeat' split
    all_goals first | rfl | (simp only [Option.some.injEq, Pos.mk.injEq]; omega) | (exfalso; omega) | skip

/-- **C80.**  Positions are ordered as a page is read: on a page with room for both, one is less than another exactly if
    there are fewer characters before it. -/
theorem C80_reading_order (W : Nat) (p q : Pos) (hp : p.col < W) (hq : q.col < W) :
    p.cmp q = compare (p.charsBefore W) (q.charsBefore W) := by
  unfold Pos.cmp Pos.charsBefore
  rcases Nat.lt_trichotomy p.row q.row with h | h | h
  · rw [Nat.compare_eq_lt.2 h]
    refine (Nat.compare_eq_lt.2 ?_).symm
    have := Nat.mul_le_mul_left W (Nat.succ_le_of_lt h)
    rw [Nat.mul_succ] at this
    omega
  · rw [h, Nat.compare_eq_eq.2 rfl]
    rcases Nat.lt_trichotomy p.col q.col with g | g | g
    · rw [Nat.compare_eq_lt.2 g]; exact (Nat.compare_eq_lt.2 (by omega)).symm
    · rw [Nat.compare_eq_eq.2 g]; exact (Nat.compare_eq_eq.2 (by omega)).symm
    · rw [Nat.compare_eq_gt.2 g]; exact (Nat.compare_eq_gt.2 (by omega)).symm
  · rw [Nat.compare_eq_gt.2 h]
    refine (Nat.compare_eq_gt.2 ?_).symm
    have := Nat.mul_le_mul_left W (Nat.succ_le_of_lt h)
    rw [Nat.mul_succ] at this
    omega

/-- **C80.**  Shifting two positions by the same size keeps their order. -/
theorem C80_shift (p q p' q' : Pos) (s : Size) (hp : p.add s = some p') (hq : q.add s = some q') :
    p'.cmp q' = p.cmp q := by
  obtain ⟨-, h1, h2⟩ := (C80_add p p' s).1 hp
  obtain ⟨-, h3, h4⟩ := (C80_add q q' s).1 hq
  have W : ∃ W, p.col < W ∧ q.col < W ∧ p'.col < W ∧ q'.col < W :=
    ⟨p.col + q.col + p'.col + q'.col + 1, by omega, by omega, by omega, by omega⟩
  obtain ⟨W, w1, w2, w3, w4⟩ := W
  rw [C80_reading_order W p q w1 w2, C80_reading_order W p' q' w3 w4]
  simp only [Pos.charsBefore, h1, h2, h3, h4, Nat.mul_add]
  rcases Nat.lt_trichotomy (W * p.row + p.col) (W * q.row + q.col) with g | g | g
  · rw [Nat.compare_eq_lt.2 g]; exact Nat.compare_eq_lt.2 (by omega)
  · rw [Nat.compare_eq_eq.2 g]; exact Nat.compare_eq_eq.2 (by omega)
  · rw [Nat.compare_eq_gt.2 g]; exact Nat.compare_eq_gt.2 (by omega)

/-- **C80.**  The order of sizes is one that containment agrees with: a size that fits into another is not greater, and
    two sizes are equal in this order only if they are equal. -/
theorem C80_size_order (s t : Size) :
    ((s.width ≤ t.width ∧ s.height ≤ t.height) → s.cmp t ≠ .gt) ∧ (s.cmp t = .eq ↔ s = t) := by
  unfold Size.cmp
  cases s with | mk a b =>
  cases t with | mk c d =>
  simp only [Size.mk.injEq]
  rcases Nat.lt_trichotomy a c with g | g | g
  · rw [Nat.compare_eq_lt.2 g]; exact ⟨fun _ => by simp, ⟨fun h => (by cases h), fun h => by omega⟩⟩
  · rw [Nat.compare_eq_eq.2 g]
    refine ⟨fun h => ?_, ?_⟩
    · simp only [ne_eq, Nat.compare_eq_gt]; omega
    · simp only [Nat.compare_eq_eq]; omega
  · rw [Nat.compare_eq_gt.2 g]; exact ⟨fun _ => by omega, ⟨fun h => (by cases h), fun h => by omega⟩⟩

/-- C80: the limits; the end of one line and the start of the next; and sizes, whose widths count first. -/
example : Pos.add ⟨1, 65530⟩ ⟨5, 0⟩ = some ⟨1, 65535⟩ ∧ Pos.add ⟨1, 65530⟩ ⟨6, 0⟩ = none ∧
    Pos.add ⟨4294967295, 3⟩ ⟨1, 0⟩ = some ⟨4294967295, 4⟩ ∧ Pos.add ⟨4294967295, 3⟩ ⟨0, 1⟩ = none ∧
    Pos.cmp ⟨1, 79⟩ ⟨2, 0⟩ = .lt ∧ Pos.cmp ⟨2, 3⟩ ⟨2, 1⟩ = .gt ∧ Pos.charsBefore 80 ⟨1, 79⟩ = 159 ∧
    Pos.charsBefore 80 ⟨2, 0⟩ = 160 ∧ Size.cmp ⟨2, 1⟩ ⟨1, 9⟩ = .gt := by
  refine ⟨by decide, by decide, by decide, by decide, by decide, by decide, by decide, by decide, by decide⟩

end PPP
