import Verif.Model.Pane
import Mathlib.Tactic.Linarith
import Mathlib.Tactic.FieldSimp
import Mathlib.Tactic.NormNum
/-
Rounding: where the focused line is placed in a pane.
-/
namespace PPP

theorem roundHalfEven_le {x : ℚ} {m : ℤ} (h : x ≤ m) : roundHalfEven x ≤ m := by
  have h1 : ⌊x⌋ ≤ m := by
    have := Int.floor_le x
    exact_mod_cast this.trans h
  unfold roundHalfEven
  by_cases heq : ⌊x⌋ = m
  · have h2 : x - ⌊x⌋ < 1 / 2 := by rw [heq]; linarith
    rw [if_pos h2]; omega
  · split
    · omega
    · split
      · omega
      · split <;> omega

theorem le_roundHalfEven {x : ℚ} {m : ℤ} (h : (m : ℚ) ≤ x) : m ≤ roundHalfEven x := by
  have h1 : m ≤ ⌊x⌋ := Int.le_floor.2 h
  unfold roundHalfEven
  split
  · omega
  · split
    · omega
    · split <;> omega

theorem roundHalfEven_int (m : ℤ) : roundHalfEven m = m :=
  le_antisymm (roundHalfEven_le le_rfl) (le_roundHalfEven le_rfl)

/-- An integer up to `2^24` is a multiple of the spacing of `f32` numbers below it. -/
theorem spacing_dvd {x : ℚ} {n : Nat} (hx : 0 < x) (hn : x ≤ n) (hb : n ≤ 2 ^ 24) :
    ∃ k : ℤ, (n : ℚ) = k * 2 ^ (Int.log 2 x - 23) := by
  have hlog : (2 : ℚ) ^ Int.log 2 x ≤ x := by
    have := Int.zpow_log_le_self (b := 2) (R := ℚ) (by norm_num) hx
    exact_mod_cast this
  have he : Int.log 2 x ≤ 24 := by
    by_contra hc
    have h1 : (2 : ℚ) ^ (25 : ℤ) ≤ 2 ^ Int.log 2 x := zpow_le_zpow_right₀ (by norm_num) (by omega)
    have h2 : (n : ℚ) ≤ 2 ^ 24 := by exact_mod_cast hb
    have h3 : (2 : ℚ) ^ (25 : ℤ) ≤ 2 ^ 24 := h1.trans (hlog.trans (hn.trans h2))
    norm_num at h3
  by_cases h24 : Int.log 2 x = 24
  · have h2 : (n : ℚ) ≤ 2 ^ 24 := by exact_mod_cast hb
    have h3 : (2 : ℚ) ^ 24 ≤ x := by rw [h24] at hlog; exact_mod_cast hlog
    have h4 : (n : ℚ) = 2 ^ 24 := le_antisymm h2 (h3.trans hn)
    exact ⟨2 ^ 23, by rw [h4, h24]; norm_num⟩
  · obtain ⟨k, hk⟩ : ∃ k : Nat, Int.log 2 x - 23 = -(k : ℤ) := ⟨(23 - Int.log 2 x).toNat, by omega⟩
    refine ⟨n * 2 ^ k, ?_⟩
    rw [hk, zpow_neg, zpow_natCast]
    have : (2 : ℚ) ^ k ≠ 0 := by positivity
    push_cast
    field_simp

theorem roundF32_le {x : ℚ} {n : Nat} (hn : x ≤ n) (hb : n ≤ 2 ^ 24) : roundF32 x ≤ n := by
  unfold roundF32
  split
  · exact_mod_cast Nat.zero_le n
  · rename_i hx
    have hx : 0 < x := not_le.1 hx
    obtain ⟨k, hk⟩ := spacing_dvd hx hn hb
    have hu : (0 : ℚ) < 2 ^ (Int.log 2 x - 23) := zpow_pos (by norm_num) _
    rw [hk]
    refine mul_le_mul_of_nonneg_right ?_ hu.le
    have : roundHalfEven (x / 2 ^ (Int.log 2 x - 23)) ≤ k := by
      refine roundHalfEven_le ?_
      rw [div_le_iff₀ hu, ← hk]
      exact hn
    exact_mod_cast this

theorem roundF32_nat {n : Nat} (hb : n ≤ 2 ^ 24) : roundF32 n = n := by
  unfold roundF32
  split
  · rename_i h
    have : n = 0 := by
      have : n ≤ 0 := by exact_mod_cast h
      omega
    simp [this]
  · rename_i hx
    have hx : 0 < (n : ℚ) := not_le.1 hx
    obtain ⟨k, hk⟩ := spacing_dvd hx le_rfl hb
    have hu : (2 : ℚ) ^ (Int.log 2 (n : ℚ) - 23) ≠ 0 := zpow_ne_zero _ (by norm_num)
    have : (n : ℚ) / 2 ^ (Int.log 2 (n : ℚ) - 23) = k := by rw [div_eq_iff hu]; exact hk
    rw [this, roundHalfEven_int]
    exact hk.symm

theorem roundToRow_le {x : ℚ} {n : Nat} (h : x ≤ n) : roundToRow x ≤ n := by
  unfold roundToRow
  refine (Nat.min_le_right _ _).trans ?_
  have : ⌊x + 1 / 2⌋₊ < n + 1 := by
    by_cases h0 : 0 ≤ x + 1 / 2
    · rw [Nat.floor_lt h0]; push_cast; linarith
    · rw [Nat.floor_of_nonpos (by linarith)]; omega
  omega

theorem roundToRow_nat {n : Nat} (h : n ≤ maxHeight) : roundToRow n = n := by
  refine le_antisymm (roundToRow_le le_rfl) ?_
  unfold roundToRow
  refine Nat.le_min.2 ⟨h, Nat.le_floor ?_⟩
  linarith

variable {S E : Type}

/-- The row that is chosen: not beyond the last row of the pane, and the first and the last row for the
    focus heights `0` and `1`. -/
theorem chooseFocusLineRow_val {o : PrintingOptions} {h n : Nat} {c : List (WCall S)}
    (hr : (o.chooseFocusLineRow h : PaneM S E Nat) = some (c, .ok n)) :
    c = [] ∧ ∃ q, o.focusHeight = some q ∧ 0 ≤ q ∧ q ≤ 1 ∧ 1 ≤ h ∧
      n = roundToRow (roundF32 (roundF32 ((h - 1 : Nat) : ℚ) * q)) := by
  unfold PrintingOptions.chooseFocusLineRow at hr
  split at hr
  · cases hr
  · rename_i q hq
    split at hr
    · cases hr
    · rename_i h0
      split at hr
      · cases hr
      · rename_i h1
        unfold subU at hr
        split at hr
        · rename_i hh
          cases hr
          exact ⟨rfl, q, hq, not_not.1 h0, not_not.1 h1, hh, rfl⟩
        · cases hr

theorem chooseFocusLineRow_ok {o : PrintingOptions} {h : Nat} {q : ℚ} (hq : o.focusHeight = some q) (h0 : 0 ≤ q)
    (h1 : q ≤ 1) (hh : 1 ≤ h) :
    (o.chooseFocusLineRow h : PaneM S E Nat) =
      some ([], .ok (roundToRow (roundF32 (roundF32 ((h - 1 : Nat) : ℚ) * q)))) := by
  unfold PrintingOptions.chooseFocusLineRow
  rw [hq]
  simp only [h0, h1, not_true_eq_false, if_false, subU, if_pos hh]
  rfl

theorem focusRow_lt {h : Nat} {q : ℚ} (h0 : 0 ≤ q) (h1 : q ≤ 1) (hh : 1 ≤ h) (hb : h ≤ 2 ^ 24) :
    roundToRow (roundF32 (roundF32 ((h - 1 : Nat) : ℚ) * q)) < h := by
  have hle : ((h - 1 : Nat) : ℚ) * q ≤ ((h - 1 : Nat) : ℚ) := by
    have : (0 : ℚ) ≤ ((h - 1 : Nat) : ℚ) := by exact_mod_cast Nat.zero_le _
    nlinarith
  rw [roundF32_nat (by omega)]
  have := roundToRow_le (roundF32_le (n := h - 1) hle (by omega))
  omega

theorem roundHalfEven_near (x : ℚ) : |(roundHalfEven x : ℚ) - x| ≤ 1 / 2 := by
  have h1 := Int.floor_le x
  have h2 := Int.lt_floor_add_one x
  rw [abs_le]
  unfold roundHalfEven
  split
  · constructor <;> push_cast <;> linarith
  · split
    · constructor <;> push_cast <;> linarith
    · split <;> constructor <;> push_cast <;> linarith

theorem roundF32_near {x : ℚ} (hx : 0 ≤ x) : |roundF32 x - x| ≤ x / 2 ^ 24 := by
  unfold roundF32
  split
  · rename_i h
    have : x = 0 := le_antisymm h hx
    simp [this]
  · rename_i h
    have hx : 0 < x := not_le.1 h
    have hu : (0 : ℚ) < 2 ^ (Int.log 2 x - 23) := zpow_pos (by norm_num) _
    have hlog : (2 : ℚ) ^ Int.log 2 x ≤ x := by
      have := Int.zpow_log_le_self (b := 2) (R := ℚ) (by norm_num) hx
      exact_mod_cast this
    have hn := roundHalfEven_near (x / 2 ^ (Int.log 2 x - 23))
    have e : (roundHalfEven (x / 2 ^ (Int.log 2 x - 23)) : ℚ) * 2 ^ (Int.log 2 x - 23) - x =
        ((roundHalfEven (x / 2 ^ (Int.log 2 x - 23)) : ℚ) - x / 2 ^ (Int.log 2 x - 23)) * 2 ^ (Int.log 2 x - 23) := by
      rw [sub_mul, div_mul_cancel₀ _ hu.ne']
    rw [e, abs_mul, abs_of_pos hu]
    have h2 : (2 : ℚ) ^ (Int.log 2 x - 23) = 2 ^ Int.log 2 x / 2 ^ 23 := by
      rw [zpow_sub₀ (by norm_num)]; norm_num
    calc _ ≤ 1 / 2 * (2 : ℚ) ^ (Int.log 2 x - 23) := mul_le_mul_of_nonneg_right hn hu.le
      _ = 2 ^ Int.log 2 x / 2 ^ 24 := by rw [h2]; ring
      _ ≤ x / 2 ^ 24 := div_le_div_of_nonneg_right hlog (by norm_num)

theorem roundToRow_near {x : ℚ} (hx : 0 ≤ x) (h : x ≤ 2 ^ 24) : |(roundToRow x : ℚ) - x| ≤ 1 / 2 := by
  have h1 := Nat.floor_le (a := x + 1 / 2) (by linarith)
  have h2 := Nat.lt_floor_add_one (x + 1 / 2)
  have h3 : roundToRow x = ⌊x + 1 / 2⌋₊ := by
    refine Nat.min_eq_right ?_
    have : ⌊x + 1 / 2⌋₊ ≤ 2 ^ 24 := by
      have := (roundToRow_le (n := 2 ^ 24) (x := x) (by exact_mod_cast h))
      by_contra hc
      have h4 : (2 ^ 24 + 1 : ℚ) ≤ ⌊x + 1 / 2⌋₊ := by exact_mod_cast not_le.1 hc
      linarith
    unfold maxHeight; omega
  rw [h3, abs_le]
  constructor <;> linarith

/-- The row is as close to the desired height as can be, but for the rounding of `f32`. -/
theorem focusRow_near {h : Nat} {q : ℚ} (h0 : 0 ≤ q) (h1 : q ≤ 1) (hb : h ≤ 2 ^ 24) :
    |(roundToRow (roundF32 (roundF32 ((h - 1 : Nat) : ℚ) * q)) : ℚ) - ((h - 1 : Nat) : ℚ) * q| ≤
      1 / 2 + ((h - 1 : Nat) : ℚ) / 2 ^ 24 := by
  have hn : (0 : ℚ) ≤ ((h - 1 : Nat) : ℚ) := by exact_mod_cast Nat.zero_le _
  have hle : ((h - 1 : Nat) : ℚ) * q ≤ ((h - 1 : Nat) : ℚ) := by nlinarith
  have hnn : 0 ≤ ((h - 1 : Nat) : ℚ) * q := mul_nonneg hn h0
  rw [roundF32_nat (by omega)]
  have hx := roundF32_le (n := h - 1) hle (by omega)
  have hx0 : 0 ≤ roundF32 (((h - 1 : Nat) : ℚ) * q) := by
    have := roundF32_near hnn
    rw [abs_le] at this
    have : ((h - 1 : Nat) : ℚ) * q / 2 ^ 24 ≤ ((h - 1 : Nat) : ℚ) * q := by
      rw [div_le_iff₀ (by norm_num)]; nlinarith
    linarith
  have hb' : ((h - 1 : Nat) : ℚ) ≤ 2 ^ 24 := by exact_mod_cast (by omega : h - 1 ≤ 2 ^ 24)
  have a := roundToRow_near hx0 (hx.trans hb')
  have b := roundF32_near hnn
  have c : ((h - 1 : Nat) : ℚ) * q / 2 ^ 24 ≤ ((h - 1 : Nat) : ℚ) / 2 ^ 24 :=
    div_le_div_of_nonneg_right hle (by norm_num)
  rw [abs_le] at *
  constructor <;> linarith

/-- Beyond `2^24`, the row may be outside of the pane: in a pane of `2^24 + 4` rows, the rows are
    numbered up to `2^24 + 3`, but a focus height of `1` puts the focused line on row `2^24 + 4`. -/
theorem focusRow_outside :
    roundToRow (roundF32 (roundF32 ((2 ^ 24 + 4 - 1 : Nat) : ℚ) * 1)) = 2 ^ 24 + 4 := by
  decide +kernel

end PPP
