import Verif.Core.Float

/-
Double precision floating point, as `Verif.Core.Float`: a finite `double` is the rational number it denotes; every operation yields the exact result rounded to 53 significant bits, to nearest, ties to even (IEEE 754, no excess
precision).  Simplification: the exponent is unbounded.
-/

namespace Verif

/-- The weight of the last of 53 significant bits, as an exponent of 2. -/
def dLastBit (x : ℚ) : ℤ := Int.log 2 |x| - 52

/-- Rounding to `double`. -/
def dfl (x : ℚ) : ℚ := if x = 0 then 0 else rne (x / 2 ^ dLastBit x) * 2 ^ dLastBit x

/-- `x` is a `double`. -/
def IsDouble (x : ℚ) : Prop := ∃ n j : ℤ, |n| ≤ 2 ^ 53 ∧ x = n * 2 ^ j

theorem dLastBit_eq (x : ℚ) (k : ℤ) (h1 : 2 ^ (k + 52) ≤ |x|) (h2 : |x| < 2 ^ (k + 53)) : dLastBit x = k := by
  have hpos : 0 < |x| := lt_of_lt_of_le (by positivity) h1
  have a := (Int.zpow_le_iff_le_log (b := 2) (x := k + 52) (by norm_num) hpos).1 (by exact_mod_cast h1)
  have b := (Int.lt_zpow_iff_log_lt (b := 2) (x := k + 53) (by norm_num) hpos).1 (by exact_mod_cast h2)
  unfold dLastBit
  omega

theorem dLastBit_spec (x : ℚ) (h : x ≠ 0) : 2 ^ (dLastBit x + 52) ≤ |x| ∧ |x| < 2 ^ (dLastBit x + 53) := by
  have hpos : 0 < |x| := abs_pos.2 h
  have a := (Int.zpow_le_iff_le_log (b := 2) (x := dLastBit x + 52) (by norm_num) hpos).2 (by unfold dLastBit; omega)
  have b := (Int.lt_zpow_iff_log_lt (b := 2) (x := dLastBit x + 53) (by norm_num) hpos).2 (by unfold dLastBit; omega)
  exact ⟨by exact_mod_cast a, by exact_mod_cast b⟩

/-- Rounding error: at most half the weight of the last bit. -/
theorem dfl_abs (x : ℚ) : |dfl x - x| ≤ 2 ^ dLastBit x / 2 := by
  unfold dfl
  split
  · rename_i h; subst h; simp; positivity
  · have hb := rne_bounds (x / 2 ^ dLastBit x)
    have hp : (0 : ℚ) < 2 ^ dLastBit x := by positivity
    have e : (rne (x / 2 ^ dLastBit x) : ℚ) * 2 ^ dLastBit x - x = ((rne (x / 2 ^ dLastBit x) : ℚ) - x / 2 ^ dLastBit x) * 2 ^ dLastBit x := by field_simp
    rw [e, abs_mul, abs_of_pos hp]
    nlinarith

/-- Rounding error relative to the number. -/
theorem dfl_rel (x : ℚ) : |dfl x - x| ≤ |x| / 2 ^ 53 := by
  by_cases h : x = 0
  · subst h; simp [dfl]
  · have a := (dLastBit_spec x h).1
    have b := dfl_abs x
    rw [zpow_add₀ (by norm_num)] at a
    have hp : (0 : ℚ) < 2 ^ dLastBit x := by positivity
    have e : ((2 : ℚ) ^ (52 : ℤ)) = 2 ^ 52 := by norm_cast
    rw [e] at a
    rw [le_div_iff₀ (by norm_num)]
    nlinarith

/-- Numbers with at most 53 significant bits are not changed. -/
theorem dfl_of_small (n j : ℤ) (h : |n| < 2 ^ 53) : dfl (n * 2 ^ j) = n * 2 ^ j := by
  by_cases hn : n = 0
  · subst hn; simp [dfl]
  · have hx : (n : ℚ) * 2 ^ j ≠ 0 := by positivity
    have hle : dLastBit ((n : ℚ) * 2 ^ j) ≤ j := by
      have a := (dLastBit_spec _ hx).1
      rw [abs_mul, abs_of_pos (a := (2 : ℚ) ^ j) (by positivity)] at a
      have hq : |(n : ℚ)| < 2 ^ 53 := by exact_mod_cast h
      have b : (2 : ℚ) ^ (dLastBit ((n : ℚ) * 2 ^ j) + 52) < 2 ^ (53 + j) := by
        refine lt_of_le_of_lt a ?_
        rw [zpow_add₀ (by norm_num)]
        have hp : (0 : ℚ) < 2 ^ j := by positivity
        exact mul_lt_mul_of_pos_right (by exact_mod_cast hq) hp
      rw [zpow_lt_zpow_iff_right₀ (by norm_num)] at b
      omega
    unfold dfl
    rw [if_neg hx]
    obtain ⟨d, hd⟩ := Int.le.dest hle
    have e : (n : ℚ) * 2 ^ j / 2 ^ dLastBit ((n : ℚ) * 2 ^ j) = ((n * 2 ^ d : ℤ) : ℚ) := by
      rw [mul_div_assoc, ← zpow_sub₀ (by norm_num)]
      have : j - dLastBit ((n : ℚ) * 2 ^ j) = (d : ℤ) := by omega
      rw [this]; push_cast; rfl
    rw [e, rne_int, ← e]
    field_simp

theorem dfl_of_double (x : ℚ) (h : IsDouble x) : dfl x = x := by
  obtain ⟨n, j, hn, rfl⟩ := h
  rcases lt_or_eq_of_le hn with hlt | heq
  · exact dfl_of_small n j hlt
  · have : ∃ m : ℤ, |m| < 2 ^ 53 ∧ n = m * 2 := by
      rcases abs_eq (by norm_num : (0 : ℤ) ≤ 2 ^ 53) |>.1 heq with h | h
      · exact ⟨2 ^ 52, by norm_num, by rw [h]; norm_num⟩
      · exact ⟨-2 ^ 52, by norm_num, by rw [h]; norm_num⟩
    obtain ⟨m, hm, rfl⟩ := this
    have e : ((m * 2 : ℤ) : ℚ) * 2 ^ j = m * 2 ^ (j + 1) := by
      push_cast; rw [zpow_add_one₀ (by norm_num)]; ring
    rw [e]; exact dfl_of_small m (j + 1) hm

/-- The result of rounding is a `double`. -/
theorem dfl_isDouble (x : ℚ) : IsDouble (dfl x) := by
  unfold dfl
  split
  · exact ⟨0, 0, by norm_num, by simp⟩
  · rename_i h
    refine ⟨_, _, ?_, rfl⟩
    have b := (dLastBit_spec x h).2
    have hb := rne_bounds (x / 2 ^ dLastBit x)
    have hp : (0 : ℚ) < 2 ^ dLastBit x := by positivity
    have hq : |x / 2 ^ dLastBit x| < 2 ^ 53 := by
      rw [abs_div, abs_of_pos hp, div_lt_iff₀ hp]
      rw [zpow_add₀ (by norm_num)] at b
      have e : ((2 : ℚ) ^ (53 : ℤ)) = 2 ^ 53 := by norm_cast
      rw [e] at b; linarith
    rw [abs_lt] at hq; rw [abs_le] at hb
    rw [abs_le]
    constructor
    · have : (-(2 ^ 53) - 1 : ℚ) < (rne (x / 2 ^ dLastBit x) : ℚ) := by linarith
      have : (-(2 ^ 53) - 1 : ℤ) < rne (x / 2 ^ dLastBit x) := by exact_mod_cast this
      omega
    · have : (rne (x / 2 ^ dLastBit x) : ℚ) < 2 ^ 53 + 1 := by linarith
      have : rne (x / 2 ^ dLastBit x) < (2 ^ 53 + 1 : ℤ) := by exact_mod_cast this
      omega

theorem isDouble_int (m : ℤ) (h : |m| ≤ 2 ^ 53) : IsDouble m := ⟨m, 0, h, by simp⟩

theorem isDouble_neg (x : ℚ) (h : IsDouble x) : IsDouble (-x) := by
  obtain ⟨n, i, hn, rfl⟩ := h
  exact ⟨-n, i, by rwa [abs_neg], by push_cast; ring⟩

theorem dLastBit_neg (x : ℚ) : dLastBit (-x) = dLastBit x := by unfold dLastBit; rw [abs_neg]

theorem dfl_neg (x : ℚ) : dfl (-x) = - dfl x := by
  unfold dfl
  by_cases h : x = 0
  · subst h; simp
  · rw [if_neg (by simpa using h), if_neg h, dLastBit_neg, neg_div, rne_neg]; push_cast; ring

/-- Rounding does not pass a `double`. -/
theorem dfl_le_double (x z : ℚ) (hz : IsDouble z) (h : x ≤ z) : dfl x ≤ z := by
  by_cases hx : x = 0
  · subst hx; simpa [dfl] using h
  obtain ⟨n, j, hn, rfl⟩ := hz
  have hp : (0 : ℚ) < 2 ^ dLastBit x := by positivity
  -- `z` is a multiple of the last bit of `x`, or `x` is negative and large
  have key : ∃ N : ℤ, x ≤ N * 2 ^ dLastBit x ∧ (N : ℚ) * 2 ^ dLastBit x ≤ n * 2 ^ j := by
    by_cases hj : dLastBit x ≤ j
    · obtain ⟨d, hd⟩ := Int.le.dest hj
      refine ⟨n * 2 ^ d, ?_, ?_⟩ <;>
      · have e : ((n * 2 ^ d : ℤ) : ℚ) * 2 ^ dLastBit x = n * 2 ^ j := by
          rw [← hd, zpow_add₀ (by norm_num), zpow_natCast]; push_cast; ring
        rw [e]
        try exact h
    · have hq : |(n : ℚ)| ≤ 2 ^ 53 := by exact_mod_cast hn
      have a := (dLastBit_spec x hx).1
      rw [zpow_add₀ (by norm_num)] at a
      have e23 : ((2 : ℚ) ^ (52 : ℤ)) = 2 ^ 52 := by norm_cast
      rw [e23] at a
      have hz : |(n : ℚ) * 2 ^ j| ≤ 2 ^ 52 * 2 ^ dLastBit x := by
        have h2 : (2 : ℚ) ^ (j + 1) ≤ 2 ^ dLastBit x := zpow_le_zpow_right₀ (by norm_num) (by omega)
        rw [zpow_add_one₀ (by norm_num)] at h2
        have h3 : (0 : ℚ) < 2 ^ j := by positivity
        rw [abs_mul, abs_of_pos h3]
        nlinarith
      rcases lt_or_gt_of_ne hx with hneg | hpos
      · rw [abs_of_neg hneg] at a
        refine ⟨-2 ^ 52, ?_, ?_⟩
        · push_cast; linarith
        · push_cast; linarith [(abs_le.1 hz).1]
      · rw [abs_of_pos hpos] at a
        refine ⟨2 ^ 52, ?_, ?_⟩
        · push_cast; linarith [(abs_le.1 hz).2]
        · push_cast; linarith [(abs_le.1 hz).2]
  obtain ⟨N, h1, h2⟩ := key
  refine le_trans ?_ h2
  unfold dfl
  rw [if_neg hx]
  have : rne (x / 2 ^ dLastBit x) ≤ N := rne_le_of_le _ _ (by rw [div_le_iff₀ hp]; exact h1)
  have : (rne (x / 2 ^ dLastBit x) : ℚ) ≤ N := by exact_mod_cast this
  nlinarith

theorem double_le_dfl (x z : ℚ) (hz : IsDouble z) (h : z ≤ x) : z ≤ dfl x := by
  have := dfl_le_double (-x) (-z) (isDouble_neg z hz) (by linarith)
  rw [dfl_neg] at this; linarith

end Verif
