import Mathlib.Algebra.Order.Field.Rat
import Mathlib.Algebra.Order.Field.Power
import Mathlib.Algebra.Order.Floor.Ring
import Mathlib.Data.Rat.Floor
import Mathlib.Data.Int.Log
import Mathlib.Tactic.Linarith
import Mathlib.Tactic.Ring
import Mathlib.Tactic.NormNum
import Mathlib.Tactic.Positivity
import Mathlib.Tactic.FieldSimp

/-
Single precision floating point: a finite `float` is the rational number it denotes; every operation yields the exact result rounded to 24 significant bits, to nearest, ties to even
(IEEE 754).  Simplification: the exponent is unbounded, so there is neither overflow nor underflow.
-/

namespace Verif

/-- Nearest integer, ties to even. -/
def rne (x : ℚ) : ℤ := if x - ⌊x⌋ < 1 / 2 then ⌊x⌋ else if 1 / 2 < x - ⌊x⌋ then ⌊x⌋ + 1 else if 2 ∣ ⌊x⌋ then ⌊x⌋ else ⌊x⌋ + 1

/-- The weight of the last of 24 significant bits, as an exponent of 2. -/
def lastBit (x : ℚ) : ℤ := Int.log 2 |x| - 23

/-- Rounding to `float`. -/
def fl (x : ℚ) : ℚ := if x = 0 then 0 else rne (x / 2 ^ lastBit x) * 2 ^ lastBit x

/-- `x` is a `float`. -/
def IsFloat (x : ℚ) : Prop := ∃ n j : ℤ, |n| ≤ 2 ^ 24 ∧ x = n * 2 ^ j

/-- Conversion of a `float` to an integer type: towards zero. -/
def ftrunc (x : ℚ) : ℤ := if 0 ≤ x then ⌊x⌋ else ⌈x⌉

theorem rne_int (n : ℤ) : rne n = n := by unfold rne; simp

theorem rne_bounds (x : ℚ) : |(rne x : ℚ) - x| ≤ 1 / 2 := by
  have h1 := Int.floor_le x
  have h2 := Int.lt_floor_add_one x
  unfold rne
  split
  · rw [abs_le]; constructor <;> linarith
  · split
    · push_cast; rw [abs_le]; constructor <;> linarith
    · split
      · rw [abs_le]; constructor <;> linarith
      · push_cast; rw [abs_le]; constructor <;> linarith

theorem lastBit_eq (x : ℚ) (k : ℤ) (h1 : 2 ^ (k + 23) ≤ |x|) (h2 : |x| < 2 ^ (k + 24)) : lastBit x = k := by
  have hpos : 0 < |x| := lt_of_lt_of_le (by positivity) h1
  have a := (Int.zpow_le_iff_le_log (b := 2) (x := k + 23) (by norm_num) hpos).1 (by exact_mod_cast h1)
  have b := (Int.lt_zpow_iff_log_lt (b := 2) (x := k + 24) (by norm_num) hpos).1 (by exact_mod_cast h2)
  unfold lastBit
  omega

theorem lastBit_spec (x : ℚ) (h : x ≠ 0) : 2 ^ (lastBit x + 23) ≤ |x| ∧ |x| < 2 ^ (lastBit x + 24) := by
  have hpos : 0 < |x| := abs_pos.2 h
  have a := (Int.zpow_le_iff_le_log (b := 2) (x := lastBit x + 23) (by norm_num) hpos).2 (by unfold lastBit; omega)
  have b := (Int.lt_zpow_iff_log_lt (b := 2) (x := lastBit x + 24) (by norm_num) hpos).2 (by unfold lastBit; omega)
  exact ⟨by exact_mod_cast a, by exact_mod_cast b⟩

/-- Rounding error: at most half the weight of the last bit. -/
theorem fl_abs (x : ℚ) : |fl x - x| ≤ 2 ^ lastBit x / 2 := by
  unfold fl
  split
  · rename_i h; subst h; simp; positivity
  · have hb := rne_bounds (x / 2 ^ lastBit x)
    have hp : (0 : ℚ) < 2 ^ lastBit x := by positivity
    have e : (rne (x / 2 ^ lastBit x) : ℚ) * 2 ^ lastBit x - x = ((rne (x / 2 ^ lastBit x) : ℚ) - x / 2 ^ lastBit x) * 2 ^ lastBit x := by field_simp
    rw [e, abs_mul, abs_of_pos hp]
    nlinarith

/-- Rounding error relative to the number. -/
theorem fl_rel (x : ℚ) : |fl x - x| ≤ |x| / 2 ^ 24 := by
  by_cases h : x = 0
  · subst h; simp [fl]
  · have a := (lastBit_spec x h).1
    have b := fl_abs x
    rw [zpow_add₀ (by norm_num)] at a
    have hp : (0 : ℚ) < 2 ^ lastBit x := by positivity
    have e : ((2 : ℚ) ^ (23 : ℤ)) = 2 ^ 23 := by norm_cast
    rw [e] at a
    rw [le_div_iff₀ (by norm_num)]
    nlinarith

theorem fl_zero : fl 0 = 0 := by simp [fl]

/-- Numbers with at most 24 significant bits are not changed. -/
theorem fl_of_small (n j : ℤ) (h : |n| < 2 ^ 24) : fl (n * 2 ^ j) = n * 2 ^ j := by
  by_cases hn : n = 0
  · subst hn; simp [fl]
  · have hx : (n : ℚ) * 2 ^ j ≠ 0 := by positivity
    have hle : lastBit ((n : ℚ) * 2 ^ j) ≤ j := by
      have a := (lastBit_spec _ hx).1
      rw [abs_mul, abs_of_pos (a := (2 : ℚ) ^ j) (by positivity)] at a
      have hq : |(n : ℚ)| < 2 ^ 24 := by exact_mod_cast h
      have b : (2 : ℚ) ^ (lastBit ((n : ℚ) * 2 ^ j) + 23) < 2 ^ (24 + j) := by
        refine lt_of_le_of_lt a ?_
        rw [zpow_add₀ (by norm_num)]
        have hp : (0 : ℚ) < 2 ^ j := by positivity
        exact mul_lt_mul_of_pos_right (by exact_mod_cast hq) hp
      rw [zpow_lt_zpow_iff_right₀ (by norm_num)] at b
      omega
    unfold fl
    rw [if_neg hx]
    obtain ⟨d, hd⟩ := Int.le.dest hle
    have e : (n : ℚ) * 2 ^ j / 2 ^ lastBit ((n : ℚ) * 2 ^ j) = ((n * 2 ^ d : ℤ) : ℚ) := by
      rw [mul_div_assoc, ← zpow_sub₀ (by norm_num)]
      have : j - lastBit ((n : ℚ) * 2 ^ j) = (d : ℤ) := by omega
      rw [this]; push_cast; rfl
    rw [e, rne_int, ← e]
    field_simp

theorem fl_of_float (x : ℚ) (h : IsFloat x) : fl x = x := by
  obtain ⟨n, j, hn, rfl⟩ := h
  rcases lt_or_eq_of_le hn with hlt | heq
  · exact fl_of_small n j hlt
  · have : ∃ m : ℤ, |m| < 2 ^ 24 ∧ n = m * 2 := by
      rcases abs_eq (by norm_num : (0 : ℤ) ≤ 2 ^ 24) |>.1 heq with h | h
      · exact ⟨2 ^ 23, by norm_num, by rw [h]; norm_num⟩
      · exact ⟨-2 ^ 23, by norm_num, by rw [h]; norm_num⟩
    obtain ⟨m, hm, rfl⟩ := this
    have e : ((m * 2 : ℤ) : ℚ) * 2 ^ j = m * 2 ^ (j + 1) := by
      push_cast; rw [zpow_add_one₀ (by norm_num)]; ring
    rw [e]; exact fl_of_small m (j + 1) hm

/-- The result of rounding is a `float`. -/
theorem fl_isFloat (x : ℚ) : IsFloat (fl x) := by
  unfold fl
  split
  · exact ⟨0, 0, by norm_num, by simp⟩
  · rename_i h
    refine ⟨_, _, ?_, rfl⟩
    have b := (lastBit_spec x h).2
    have hb := rne_bounds (x / 2 ^ lastBit x)
    have hp : (0 : ℚ) < 2 ^ lastBit x := by positivity
    have hq : |x / 2 ^ lastBit x| < 2 ^ 24 := by
      rw [abs_div, abs_of_pos hp, div_lt_iff₀ hp]
      rw [zpow_add₀ (by norm_num)] at b
      have e : ((2 : ℚ) ^ (24 : ℤ)) = 2 ^ 24 := by norm_cast
      rw [e] at b; linarith
    rw [abs_lt] at hq; rw [abs_le] at hb
    rw [abs_le]
    constructor
    · have : (-(2 ^ 24) - 1 : ℚ) < (rne (x / 2 ^ lastBit x) : ℚ) := by linarith
      have : (-(2 ^ 24) - 1 : ℤ) < rne (x / 2 ^ lastBit x) := by exact_mod_cast this
      omega
    · have : (rne (x / 2 ^ lastBit x) : ℚ) < 2 ^ 24 + 1 := by linarith
      have : rne (x / 2 ^ lastBit x) < (2 ^ 24 + 1 : ℤ) := by exact_mod_cast this
      omega

theorem isFloat_int (m : ℤ) (h : |m| ≤ 2 ^ 24) : IsFloat m := ⟨m, 0, h, by simp⟩

theorem isFloat_mul_pow (x : ℚ) (j : ℤ) (h : IsFloat x) : IsFloat (x * 2 ^ j) := by
  obtain ⟨n, i, hn, rfl⟩ := h
  exact ⟨n, i + j, hn, by rw [zpow_add₀ (by norm_num)]; ring⟩

theorem isFloat_neg (x : ℚ) (h : IsFloat x) : IsFloat (-x) := by
  obtain ⟨n, i, hn, rfl⟩ := h
  exact ⟨-n, i, by rwa [abs_neg], by push_cast; ring⟩

theorem ftrunc_int (n : ℤ) : ftrunc n = n := by unfold ftrunc; split <;> simp

theorem ftrunc_neg (x : ℚ) : ftrunc (-x) = - ftrunc x := by
  unfold ftrunc
  rcases lt_trichotomy x 0 with h | h | h
  · rw [if_pos (by linarith), if_neg (by linarith), Int.floor_neg]
  · subst h; simp
  · rw [if_neg (by linarith), if_pos (by linarith), Int.ceil_neg]

theorem ftrunc_err (x : ℚ) : |(ftrunc x : ℚ) - x| < 1 := by
  unfold ftrunc
  split
  · have h1 := Int.floor_le x
    have h2 := Int.lt_floor_add_one x
    rw [abs_lt]; constructor <;> linarith
  · have h1 := Int.le_ceil x
    have h2 := Int.ceil_lt_add_one x
    rw [abs_lt]; constructor <;> linarith

/-- Rounding is symmetric. -/
theorem rne_neg (x : ℚ) : rne (-x) = - rne x := by
  by_cases hx : (⌊x⌋ : ℚ) = x
  · have : x = ((⌊x⌋ : ℤ) : ℚ) := hx.symm
    rw [this, show (-((⌊x⌋ : ℤ) : ℚ)) = ((-⌊x⌋ : ℤ) : ℚ) by push_cast; rfl, rne_int, rne_int]
  · have h1 := Int.floor_le x
    have h2 := Int.lt_floor_add_one x
    have h3 : (⌊x⌋ : ℚ) < x := lt_of_le_of_ne h1 hx
    have hf : ⌊-x⌋ = -⌊x⌋ - 1 := by
      rw [Int.floor_eq_iff]; push_cast; constructor <;> linarith
    unfold rne
    rw [hf]
    push_cast
    by_cases c1 : x - ⌊x⌋ < 1 / 2
    · rw [if_pos c1, if_neg (by linarith), if_pos (by linarith)]; ring
    · rw [if_neg c1]
      by_cases c2 : 1 / 2 < x - ⌊x⌋
      · rw [if_pos c2, if_pos (by linarith)]; ring
      · rw [if_neg c2, if_neg (by linarith), if_neg (by linarith)]
        by_cases c3 : (2 : ℤ) ∣ ⌊x⌋
        · rw [if_pos c3, if_neg (by omega)]; ring
        · rw [if_neg c3, if_pos (by omega)]; ring

theorem lastBit_neg (x : ℚ) : lastBit (-x) = lastBit x := by unfold lastBit; rw [abs_neg]

theorem fl_neg (x : ℚ) : fl (-x) = - fl x := by
  unfold fl
  by_cases h : x = 0
  · subst h; simp
  · rw [if_neg (by simpa using h), if_neg h, lastBit_neg, neg_div, rne_neg]; push_cast; ring

/-- Integers beyond 2^24 in size stay integers, of at least that size. -/
theorem fl_big (m : ℤ) (h : 2 ^ 24 ≤ |m|) : ∃ n : ℤ, ∃ k : ℕ, 1 ≤ k ∧ 2 ^ 23 ≤ |n| ∧ |n| ≤ 2 ^ 24 ∧ fl m = n * 2 ^ k := by
  have h0 : (m : ℚ) ≠ 0 := by
    intro e; have : m = 0 := by exact_mod_cast e
    subst this; norm_num at h
  obtain ⟨a, b⟩ := lastBit_spec m h0
  have hq : (2 : ℚ) ^ 24 ≤ |(m : ℚ)| := by exact_mod_cast h
  have hk : 1 ≤ lastBit (m : ℚ) := by
    have : (2 : ℚ) ^ (24 : ℤ) < 2 ^ (lastBit (m : ℚ) + 24) := lt_of_le_of_lt (by exact_mod_cast hq) b
    rw [zpow_lt_zpow_iff_right₀ (by norm_num)] at this
    omega
  obtain ⟨k, hk2⟩ := Int.eq_ofNat_of_zero_le (a := lastBit (m : ℚ)) (by omega)
  refine ⟨rne ((m : ℚ) / 2 ^ lastBit (m : ℚ)), k, by omega, ?_, ?_, ?_⟩
  · have hb := rne_bounds ((m : ℚ) / 2 ^ lastBit (m : ℚ))
    have hp : (0 : ℚ) < 2 ^ lastBit (m : ℚ) := by positivity
    have hge : (2 : ℚ) ^ 23 ≤ |(m : ℚ) / 2 ^ lastBit (m : ℚ)| := by
      rw [abs_div, abs_of_pos hp, le_div_iff₀ hp]
      rw [zpow_add₀ (by norm_num)] at a
      have e : ((2 : ℚ) ^ (23 : ℤ)) = 2 ^ 23 := by norm_cast
      rw [e] at a; linarith
    rw [abs_le] at hb
    rcases le_abs.1 hge with hh | hh
    · have : (2 ^ 23 - 1 : ℚ) < (rne ((m : ℚ) / 2 ^ lastBit (m : ℚ)) : ℚ) := by linarith
      have : (2 ^ 23 - 1 : ℤ) < rne ((m : ℚ) / 2 ^ lastBit (m : ℚ)) := by exact_mod_cast this
      exact le_abs.2 (Or.inl (by omega))
    · have : (rne ((m : ℚ) / 2 ^ lastBit (m : ℚ)) : ℚ) < -2 ^ 23 + 1 := by linarith
      have : rne ((m : ℚ) / 2 ^ lastBit (m : ℚ)) < (-2 ^ 23 + 1 : ℤ) := by exact_mod_cast this
      exact le_abs.2 (Or.inr (by omega))
  · have hb := rne_bounds ((m : ℚ) / 2 ^ lastBit (m : ℚ))
    have hp : (0 : ℚ) < 2 ^ lastBit (m : ℚ) := by positivity
    have hlt : |(m : ℚ) / 2 ^ lastBit (m : ℚ)| < 2 ^ 24 := by
      rw [abs_div, abs_of_pos hp, div_lt_iff₀ hp]
      rw [zpow_add₀ (by norm_num)] at b
      have e : ((2 : ℚ) ^ (24 : ℤ)) = 2 ^ 24 := by norm_cast
      rw [e] at b; linarith
    rw [abs_lt] at hlt; rw [abs_le] at hb
    rw [abs_le]
    constructor
    · have : (-(2 ^ 24) - 1 : ℚ) < (rne ((m : ℚ) / 2 ^ lastBit (m : ℚ)) : ℚ) := by linarith
      have : (-(2 ^ 24) - 1 : ℤ) < rne ((m : ℚ) / 2 ^ lastBit (m : ℚ)) := by exact_mod_cast this
      omega
    · have : (rne ((m : ℚ) / 2 ^ lastBit (m : ℚ)) : ℚ) < 2 ^ 24 + 1 := by linarith
      have : rne ((m : ℚ) / 2 ^ lastBit (m : ℚ)) < (2 ^ 24 + 1 : ℤ) := by exact_mod_cast this
      omega
  · unfold fl
    rw [if_neg h0, hk2]; norm_cast

theorem rne_le_of_le (x : ℚ) (n : ℤ) (h : x ≤ n) : rne x ≤ n := by
  have hb := abs_le.1 (rne_bounds x)
  by_contra hc
  have h1 : (n : ℚ) + 1 ≤ rne x := by exact_mod_cast (by omega : n + 1 ≤ rne x)
  linarith [hb.2]

/-- Rounding does not pass a `float`. -/
theorem fl_le_float (x z : ℚ) (hz : IsFloat z) (h : x ≤ z) : fl x ≤ z := by
  by_cases hx : x = 0
  · subst hx; simpa [fl] using h
  obtain ⟨n, j, hn, rfl⟩ := hz
  have hp : (0 : ℚ) < 2 ^ lastBit x := by positivity
  -- `z` is a multiple of the last bit of `x`, or `x` is negative and large
  have key : ∃ N : ℤ, x ≤ N * 2 ^ lastBit x ∧ (N : ℚ) * 2 ^ lastBit x ≤ n * 2 ^ j := by
    by_cases hj : lastBit x ≤ j
    · obtain ⟨d, hd⟩ := Int.le.dest hj
      refine ⟨n * 2 ^ d, ?_, ?_⟩ <;>
      · have e : ((n * 2 ^ d : ℤ) : ℚ) * 2 ^ lastBit x = n * 2 ^ j := by
          rw [← hd, zpow_add₀ (by norm_num), zpow_natCast]; push_cast; ring
        rw [e]
        try exact h
    · have hq : |(n : ℚ)| ≤ 2 ^ 24 := by exact_mod_cast hn
      have a := (lastBit_spec x hx).1
      rw [zpow_add₀ (by norm_num)] at a
      have e23 : ((2 : ℚ) ^ (23 : ℤ)) = 2 ^ 23 := by norm_cast
      rw [e23] at a
      have hz : |(n : ℚ) * 2 ^ j| ≤ 2 ^ 23 * 2 ^ lastBit x := by
        have h2 : (2 : ℚ) ^ (j + 1) ≤ 2 ^ lastBit x := zpow_le_zpow_right₀ (by norm_num) (by omega)
        rw [zpow_add_one₀ (by norm_num)] at h2
        have h3 : (0 : ℚ) < 2 ^ j := by positivity
        rw [abs_mul, abs_of_pos h3]
        nlinarith
      rcases lt_or_gt_of_ne hx with hneg | hpos
      · rw [abs_of_neg hneg] at a
        refine ⟨-2 ^ 23, ?_, ?_⟩
        · push_cast; linarith
        · push_cast; linarith [(abs_le.1 hz).1]
      · rw [abs_of_pos hpos] at a
        refine ⟨2 ^ 23, ?_, ?_⟩
        · push_cast; linarith [(abs_le.1 hz).2]
        · push_cast; linarith [(abs_le.1 hz).2]
  obtain ⟨N, h1, h2⟩ := key
  refine le_trans ?_ h2
  unfold fl
  rw [if_neg hx]
  have : rne (x / 2 ^ lastBit x) ≤ N := rne_le_of_le _ _ (by rw [div_le_iff₀ hp]; exact h1)
  have : (rne (x / 2 ^ lastBit x) : ℚ) ≤ N := by exact_mod_cast this
  nlinarith

theorem float_le_fl (x z : ℚ) (hz : IsFloat z) (h : z ≤ x) : z ≤ fl x := by
  have := fl_le_float (-x) (-z) (isFloat_neg z hz) (by linarith)
  rw [fl_neg] at this; linarith

end Verif
