import Verif.F16.Model
import Mathlib.Algebra.Order.Field.Rat
import Mathlib.Algebra.Order.Floor.Ring
import Mathlib.Tactic.Linarith
import Mathlib.Tactic.Ring
import Mathlib.Tactic.NormNum
import Mathlib.Tactic.FieldSimp

/-
Properties C50, C51 (fixed point).  Specification: a raw value denotes the rational raw/2^16.
-/

namespace Verif.F16
open Verif

/-- The number denoted by a raw value. -/
def val (a : Int) : Rat := a / 65536

/-- Raw values of the numbers an F16 can hold. -/
abbrev Raw (a : Int) : Prop := InInt32 a

theorem val_lt (a b : Int) : val a < val b ↔ a < b := by
  unfold val
  rw [div_lt_div_iff_of_pos_right (by norm_num)]
  exact_mod_cast Iff.rfl

/-- C50 (sum): exact whenever the exact sum is representable. -/
theorem C50_add (a b : Int) (h : Raw (a + b)) : ∃ c, add a b = .ok c ∧ val c = val a + val b := by
  refine ⟨a + b, int32_of_in h, ?_⟩
  unfold val; push_cast; ring

/-- C50 (difference): exact whenever representable. -/
theorem C50_sub (a b : Int) (h : Raw (a - b)) : ∃ c, sub a b = .ok c ∧ val c = val a - val b := by
  refine ⟨a - b, int32_of_in h, ?_⟩
  unfold val; push_cast; ring

/-- C50 (product): whenever the exact product lies in the F16 range, the result is the exact
product rounded down to a multiple of 2^-16. -/
theorem C50_mul (a b : Int) (h0 : -32768 ≤ val a * val b) (h1 : val a * val b < 32768) :
    val (mul a b) ≤ val a * val b ∧ val a * val b < val (mul a b) + 1 / 65536 ∧ Raw (mul a b) := by
  have hexact : val a * val b = ((a * b : Int) : Rat) / 65536 / 65536 := by
    unfold val; push_cast; ring
  have hq1 : Int.fdiv (a * b) 65536 * 65536 ≤ a * b := by
    rw [Int.fdiv_eq_ediv_of_nonneg _ (by omega)]; omega
  have hq2 : a * b < Int.fdiv (a * b) 65536 * 65536 + 65536 := by
    rw [Int.fdiv_eq_ediv_of_nonneg _ (by omega)]; omega
  rw [hexact] at h0 h1 ⊢
  have hb0 : -32768 * 65536 * 65536 ≤ a * b := by
    have : (-32768 * 65536 * 65536 : Rat) ≤ ((a * b : Int) : Rat) := by linarith
    exact_mod_cast this
  have hb1 : a * b < 32768 * 65536 * 65536 := by
    have : ((a * b : Int) : Rat) < (32768 * 65536 * 65536 : Rat) := by linarith
    exact_mod_cast this
  have hin : InInt32 (Int.fdiv (a * b) 65536) := by
    unfold InInt32; omega
  have hm : mul a b = Int.fdiv (a * b) 65536 := wrap32_of_inInt32 hin
  rw [hm]
  refine ⟨?_, ?_, hin⟩
  · unfold val
    rw [div_le_div_iff_of_pos_right (by norm_num), le_div_iff₀ (by norm_num)]
    exact_mod_cast hq1
  · unfold val
    rw [← add_div, div_lt_div_iff_of_pos_right (by norm_num), div_lt_iff₀ (by norm_num)]
    have : ((a * b : Int) : Rat) < ((Int.fdiv (a * b) 65536 * 65536 + 65536 : Int) : Rat) := by
      exact_mod_cast hq2
    push_cast at this ⊢
    linarith

theorem wrap_tdiv (a b : Int) (hr : Raw (Int.tdiv (a * 65536) b)) (hb : b ≠ 0) :
    div a b = .ok (Int.tdiv (a * 65536) b) := by
  unfold div
  rw [if_neg hb, wrap32_of_inInt32 hr]

/-- C50 (quotient): for a non-zero divisor, whenever the truncated quotient is representable, the
result is the exact quotient rounded toward zero to a multiple of 2^-16: it does not exceed the
exact quotient in absolute value, and is less than 2^-16 away from it. -/
theorem C50_div (a b : Int) (hb : b ≠ 0) (hr : Raw (Int.tdiv (a * 65536) b)) :
    ∃ c, div a b = .ok c ∧ |val c| ≤ |val a / val b| ∧ |val a / val b - val c| < 1 / 65536 := by
  refine ⟨_, wrap_tdiv a b hr hb, ?_, ?_⟩
  · have hab : val a / val b = ((a * 65536 : Int) : Rat) / b / 65536 := by
      unfold val; push_cast; have : (b : Rat) ≠ 0 := by exact_mod_cast hb
      field_simp
    rw [hab]
    unfold val
    rw [abs_div, abs_div, div_le_div_iff_of_pos_right (by norm_num), abs_div]
    have hbpos : (0 : Rat) < |(b : Rat)| := abs_pos.mpr (by exact_mod_cast hb)
    rw [le_div_iff₀ hbpos]
    have h1 : (Int.tdiv (a * 65536) b).natAbs * b.natAbs ≤ (a * 65536).natAbs := by
      rw [Int.natAbs_tdiv]; exact Nat.div_mul_le_self _ _
    have h2 : |Int.tdiv (a * 65536) b| * |b| ≤ |a * 65536| := by
      rw [Int.abs_eq_natAbs, Int.abs_eq_natAbs, Int.abs_eq_natAbs]; exact_mod_cast h1
    exact_mod_cast h2
  · have hbq : (b : Rat) ≠ 0 := by exact_mod_cast hb
    have hab : val a / val b - val (Int.tdiv (a * 65536) b) =
        ((Int.tmod (a * 65536) b : Int) : Rat) / b / 65536 := by
      have hdm := Int.tmod_add_mul_tdiv (a * 65536) b
      have : ((Int.tmod (a * 65536) b : Int) : Rat) = ((a * 65536 : Int) : Rat) - b * (Int.tdiv (a * 65536) b : Int) := by
        have : Int.tmod (a * 65536) b = a * 65536 - b * Int.tdiv (a * 65536) b := by linarith
        rw [this]; push_cast; ring
      rw [this]
      unfold val; push_cast
      field_simp
    rw [hab, abs_div, abs_div, show |(65536 : Rat)| = 65536 by norm_num,
      div_lt_div_iff_of_pos_right (by norm_num), div_lt_one (abs_pos.mpr hbq)]
    have h1 : |Int.tmod (a * 65536) b| < |b| := by
      rw [Int.abs_eq_natAbs, Int.abs_eq_natAbs, Int.natAbs_tmod]
      have : (a * 65536).natAbs % b.natAbs < b.natAbs := Nat.mod_lt _ (Int.natAbs_pos.mpr hb)
      exact_mod_cast this
    exact_mod_cast h1

/-- C50 (comparisons): agree with the numbers denoted. -/
theorem C50_compare (a b : Int) : (lt a b = true ↔ val a < val b) ∧ (gt a b = true ↔ val b < val a) ∧
    (eq a b = true ↔ val a = val b) := by
  refine ⟨by simp [lt, val_lt], by simp [gt, val_lt], ?_⟩
  unfold eq val
  rw [beq_iff_eq]
  constructor
  · rintro rfl; rfl
  · intro h
    have : (a : Rat) = b := by linarith
    exact_mod_cast this

/-- C50 (integers): integers in -32768..32767 convert exactly. -/
theorem C50_ofInt (i : Int) (h : -32768 ≤ i ∧ i ≤ 32767) : val (ofInt i) = i ∧ Raw (ofInt i) := by
  have hin : InInt32 (i * 65536) := by unfold InInt32; omega
  unfold ofInt
  rw [wrap32_of_inInt32 hin]
  refine ⟨?_, hin⟩
  unfold val; push_cast; ring

/-- C50 (saturation, negation): the class comment promises saturation; instead sums overflow
(undefined) and products wrap around: 256 * 256 gives 0, 181.5 * 181.5 is negative. -/
theorem C50_saturation_refuted :
    add (2 ^ 31 - 1) 1 = .ub ∧ mul (ofInt 256) (ofInt 256) = 0 ∧
      mul (181 * 65536 + 32768) (181 * 65536 + 32768) < 0 ∧ div (ofInt 1) 1 = .ok 0 := by decide

/-- C50 (wrap): without any range hypothesis the product is still the rounded-down product modulo
65536; this is what a caller gets instead of saturation. -/
theorem C50_mul_modulo_partial (a b : Int) : ∃ k : Int,
    val (mul a b) ≤ val a * val b + 65536 * k ∧ val a * val b + 65536 * k < val (mul a b) + 1 / 65536 := by
  obtain ⟨k, hk⟩ : ∃ k : Int, mul a b = Int.fdiv (a * b) 65536 - 2 ^ 32 * k := by
    obtain ⟨k, hk⟩ := (Int.dvd_self_sub_bmod : ((2 ^ 32 : Nat) : Int) ∣ Int.fdiv (a * b) 65536 - Int.bmod (Int.fdiv (a * b) 65536) (2 ^ 32))
    refine ⟨k, ?_⟩
    unfold mul wrap32
    push_cast at hk ⊢
    linarith
  refine ⟨-k, ?_⟩
  have hq1 : Int.fdiv (a * b) 65536 * 65536 ≤ a * b := by
    rw [Int.fdiv_eq_ediv_of_nonneg _ (by omega)]; omega
  have hq2 : a * b < Int.fdiv (a * b) 65536 * 65536 + 65536 := by
    rw [Int.fdiv_eq_ediv_of_nonneg _ (by omega)]; omega
  have e1 : ((Int.fdiv (a * b) 65536 : Int) : Rat) * 65536 ≤ a * b := by exact_mod_cast hq1
  have e2 : (a * b : Rat) < (Int.fdiv (a * b) 65536 : Int) * 65536 + 65536 := by exact_mod_cast hq2
  rw [hk]
  have hexact : val a * val b = (a * b : Rat) / 65536 / 65536 := by unfold val; ring
  rw [hexact]
  unfold val
  push_cast
  constructor <;> linarith

example : ∃ c, add (ofInt 3) (ofInt 4) = .ok c ∧ val c = 7 := ⟨ofInt 7, by decide, by
  rw [(C50_ofInt 7 (by omega)).1]; norm_num⟩
example : mul (ofInt 3) (ofInt (-4)) = ofInt (-12) ∧ mul 1 (-1) = -1 := by decide
example : div (ofInt (-1)) (ofInt 3) = .ok (-21845) ∧ Raw (Int.tdiv (ofInt (-1) * 65536) (ofInt 3)) := by
  decide

/-! ### C51 -/

/-- C51, partial: in a chained assignment `a = (b = c)` the inner target receives `c`, but the outer one
does only when `c` is zero.  Missing: everything else, see `C51_refuted`. -/
theorem C51_chain_partial (oldA oldB c : Int) (h : Raw c) :
    (assign oldB c).1 = c ∧ ((assign oldA (assign oldB c).2).1 = c ↔ c = 0) := by
  refine ⟨rfl, ?_⟩
  unfold assign ofInt wrap32
  unfold Raw InInt32 at h
  simp only
  rw [Int.bmod_eq_iff (by omega)]
  constructor
  · rintro ⟨-, -, h3⟩; omega
  · rintro rfl; omega

/-- C51 (negation): after `a = (b = c)` with `c = 1.5`, `a` is -32768 while `b` is 1.5. -/
theorem C51_refuted : ∃ c : Int, Raw c ∧
    let (b, e) := assign 0 c
    let (a, _) := assign 0 e
    b = c ∧ a ≠ c :=
  ⟨98304, by decide, by decide⟩

example : assign 7 98304 = (98304, -2147483648) := by decide

end Verif.F16
