import Verif.Core.Float
import Verif.F16.Props

/-
Properties C92, C93: the `float` side of `/repo/F16.h`.

Floats are rationals with 24 significant bits (Verif/Core/Float.lean); every float operation is rounded
to nearest even (FLT_EVAL_METHOD 0, as on x86-64).  NaN and infinities are not modelled as operands.
-/

namespace Verif.F16
open Verif

/-- `_f16_round`, F16.h:36-41, before the conversion to `int32_t` is checked for range. -/
def roundZ (v : ℚ) : ℤ :=
  if 0 < v then ftrunc (fl (v + 1 / 2)) else if v < 0 then ftrunc (fl (v - 1 / 2)) else 0

/-- `_f16_round`, F16.h:36-41; converting a float outside the range of `int32_t` is undefined. -/
def round16 (v : ℚ) : Outcome Int := int32 (roundZ v)

/-- `F16::F16(float)`, F16.h:59, and `operator=(float)`, F16.h:70-74. -/
def ofFloat (f : ℚ) : Outcome Int := round16 (fl (f * 65536))

/-- `F16::F16(double)`, F16.h:60: the argument is first converted to `float`. -/
def ofDouble (d : ℚ) : Outcome Int := round16 (fl (fl d * 65536))

/-- `F16::f()`, F16.h:65: `mV` is converted to `float`, then divided. -/
def toFloat (a : Int) : ℚ := fl (fl a / 65536)

/-- `operator*(float)`, F16.h:129-134, and `operator*=(float)`, 136-140. -/
def mulFloat (a : Int) (f : ℚ) : Outcome Int := int32 (ftrunc (fl (fl a * f)))

/-- `operator/(float)`, F16.h:157-162, and `operator/=(float)`, 164-168.  A division by 0 gives an
infinity or NaN, whose conversion to `int32_t` is undefined. -/
def divFloat (a : Int) (f : ℚ) : Outcome Int := if f = 0 then .ub else int32 (ftrunc (fl (fl a / f)))

/-- `operator>(float)`, F16.h:185-188. -/
def gtFloat (a : Int) (f : ℚ) : Bool := toFloat a > f

/-- `operator<(float)`, F16.h:190-193. -/
def ltFloat (a : Int) (f : ℚ) : Bool := toFloat a < f

/-- `operator==(float)`, F16.h:195-198. -/
def eqFloat (a : Int) (f : ℚ) : Bool := toFloat a == f

/-! ### Helpers -/

theorem isFloat_mul_65536 (x : ℚ) (h : IsFloat x) : IsFloat (x * 65536) := by
  have := isFloat_mul_pow x 16 h
  norm_num at this; exact this

theorem isFloat_div_65536 (x : ℚ) (h : IsFloat x) : IsFloat (x / 65536) := by
  have := isFloat_mul_pow x (-16) h
  have e : x * (2 : ℚ) ^ (-16 : ℤ) = x / 65536 := by rw [zpow_neg]; norm_num; ring
  rwa [e] at this

theorem toFloat_eq (a : Int) : toFloat a = fl a / 65536 :=
  fl_of_float _ (isFloat_div_65536 _ (fl_isFloat _))

theorem ofFloat_eq (f : ℚ) (h : IsFloat f) : ofFloat f = int32 (roundZ (f * 65536)) := by
  unfold ofFloat round16
  rw [fl_of_float _ (isFloat_mul_65536 _ h)]

theorem roundZ_neg (v : ℚ) : roundZ (-v) = - roundZ v := by
  unfold roundZ
  rcases lt_trichotomy v 0 with h | h | h
  · rw [if_pos (by linarith), if_neg (by linarith), if_pos h, show -v + 1 / 2 = -(v - 1 / 2) by ring,
      fl_neg, ftrunc_neg]
  · subst h; simp
  · rw [if_neg (by linarith), if_pos (by linarith), if_pos h, show -v - 1 / 2 = -(v + 1 / 2) by ring,
      fl_neg, ftrunc_neg]

theorem rne_frac (n : ℤ) (d : ℚ) (h0 : 0 ≤ d) (h1 : d < 1 / 2) : rne (n + d) = n := by
  have : ⌊(n : ℚ) + d⌋ = n := by rw [Int.floor_eq_iff]; constructor <;> linarith
  unfold rne; rw [this, if_pos (by linarith)]

theorem rne_half (n : ℤ) : rne (n + 1 / 2) = if 2 ∣ n then n else n + 1 := by
  have : ⌊(n : ℚ) + 1 / 2⌋ = n := by rw [Int.floor_eq_iff]; constructor <;> linarith
  unfold rne; rw [this, if_neg (by linarith), if_neg (by linarith)]

theorem ftrunc_half (m : ℤ) (h : 0 ≤ m) : ftrunc (m + 1 / 2) = m := by
  have h' : (0 : ℚ) ≤ m := by exact_mod_cast h
  unfold ftrunc
  rw [if_pos (by linarith), Int.floor_eq_iff]; constructor <;> linarith

theorem roundZ_small (m : ℤ) (h0 : 0 < m) (h : m < 2 ^ 23) : roundZ m = m := by
  have h0' : (0 : ℚ) < m := by exact_mod_cast h0
  unfold roundZ
  rw [if_pos h0']
  have e : (m : ℚ) + 1 / 2 = ((2 * m + 1 : ℤ) : ℚ) * 2 ^ (-1 : ℤ) := by push_cast; norm_num; ring
  have hf : IsFloat ((m : ℚ) + 1 / 2) := ⟨2 * m + 1, -1, by rw [abs_le]; omega, e⟩
  rw [fl_of_float _ hf, ftrunc_half m (by omega)]

theorem roundZ_mid (m : ℤ) (h0 : 2 ^ 23 ≤ m) (h : m < 2 ^ 24) :
    roundZ m = if 2 ∣ m then m else m + 1 := by
  have h0' : (2 ^ 23 : ℚ) ≤ m := by exact_mod_cast h0
  have h' : (m : ℚ) + 1 ≤ 2 ^ 24 := by exact_mod_cast h
  have hp : (0 : ℚ) < m := by linarith
  unfold roundZ
  rw [if_pos hp]
  have hl : lastBit ((m : ℚ) + 1 / 2) = 0 := by
    apply lastBit_eq <;> rw [abs_of_pos (by linarith)] <;> norm_num at * <;> linarith
  unfold fl
  rw [if_neg (by linarith), hl, zpow_zero, div_one, mul_one, rne_half, ftrunc_int]

theorem roundZ_big (m : ℤ) (h0 : 2 ^ 24 ≤ m) (hf : IsFloat m) : roundZ m = m := by
  have hp : (0 : ℚ) < m := by have : 0 < m := by omega
                              exact_mod_cast this
  -- normal form
  have hn : ∃ n : ℤ, ∃ k : ℕ, 1 ≤ k ∧ 2 ^ 23 ≤ n ∧ n < 2 ^ 24 ∧ (m : ℚ) = n * 2 ^ k := by
    obtain ⟨n, k, hk, h1, h2, h3⟩ := fl_big m (by rw [abs_of_pos (by omega)]; exact h0)
    rw [fl_of_float _ hf] at h3
    have hnp : 0 < n := by
      have : (0 : ℚ) < n := by
        by_contra hc
        have : (n : ℚ) * 2 ^ k ≤ 0 := mul_nonpos_of_nonpos_of_nonneg (by linarith) (by positivity)
        linarith
      exact_mod_cast this
    rw [abs_of_pos hnp] at h1 h2
    rcases lt_or_eq_of_le h2 with h | h
    · exact ⟨n, k, hk, h1, h, h3⟩
    · exact ⟨2 ^ 23, k + 1, by omega, by norm_num, by norm_num, by rw [h3, h]; push_cast; ring⟩
  obtain ⟨n, k, hk, h1, h2, h3⟩ := hn
  have hk2 : (2 : ℚ) ≤ 2 ^ k := by
    calc (2 : ℚ) = 2 ^ 1 := by norm_num
      _ ≤ 2 ^ k := pow_le_pow_right₀ (by norm_num) hk
  have h1q : (2 ^ 23 : ℚ) ≤ n := by exact_mod_cast h1
  have h2q : (n : ℚ) + 1 ≤ 2 ^ 24 := by exact_mod_cast h2
  have hl : lastBit ((m : ℚ) + 1 / 2) = k := by
    have e23 : ((2 : ℚ) ^ ((k : ℤ) + 23)) = 2 ^ k * 2 ^ 23 := by rw [zpow_add₀ (by norm_num)]; norm_cast
    have e24 : ((2 : ℚ) ^ ((k : ℤ) + 24)) = 2 ^ k * 2 ^ 24 := by rw [zpow_add₀ (by norm_num)]; norm_cast
    apply lastBit_eq <;> rw [abs_of_pos (by linarith)]
    · rw [e23, h3]; nlinarith
    · rw [e24, h3]; nlinarith
  unfold roundZ
  rw [if_pos hp]
  unfold fl
  rw [if_neg (by linarith), hl, zpow_natCast]
  have e : ((m : ℚ) + 1 / 2) / 2 ^ k = n + 1 / 2 / 2 ^ k := by rw [h3]; field_simp
  have hlt : (1 / 2 / 2 ^ k : ℚ) < 1 / 2 := by
    rw [div_lt_iff₀ (by positivity)]; linarith
  rw [e, rne_frac n _ (by positivity) hlt, ← h3, ftrunc_int]

/-- The rounding applied to an integer that is a float. -/
theorem roundZ_float (m : ℤ) (hf : IsFloat m) :
    roundZ m = m ↔ ¬ (¬ 2 ∣ m ∧ 2 ^ 23 ≤ |m| ∧ |m| < 2 ^ 24) := by
  have pos : ∀ m : ℤ, 0 < m → IsFloat m → (roundZ m = m ↔ ¬ (¬ 2 ∣ m ∧ 2 ^ 23 ≤ |m| ∧ |m| < 2 ^ 24)) := by
    intro m hm hf
    rw [abs_of_pos hm]
    by_cases c1 : m < 2 ^ 23
    · rw [roundZ_small m hm c1]; simp; omega
    · by_cases c2 : m < 2 ^ 24
      · rw [roundZ_mid m (by omega) c2]
        split <;> simp_all
      · rw [roundZ_big m (by omega) hf]; simp; omega
  rcases lt_trichotomy m 0 with h | h | h
  · have := pos (-m) (by omega) (by push_cast; exact isFloat_neg _ hf)
    rw [Int.cast_neg, roundZ_neg, abs_neg] at this
    have e : (-roundZ (m : ℚ) = -m) ↔ roundZ (m : ℚ) = m := by omega
    rw [e] at this
    rw [this]
    simp
  · subst h; simp [roundZ]
  · exact pos m h hf

theorem int32_eq_ok (x y : Int) : int32 x = .ok y ↔ InInt32 x ∧ x = y := by
  unfold int32; split <;> simp_all

/-! ### C92 -/

/-- C92 (reading as float): the float returned by `f()` differs from the value held by at most
2^-24 of the value. -/
theorem C92_toFloat_error (a : Int) : |toFloat a - val a| ≤ |val a| / 2 ^ 24 := by
  have h := fl_rel (a : ℚ)
  rw [toFloat_eq]
  unfold val
  rw [← sub_div, abs_div, abs_div, abs_of_pos (by norm_num : (0 : ℚ) < 65536)]
  rw [div_right_comm]
  exact div_le_div_of_nonneg_right h (by norm_num)

/-- C92 (reading as float): exact for values of at most 256 in size. -/
theorem C92_toFloat_exact (a : Int) (h : |val a| ≤ 256) : toFloat a = val a := by
  have hi : |a| ≤ 2 ^ 24 := by
    unfold val at h
    rw [abs_div, abs_of_pos (by norm_num : (0 : ℚ) < 65536), div_le_iff₀ (by norm_num)] at h
    norm_num at h
    exact_mod_cast h
  rw [toFloat_eq, fl_of_float _ (isFloat_int a hi)]; rfl

example : toFloat 98304 = 3 / 2 := by
  rw [C92_toFloat_exact _ (by unfold val; norm_num [abs_le])]; unfold val; norm_num

/-- C92 (accuracy of conversion from float): the F16 obtained differs from the float by at most half
an F16 step plus the float rounding of one addition. -/
theorem C92_ofFloat_error (f : ℚ) (hf : IsFloat f) (hr : |f| ≤ 32767) :
    ∃ a, ofFloat f = .ok a ∧ Raw a ∧ |val a - f| ≤ 1 / 131072 + (|f| + 1 / 131072) / 2 ^ 24 := by
  rw [ofFloat_eq f hf]
  have pos : ∀ v : ℚ, 0 < v → |(roundZ v : ℚ) - v| ≤ 1 / 2 + (|v| + 1 / 2) / 2 ^ 24 := by
    intro v hv
    have h1 := fl_rel (v + 1 / 2)
    rw [abs_of_pos (by linarith : 0 < v + 1 / 2), abs_le] at h1
    unfold roundZ ftrunc
    have hnn : 0 ≤ fl (v + 1 / 2) := by
      have : (v + 1 / 2) / 2 ^ 24 ≤ v + 1 / 2 := div_le_self (by linarith) (by norm_num)
      linarith [h1.1]
    rw [if_pos hv, if_pos hnn]
    have h2 := Int.floor_le (fl (v + 1 / 2))
    have h3 := Int.lt_floor_add_one (fl (v + 1 / 2))
    rw [abs_of_pos hv, abs_le]
    constructor <;> linarith [h1.1, h1.2]
  have all : ∀ v : ℚ, |(roundZ v : ℚ) - v| ≤ 1 / 2 + (|v| + 1 / 2) / 2 ^ 24 := by
    intro v
    rcases lt_trichotomy v 0 with h | h | h
    · have := pos (-v) (by linarith)
      rw [roundZ_neg, abs_neg] at this
      push_cast at this
      rwa [show -(roundZ v : ℚ) - -v = -((roundZ v : ℚ) - v) by ring, abs_neg] at this
    · subst h; simp [roundZ]; norm_num
    · exact pos v h
  have hv := all (f * 65536)
  rw [abs_mul, abs_of_pos (by norm_num : (0 : ℚ) < 65536)] at hv
  have hin : InInt32 (roundZ (f * 65536)) := by
    rw [abs_le] at hv
    have hr' := abs_le.1 hr
    have b1 : (-2147483648 : ℚ) ≤ roundZ (f * 65536) := by norm_num at hv; linarith [hv.1, hr'.1, hr'.2]
    have b2 : (roundZ (f * 65536) : ℚ) ≤ 2147483647 := by norm_num at hv; linarith [hv.2, hr'.1, hr'.2]
    have b1' : (-2147483648 : ℤ) ≤ roundZ (f * 65536) := by exact_mod_cast b1
    have b2' : roundZ (f * 65536) ≤ (2147483647 : ℤ) := by exact_mod_cast b2
    unfold InInt32; omega
  refine ⟨_, int32_of_in hin, hin, ?_⟩
  have e : val (roundZ (f * 65536)) - f = ((roundZ (f * 65536) : ℚ) - f * 65536) / 65536 := by
    unfold val; field_simp
  rw [e, abs_div, abs_of_pos (by norm_num : (0 : ℚ) < 65536), div_le_iff₀ (by norm_num)]
  refine le_trans hv (le_of_eq ?_)
  ring

/-- C92 (whole numbers and multiples of the step): a float that is exactly an F16 value of at most
128 in size converts to that value. -/
theorem C92_ofFloat_exact_partial (a : Int) (h : |val a| ≤ 128) : ofFloat (val a) = .ok a := by
  have hi : |a| ≤ 2 ^ 23 := by
    unfold val at h
    rw [abs_div, abs_of_pos (by norm_num : (0 : ℚ) < 65536), div_le_iff₀ (by norm_num)] at h
    norm_num at h
    exact_mod_cast h
  have hfa : IsFloat (a : ℚ) := isFloat_int a (by omega)
  rw [ofFloat_eq (val a) (isFloat_div_65536 _ hfa), int32_eq_ok]
  have e : val a * 65536 = a := by unfold val; field_simp
  rw [e]
  have : roundZ (a : ℚ) = a := by
    rw [roundZ_float a hfa]
    rintro ⟨ho, h1, h2⟩
    have : |a| = 2 ^ 23 := by omega
    rcases (abs_eq (by norm_num)).1 this with h | h <;> rw [h] at ho <;> revert ho <;> decide
  rw [this]
  exact ⟨by rw [abs_le] at hi; unfold InInt32; omega, rfl⟩

example : ofFloat (val (-98304)) = .ok (-98304) :=
  C92_ofFloat_exact_partial _ (by unfold val; norm_num [abs_le])

/-- C92 (nearest) is refuted: the float just below half a step is rounded up to a whole step although
0 is nearer (the sum with 0.5F is rounded to 1). -/
theorem C92_nearest_refuted :
    ∃ f, IsFloat f ∧ ofFloat f = .ok 1 ∧ |val 0 - f| < |val 1 - f| := by
  refine ⟨(16777215 : ℤ) * 2 ^ (-41 : ℤ), ⟨16777215, -41, by norm_num, rfl⟩, ?_, ?_⟩
  · rw [ofFloat_eq _ ⟨16777215, -41, by norm_num, rfl⟩, int32_eq_ok]
    have e : ((16777215 : ℤ) : ℚ) * 2 ^ (-41 : ℤ) * 65536 + 1 / 2 = 33554431 / 33554432 := by
      rw [zpow_neg]; norm_num
    have hz : roundZ (((16777215 : ℤ) : ℚ) * 2 ^ (-41 : ℤ) * 65536) = 1 := by
      unfold roundZ
      rw [if_pos (by positivity), e]
      have hl : lastBit (33554431 / 33554432 : ℚ) = -24 := by
        apply lastBit_eq <;> rw [abs_of_pos (by norm_num)] <;> norm_num [zpow_neg]
      have hfl : fl (33554431 / 33554432 : ℚ) = 1 := by
        unfold fl
        rw [if_neg (by norm_num), hl]
        have e2 : (33554431 / 33554432 : ℚ) / 2 ^ (-24 : ℤ) = ((16777215 : ℤ) : ℚ) + 1 / 2 := by
          rw [zpow_neg]; norm_num
        rw [e2, rne_half, if_neg (by decide), zpow_neg]; norm_num
      rw [hfl]; exact_mod_cast ftrunc_int 1
    rw [hz]; exact ⟨by decide, rfl⟩
  · unfold val
    rw [zpow_neg]; norm_num [abs_lt, abs_of_pos, abs_of_neg]

/-- C92 (round trip), complete description: reading an F16 as a float and converting back returns the
same F16 exactly when its raw value is a float and is not odd between 2^23 and 2^24 in size. -/
theorem C92_roundtrip_iff (a : Int) (ha : Raw a) :
    ofFloat (toFloat a) = .ok a ↔ IsFloat (a : ℚ) ∧ ¬ (¬ 2 ∣ a ∧ 2 ^ 23 ≤ |a| ∧ |a| < 2 ^ 24) := by
  have e : toFloat a * 65536 = fl a := by rw [toFloat_eq]; field_simp
  have hfl : IsFloat (toFloat a) := fl_isFloat _
  rw [ofFloat_eq _ hfl, int32_eq_ok, e]
  constructor
  · rintro ⟨-, h⟩
    have hf : IsFloat (a : ℚ) := by
      by_cases hs : |a| ≤ 2 ^ 24
      · exact isFloat_int a hs
      · obtain ⟨n, k, hk, h1, h2, h3⟩ := fl_big a (by omega)
        have h4 : fl (a : ℚ) = ((n * 2 ^ k : ℤ) : ℚ) := by rw [h3]; push_cast; rfl
        have hM : IsFloat ((n * 2 ^ k : ℤ) : ℚ) := by rw [← h4]; exact fl_isFloat _
        have hbig : ¬ (¬ 2 ∣ (n * 2 ^ k : ℤ) ∧ 2 ^ 23 ≤ |n * 2 ^ k| ∧ |n * 2 ^ k| < 2 ^ 24) := by
          rintro ⟨ho, -⟩
          exact ho (Dvd.dvd.mul_left (dvd_pow_self 2 (by omega)) n)
        rw [h4, (roundZ_float _ hM).2 hbig] at h
        rw [← h]; exact hM
    refine ⟨hf, ?_⟩
    rw [fl_of_float _ hf] at h
    exact (roundZ_float a hf).1 h
  · rintro ⟨hf, h⟩
    rw [fl_of_float _ hf, (roundZ_float a hf).2 h]
    exact ⟨ha, rfl⟩

/-- C92 (round trip), partial: exact for values of at most 128 in size. -/
theorem C92_roundtrip_partial (a : Int) (h : |val a| ≤ 128) : ofFloat (toFloat a) = .ok a := by
  rw [C92_toFloat_exact a (by linarith)]
  exact C92_ofFloat_exact_partial a h

example : ofFloat (toFloat (-8388608)) = .ok (-8388608) :=
  C92_roundtrip_partial _ (by unfold val; norm_num [abs_le])

/-- C92 (round trip) is refuted just above 128. -/
theorem C92_roundtrip_refuted : Raw 8388609 ∧ ofFloat (toFloat 8388609) = .ok 8388610 := by
  refine ⟨by decide, ?_⟩
  have e : toFloat 8388609 * 65536 = ((8388609 : ℤ) : ℚ) := by
    rw [toFloat_eq, fl_of_float _ (isFloat_int 8388609 (by norm_num))]; norm_num
  rw [ofFloat_eq (toFloat 8388609) (fl_isFloat _), e, int32_eq_ok, roundZ_mid _ (by norm_num) (by norm_num)]
  decide

/-- C92 (round trip) is undefined for the largest F16: its float is 2^31/65536. -/
theorem C92_roundtrip_max_refuted : Raw 2147483647 ∧ ofFloat (toFloat 2147483647) = .ub := by
  refine ⟨by decide, ?_⟩
  have hl : lastBit ((2147483647 : ℤ) : ℚ) = 7 := by
    apply lastBit_eq <;> rw [abs_of_pos (by norm_num)] <;> norm_num
  have hfl : fl ((2147483647 : ℤ) : ℚ) = ((2147483648 : ℤ) : ℚ) := by
    unfold fl
    rw [if_neg (by norm_num), hl]
    have hr : rne (((2147483647 : ℤ) : ℚ) / 2 ^ (7 : ℤ)) = 16777216 := by
      have hf : ⌊((2147483647 : ℤ) : ℚ) / 2 ^ (7 : ℤ)⌋ = 16777215 := by
        rw [Int.floor_eq_iff]; norm_num
      unfold rne
      rw [hf, if_neg (by norm_num), if_pos (by norm_num)]; norm_num
    rw [hr]; norm_num
  have e : toFloat 2147483647 * 65536 = ((2147483648 : ℤ) : ℚ) := by
    rw [toFloat_eq, hfl]; norm_num
  rw [ofFloat_eq (toFloat 2147483647) (fl_isFloat _), e,
    roundZ_big _ (by norm_num) ⟨8388608, 8, by norm_num, by norm_num⟩]
  decide

/-- C92 (double argument): a double is handled as the float nearest to it. -/
theorem C92_ofDouble (d : ℚ) : ofDouble d = ofFloat (fl d) ∧ (IsFloat d → ofDouble d = ofFloat d) :=
  ⟨rfl, fun h => by unfold ofDouble ofFloat; rw [fl_of_float d h]⟩

/-! ### C93 -/

/-- C93 (product with a float): within the accuracy of one step plus the float rounding; undefined
behaviour cannot occur while the exact product stays below 32767. -/
theorem C93_mulFloat_error (a : Int) (f : ℚ) (h : |val a| ≤ 256) (hr : |val a * f| ≤ 32767) :
    ∃ c, mulFloat a f = .ok c ∧ Raw c ∧ |val c - val a * f| < 1 / 65536 + |val a * f| / 2 ^ 24 := by
  have hi : |a| ≤ 2 ^ 24 := by
    unfold val at h
    rw [abs_div, abs_of_pos (by norm_num : (0 : ℚ) < 65536), div_le_iff₀ (by norm_num)] at h
    norm_num at h
    exact_mod_cast h
  unfold mulFloat
  rw [fl_of_float _ (isFloat_int a hi)]
  have h1 := fl_rel ((a : ℚ) * f)
  have h2 := ftrunc_err (fl ((a : ℚ) * f))
  have e : (a : ℚ) * f = val a * f * 65536 := by unfold val; field_simp
  have ea : |(a : ℚ) * f| = |val a * f| * 65536 := by
    rw [e, abs_mul, abs_of_pos (by norm_num : (0 : ℚ) < 65536)]
  have hsum : |(ftrunc (fl ((a : ℚ) * f)) : ℚ) - a * f| < 1 + |val a * f| * 65536 / 2 ^ 24 := by
    calc |(ftrunc (fl ((a : ℚ) * f)) : ℚ) - a * f|
        = |((ftrunc (fl ((a : ℚ) * f)) : ℚ) - fl ((a : ℚ) * f)) + (fl ((a : ℚ) * f) - a * f)| := by ring_nf
      _ ≤ _ := abs_add_le _ _
      _ < _ := by rw [ea] at h1; linarith
  have hin : InInt32 (ftrunc (fl ((a : ℚ) * f))) := by
    have hb := abs_lt.1 hsum
    have hr' := abs_le.1 hr
    have hd : |val a * f| * 65536 / 2 ^ 24 ≤ 128 := by
      rw [div_le_iff₀ (by norm_num)]; norm_num at hr ⊢; linarith
    have b1 : (-2147483648 : ℚ) ≤ ftrunc (fl ((a : ℚ) * f)) := by linarith [hb.1, hr'.1, hr'.2]
    have b2 : (ftrunc (fl ((a : ℚ) * f)) : ℚ) ≤ 2147483647 := by linarith [hb.2, hr'.1, hr'.2]
    have b1' : (-2147483648 : ℤ) ≤ ftrunc (fl ((a : ℚ) * f)) := by exact_mod_cast b1
    have b2' : ftrunc (fl ((a : ℚ) * f)) ≤ (2147483647 : ℤ) := by exact_mod_cast b2
    unfold InInt32; omega
  refine ⟨_, int32_of_in hin, hin, ?_⟩
  have ev : val (ftrunc (fl ((a : ℚ) * f))) - val a * f
      = ((ftrunc (fl ((a : ℚ) * f)) : ℚ) - a * f) / 65536 := by
    unfold val; field_simp
  rw [ev, abs_div, abs_of_pos (by norm_num : (0 : ℚ) < 65536), div_lt_iff₀ (by norm_num)]
  refine lt_of_lt_of_le hsum (le_of_eq ?_)
  ring

/-- C93 (quotient by a float): likewise. -/
theorem C93_divFloat_error (a : Int) (f : ℚ) (h : |val a| ≤ 256) (hf : f ≠ 0) (hr : |val a / f| ≤ 32767) :
    ∃ c, divFloat a f = .ok c ∧ Raw c ∧ |val c - val a / f| < 1 / 65536 + |val a / f| / 2 ^ 24 := by
  have e : divFloat a f = mulFloat a f⁻¹ := by
    unfold divFloat mulFloat; rw [if_neg hf, div_eq_mul_inv]
  rw [e, div_eq_mul_inv]
  exact C93_mulFloat_error a f⁻¹ h (by rwa [← div_eq_mul_inv])

example : ∃ c, divFloat 65536 3 = .ok c ∧ |val c - 1 / 3| < 1 / 60000 := by
  obtain ⟨c, h1, -, h2⟩ := C93_divFloat_error 65536 3 (by unfold val; norm_num)
    (by norm_num) (by unfold val; norm_num [abs_le])
  refine ⟨c, h1, ?_⟩
  have e : val 65536 / 3 = 1 / 3 := by unfold val; norm_num
  rw [e, abs_of_pos (by norm_num : (0 : ℚ) < 1 / 3)] at h2
  exact lt_trans h2 (by norm_num)

/-- C93 (neutral element), partial: multiplying or dividing by 1.0F changes nothing for values of at
most 256 in size. -/
theorem C93_one_partial (a : Int) (h : |val a| ≤ 256) :
    mulFloat a 1 = .ok a ∧ divFloat a 1 = .ok a := by
  have hi : |a| ≤ 2 ^ 24 := by
    unfold val at h
    rw [abs_div, abs_of_pos (by norm_num : (0 : ℚ) < 65536), div_le_iff₀ (by norm_num)] at h
    norm_num at h
    exact_mod_cast h
  have hin : InInt32 a := by rw [abs_le] at hi; unfold InInt32; omega
  unfold mulFloat divFloat
  rw [if_neg one_ne_zero, div_one, mul_one, fl_of_float _ (isFloat_int a hi),
    fl_of_float _ (isFloat_int a hi), ftrunc_int]
  exact ⟨int32_of_in hin, int32_of_in hin⟩

theorem fl_16777217 : fl ((16777217 : ℤ) : ℚ) = ((16777216 : ℤ) : ℚ) := by
  have hl : lastBit ((16777217 : ℤ) : ℚ) = 1 := by
    apply lastBit_eq <;> rw [abs_of_pos (by norm_num)] <;> norm_num
  unfold fl
  rw [if_neg (by norm_num), hl]
  have e : ((16777217 : ℤ) : ℚ) / 2 ^ (1 : ℤ) = ((8388608 : ℤ) : ℚ) + 1 / 2 := by norm_num
  rw [e, rne_half, if_pos (by decide)]; norm_num

/-- C93 (neutral element) is refuted above 256. -/
theorem C93_one_refuted : Raw 16777217 ∧ mulFloat 16777217 1 = .ok 16777216 := by
  refine ⟨by decide, ?_⟩
  unfold mulFloat
  rw [mul_one, fl_16777217, fl_of_float _ (isFloat_int 16777216 (by norm_num)), ftrunc_int]
  decide

/-- C93 (comparison with a float), partial: right for values of at most 256 in size. -/
theorem C93_compare_partial (a : Int) (f : ℚ) (h : |val a| ≤ 256) :
    (gtFloat a f = true ↔ val a > f) ∧ (ltFloat a f = true ↔ val a < f) ∧
      (eqFloat a f = true ↔ val a = f) := by
  unfold gtFloat ltFloat eqFloat
  rw [C92_toFloat_exact a h]
  simp

/-- C93 (comparison with a float), for every F16: a reported strict order is right. -/
theorem C93_compare_sound (a : Int) (f : ℚ) (hf : IsFloat f) :
    (gtFloat a f = true → val a > f) ∧ (ltFloat a f = true → val a < f) := by
  unfold gtFloat ltFloat
  rw [toFloat_eq]
  have hF := isFloat_mul_65536 f hf
  constructor
  · intro h
    have h : fl a / 65536 > f := by simpa using h
    by_contra hc
    have h1 : (a : ℚ) ≤ f * 65536 := by
      have : val a ≤ f := not_lt.1 hc
      unfold val at this; rwa [div_le_iff₀ (by norm_num)] at this
    have h2 := fl_le_float _ _ hF h1
    rw [gt_iff_lt, lt_div_iff₀ (by norm_num)] at h
    linarith
  · intro h
    have h : fl a / 65536 < f := by simpa using h
    by_contra hc
    have h1 : f * 65536 ≤ (a : ℚ) := by
      have : f ≤ val a := not_lt.1 hc
      unfold val at this; rwa [le_div_iff₀ (by norm_num)] at this
    have h2 := float_le_fl _ _ hF h1
    rw [div_lt_iff₀ (by norm_num)] at h
    linarith

example : gtFloat 2147483647 100 = true ∧ val 2147483647 > 100 := by
  have h : gtFloat 2147483647 100 = true := by
    have h2 := abs_le.1 (C92_toFloat_error 2147483647)
    unfold gtFloat
    have hv : val 2147483647 = 2147483647 / 65536 := by unfold val; norm_num
    rw [hv, abs_of_pos (by norm_num)] at h2
    have : toFloat 2147483647 > 100 := by norm_num at h2; linarith [h2.1]
    simpa using this
  exact ⟨h, (C93_compare_sound _ 100 ⟨100, 0, by norm_num, by norm_num⟩).1 h⟩

/-- C93 (comparison with a float) is refuted: raw 16777217 (256 + 2^-16) is reported equal to 256 and
not greater. -/
theorem C93_compare_refuted :
    eqFloat 16777217 256 = true ∧ gtFloat 16777217 256 = false ∧ val 16777217 > 256 := by
  have e : toFloat 16777217 = 256 := by rw [toFloat_eq, fl_16777217]; norm_num
  unfold eqFloat gtFloat
  rw [e]
  refine ⟨by simp, by simp, ?_⟩
  unfold val; norm_num

/-- C93: division by 0.0F is undefined. -/
theorem C93_div_zero (a : Int) : divFloat a 0 = .ub := by simp [divFloat]

end Verif.F16
