import Mathlib.Data.Rat.Floor
import Mathlib.Algebra.Order.Field.Basic
import Mathlib.Tactic.Linarith
import Mathlib.Tactic.NormNum
import Mathlib.Tactic.Positivity
import Mathlib.Tactic.Ring
import Verif.Core.Outcome

/-
Property C107: times in seconds as `double`, and sleeping (`Utils.cpp:274-279,309-313`, `Timeval.cpp:66-69`, `Timeval.h:38`).

Numbers of type `double` are rationals; every operation rounds its exact result.  What rounding does is not fixed, only that it is a `Rounding`: the standard's rounding to nearest with 53
significant bits is one (exponents are unbounded, as in the rest of the model).
-/

namespace Verif.Timeval.Seconds
open Verif

/-- A rounding as in `double` arithmetic: monotone, with relative error 2^-53, exact for integers of at most 53 bits. -/
structure Rounding (rd : ℚ → ℚ) : Prop where
  mono : ∀ x y, x ≤ y → rd x ≤ rd y
  err : ∀ x, |rd x - x| ≤ |x| / 2 ^ 53
  int : ∀ n : ℤ, |n| ≤ 2 ^ 53 → rd n = n

/-- `Utils::timef` (`Utils.cpp:274-279`) at the given clock reading. -/
def timef (rd : ℚ → ℚ) (sec us : ℤ) : ℚ := rd (rd ((us : ℚ) / 1000000) + rd sec)

/-- `Timeval::seconds` (`Timeval.cpp:66-69`). -/
def seconds (rd : ℚ → ℚ) (sec us : ℤ) : ℚ := rd (rd sec + rd (rd (1 / 1000000) * rd us))

/-- The conversion to `useconds_t`, a 32-bit unsigned type. -/
def toUseconds (x : ℚ) : Outcome ℤ := if 0 ≤ ⌊x⌋ ∧ ⌊x⌋ < 2 ^ 32 then .ok ⌊x⌋ else .ub

/-- `sleepf` (`Utils.cpp:309-313`): the microseconds given to `usleep`, none if it is not called. -/
def sleepf (rd : ℚ → ℚ) (howlong : ℚ) : Outcome (Option ℤ) :=
  if howlong ≤ rd (1 / 100000) then .ok none else (toUseconds (rd (1000000 * howlong))).bind fun n => .ok (some n)

/-- `msleep` (`Timeval.h:38`): the microseconds given to `usleep`. -/
def msleep (v : ℤ) : Outcome ℤ := if -2 ^ 63 ≤ v * 1000 ∧ v * 1000 < 2 ^ 63 then .ok (v * 1000 % 2 ^ 32) else .ub

/-! ### Specification -/

/-- A clock reading. -/
def Reading (sec us : ℤ) : Prop := 0 ≤ us ∧ us < 1000000 ∧ 0 ≤ sec ∧ sec < 2 ^ 33

/-- The instant, in seconds. -/
def exact (sec us : ℤ) : ℚ := sec + us / 1000000

/-- The earlier of two instants, or the same. -/
def notAfter (s u t v : ℤ) : Prop := s < t ∨ s = t ∧ u ≤ v

/-! ### Proof -/

theorem Rounding.nonneg {rd : ℚ → ℚ} (h : Rounding rd) {x : ℚ} (hx : 0 ≤ x) : 0 ≤ rd x := by
  have := h.mono 0 x hx
  have z := h.int 0 (by norm_num)
  rw [Int.cast_zero] at z
  rwa [z] at this

theorem Rounding.le_one {rd : ℚ → ℚ} (h : Rounding rd) {x : ℚ} (hx : x ≤ 1) : rd x ≤ 1 := by
  have := h.mono x 1 hx
  have z := h.int 1 (by norm_num)
  rw [Int.cast_one] at z
  rwa [z] at this

theorem Rounding.between {rd : ℚ → ℚ} (h : Rounding rd) {x b : ℚ} (h0 : 0 ≤ x) (hb : x ≤ b) : x - b / 2 ^ 53 ≤ rd x ∧ rd x ≤ x + b / 2 ^ 53 := by
  have := h.err x
  rw [abs_of_nonneg h0, abs_le] at this
  have hd : x / 2 ^ 53 ≤ b / 2 ^ 53 := by gcongr
  constructor <;> linarith [this.1, this.2]

theorem sec_exact {rd : ℚ → ℚ} (h : Rounding rd) {sec us : ℤ} (hr : Reading sec us) : rd sec = sec := by
  obtain ⟨-, -, h3, h4⟩ := hr
  exact h.int sec (by rw [abs_of_nonneg h3]; omega)

theorem us_exact {rd : ℚ → ℚ} (h : Rounding rd) {sec us : ℤ} (hr : Reading sec us) : rd us = us := by
  obtain ⟨h1, h2, -, -⟩ := hr
  exact h.int us (by rw [abs_of_nonneg h1]; omega)

theorem frac_bounds {sec us : ℤ} (hr : Reading sec us) : (0 : ℚ) ≤ (us : ℚ) / 1000000 ∧ (us : ℚ) / 1000000 ≤ 999999 / 1000000 := by
  obtain ⟨h1, h2, -, -⟩ := hr
  have a : (0 : ℚ) ≤ us := by exact_mod_cast h1
  have b : (us : ℚ) ≤ 999999 := by exact_mod_cast (show us ≤ 999999 by omega)
  constructor
  · positivity
  · gcongr

theorem sec_bounds {sec us : ℤ} (hr : Reading sec us) : (0 : ℚ) ≤ sec ∧ (sec : ℚ) ≤ 2 ^ 33 := by
  obtain ⟨-, -, h3, h4⟩ := hr
  constructor
  · exact_mod_cast h3
  · exact_mod_cast h4.le

/-- The fraction as computed by `seconds`. -/
theorem micro_bounds {rd : ℚ → ℚ} (h : Rounding rd) {sec us : ℤ} (hr : Reading sec us) :
    0 ≤ rd (rd (1 / 1000000) * rd us) ∧ rd (rd (1 / 1000000) * rd us) ≤ 1 ∧ |rd (rd (1 / 1000000) * rd us) - (us : ℚ) / 1000000| ≤ 2 / 2 ^ 52 := by
  rw [us_exact h hr]
  obtain ⟨f0, f1⟩ := frac_bounds hr
  have c0 : 0 ≤ rd (1 / 1000000) := h.nonneg (by norm_num)
  obtain ⟨c1, c2⟩ := h.between (x := 1 / 1000000) (b := 1 / 1000000) (by norm_num) (by norm_num)
  have u0 : (0 : ℚ) ≤ us := by exact_mod_cast hr.1
  have u1 : (us : ℚ) ≤ 999999 := by exact_mod_cast (show us ≤ 999999 by have := hr.2.1; omega)
  have p0 : 0 ≤ rd (1 / 1000000) * us := mul_nonneg c0 u0
  have p1 : rd (1 / 1000000) * us ≤ (1 / 1000000 + 1 / 1000000 / 2 ^ 53) * us := mul_le_mul_of_nonneg_right c2 u0
  have p2 : (1 / 1000000 - 1 / 1000000 / 2 ^ 53) * us ≤ rd (1 / 1000000) * us := mul_le_mul_of_nonneg_right c1 u0
  have p3 : rd (1 / 1000000) * us ≤ 1 := by
    refine p1.trans ?_
    norm_num
    linarith
  obtain ⟨q1, q2⟩ := h.between p0 p3
  refine ⟨h.nonneg p0, h.le_one p3, ?_⟩
  rw [abs_le]
  norm_num at *
  constructor <;> linarith

/-- C107: until the year 2242 both functions differ from the clock's reading by less than two microseconds. -/
theorem C107_accurate_partial (rd : ℚ → ℚ) (h : Rounding rd) (sec us : ℤ) (hr : Reading sec us) :
    |timef rd sec us - exact sec us| < 2 / 1000000 ∧ |seconds rd sec us - exact sec us| < 2 / 1000000 := by
  obtain ⟨f0, f1⟩ := frac_bounds hr
  obtain ⟨s0, s1⟩ := sec_bounds hr
  constructor
  · unfold timef exact
    rw [sec_exact h hr]
    obtain ⟨a1, a2⟩ := h.between f0 f1
    have a0 := h.nonneg f0
    obtain ⟨b1, b2⟩ := h.between (x := rd ((us : ℚ) / 1000000) + sec) (b := 2 ^ 33 + 2) (by linarith) (by norm_num at *; linarith)
    rw [abs_lt]
    norm_num at *
    constructor <;> linarith
  · unfold seconds exact
    rw [sec_exact h hr]
    obtain ⟨m0, m1, m2⟩ := micro_bounds h hr
    obtain ⟨b1, b2⟩ := h.between (x := sec + rd (rd (1 / 1000000) * rd us)) (b := 2 ^ 33 + 2) (by linarith) (by norm_num at *; linarith)
    rw [abs_le] at m2
    rw [abs_lt]
    norm_num at *
    constructor <;> linarith

example : Rounding fun x => x := ⟨fun _ _ h => h, fun x => by simp; positivity, fun _ _ => rfl⟩
example : Reading 1700000000 999999 := by unfold Reading; omega

/-- C107: as long as the clock does not go back, neither do the two functions. -/
theorem C107_monotone_partial (rd : ℚ → ℚ) (h : Rounding rd) (s u t v : ℤ) (hr : Reading s u) (hq : Reading t v) (hle : notAfter s u t v) :
    timef rd s u ≤ timef rd t v ∧ seconds rd s u ≤ seconds rd t v := by
  obtain ⟨f0, f1⟩ := frac_bounds hr
  obtain ⟨g0, g1⟩ := frac_bounds hq
  unfold timef seconds
  rw [sec_exact h hr, sec_exact h hq]
  rcases hle with hlt | ⟨rfl, hle⟩
  · have hs : (s : ℚ) + 1 ≤ t := by exact_mod_cast hlt
    constructor
    · refine h.mono _ _ ?_
      have := h.le_one (x := (u : ℚ) / 1000000) (by linarith)
      have := h.nonneg g0
      linarith
    · refine h.mono _ _ ?_
      obtain ⟨_, m1, _⟩ := micro_bounds h hr
      obtain ⟨m0, _, _⟩ := micro_bounds h hq
      linarith
  · have hu : (u : ℚ) ≤ v := by exact_mod_cast hle
    constructor
    · refine h.mono _ _ ?_
      have := h.mono ((u : ℚ) / 1000000) ((v : ℚ) / 1000000) (by gcongr)
      linarith
    · refine h.mono _ _ ?_
      rw [us_exact h hr, us_exact h hq]
      have c0 : 0 ≤ rd (1 / 1000000) := h.nonneg (by norm_num)
      have := h.mono (rd (1 / 1000000) * u) (rd (1 / 1000000) * v) (mul_le_mul_of_nonneg_left hu c0)
      linarith

example : notAfter 1700000000 999999 1700000001 0 := Or.inl (by omega)

/-- C107: `sleepf` returns at once for at most ten microseconds, and asks for the time given, up to two microseconds, for at most 4294 seconds.
Missing: longer times, see `C107_long_sleep_refuted`. -/
theorem C107_sleepf_partial (rd : ℚ → ℚ) (h : Rounding rd) (x : ℚ) (hx : x ≤ 4294) :
    (sleepf rd x = .ok none ∧ x ≤ 11 / 1000000) ∨ ∃ n, sleepf rd x = .ok (some n) ∧ 0 ≤ n ∧ |(n : ℚ) - 1000000 * x| < 2 := by
  unfold sleepf
  obtain ⟨c1, c2⟩ := h.between (x := 1 / 100000) (b := 1) (by norm_num) (by norm_num)
  split
  · rename_i hle
    left
    refine ⟨rfl, hle.trans (c2.trans ?_)⟩
    norm_num
  · rename_i hgt
    right
    have x0 : 0 ≤ x := by
      have := h.nonneg (x := 1 / 100000) (by norm_num)
      linarith [not_le.1 hgt]
    obtain ⟨b1, b2⟩ := h.between (x := 1000000 * x) (b := 4294000000) (by linarith) (by linarith)
    have n0 := h.nonneg (x := 1000000 * x) (by linarith)
    have fl0 : (0 : ℤ) ≤ ⌊rd (1000000 * x)⌋ := Int.floor_nonneg.2 n0
    have fl1 : (⌊rd (1000000 * x)⌋ : ℚ) ≤ rd (1000000 * x) := Int.floor_le _
    have fl2 : rd (1000000 * x) < ⌊rd (1000000 * x)⌋ + 1 := Int.lt_floor_add_one _
    have flb : ⌊rd (1000000 * x)⌋ < 2 ^ 32 := by
      have : (⌊rd (1000000 * x)⌋ : ℚ) < ((2 ^ 32 : ℤ) : ℚ) := by norm_num at *; linarith
      exact_mod_cast this
    refine ⟨_, by simp only [toUseconds, if_pos (And.intro fl0 flb), Outcome.bind], fl0, ?_⟩
    rw [abs_lt]
    norm_num at b1 b2
    constructor <;> linarith

example : sleepf (fun x => x) (3 / 2) = .ok (some 1500000) := by
  have : ¬ ((3 : ℚ) / 2 ≤ 1 / 100000) := by norm_num
  have e : ⌊(1000000 : ℚ) * (3 / 2)⌋ = 1500000 := by norm_num
  simp only [sleepf, if_neg this, toUseconds, e]
  rfl

/-- C107: `msleep` asks for the time given from 0 to 4294967 milliseconds.
Missing: longer and negative times, see `C107_msleep_refuted`. -/
theorem C107_msleep_partial (v : ℤ) (h0 : 0 ≤ v) (h1 : v ≤ 4294967) : msleep v = .ok (1000 * v) := by
  unfold msleep
  rw [if_pos (by omega)]
  congr 1
  omega

example : msleep 1500 = .ok 1500000 := C107_msleep_partial 1500 (by omega) (by omega)

/-- C107 is refuted for 4294968 milliseconds (72 minutes): the sleep takes less than a millisecond; and for -1: it takes 71 minutes. -/
theorem C107_msleep_refuted : msleep 4294968 = .ok 704 ∧ msleep (-1) = .ok 4294966296 := by decide

/-- C107: for every time representable, `msleep` asks for the time given reduced to 32 bits of microseconds; it is undefined exactly if the product with 1000 does not fit a `long`. -/
theorem C107_msleep_exact (v : ℤ) : (msleep v = .ub ↔ v < -9223372036854775 ∨ 9223372036854775 < v) ∧ (-9223372036854775 ≤ v → v ≤ 9223372036854775 → ∃ k n : ℤ, msleep v = .ok n ∧ 0 ≤ n ∧ n < 4294967296 ∧ 1000 * v = n + 4294967296 * k) := by
  unfold msleep
  constructor
  · split
    · simp; omega
    · simp; omega
  · intro h0 h1
    rw [if_pos (by omega)]
    exact ⟨v * 1000 / 4294967296, _, rfl, by omega, by omega, by omega⟩

/-- C107 is refuted for `sleepf` of two hours: the conversion is undefined. -/
theorem C107_long_sleep_refuted (rd : ℚ → ℚ) (h : Rounding rd) : sleepf rd 7200 = .ub := by
  have e := h.int 7200000000 (by norm_num)
  have e' : rd (1000000 * 7200) = ((7200000000 : ℤ) : ℚ) := by rw [← e]; norm_num
  have c := h.le_one (x := 1 / 100000) (by norm_num)
  unfold sleepf
  rw [if_neg (by linarith), e']
  simp only [toUseconds, Int.floor_intCast]
  rfl

end Verif.Timeval.Seconds
