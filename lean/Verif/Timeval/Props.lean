import Verif.Timeval.Model

/-
Properties C34, C35, C36 (time arithmetic).

Specification: an instant is a number of microseconds.
-/

namespace Verif.Timeval
open Verif

/-- The instant denoted by a `Timeval`, in microseconds. -/
def micros (t : TV) : Int := 1000000 * t.sec + t.usec

/-- A reading of the system clock: microseconds part below one million. -/
def Normal (t : TV) : Prop := 0 ≤ t.usec ∧ t.usec < 1000000

instance (t : TV) : Decidable (Normal t) := by unfold Normal; infer_instance

/-- POSIX validity of a `timespec`. -/
def ValidTS (s : TS) : Prop := 0 ≤ s.nsec ∧ s.nsec < 1000000000

instance (t : TS) : Decidable (ValidTS t) := by unfold ValidTS; infer_instance

/-! ### C34 -/

/-- C34 (exactness): `future(ms)` is `ms` milliseconds after the clock reading, for every clock
reading and offset. -/
theorem C34_future_exact (now : TV) (ms : Nat) : micros (future now ms) = micros now + 1000 * ms := by
  unfold future micros
  simp only
  split <;> simp only <;> omega

/-- C34 (normalisation), partial: the microsecond part is below one million, except when the sum is
*exactly* one million.  Missing for the full property: that one case, see `C34_refuted`. -/
theorem C34_future_normal_partial (now : TV) (ms : Nat) (h : Normal now) :
    0 ≤ (future now ms).usec ∧
      (Normal (future now ms) ↔ now.usec + 1000 * ((ms % 1000 : Nat) : Int) ≠ 1000000) := by
  unfold Normal at *
  unfold future
  simp only
  split <;> simp only <;> omega

/-- C34 (negation of the full claim): there is a clock reading and an offset for which `future` gives
one million microseconds, and the derived `timespec` is not valid for the system. -/
theorem C34_refuted : ∃ now ms, Normal now ∧ ¬ Normal (future now ms) ∧
    ¬ ValidTS (timespec (future now ms)) :=
  ⟨⟨1, 500000⟩, 500, by decide, by decide, by decide⟩

/-- C34 (timespec): the `timespec` denotes the same instant, and is valid exactly for normalised
values. -/
theorem C34_timespec (t : TV) :
    1000000000 * (timespec t).sec + (timespec t).nsec = 1000 * micros t ∧
      (ValidTS (timespec t) ↔ Normal t) := by
  unfold timespec micros ValidTS Normal
  constructor
  · simp only; omega
  · simp only; omega

example : Normal ⟨100, 999999⟩ ∧ future ⟨100, 999999⟩ 1500 = ⟨102, 499999⟩ := by decide

/-! ### C35 -/

theorem tdiv1000 (x : Int) : ∃ q, Int.tdiv x 1000 = q ∧ ((0 ≤ x ∧ q = x / 1000) ∨ (x < 0 ∧ q = -((-x) / 1000))) := by
  refine ⟨_, rfl, ?_⟩
  rcases Int.lt_or_le x 0 with h | h
  · right
    refine ⟨h, ?_⟩
    have := Int.neg_tdiv x 1000
    rw [Int.tdiv_eq_ediv_of_nonneg (by omega : 0 ≤ -x)] at this
    omega
  · left
    exact ⟨h, Int.tdiv_eq_ediv_of_nonneg h⟩

theorem sec_diff (a b : TV) (h : InInt32 (b.sec - a.sec)) : wrap32 (sec b - sec a) = b.sec - a.sec := by
  have h2 : wrap32 (sec b - sec a) = wrap32 (b.sec - a.sec) := by
    unfold wrap32 sec uwrap32
    rw [Int.bmod_def, Int.bmod_def]
    have : (b.sec % 2 ^ 32 - a.sec % 2 ^ 32) % ((2 ^ 32 : Nat) : Int) =
        (b.sec - a.sec) % ((2 ^ 32 : Nat) : Int) := by omega
    rw [this]
  rw [h2, wrap32_of_inInt32 h]

theorem usec_diff (a b : TV) (ha : 0 ≤ a.usec ∧ a.usec ≤ 1000000) (hb : 0 ≤ b.usec ∧ b.usec ≤ 1000000) :
    wrap32 (usec b - usec a) = b.usec - a.usec := by
  have h1 : usec a = a.usec := by unfold usec uwrap32; omega
  have h2 : usec b = b.usec := by unfold usec uwrap32; omega
  rw [h1, h2, wrap32_of_inInt32]
  unfold InInt32; omega

/-- The value `delta` computes when nothing overflows. -/
theorem delta_eq (a b : TV) (ha : Normal a) (hb : Normal b)
    (hr : -2147482 ≤ b.sec - a.sec ∧ b.sec - a.sec ≤ 2147482) :
    delta a b = .ok (1000 * (b.sec - a.sec) + Int.tdiv (b.usec - a.usec) 1000) := by
  unfold Normal at *
  unfold delta
  rw [sec_diff a b (by unfold InInt32; omega), usec_diff a b (by omega) (by omega)]
  obtain ⟨q, hq, hq2⟩ := tdiv1000 (b.usec - a.usec)
  have htd : -1000 < q ∧ q < 1000 := by omega
  rw [hq]
  simp only
  rw [int32_of_in (by unfold InInt32; omega), Outcome.bind_ok, int32_of_in (by unfold InInt32; omega), hq]

/-- C35 (accuracy), partial: for normalised instants whose seconds differ by at most 2147482 (24.8
days) `delta` is defined and within one millisecond of the exact difference, and exact when both
are whole milliseconds.  Missing: the documented range, see `C35_documented_range_refuted`. -/
theorem C35_delta_partial (a b : TV) (ha : Normal a) (hb : Normal b)
    (hr : -2147482 ≤ b.sec - a.sec ∧ b.sec - a.sec ≤ 2147482) :
    ∃ d, delta a b = .ok d ∧ -1000 < 1000 * d - (micros b - micros a) ∧
      1000 * d - (micros b - micros a) < 1000 ∧
      ((1000 : Int) ∣ b.usec - a.usec → 1000 * d = micros b - micros a) := by
  obtain ⟨q, hq, hq2⟩ := tdiv1000 (b.usec - a.usec)
  refine ⟨_, delta_eq a b ha hb hr, ?_, ?_, ?_⟩ <;> unfold micros <;> rw [hq] <;> omega

/-- C35 (antisymmetry), same range. -/
theorem C35_antisymmetric_partial (a b : TV) (ha : Normal a) (hb : Normal b)
    (hr : -2147482 ≤ b.sec - a.sec ∧ b.sec - a.sec ≤ 2147482) :
    ∃ d, delta a b = .ok d ∧ delta b a = .ok (-d) := by
  refine ⟨_, delta_eq a b ha hb hr, ?_⟩
  rw [delta_eq b a hb ha (by omega)]
  congr 1
  rw [show a.usec - b.usec = -(b.usec - a.usec) by omega, Int.neg_tdiv]
  omega

/-- C35 (monotone in the later instant): a later clock never gives a delta smaller by more than the
truncation, i.e. by a millisecond or more. -/
theorem C35_monotone (a b c : TV) (ha : Normal a) (hb : Normal b) (hc : Normal c)
    (hr : -2147482 ≤ b.sec - a.sec ∧ b.sec - a.sec ≤ 2147482)
    (hr2 : -2147482 ≤ c.sec - a.sec ∧ c.sec - a.sec ≤ 2147482) (hbc : micros b ≤ micros c) :
    ∃ d e, delta a b = .ok d ∧ delta a c = .ok e ∧ d ≤ e + 1 := by
  refine ⟨_, _, delta_eq a b ha hb hr, delta_eq a c ha hc hr2, ?_⟩
  obtain ⟨q, hq, hq2⟩ := tdiv1000 (b.usec - a.usec)
  obtain ⟨q', hq', hq2'⟩ := tdiv1000 (c.usec - a.usec)
  rw [hq, hq']
  unfold micros Normal at *
  omega

/-- C35 (negation for the documented range): the comment promises differences up to 2^31 ms ("over 4
years"); a difference below 2^31 ms already overflows, and so does every difference of a month. -/
theorem C35_documented_range_refuted :
    (∃ a b, Normal a ∧ Normal b ∧ 0 < micros b - micros a ∧ micros b - micros a < 2 ^ 31 * 1000 ∧
      delta a b = .ub) ∧
    delta ⟨0, 0⟩ ⟨30 * 86400, 0⟩ = .ub :=
  ⟨⟨⟨0, 999999⟩, ⟨2147484, 0⟩, by decide, by decide, by decide, by decide, by decide⟩, by decide⟩

example : delta ⟨1000, 999999⟩ ⟨1001, 500⟩ = .ok 1 ∧ Normal ⟨1000, 999999⟩ := by decide
example : delta ⟨1001, 500⟩ ⟨1000, 999999⟩ = .ok (-1) := by decide

/-! ### C36 -/

theorem future_zero (now : TV) (h : Normal now) : future now 0 = now := by
  unfold Normal at h
  unfold future
  simp only [Nat.zero_div, Nat.zero_mod, Nat.zero_mul, Int.natCast_zero, Int.add_zero]
  rw [if_neg (by omega)]

/-- C36: `passed` means the clock is strictly later than the deadline. -/
theorem C36_passed_iff (t now : TV) (ht : Normal t) (hn : Normal now) :
    passed t now = true ↔ micros t < micros now := by
  unfold passed
  rw [future_zero now hn]
  unfold Normal micros at *
  simp only
  split
  · constructor
    · intro h; cases h
    · omega
  · split
    · constructor
      · omega
      · intro; rfl
    · split
      · constructor
        · omega
        · intro; rfl
      · constructor
        · intro h; cases h
        · omega

/-- C36: if `passed()` then `remaining()` is not positive, and if `remaining()` is positive then not
`passed()`, at the same clock reading. -/
theorem C36_passed_remaining (t now : TV) (ht : Normal t) (hn : Normal now)
    (hr : -2147482 ≤ now.sec - t.sec ∧ now.sec - t.sec ≤ 2147482) :
    ∃ r, remaining t now = .ok r ∧ (passed t now = true → r ≤ 0) ∧ (0 < r → passed t now = false) ∧
      (passed t now = false → 0 ≤ r) := by
  have hp := C36_passed_iff t now ht hn
  unfold remaining elapsed
  obtain ⟨q, hq, hq2⟩ := tdiv1000 (now.usec - t.usec)
  rw [future_zero now hn, delta_eq t now ht hn hr, hq]
  refine ⟨_, rfl, ?_, ?_, ?_⟩
  · intro h
    have := hp.mp h
    unfold micros Normal at *
    omega
  · intro h
    cases hpass : passed t now
    · rfl
    · have := hp.mp hpass
      unfold micros Normal at *
      omega
  · intro h
    have : ¬ micros t < micros now := fun hlt => by rw [hp.mpr hlt] at h; cases h
    unfold micros Normal at *
    omega

/-- C36 (monotone): once passed, passed at every later clock reading. -/
theorem C36_passed_monotone (t n1 n2 : TV) (ht : Normal t) (h1 : Normal n1) (h2 : Normal n2)
    (hle : micros n1 ≤ micros n2) (hp : passed t n1 = true) : passed t n2 = true := by
  rw [C36_passed_iff t _ ht ‹_›] at *
  omega

/-- C36 (waiting): a deadline made by `future(ms)` has not passed while the clock is less than or
equal to `ms` milliseconds further, and has passed afterwards, whenever `future` normalised it. -/
theorem C36_future_deadline (start now : TV) (ms : Nat) (hn : Normal now)
    (hf : Normal (future start ms)) :
    passed (future start ms) now = true ↔ micros start + 1000 * ms < micros now := by
  rw [C36_passed_iff _ _ hf hn, C34_future_exact]

example : passed ⟨10, 0⟩ ⟨10, 1⟩ = true ∧ remaining ⟨10, 0⟩ ⟨10, 1⟩ = .ok 0 := by decide
example : passed ⟨10, 5000⟩ ⟨10, 1⟩ = false ∧ remaining ⟨10, 5000⟩ ⟨10, 1⟩ = .ok 4 := by decide

/-! ### C125 -/

/-- C125, partial: `addMinutes` moves a time by exactly that many minutes and keeps it normalised.  Missing: from 71582789 minutes on (136 years), see `C125_wrap_refuted`. -/
theorem C125_minutes_partial (t : TV) (m : Nat) (hm : m ≤ 71582788) : micros (addMinutes t m) = micros t + 60000000 * m ∧ (Normal t → Normal (addMinutes t m)) := by
  unfold addMinutes micros Normal uwrap32
  constructor
  · simp only
    omega
  · exact id

/-- C125, partial: a deadline moved by minutes has passed exactly when the clock is more than that much later; several moves add up.  Missing as before. -/
theorem C125_passed_partial (t now : TV) (ms : List Nat) (hm : ∀ m ∈ ms, m ≤ 71582788) (ht : Normal t) (hn : Normal now) :
    passed (ms.foldl addMinutes t) now = true ↔ micros t + 60000000 * (ms.sum : Nat) < micros now := by
  have : micros (ms.foldl addMinutes t) = micros t + 60000000 * (ms.sum : Nat) ∧ Normal (ms.foldl addMinutes t) := by
    induction ms generalizing t with
    | nil => exact ⟨by simp, ht⟩
    | cons m ms ih =>
      obtain ⟨h1, h2⟩ := C125_minutes_partial t m (hm m (by simp))
      obtain ⟨h3, h4⟩ := ih (addMinutes t m) (fun x hx => hm x (by simp [hx])) (h2 ht)
      refine ⟨?_, h4⟩
      rw [List.foldl_cons, h3, h1, List.sum_cons]
      push_cast
      omega
  rw [C36_passed_iff _ _ this.2 hn, this.1]

/-- C125 is false for long times: the seconds are computed in `unsigned`, so 71582789 minutes are 44 seconds. -/
theorem C125_wrap_refuted : micros (addMinutes ⟨0, 0⟩ 71582789) = 44000000 := by decide

example : addMinutes ⟨100, 7⟩ 3 = ⟨280, 7⟩ ∧ passed (addMinutes ⟨100, 7⟩ 3) ⟨280, 7⟩ = false ∧ passed (addMinutes ⟨100, 7⟩ 3) ⟨280, 8⟩ = true := by decide

end Verif.Timeval
