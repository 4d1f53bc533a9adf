import Verif.Core.Number
import Verif.Core.NumberLemmas
import Verif.Core.Outcome

/-
Property C100: time stamps as texts, `Timeval::isoTime` (`Timeval.cpp:98-116`).

`gmtime_r` is not part of /repo.  It is modelled as documented: the Gregorian calendar, days of 86400 seconds; it fails, and leaves its buffer unwritten, when the year minus 1900 does not
fit an `int`.  `localtime_r` is the same for the time shifted by the offset of the zone, an arbitrary function of the time.
-/

namespace Verif.Timeval
open Verif

/-- `struct tm` as far as it is printed; `year` and `mon` as printed (after adding 1900 and 1). -/
structure Tm where
  year : Int
  mon : Int
  day : Int
  hour : Int
  min : Int
  sec : Int
deriving DecidableEq, Repr

/-- Year, month and day of a day number (0 is the first of January 1970): the usual algorithm with years that begin in March, in eras of 400 years. -/
def civil (days : Int) : Int × Int × Int :=
  let z := days + 719468
  let era := z / 146097
  let doe := z % 146097
  let c := min 3 (doe / 36524)
  let q := (doe - 36524 * c) / 1461
  let k := min 3 ((doe - 36524 * c) % 1461 / 365)
  let doy := (doe - 36524 * c) % 1461 - 365 * k
  let mp := (5 * doy + 2) / 153
  let d := doy - (153 * mp + 2) / 5 + 1
  let m := if mp < 10 then mp + 3 else mp - 9
  (100 * c + 4 * q + k + era * 400 + (if m ≤ 2 then 1 else 0), m, d)

/-- `gmtime_r`. -/
def gmtime (t : Int) : Tm :=
  let c := civil (t / 86400)
  let s := t % 86400
  ⟨c.1, c.2.1, c.2.2, s / 3600, s / 60 % 60, s % 60⟩

/-- `%0wd`. -/
def pad (w : Nat) (n : Int) : Str :=
  if n < 0 then chr '-' :: (List.replicate (w - 1 - (natText 10 n.natAbs).length) (chr '0') ++ natText 10 n.natAbs)
  else List.replicate (w - (natText 10 n.natAbs).length) (chr '0') ++ natText 10 n.natAbs

/-- The text printed (`Timeval.cpp:106-109`); the buffer of 100 bytes is always large enough. -/
def isoText (b : Tm) (isLocal : Bool) : Str :=
  pad 4 b.year ++ lit "-" ++ pad 2 b.mon ++ lit "-" ++ pad 2 b.day ++ lit "T" ++ pad 2 b.hour ++ lit ":" ++ pad 2 b.min ++ lit ":" ++ pad 2 b.sec ++
    (if isLocal then [] else lit "Z")

/-- `Timeval::isoTime` (`Timeval.cpp:98-111`) in a zone with the given offset: if the year minus 1900 does not fit an `int`, the buffer is printed unwritten; if it does but the year
does not, `tm_year + 1900` overflows. -/
def isoTime (offset : Int → Int) (t : Int) (isLocal : Bool) : Outcome Str :=
  let b := if isLocal then gmtime (t + offset t) else gmtime t
  if b.year - 1900 < -2 ^ 31 ∨ 2 ^ 31 - 1 < b.year then .ub else .ok (isoText b isLocal)

/-! ### Specification -/

/-- Leap years. -/
def leap (y : Int) : Bool := (y % 4 = 0 ∧ y % 100 ≠ 0) ∨ y % 400 = 0

/-- Length of a month. -/
def monthDays (y m : Int) : Int := if m = 2 then (if leap y then 29 else 28) else if m = 4 ∨ m = 6 ∨ m = 9 ∨ m = 11 then 30 else 31

/-- Days before the year (from the first of January 1970). -/
def yearStart (y : Int) : Int := 365 * (y - 1970) + (y - 1) / 4 - (y - 1) / 100 + (y - 1) / 400 - 477

/-- Days of the year before the month. -/
def monthStart (y m : Int) : Int :=
  (if m ≤ 1 then 0 else if m = 2 then 31 else if m = 3 then 59 else if m = 4 then 90 else if m = 5 then 120 else if m = 6 then 151 else if m = 7 then 181 else if m = 8 then 212
    else if m = 9 then 243 else if m = 10 then 273 else if m = 11 then 304 else 334) + (if 2 < m ∧ leap y then 1 else 0)

/-- The instant (seconds since 1970) that a date and time of day name. -/
def instant (b : Tm) : Int := 86400 * (yearStart b.year + monthStart b.year b.mon + (b.day - 1)) + 3600 * b.hour + 60 * b.min + b.sec

/-- A date and time of day that exist. -/
def Valid (b : Tm) : Prop := 1 ≤ b.mon ∧ b.mon ≤ 12 ∧ 1 ≤ b.day ∧ b.day ≤ monthDays b.year b.mon ∧ 0 ≤ b.hour ∧ b.hour < 24 ∧ 0 ≤ b.min ∧ b.min < 60 ∧ 0 ≤ b.sec ∧ b.sec < 60

/-- The tables agree with the lengths: each month and year starts where the one before ends. -/
theorem calendar_ok (y : Int) : yearStart 1970 = 0 ∧ (∀ m, 1 ≤ m → m < 12 → monthStart y (m + 1) = monthStart y m + monthDays y m) ∧ monthStart y 1 = 0 ∧
    yearStart (y + 1) = yearStart y + monthStart y 12 + 31 := by
  refine ⟨by decide, ?_, ?_, ?_⟩
  · intro m h1 h2
    have : m = 1 ∨ m = 2 ∨ m = 3 ∨ m = 4 ∨ m = 5 ∨ m = 6 ∨ m = 7 ∨ m = 8 ∨ m = 9 ∨ m = 10 ∨ m = 11 := by omega
    unfold monthStart monthDays
    rcases this with rfl | rfl | rfl | rfl | rfl | rfl | rfl | rfl | rfl | rfl | rfl <;> by_cases h : leap y <;> simp [h]
  · simp [monthStart]
  · unfold monthStart yearStart
    by_cases h : leap y
    · simp only [h]
      simp [leap] at h
      simp; omega
    · simp only [h]
      simp [leap] at h
      simp; omega

theorem civil_valid (n : Int) : 1 ≤ (civil n).2.1 ∧ (civil n).2.1 ≤ 12 ∧ 1 ≤ (civil n).2.2 ∧ (civil n).2.2 ≤ monthDays (civil n).1 (civil n).2.1 ∧
    yearStart (civil n).1 + monthStart (civil n).1 (civil n).2.1 + ((civil n).2.2 - 1) = n := by
  unfold civil
  simp only
  generalize he : (n + 719468) / 146097 = era
  generalize hd : (n + 719468) % 146097 = doe
  have hn : n + 719468 = 146097 * era + doe := by omega
  have h0 : 0 ≤ doe := by omega
  have h1 : doe < 146097 := by omega
  clear he hd
  generalize hc : min 3 (doe / 36524) = c
  generalize hq : (doe - 36524 * c) / 1461 = q
  generalize hr : (doe - 36524 * c) % 1461 = r
  generalize hk : min 3 (r / 365) = k
  have c0 : 0 ≤ c ∧ c ≤ 3 := by omega
  have q0 : 0 ≤ q ∧ q ≤ 24 := by omega
  have k0 : 0 ≤ k ∧ k ≤ 3 := by omega
  have hdoe : doe = 36524 * c + 1461 * q + r := by omega
  generalize hdy : r - 365 * k = doy
  have d0 : 0 ≤ doy := by omega
  have d1 : doy ≤ 365 := by omega
  -- the last day of the March year exists in leap years only
  have d2 : doy = 365 → k = 3 ∧ (q = 24 → c = 3) := by omega
  have hn2 : n = 146097 * era + 36524 * c + 1461 * q + 365 * k + doy - 719468 := by omega
  clear hn hdoe hdy hr hq hc hk h0 h1
  generalize hm : (5 * doy + 2) / 153 = mp
  have m0 : 0 ≤ mp ∧ mp ≤ 11 := by omega
  generalize hD : doy - (153 * mp + 2) / 5 + 1 = D
  by_cases hmp : mp < 10
  · rw [if_pos hmp]
    have hl : ¬ mp + 3 ≤ 2 := by omega
    rw [if_neg hl]
    generalize hY : 100 * c + 4 * q + k + era * 400 + 0 = Y
    have hlp : leap Y = true ↔ (k = 0 ∧ (q = 0 → c = 0)) := by
      simp only [leap, decide_eq_true_eq]
      omega
    refine ⟨by omega, by omega, by omega, ?_, ?_⟩
    · unfold monthDays
      have : mp = 0 ∨ mp = 1 ∨ mp = 2 ∨ mp = 3 ∨ mp = 4 ∨ mp = 5 ∨ mp = 6 ∨ mp = 7 ∨ mp = 8 ∨ mp = 9 := by omega
      rcases this with rfl | rfl | rfl | rfl | rfl | rfl | rfl | rfl | rfl | rfl <;> simp <;> omega
    · unfold monthStart yearStart
      have hys : (Y - 1) / 4 - (Y - 1) / 100 + (Y - 1) / 400 = 97 * era + 24 * c + q - (if leap Y then 1 else 0) := by
        by_cases h : leap Y
        · have := hlp.1 h
          rw [if_pos h]; omega
        · have : ¬ (k = 0 ∧ (q = 0 → c = 0)) := fun hh => h (hlp.2 hh)
          rw [if_neg h]; omega
      have : mp = 0 ∨ mp = 1 ∨ mp = 2 ∨ mp = 3 ∨ mp = 4 ∨ mp = 5 ∨ mp = 6 ∨ mp = 7 ∨ mp = 8 ∨ mp = 9 := by omega
      by_cases h : leap Y <;> simp only [h, if_true, and_true] at hys ⊢ <;>
        rcases this with rfl | rfl | rfl | rfl | rfl | rfl | rfl | rfl | rfl | rfl <;> simp <;> (try simp at hys) <;> omega
  · rw [if_neg hmp]
    have hl : mp - 9 ≤ 2 := by omega
    rw [if_pos hl]
    generalize hY : 100 * c + 4 * q + k + era * 400 + 1 = Y
    have hlp : leap Y = true ↔ (k = 3 ∧ (q = 24 → c = 3)) := by
      simp only [leap, decide_eq_true_eq]
      omega
    have hys : (Y - 1) / 4 - (Y - 1) / 100 + (Y - 1) / 400 = 97 * era + 24 * c + q := by omega
    have hm2 : mp = 10 ∨ mp = 11 := by omega
    refine ⟨by omega, by omega, by omega, ?_, ?_⟩
    · unfold monthDays
      by_cases h : leap Y
      · rcases hm2 with rfl | rfl <;> simp [h] <;> omega
      · have : ¬ (k = 3 ∧ (q = 24 → c = 3)) := fun hh => h (hlp.2 hh)
        rcases hm2 with rfl | rfl <;> simp [h] <;> omega
    · unfold monthStart yearStart
      rcases hm2 with rfl | rfl <;> simp <;> omega

theorem gmtime_valid (t : Int) : Valid (gmtime t) ∧ instant (gmtime t) = t := by
  obtain ⟨h1, h2, h3, h4, h5⟩ := civil_valid (t / 86400)
  unfold Valid instant gmtime
  simp only
  refine ⟨⟨h1, h2, h3, h4, by omega, by omega, by omega, by omega, by omega, by omega⟩, ?_⟩
  rw [h5]
  omega

/-- Order of texts, as `std::string` compares them. -/
def textLt : Str → Str → Bool
  | _, [] => false
  | [], _ :: _ => true
  | a :: s, b :: t => a.toNat < b.toNat || (a == b && textLt s t)

theorem textLt_append : ∀ (a b x y : Str), a.length = b.length → textLt (a ++ x) (b ++ y) = (textLt a b || (a == b && textLt x y))
  | [], [], x, y, _ => by cases y <;> simp [textLt]
  | [], b :: bs, _, _, h => by simp at h
  | a :: as, [], _, _, h => by simp at h
  | a :: as, b :: bs, x, y, h => by
    have := textLt_append as bs x y (by simpa using h)
    simp only [List.cons_append, textLt, this]
    by_cases hab : a = b
    · subst hab
      simp
    · have h2 : (a == b) = false := by simp [hab]
      have h3 : (a :: as == b :: bs) = false := by simp [hab]
      simp [h2, h3]

theorem natText_small {n : Nat} (h : n < 10) : natText 10 n = [digitChar n] := by
  rw [natText, dif_neg (by omega)]

theorem pad_nat (w n : Nat) : pad w (n : Int) = List.replicate (w - (natText 10 n).length) (chr '0') ++ natText 10 n := by
  unfold pad
  rw [if_neg (by omega)]
  simp

theorem pad_one {n : Nat} (h : n < 10) : pad 1 (n : Int) = [digitChar n] := by
  rw [pad_nat, natText_small h]
  simp

theorem pad_succ {w n : Nat} (hw : 1 ≤ w) : pad (w + 1) (n : Int) = pad w ((n / 10 : Nat) : Int) ++ [digitChar (n % 10)] := by
  rw [pad_nat, pad_nat]
  by_cases h : 10 ≤ n
  · have : natText 10 n = natText 10 (n / 10) ++ [digitChar (n % 10)] := by rw [natText, dif_pos ⟨by omega, h⟩]
    rw [this]
    simp
  · have h0 : n / 10 = 0 := by omega
    have h1 : n % 10 = n := by omega
    rw [h0, h1, natText_small (by omega), natText_small (by omega : 0 < 10)]
    have : digitChar 0 = chr '0' := by decide
    rw [this]
    obtain ⟨v, rfl⟩ : ∃ v, w = v + 1 := ⟨w - 1, by omega⟩
    simp [List.replicate_succ']

theorem pad_length : ∀ (w n : Nat), n < 10 ^ (w + 1) → (pad (w + 1) (n : Int)).length = w + 1
  | 0, n, h => by rw [pad_one (by simpa using h)]; rfl
  | w + 1, n, h => by
    have h2 : n / 10 < 10 ^ (w + 1) := by rw [Nat.pow_succ] at h; omega
    rw [pad_succ (by omega), List.length_append, pad_length w (n / 10) h2]
    rfl

theorem digitChar_toNat {d : Nat} (h : d < 10) : (digitChar d).toNat = 48 + d := by
  unfold digitChar
  rw [if_pos h]
  simp only [BitVec.toNat_ofNat]
  omega

theorem digitChar_inj {d e : Nat} (hd : d < 10) (he : e < 10) : (digitChar d == digitChar e) = decide (d = e) := by
  by_cases h : d = e
  · simp [h]
  · have : digitChar d ≠ digitChar e := fun hh => h (by
      have := congrArg BitVec.toNat hh
      rw [digitChar_toNat hd, digitChar_toNat he] at this
      omega)
    simp [h, this]

theorem pad_eq : ∀ (w n m : Nat), n < 10 ^ (w + 1) → m < 10 ^ (w + 1) → (pad (w + 1) (n : Int) = pad (w + 1) (m : Int) ↔ n = m)
  | 0, n, m, hn, hm => by
    have hn : n < 10 := by simpa using hn
    have hm : m < 10 := by simpa using hm
    rw [pad_one hn, pad_one hm]
    have := digitChar_inj hn hm
    constructor
    · intro h
      simp at h
      simpa [h] using this
    · rintro rfl; rfl
  | w + 1, n, m, hn, hm => by
    have h2 : n / 10 < 10 ^ (w + 1) := by rw [Nat.pow_succ] at hn; omega
    have h3 : m / 10 < 10 ^ (w + 1) := by rw [Nat.pow_succ] at hm; omega
    rw [pad_succ (n := n) (by omega), pad_succ (n := m) (by omega)]
    constructor
    · intro h
      obtain ⟨ha, hb⟩ := List.append_inj' h rfl
      have ha := (pad_eq w _ _ h2 h3).1 ha
      have hc := digitChar_inj (d := n % 10) (e := m % 10) (by omega) (by omega)
      simp at hb
      simp [hb] at hc
      omega
    · rintro rfl; rfl

theorem pad_lt : ∀ (w n m : Nat), n < 10 ^ (w + 1) → m < 10 ^ (w + 1) → textLt (pad (w + 1) (n : Int)) (pad (w + 1) (m : Int)) = decide (n < m)
  | 0, n, m, hn, hm => by
    have hn : n < 10 := by simpa using hn
    have hm : m < 10 := by simpa using hm
    rw [pad_one hn, pad_one hm]
    simp [textLt, digitChar_toNat hn, digitChar_toNat hm]
  | w + 1, n, m, hn, hm => by
    have h2 : n / 10 < 10 ^ (w + 1) := by rw [Nat.pow_succ] at hn; omega
    have h3 : m / 10 < 10 ^ (w + 1) := by rw [Nat.pow_succ] at hm; omega
    rw [pad_succ (n := n) (by omega), pad_succ (n := m) (by omega), textLt_append _ _ _ _ (by rw [pad_length w _ h2, pad_length w _ h3]), pad_lt w _ _ h2 h3]
    have he : (pad (w + 1) ((n / 10 : Nat) : Int) == pad (w + 1) ((m / 10 : Nat) : Int)) = decide (n / 10 = m / 10) := by
      rw [Bool.eq_iff_iff]
      simp only [beq_iff_eq, decide_eq_true_eq]
      exact pad_eq w _ _ h2 h3
    rw [he]
    have h4 : n % 10 < 10 := by omega
    have h5 : m % 10 < 10 := by omega
    simp only [textLt, digitChar_toNat h4, digitChar_toNat h5]
    rw [Bool.eq_iff_iff]
    simp
    omega

theorem pad_fold : ∀ (w n : Nat), n < 10 ^ (w + 1) → foldDigits 10 0 (pad (w + 1) (n : Int)) = n ∧ (∀ c ∈ pad (w + 1) (n : Int), isDigit c = true)
  | 0, n, h => by
    have hn : n < 10 := by simpa using h
    rw [pad_one hn]
    refine ⟨by simp [foldDigits, digitVal_digitChar n (by omega)], ?_⟩
    intro c hc
    simp at hc
    subst hc
    simp [isDigit, digitChar_toNat hn]
    omega
  | w + 1, n, h => by
    have h2 : n / 10 < 10 ^ (w + 1) := by rw [Nat.pow_succ] at h; omega
    obtain ⟨i1, i2⟩ := pad_fold w _ h2
    rw [pad_succ (by omega)]
    have h4 : n % 10 < 10 := by omega
    constructor
    · rw [foldDigits_append, i1]
      simp [foldDigits, digitVal_digitChar (n % 10) (by omega)]
      omega
    · intro c hc
      rcases List.mem_append.1 hc with h | h
      · exact i2 c h
      · simp at h
        subst h
        simp [isDigit, digitChar_toNat h4]
        omega

theorem monthDays_ge (y m : Int) : 28 ≤ monthDays y m := by unfold monthDays; split <;> split <;> decide

theorem month_mono (y m : Int) (h1 : 1 ≤ m) : ∀ k : Nat, m + 1 + k ≤ 12 → monthStart y m + monthDays y m ≤ monthStart y (m + 1 + k)
  | 0, h => by
    have := (calendar_ok y).2.1 m h1 (by omega)
    simp only [Int.ofNat_zero, Int.add_zero]
    omega
  | k + 1, h => by
    have i := month_mono y m h1 k (by omega)
    have j := (calendar_ok y).2.1 (m + 1 + k) (by omega) (by omega)
    have := monthDays_ge y (m + 1 + k)
    have e : m + 1 + ((k + 1 : Nat) : Int) = m + 1 + k + 1 := by omega
    rw [e]
    omega

theorem year_mono (y : Int) : ∀ k : Nat, yearStart y ≤ yearStart (y + k)
  | 0 => by simp
  | k + 1 => by
    have i := year_mono y k
    have j := (calendar_ok (y + k)).2.2.2
    have : 0 ≤ monthStart (y + k) 12 := by unfold monthStart; by_cases h : leap (y + k) <;> simp [h]
    have e : y + ((k + 1 : Nat) : Int) = y + k + 1 := by omega
    rw [e]
    omega

/-- A valid date lies in its year. -/
theorem valid_year {b : Tm} (h : Valid b) : 86400 * yearStart b.year ≤ instant b ∧ instant b < 86400 * yearStart (b.year + 1) ∧ 0 ≤ monthStart b.year b.mon := by
  obtain ⟨h1, h2, h3, h4, h5, h6, h7, h8, h9, h10⟩ := h
  have a1 : monthStart b.year b.mon + monthDays b.year b.mon ≤ monthStart b.year 12 + 31 := by
    by_cases hm : b.mon = 12
    · rw [hm]; simp [monthDays]
    · have := month_mono b.year b.mon h1 (12 - b.mon - 1).toNat (by omega)
      have e : b.mon + 1 + ((12 - b.mon - 1).toNat : Int) = 12 := by omega
      rw [e] at this
      omega
  have a0 : 0 ≤ monthStart b.year b.mon := by
    by_cases hm : b.mon = 1
    · rw [hm]; simp [monthStart]
    · have := month_mono b.year 1 (by omega) (b.mon - 2).toNat (by omega)
      have e : 1 + 1 + ((b.mon - 2).toNat : Int) = b.mon := by omega
      rw [e] at this
      have := monthDays_ge b.year 1
      have := (calendar_ok b.year).2.2.1
      omega
  have a2 := (calendar_ok b.year).2.2.2
  unfold instant
  omega

/-- Order of dates field by field. -/
def dateLt (a b : Tm) : Prop := a.year < b.year ∨ a.year = b.year ∧ (a.mon < b.mon ∨ a.mon = b.mon ∧ (a.day < b.day ∨ a.day = b.day ∧
  (a.hour < b.hour ∨ a.hour = b.hour ∧ (a.min < b.min ∨ a.min = b.min ∧ a.sec < b.sec))))

theorem instant_lt {a b : Tm} (ha : Valid a) (hb : Valid b) (h : dateLt a b) : instant a < instant b := by
  rcases h with h | ⟨hy, h⟩
  · have h1 := (valid_year ha).2.1
    have h2 := (valid_year hb).1
    have h3 := year_mono (a.year + 1) (b.year - a.year - 1).toNat
    have e : a.year + 1 + ((b.year - a.year - 1).toNat : Int) = b.year := by omega
    rw [e] at h3
    omega
  · obtain ⟨a1, a2, a3, a4, a5, a6, a7, a8, a9, a10⟩ := ha
    obtain ⟨b1, b2, b3, b4, b5, b6, b7, b8, b9, b10⟩ := hb
    unfold instant
    rcases h with h | ⟨hm, h⟩
    · have h3 := month_mono a.year a.mon a1 (b.mon - a.mon - 1).toNat (by omega)
      have e : a.mon + 1 + ((b.mon - a.mon - 1).toNat : Int) = b.mon := by omega
      rw [e] at h3
      rw [← hy]
      omega
    · rw [hy, hm]
      omega

theorem instant_inj {a b : Tm} (ha : Valid a) (hb : Valid b) (h : instant a = instant b) : a = b := by
  by_cases h1 : dateLt a b
  · have := instant_lt ha hb h1; omega
  · by_cases h2 : dateLt b a
    · have := instant_lt hb ha h2; omega
    · unfold dateLt at h1 h2
      cases a; cases b
      simp only [Tm.mk.injEq]
      simp only at h1 h2
      omega

theorem dateLt_iff {a b : Tm} (ha : Valid a) (hb : Valid b) : dateLt a b ↔ instant a < instant b := by
  refine ⟨instant_lt ha hb, fun h => ?_⟩
  by_cases h1 : dateLt a b
  · exact h1
  · by_cases h2 : dateLt b a
    · have := instant_lt hb ha h2; omega
    · have : a = b := by
        unfold dateLt at h1 h2
        cases a; cases b
        simp only [Tm.mk.injEq]
        simp only at h1 h2
        omega
      rw [this] at h
      omega

theorem year_range {t : Int} (h0 : -62167219200 ≤ t) (h1 : t < 253402300800) : 0 ≤ (gmtime t).year ∧ (gmtime t).year ≤ 9999 := by
  obtain ⟨hv, hi⟩ := gmtime_valid t
  obtain ⟨v1, v2, -⟩ := valid_year hv
  rw [hi] at v1 v2
  constructor
  · by_cases hh : 0 ≤ (gmtime t).year
    · exact hh
    · have h3 := year_mono ((gmtime t).year + 1) (-(gmtime t).year - 1).toNat
      have e : (gmtime t).year + 1 + ((-(gmtime t).year - 1).toNat : Int) = 0 := by omega
      rw [e] at h3
      have : yearStart 0 = -719528 := by decide
      omega
  · by_cases hh : (gmtime t).year ≤ 9999
    · exact hh
    · have h3 := year_mono 10000 ((gmtime t).year - 10000).toNat
      have e : (10000 : Int) + (((gmtime t).year - 10000).toNat : Int) = (gmtime t).year := by omega
      rw [e] at h3
      have : yearStart 10000 = 2932897 := by decide
      omega

/-- The year is before `Y` exactly if the instant is before the start of `Y`. -/
theorem year_lt_iff (t Y : Int) : (gmtime t).year < Y ↔ t < 86400 * yearStart Y := by
  obtain ⟨hv, hi⟩ := gmtime_valid t
  obtain ⟨v1, v2, -⟩ := valid_year hv
  rw [hi] at v1 v2
  constructor
  · intro h
    have h3 := year_mono ((gmtime t).year + 1) (Y - (gmtime t).year - 1).toNat
    have e : (gmtime t).year + 1 + ((Y - (gmtime t).year - 1).toNat : Int) = Y := by omega
    rw [e] at h3
    omega
  · intro h
    by_cases hh : (gmtime t).year < Y
    · exact hh
    · have h3 := year_mono Y ((gmtime t).year - Y).toNat
      have e : Y + (((gmtime t).year - Y).toNat : Int) = (gmtime t).year := by omega
      rw [e] at h3
      omega

/-! ### C100 -/

/-- The text is `n` written with exactly `w` decimal digits. -/
def Digits (w : Nat) (s : Str) (n : Int) : Prop := s.length = w ∧ (∀ c ∈ s, isDigit c = true) ∧ (foldDigits 10 0 s : Int) = n

/-- ISO 8601: YYYY-MM-DDThh:mm:ss and a designator of the zone. -/
def Iso (zone : Str) (s : Str) (b : Tm) : Prop := ∃ Y M D h m x : Str, s = Y ++ lit "-" ++ M ++ lit "-" ++ D ++ lit "T" ++ h ++ lit ":" ++ m ++ lit ":" ++ x ++ zone ∧
  Digits 4 Y b.year ∧ Digits 2 M b.mon ∧ Digits 2 D b.day ∧ Digits 2 h b.hour ∧ Digits 2 m b.min ∧ Digits 2 x b.sec

theorem pad_digits {w : Nat} {n : Int} (h0 : 0 ≤ n) (h1 : n < 10 ^ (w + 1)) : Digits (w + 1) (pad (w + 1) n) n := by
  obtain ⟨k, rfl⟩ := Int.eq_ofNat_of_zero_le h0
  have hk : k < 10 ^ (w + 1) := by exact_mod_cast h1
  obtain ⟨f1, f2⟩ := pad_fold w k hk
  exact ⟨pad_length w k hk, f2, by rw [f1]⟩

theorem monthDays_le (y m : Int) : monthDays y m ≤ 31 := by unfold monthDays; split <;> split <;> decide

theorem isoText_iso {b : Tm} (hv : Valid b) (h0 : 0 ≤ b.year) (h1 : b.year ≤ 9999) (l : Bool) : Iso (if l then [] else lit "Z") (isoText b l) b := by
  obtain ⟨a1, a2, a3, a4, a5, a6, a7, a8, a9, a10⟩ := hv
  have := monthDays_le b.year b.mon
  exact ⟨_, _, _, _, _, _, rfl, pad_digits h0 (by omega), pad_digits (by omega) (by omega), pad_digits (by omega) (by omega), pad_digits (by omega) (by omega),
    pad_digits (by omega) (by omega), pad_digits (by omega) (by omega)⟩

theorem field_lt {w : Nat} {n m : Int} (h0 : 0 ≤ n) (h1 : n < 10 ^ (w + 1)) (h2 : 0 ≤ m) (h3 : m < 10 ^ (w + 1)) (x y : Str) :
    textLt (pad (w + 1) n ++ x) (pad (w + 1) m ++ y) = true ↔ n < m ∨ n = m ∧ textLt x y = true := by
  obtain ⟨k, rfl⟩ := Int.eq_ofNat_of_zero_le h0
  obtain ⟨l, rfl⟩ := Int.eq_ofNat_of_zero_le h2
  have hk : k < 10 ^ (w + 1) := by exact_mod_cast h1
  have hl : l < 10 ^ (w + 1) := by exact_mod_cast h3
  rw [textLt_append _ _ _ _ (by rw [pad_length w k hk, pad_length w l hl]), pad_lt w k l hk hl]
  simp only [Bool.or_eq_true, decide_eq_true_eq, Bool.and_eq_true, beq_iff_eq, pad_eq w k l hk hl]
  rw [show ((k : Int) < (l : Int)) ↔ k < l from Int.ofNat_lt, show ((k : Int) = (l : Int)) ↔ k = l from Int.ofNat_inj]

theorem same_lt (l x y : Str) : textLt (l ++ x) (l ++ y) = textLt x y := by
  have h : ∀ s : Str, textLt s s = false := by
    intro s
    induction s with
    | nil => rfl
    | cons a s ih => simp [textLt, ih]
  rw [textLt_append _ _ _ _ rfl, h]
  simp

theorem textLt_irrefl (s : Str) : textLt s s = false := by
  have := same_lt s [] []
  simpa [textLt] using this

theorem isoText_lt {a b : Tm} (ha : Valid a) (hb : Valid b) (a0 : 0 ≤ a.year) (a1 : a.year ≤ 9999) (b0 : 0 ≤ b.year) (b1 : b.year ≤ 9999) (l : Bool) :
    textLt (isoText a l) (isoText b l) = true ↔ dateLt a b := by
  obtain ⟨h1, h2, h3, h4, h5, h6, h7, h8, h9, h10⟩ := ha
  obtain ⟨g1, g2, g3, g4, g5, g6, g7, g8, g9, g10⟩ := hb
  have := monthDays_le a.year a.mon
  have := monthDays_le b.year b.mon
  unfold isoText dateLt
  simp only [List.append_assoc]
  rw [field_lt (w := 3) (by omega) (by omega) (by omega) (by omega), same_lt, field_lt (w := 1) (by omega) (by omega) (by omega) (by omega), same_lt,
    field_lt (w := 1) (by omega) (by omega) (by omega) (by omega), same_lt, field_lt (w := 1) (by omega) (by omega) (by omega) (by omega), same_lt,
    field_lt (w := 1) (by omega) (by omega) (by omega) (by omega), same_lt, field_lt (w := 1) (by omega) (by omega) (by omega) (by omega), textLt_irrefl]
  simp

theorem isoTime_range (off : Int → Int) {t : Int} {l : Bool} (h0 : -62167219200 ≤ t + (if l then off t else 0)) (h1 : t + (if l then off t else 0) < 253402300800) :
    isoTime off t l = .ok (isoText (gmtime (t + (if l then off t else 0))) l) := by
  obtain ⟨y0, y1⟩ := year_range h0 h1
  unfold isoTime
  cases l
  · simp only [Bool.false_eq_true, if_false, Int.add_zero] at y0 y1 ⊢
    rw [if_neg (by omega)]
  · simp only [if_true] at y0 y1 ⊢
    rw [if_neg (by omega)]

/-- C100: from the year 0 to the year 9999 the text is the ISO 8601 form of an existing date and time of day, that of the instant given (in UTC with designator Z, or shifted by the offset of
the zone and without designator).
Not covered: other years, see `C100_year10000_refuted` and `C100_far_refuted`. -/
theorem C100_iso_partial (off : Int → Int) (t : Int) (l : Bool) (h0 : -62167219200 ≤ t + (if l then off t else 0)) (h1 : t + (if l then off t else 0) < 253402300800) :
    ∃ s b, isoTime off t l = .ok s ∧ Iso (if l then [] else lit "Z") s b ∧ Valid b ∧ instant b = t + (if l then off t else 0) := by
  obtain ⟨y0, y1⟩ := year_range h0 h1
  obtain ⟨v, i⟩ := gmtime_valid (t + (if l then off t else 0))
  exact ⟨_, _, isoTime_range off h0 h1, isoText_iso v y0 y1 l, v, i⟩

example : isoTime (fun _ => 0) 951782399 false = .ok (lit "2000-02-28T23:59:59Z") ∧ isoTime (fun _ => 0) 951782400 false = .ok (lit "2000-02-29T00:00:00Z") ∧
    isoTime (fun _ => 3600) 951868799 true = .ok (lit "2000-03-01T00:59:59") ∧ isoTime (fun _ => 0) (-1) false = .ok (lit "1969-12-31T23:59:59Z") := by decide +kernel

/-- C100: an instant has one date only, so that date names the instant and no other. -/
theorem C100_unique {a b : Tm} (ha : Valid a) (hb : Valid b) : instant a = instant b ↔ a = b := ⟨instant_inj ha hb, fun h => by rw [h]⟩

example : Valid ⟨2000, 2, 29, 0, 0, 0⟩ ∧ instant ⟨2000, 2, 29, 0, 0, 0⟩ = 951782400 ∧ ¬ Valid ⟨1900, 2, 29, 0, 0, 0⟩ := by unfold Valid; decide

/-- C100: UTC texts sort as the instants do; in particular different instants have different texts.
Not covered: years outside 0 to 9999, see `C100_year10000_refuted`. -/
theorem C100_order_partial (off : Int → Int) (t u : Int) (ht : -62167219200 ≤ t ∧ t < 253402300800) (hu : -62167219200 ≤ u ∧ u < 253402300800) :
    ∃ s r, isoTime off t false = .ok s ∧ isoTime off u false = .ok r ∧ (textLt s r = true ↔ t < u) ∧ (s = r ↔ t = u) := by
  obtain ⟨y0, y1⟩ := year_range ht.1 ht.2
  obtain ⟨z0, z1⟩ := year_range hu.1 hu.2
  obtain ⟨v, i⟩ := gmtime_valid t
  obtain ⟨w, j⟩ := gmtime_valid u
  have e1 := isoTime_range off (t := t) (l := false) (by simpa using ht.1) (by simpa using ht.2)
  have e2 := isoTime_range off (t := u) (l := false) (by simpa using hu.1) (by simpa using hu.2)
  simp only [Bool.false_eq_true, if_false, Int.add_zero] at e1 e2
  have k1 : textLt (isoText (gmtime t) false) (isoText (gmtime u) false) = true ↔ t < u := by
    rw [isoText_lt v w y0 y1 z0 z1, dateLt_iff v w, i, j]
  have k2 : textLt (isoText (gmtime u) false) (isoText (gmtime t) false) = true ↔ u < t := by
    rw [isoText_lt w v z0 z1 y0 y1, dateLt_iff w v, i, j]
  refine ⟨_, _, e1, e2, k1, ⟨fun h => ?_, fun h => by rw [h]⟩⟩
  rw [h, textLt_irrefl] at k1 k2
  simp at k1 k2
  omega

example : textLt (lit "2000-02-28T23:59:59Z") (lit "2000-02-29T00:00:00Z") = true := by decide

/-- C100 fails after the year 9999: the texts no longer sort as the instants. -/
theorem C100_year10000_refuted : ∃ t u s r, t < u ∧ isoTime (fun _ => 0) t false = .ok s ∧ isoTime (fun _ => 0) u false = .ok r ∧ textLt r s = true :=
  ⟨253402300799, 253402300800, lit "9999-12-31T23:59:59Z", lit "10000-01-01T00:00:00Z", by decide, by decide +kernel, by decide +kernel, by decide⟩

/-- C100 fails for far instants: a valid `time_t` (here 2^62) makes `gmtime_r` fail, which is not checked, and the text is made from an unwritten `struct tm`. -/
theorem C100_far_refuted : ∃ t : Int, t < 2 ^ 63 ∧ isoTime (fun _ => 0) t false = .ub := ⟨2 ^ 62, by decide, by decide +kernel⟩

/-- C100: these are the instants for which it fails, to the second: those before -67768040609740800 (the year -2147481748) and from 67767976233532800 (the year 2147483648) on. -/
theorem C100_range (off : Int → Int) (t : Int) (l : Bool) :
    (isoTime off t l = .ub ↔ t + (if l then off t else 0) < -67768040609740800 ∨ 67767976233532800 ≤ t + (if l then off t else 0)) ∧
    (isoTime off t l = .ub ∨ ∃ s, isoTime off t l = .ok s) := by
  have key : ∀ u : Int, ((gmtime u).year - 1900 < -2 ^ 31 ∨ 2 ^ 31 - 1 < (gmtime u).year) ↔ u < -67768040609740800 ∨ 67767976233532800 ≤ u := by
    intro u
    have h1 := year_lt_iff u (-2147481748)
    have h2 := year_lt_iff u 2147483648
    rw [show yearStart (-2147481748) = -784352321872 by decide] at h1
    rw [show yearStart 2147483648 = 784351576777 by decide] at h2
    omega
  have e : isoTime off t l = if (gmtime (t + (if l then off t else 0))).year - 1900 < -2 ^ 31 ∨ 2 ^ 31 - 1 < (gmtime (t + (if l then off t else 0))).year then .ub
      else .ok (isoText (gmtime (t + (if l then off t else 0))) l) := by
    unfold isoTime
    cases l <;> simp
  rw [e]
  by_cases h : t + (if l then off t else 0) < -67768040609740800 ∨ 67767976233532800 ≤ t + (if l then off t else 0)
  · rw [if_pos ((key _).2 h)]
    exact ⟨⟨fun _ => h, fun _ => rfl⟩, .inl rfl⟩
  · rw [if_neg (fun g => h ((key _).1 g))]
    exact ⟨⟨fun g => absurd g (by simp), fun g => absurd g h⟩, .inr ⟨_, rfl⟩⟩

example : isoTime (fun _ => 0) 67767976233532799 false = .ok (lit "2147483647-12-31T23:59:59Z") ∧ isoTime (fun _ => 0) (-67768040609740800) false = .ok (lit "-2147481748-01-01T00:00:00Z") := by decide +kernel

/-- C100 fails for local time: when the clock is set back the same text stands for two instants. -/
theorem C100_local_refuted : ∃ (off : Int → Int) (t u : Int), t ≠ u ∧ isoTime off t true = isoTime off u true ∧ ∃ s, isoTime off t true = .ok s :=
  ⟨fun t => if t < 1000000 then 3600 else 0, 999000, 1002600, by decide, by decide +kernel, lit "1970-01-12T14:30:00", by decide +kernel⟩

end Verif.Timeval
