import Verif.Timeval.Iso

/-
Property C106: time stamps of messages, `timestr` (`Utils.cpp:281-305`).
-/

namespace Verif.Utils.Timestr
open Verif Verif.Timeval

/-- The whole text (`Utils.cpp:287-295`). -/
def fullText (b : Tm) (tenths : Int) (addDate : Bool) : Str :=
  lit " " ++ ((if addDate then pad 4 b.year ++ lit "-" ++ pad 2 b.mon ++ lit "-" ++ pad 2 b.day ++ lit "T" else []) ++
    (pad 2 b.hour ++ lit ":" ++ pad 2 b.min ++ lit ":" ++ pad 2 b.sec ++ lit "." ++ pad 1 tenths))

/-- `timestr` (`Utils.cpp:281-303`) at `t` seconds and `us` microseconds, in a zone with the given offset.  If the local year minus 1900 does not fit an `int` the `struct tm` is used unwritten; if it
does but the year does not, `tm_year + 1900` overflows (only evaluated with a date). -/
def timestr (offset : Int → Int) (t us : Int) (fieldwidth : Nat) (addDate : Bool) : Outcome Str :=
  let b := gmtime (t + offset t)
  if b.year - 1900 < -2 ^ 31 ∨ 2 ^ 31 - 1 < b.year - 1900 ∨ addDate ∧ 2 ^ 31 - 1 < b.year then .ub
  else
    let result := fullText b (us / 100000) addDate
    .ok (result.drop (if fieldwidth ≥ result.length then 0 else result.length - fieldwidth))

/-- `timestr` without arguments (`Utils.cpp:305`). -/
def timestr0 (offset : Int → Int) (t us : Int) : Outcome Str := timestr offset t us 12 false

/-! ### Specification -/

/-- The time of day as text: hh:mm:ss.t -/
def Clock (s : Str) (hour min sec tenths : Int) : Prop := ∃ h m x d : Str, s = h ++ lit ":" ++ m ++ lit ":" ++ x ++ lit "." ++ d ∧ Digits 2 h hour ∧ Digits 2 m min ∧ Digits 2 x sec ∧ Digits 1 d tenths

/-- The date as text: YYYY-MM-DD -/
def Date (s : Str) (b : Tm) : Prop := ∃ Y M D : Str, s = Y ++ lit "-" ++ M ++ lit "-" ++ D ∧ Digits 4 Y b.year ∧ Digits 2 M b.mon ∧ Digits 2 D b.day

/-- The clock's reading in tenths of a second, rounded down. -/
def tenthsOf (t us : Int) : Int := (10 * (1000000 * t + us)) / 1000000

/-! ### Proof -/

theorem pad2_length {n : Int} (h0 : 0 ≤ n) (h1 : n < 100) : (pad 2 n).length = 2 := (pad_digits (w := 1) h0 (by omega)).1

theorem clock_text {b : Tm} {d : Int} (hv : Valid b) (h0 : 0 ≤ d) (h1 : d < 10) :
    Clock (pad 2 b.hour ++ lit ":" ++ pad 2 b.min ++ lit ":" ++ pad 2 b.sec ++ lit "." ++ pad 1 d) b.hour b.min b.sec d := by
  obtain ⟨-, -, -, -, a5, a6, a7, a8, a9, a10⟩ := hv
  exact ⟨_, _, _, _, rfl, pad_digits (by omega) (by omega), pad_digits (by omega) (by omega), pad_digits (by omega) (by omega), pad_digits (w := 0) h0 (by omega)⟩

theorem clock_length {s : Str} {h m x d : Int} (c : Clock s h m x d) : s.length = 10 := by
  obtain ⟨a, b, e, f, rfl, l1, l2, l3, l4⟩ := c
  simp only [List.length_append, l1.1, l2.1, l3.1, l4.1]
  rfl

theorem date_length {s : Str} {b : Tm} (c : Date s b) : s.length = 10 := by
  obtain ⟨a, e, f, rfl, l1, l2, l3⟩ := c
  simp only [List.length_append, l1.1, l2.1, l3.1]
  rfl

theorem tenths_range {us : Int} (h0 : 0 ≤ us) (h1 : us < 1000000) : 0 ≤ us / 100000 ∧ us / 100000 < 10 := by omega

theorem date_text {b : Tm} (hv : Valid b) (y0 : 0 ≤ b.year) (y1 : b.year ≤ 9999) : Date (pad 4 b.year ++ lit "-" ++ pad 2 b.mon ++ lit "-" ++ pad 2 b.day) b := by
  obtain ⟨a1, a2, a3, a4, -⟩ := hv
  have := monthDays_le b.year b.mon
  exact ⟨_, _, _, rfl, pad_digits y0 (by omega), pad_digits (by omega) (by omega), pad_digits (by omega) (by omega)⟩

theorem fullText_length {b : Tm} {d : Int} (hv : Valid b) (y0 : 0 ≤ b.year) (y1 : b.year ≤ 9999) (d0 : 0 ≤ d) (d1 : d < 10) : (fullText b d true).length = 22 := by
  have g1 := clock_length (clock_text hv d0 d1)
  have g2 := date_length (date_text hv y0 y1)
  simp only [fullText, if_true, List.length_append] at g1 g2 ⊢
  have hb : (lit " ").length = 1 := rfl
  have hb : (lit "T").length = 1 := rfl
  omega

/-- The result is the end of the text. -/
theorem drop_end (s : Str) (w : Nat) : ∃ a, s = a ++ s.drop (if w ≥ s.length then 0 else s.length - w) ∧ (s.drop (if w ≥ s.length then 0 else s.length - w)).length = min w s.length := by
  refine ⟨s.take (if w ≥ s.length then 0 else s.length - w), (List.take_append_drop ..).symm, ?_⟩
  rw [List.length_drop]
  split <;> omega

/-- C106: for every instant of the clock (from the year -2147481748 to 2147485547) and every width, the time stamp without date consists of the last `min w 11` characters of a blank and the
local time of day, hours to tenths, rounded down; the default stamp is the whole. -/
theorem C106_time_partial (off : Int → Int) (t us : Int) (w : Nat) (h0 : 0 ≤ us) (h1 : us < 1000000) (hy : -2 ^ 31 ≤ (gmtime (t + off t)).year - 1900 ∧ (gmtime (t + off t)).year - 1900 ≤ 2 ^ 31 - 1) :
    ∃ s c a h m x d, timestr off t us w false = .ok s ∧ Clock c h m x d ∧ lit " " ++ c = a ++ s ∧ s.length = min w 11 ∧
      0 ≤ h ∧ h < 24 ∧ 0 ≤ m ∧ m < 60 ∧ 0 ≤ x ∧ x < 60 ∧ 0 ≤ d ∧ d < 10 ∧ 36000 * h + 600 * m + 10 * x + d = tenthsOf (t + off t) us % 864000 ∧
      timestr0 off t us = .ok (lit " " ++ c) := by
  obtain ⟨v, -⟩ := gmtime_valid (t + off t)
  obtain ⟨d0, d1⟩ := tenths_range h0 h1
  have hc := clock_text v d0 d1
  have hl : (fullText (gmtime (t + off t)) (us / 100000) false).length = 11 := by
    have := clock_length hc
    simp only [fullText, Bool.false_eq_true, if_false, List.nil_append, List.length_append] at this ⊢
    have hb : (lit " ").length = 1 := rfl
    omega
  have ok : ∀ w, timestr off t us w false = .ok ((fullText (gmtime (t + off t)) (us / 100000) false).drop (if w ≥ (fullText (gmtime (t + off t)) (us / 100000) false).length then 0 else (fullText (gmtime (t + off t)) (us / 100000) false).length - w)) := by
    intro w
    simp only [timestr]
    rw [if_neg]
    rintro (h | h | h)
    · omega
    · omega
    · exact absurd h.1 (by simp)
  obtain ⟨a, e1, e2⟩ := drop_end (fullText (gmtime (t + off t)) (us / 100000) false) w
  obtain ⟨-, -, -, -, a5, a6, a7, a8, a9, a10⟩ := v
  refine ⟨_, _, a, _, _, _, _, ok w, hc, ?_, by rw [e2, hl], a5, a6, a7, a8, a9, a10, d0, d1, ?_, ?_⟩
  · rw [← e1]; simp [fullText]
  · simp only [gmtime, tenthsOf]
    omega
  · rw [timestr0, ok, hl]
    simp [fullText]

example : timestr (fun _ => 3600) 951782399 299999 100 false = .ok (lit " 00:59:59.2") ∧ timestr (fun _ => 3600) 951782399 299999 7 false = .ok (lit "59:59.2") ∧
    timestr (fun _ => 0) 951782399 299999 100 true = .ok (lit " 2000-02-28T23:59:59.2") := by decide +kernel

/-- C106: with date and a width of 22 or more, the time stamp of an instant from the year 0 to 9999 is a blank, the date, the letter T and the time of day; the date exists and is that of
the instant shifted by the offset of the zone.
Not covered: other years (see `C100_year10000_refuted`); shorter widths cut from the left, as in `C106_time_partial`. -/
theorem C106_date_partial (off : Int → Int) (t us : Int) (w : Nat) (h0 : 0 ≤ us) (h1 : us < 1000000) (hw : 22 ≤ w) (hy0 : -62167219200 ≤ t + off t) (hy1 : t + off t < 253402300800) :
    ∃ D c b d, timestr off t us w true = .ok (lit " " ++ D ++ lit "T" ++ c) ∧ Date D b ∧ Clock c b.hour b.min b.sec d ∧ Valid b ∧ 10 * instant b + d = tenthsOf (t + off t) us ∧ 0 ≤ d ∧ d < 10 := by
  obtain ⟨v, i⟩ := gmtime_valid (t + off t)
  obtain ⟨y0, y1⟩ := year_range hy0 hy1
  obtain ⟨d0, d1⟩ := tenths_range h0 h1
  have hc := clock_text v d0 d1
  have hD := date_text v y0 y1
  have hl := fullText_length v y0 y1 d0 d1
  refine ⟨_, _, _, _, ?_, hD, hc, v, ?_, d0, d1⟩
  · simp only [timestr]
    rw [if_neg (by omega), hl, if_pos hw]
    simp [fullText]
  · rw [i]; simp only [tenthsOf]; omega

example : Date (lit "2000-02-28") ⟨2000, 2, 28, 23, 59, 59⟩ :=
  ⟨lit "2000", lit "02", lit "28", by decide, ⟨by decide, by decide, by decide⟩, ⟨by decide, by decide, by decide⟩, ⟨by decide, by decide, by decide⟩⟩

/-- C106: as long as the zone's offset does not change, stamps with date sort as the instants do, up to a tenth of a second. -/
theorem C106_order_partial (off : Int → Int) (t us u vs : Int) (w : Nat) (h0 : 0 ≤ us ∧ us < 1000000) (h1 : 0 ≤ vs ∧ vs < 1000000) (hw : 22 ≤ w) (ho : off t = off u)
    (hy : -62167219200 ≤ t + off t ∧ t + off t < 253402300800) (hz : -62167219200 ≤ u + off u ∧ u + off u < 253402300800) :
    ∃ s r, timestr off t us w true = .ok s ∧ timestr off u vs w true = .ok r ∧ (textLt s r = true ↔ tenthsOf t us < tenthsOf u vs) := by
  have full : ∀ t us : Int, 0 ≤ us ∧ us < 1000000 → -62167219200 ≤ t + off t ∧ t + off t < 253402300800 →
      timestr off t us w true = .ok (fullText (gmtime (t + off t)) (us / 100000) true) := by
    intro t us h hy
    obtain ⟨y0, y1⟩ := year_range hy.1 hy.2
    simp only [timestr]
    rw [if_neg (by omega), fullText_length (gmtime_valid (t + off t)).1 y0 y1 (tenths_range h.1 h.2).1 (tenths_range h.1 h.2).2, if_pos hw, List.drop_zero]
  obtain ⟨v, i⟩ := gmtime_valid (t + off t)
  obtain ⟨v', i'⟩ := gmtime_valid (u + off u)
  obtain ⟨y0, y1⟩ := year_range hy.1 hy.2
  obtain ⟨z0, z1⟩ := year_range hz.1 hz.2
  refine ⟨_, _, full t us h0 hy, full u vs h1 hz, ?_⟩
  have hd := dateLt_iff v v'
  have hinj : gmtime (t + off t) = gmtime (u + off u) ↔ t = u := ⟨fun h => by have := i.symm.trans ((congrArg instant h).trans i'); omega, fun h => by rw [h]⟩
  rw [i, i'] at hd
  generalize gmtime (t + off t) = a at *
  generalize gmtime (u + off u) = b at *
  have key : textLt (fullText a (us / 100000) true) (fullText b (vs / 100000) true) = true ↔ dateLt a b ∨ a = b ∧ us / 100000 < vs / 100000 := by
    obtain ⟨h1', h2, h3, h4, h5, h6, h7, h8, h9, h10⟩ := v
    obtain ⟨g1, g2, g3, g4, g5, g6, g7, g8, g9, g10⟩ := v'
    have := monthDays_le a.year a.mon
    have := monthDays_le b.year b.mon
    have hone : textLt (pad 1 (us / 100000)) (pad 1 (vs / 100000)) = true ↔ us / 100000 < vs / 100000 := by
      have := field_lt (w := 0) (n := us / 100000) (m := vs / 100000) (by omega) (by omega) (by omega) (by omega) [] []
      simpa [textLt] using this
    unfold fullText dateLt
    simp only [if_true, List.append_assoc]
    rw [same_lt, field_lt (w := 3) (by omega) (by omega) (by omega) (by omega), same_lt, field_lt (w := 1) (by omega) (by omega) (by omega) (by omega), same_lt,
      field_lt (w := 1) (by omega) (by omega) (by omega) (by omega), same_lt, field_lt (w := 1) (by omega) (by omega) (by omega) (by omega), same_lt,
      field_lt (w := 1) (by omega) (by omega) (by omega) (by omega), same_lt, field_lt (w := 1) (by omega) (by omega) (by omega) (by omega), same_lt, hone]
    have hab : a = b ↔ a.year = b.year ∧ a.mon = b.mon ∧ a.day = b.day ∧ a.hour = b.hour ∧ a.min = b.min ∧ a.sec = b.sec := by
      cases a; cases b; simp
    rw [hab]
    omega
  rw [key, hd, hinj]
  simp only [tenthsOf]
  omega

example : textLt (lit " 2000-02-28T23:59:59.2") (lit " 2000-02-29T00:00:00.0") = true := by decide

/-- C106 does not hold for the stamps without date: the stamp of the next day sorts before, and with width 7, as the messages on the console have it, stamps repeat every hour. -/
theorem C106_wrap_refuted : (∃ t u s r, t < u ∧ timestr0 (fun _ => 0) t 0 = .ok s ∧ timestr0 (fun _ => 0) u 0 = .ok r ∧ textLt r s = true) ∧
    ∃ t u s, t < u ∧ timestr (fun _ => 0) t 0 7 false = .ok s ∧ timestr (fun _ => 0) u 0 7 false = .ok s :=
  ⟨⟨951782399, 951782400, lit " 23:59:59.0", lit " 00:00:00.0", by decide, by decide +kernel, by decide +kernel, by decide⟩,
    ⟨951782399, 951785999, lit "59:59.0", by decide, by decide +kernel, by decide +kernel⟩⟩

/-- C106 fails outside these instants, to the second: for others the `struct tm` is used unwritten or, with a date, adding 1900 to the year overflows. -/
theorem C106_range_refuted (off : Int → Int) (t us : Int) (w : Nat) (addDate : Bool) :
    (timestr off t us w addDate = .ub ↔ t + off t < -67768040609740800 ∨ (if addDate then 67767976233532800 else 67768036191676800) ≤ t + off t) ∧
    (timestr off t us w addDate = .ub ∨ ∃ s, timestr off t us w addDate = .ok s) := by
  have key : ∀ u : Int, ((gmtime u).year - 1900 < -2 ^ 31 ∨ 2 ^ 31 - 1 < (gmtime u).year - 1900 ∨ addDate ∧ 2 ^ 31 - 1 < (gmtime u).year) ↔
      u < -67768040609740800 ∨ (if addDate then 67767976233532800 else 67768036191676800) ≤ u := by
    intro u
    have h1 := year_lt_iff u (-2147481748)
    have h2 := year_lt_iff u 2147483648
    have h3 := year_lt_iff u 2147485548
    rw [show yearStart (-2147481748) = -784352321872 by decide] at h1
    rw [show yearStart 2147483648 = 784351576777 by decide] at h2
    rw [show yearStart 2147485548 = 784352270737 by decide] at h3
    cases addDate
    · simp only [Bool.false_eq_true, false_and, or_false, if_false]; omega
    · simp only [true_and, if_true]; omega
  have e : timestr off t us w addDate = if (gmtime (t + off t)).year - 1900 < -2 ^ 31 ∨ 2 ^ 31 - 1 < (gmtime (t + off t)).year - 1900 ∨ addDate ∧ 2 ^ 31 - 1 < (gmtime (t + off t)).year then .ub
      else .ok ((fullText (gmtime (t + off t)) (us / 100000) addDate).drop (if w ≥ (fullText (gmtime (t + off t)) (us / 100000) addDate).length then 0 else
        (fullText (gmtime (t + off t)) (us / 100000) addDate).length - w)) := rfl
  rw [e]
  by_cases h : t + off t < -67768040609740800 ∨ (if addDate then 67767976233532800 else 67768036191676800) ≤ t + off t
  · rw [if_pos ((key _).2 h)]
    exact ⟨⟨fun _ => h, fun _ => rfl⟩, .inl rfl⟩
  · rw [if_neg (fun g => h ((key _).1 g))]
    exact ⟨⟨fun g => absurd g (by simp), fun g => absurd g h⟩, .inr ⟨_, rfl⟩⟩

example : timestr (fun _ => 3600) 67768036191676799 0 100 false = .ub ∧ timestr (fun _ => 0) 67768036191676799 0 100 false = .ok (lit " 23:59:59.0") := by decide +kernel

end Verif.Utils.Timestr
