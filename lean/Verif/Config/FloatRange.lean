import Verif.Config.ValidProps
import Verif.Core.Float
import Mathlib.Data.List.TakeWhile

/-
Property C114: ranges with decimal points (`Configuration.cpp:615-638, 1067-1097` with `T = float`).
-/

namespace Verif.Config
open Verif Spec

/-! ### Model -/

/-- The digits after a point at the beginning of `s`. -/
def fracDigits : Str → Str
  | c :: t => if c = chr '.' then t.takeWhile isDigit else []
  | [] => []

/-- The decimal number at the beginning of `s`: digits with at most one point; 0 if there are no digits. -/
def decMag (s : Str) : ℚ :=
  (scanNat 10 (s.takeWhile isDigit ++ fracDigits (s.dropWhile isDigit)) : ℚ) / 10 ^ (fracDigits (s.dropWhile isDigit)).length

/-- `std::stringstream(s) >> x` for a `float` (C++11 and libstdc++): `none` if there is nothing but white space, in which case `x` is left alone; otherwise the number at the beginning rounded to `float`.
Simplification: no exponents, which the pattern excludes in values and which the schemas do not have; no overflow. -/
def readFloat (s : Str) : Option ℚ :=
  match s.dropWhile isSpace with
  | [] => none
  | c :: t => some (fl (if c = chr '-' then -decMag t else if c = chr '+' then decMag t else decMag (c :: t)))

/-- The pattern `^[0-9.-]+$` (`Configuration.cpp:619`). -/
def matchDec (val : Str) : Bool := !(cText val).isEmpty && (cText val).all fun c => isDigit c || c == chr '.' || c == chr '-'

/-- Case VALRANGE for ranges with a dot in `mValidValues` (`Configuration.cpp:615-638`) with `isInValRange<float>` (`Configuration.cpp:1067-1097`): `min` and `max` have no initial value. -/
def validFloatRange (w : Nat) (valid val : Str) : Outcome Bool :=
  if matchDec val then
    match readFloat val, readFloat (minMax w valid).1, readFloat (minMax w valid).2 with
    | some x, some lo, some hi => .ok (decide (lo ≤ x) && decide (x ≤ hi))
    | _, _, _ => .ub
  else .ok false

/-- Case VALRANGE (`Configuration.cpp:615-638`). -/
def validAnyRange (w : Nat) (valid val : Str) : Outcome Bool :=
  if (findFrom valid (chr '.') 0).isSome then validFloatRange w valid val else isValidValue w .valRange valid val

/-! ### Specification -/

/-- `s` consists of digits, with or without a point among them, and denotes `q`. -/
def Point (s : Str) (q : ℚ) : Prop :=
  ∃ ip fp : List Nat, ip ++ fp ≠ [] ∧ (∀ d ∈ ip ++ fp, d < 10) ∧ (s = digits ip ++ chr '.' :: digits fp ∨ (fp = [] ∧ s = digits ip)) ∧
    q = (Nat.ofDigits 10 (ip ++ fp).reverse : ℕ) / 10 ^ fp.length

/-- An optional minus sign and such a number. -/
def SignedPoint (s : Str) (q : ℚ) : Prop := Point s q ∨ ∃ t r, s = chr '-' :: t ∧ Point t r ∧ q = -r

/-! ### Proof -/

theorem rne_mono {x y : ℚ} (h : x ≤ y) : rne x ≤ rne y := by
  have hx1 := Int.floor_le x
  have hx2 := Int.lt_floor_add_one x
  have hy1 := Int.floor_le y
  have hf : ⌊x⌋ ≤ ⌊y⌋ := Int.floor_le_floor h
  have ux : rne x ≤ ⌊x⌋ + 1 := by unfold rne; split_ifs <;> omega
  have ly : ⌊y⌋ ≤ rne y := by unfold rne; split_ifs <;> omega
  rcases lt_or_eq_of_le hf with hf | hf
  · omega
  · unfold rne
    rw [← hf]
    have : y - ⌊x⌋ ≥ x - ⌊x⌋ := by linarith
    split_ifs <;> first | omega | (exfalso; linarith)

theorem fl_mono_pos {x y : ℚ} (hx : 0 < x) (h : x ≤ y) : fl x ≤ fl y := by
  have hy : 0 < y := lt_of_lt_of_le hx h
  have ax := (lastBit_spec x hx.ne')
  have ay := (lastBit_spec y hy.ne')
  rw [abs_of_pos hx] at ax
  rw [abs_of_pos hy] at ay
  by_cases he : lastBit x = lastBit y
  · unfold fl
    rw [if_neg hx.ne', if_neg hy.ne', he]
    have hp : (0 : ℚ) < 2 ^ lastBit y := by positivity
    have : rne (x / 2 ^ lastBit y) ≤ rne (y / 2 ^ lastBit y) := rne_mono (by rw [div_le_div_iff_of_pos_right hp]; exact h)
    have : (rne (x / 2 ^ lastBit y) : ℚ) ≤ rne (y / 2 ^ lastBit y) := by exact_mod_cast this
    nlinarith
  · have hlt : lastBit x < lastBit y := by
      by_contra hc
      have h1 : lastBit y + 24 ≤ lastBit x + 23 := by omega
      have := zpow_le_zpow_right₀ (show (1 : ℚ) ≤ 2 by norm_num) h1
      linarith [ax.1, ay.2]
    have h2 : (2 : ℚ) ^ (lastBit x + 24) ≤ 2 ^ (lastBit y + 23) := zpow_le_zpow_right₀ (by norm_num) (by omega)
    have hf : IsFloat ((2 : ℚ) ^ (lastBit x + 24)) := ⟨1, lastBit x + 24, by norm_num, by simp⟩
    exact le_trans (fl_le_float x _ hf ax.2.le) (float_le_fl y _ hf (le_trans h2 ay.1))

/-- Rounding keeps the order. -/
theorem fl_mono {x y : ℚ} (h : x ≤ y) : fl x ≤ fl y := by
  have h0 : IsFloat 0 := ⟨0, 0, by norm_num, by simp⟩
  by_cases hx : 0 < x
  · exact fl_mono_pos hx h
  · by_cases hy : 0 ≤ y
    · exact le_trans (fl_le_float x 0 h0 (by linarith)) (float_le_fl y 0 h0 hy)
    · have := fl_mono_pos (x := -y) (y := -x) (by linarith) (by linarith)
      rw [fl_neg, fl_neg] at this
      linarith

theorem digits_all {ds : List Nat} (h : ∀ d ∈ ds, d < 10) : ∀ c ∈ digits ds, isDigit c = true := by
  intro c hc
  obtain ⟨d, hd, rfl⟩ := List.mem_map.1 hc
  have key : ∀ d, d < 10 → isDigit (BitVec.ofNat 8 (48 + d)) = true := by decide
  exact key d (h d hd)

theorem scanNat_digits {ds : List Nat} (h : ∀ d ∈ ds, d < 10) : scanNat 10 (digits ds) = Nat.ofDigits 10 ds.reverse := by
  by_cases hd : ds = []
  · subst hd; rfl
  · exact scanNat_decimal ⟨ds, hd, h, rfl, rfl⟩

theorem point_mag {s : Str} {q : ℚ} (h : Point s q) : decMag s = q := by
  obtain ⟨ip, fp, -, hd, hs, rfl⟩ := h
  have hi : ∀ c ∈ digits ip, isDigit c = true := digits_all fun d h => hd d (List.mem_append_left _ h)
  have hf : ∀ c ∈ digits fp, isDigit c = true := digits_all fun d h => hd d (List.mem_append_right _ h)
  have happ : digits ip ++ digits fp = digits (ip ++ fp) := by simp [digits]
  have hlen : (digits fp).length = fp.length := by simp [digits]
  unfold decMag
  rcases hs with rfl | ⟨rfl, rfl⟩
  · have h1 : (digits ip ++ chr '.' :: digits fp).takeWhile isDigit = digits ip := by
      rw [List.takeWhile_append_of_pos hi, List.takeWhile_cons_of_neg (by decide), List.append_nil]
    have h2 : (digits ip ++ chr '.' :: digits fp).dropWhile isDigit = chr '.' :: digits fp := by
      rw [List.dropWhile_append_of_pos hi, List.dropWhile_cons_of_neg (by decide)]
    rw [h1, h2]
    simp only [fracDigits, if_true]
    rw [takeWhile_all hf, happ, scanNat_digits hd, hlen]
  · have h1 : (digits ip).takeWhile isDigit = digits ip := takeWhile_all hi
    have h2 : (digits ip).dropWhile isDigit = [] := by rw [List.dropWhile_eq_nil_iff]; exact hi
    rw [h1, h2]
    simp only [fracDigits, List.append_nil, List.length_nil]
    rw [scanNat_digits (by simpa using hd)]

theorem point_chars {s : Str} {q : ℚ} (h : Point s q) : s ≠ [] ∧ ∀ c ∈ s, isDigit c = true ∨ c = chr '.' := by
  obtain ⟨ip, fp, hne, hd, hs, rfl⟩ := h
  have hi : ∀ c ∈ digits ip, isDigit c = true := digits_all fun d h => hd d (List.mem_append_left _ h)
  have hf : ∀ c ∈ digits fp, isDigit c = true := digits_all fun d h => hd d (List.mem_append_right _ h)
  rcases hs with rfl | ⟨rfl, rfl⟩
  · refine ⟨by simp, fun c hc => ?_⟩
    rcases List.mem_append.1 hc with hc | hc
    · exact Or.inl (hi c hc)
    · rcases List.mem_cons.1 hc with rfl | hc
      · exact Or.inr rfl
      · exact Or.inl (hf c hc)
  · exact ⟨by simpa [digits] using hne, fun c hc => Or.inl (hi c hc)⟩

theorem signedPoint_chars {s : Str} {q : ℚ} (h : SignedPoint s q) : s ≠ [] ∧ ∀ c ∈ s, isDigit c = true ∨ c = chr '.' ∨ c = chr '-' := by
  rcases h with h | ⟨t, r, rfl, h, -⟩
  · exact ⟨(point_chars h).1, fun c hc => ((point_chars h).2 c hc).imp id Or.inl⟩
  · refine ⟨by simp, fun c hc => ?_⟩
    rcases List.mem_cons.1 hc with rfl | hc
    · exact Or.inr (Or.inr rfl)
    · exact ((point_chars h).2 c hc).imp id Or.inl

theorem plain_char {c : Byte} (h : isDigit c = true ∨ c = chr '.') : isSpace c = false ∧ c ≠ chr '-' ∧ c ≠ chr '+' := by
  have key : ∀ n, n < 256 → let c := BitVec.ofNat 8 n; (isDigit c = true ∨ c = chr '.') → isSpace c = false ∧ c ≠ chr '-' ∧ c ≠ chr '+' := by decide +kernel
  have := key c.toNat c.isLt
  simp only [BitVec.ofNat_toNat, BitVec.setWidth_eq] at this
  exact this h

theorem readFloat_point {s : Str} {q : ℚ} (h : SignedPoint s q) : readFloat s = some (fl q) := by
  rcases h with h | ⟨t, r, rfl, h, rfl⟩
  · obtain ⟨h1, h2⟩ := point_chars h
    have hm := point_mag h
    cases s with
    | nil => exact absurd rfl h1
    | cons c t =>
      obtain ⟨p1, p2, p3⟩ := plain_char (h2 c (by simp))
      unfold readFloat
      rw [dropWhile_cons p1]
      simp only
      rw [if_neg p2, if_neg p3, hm]
  · unfold readFloat
    rw [dropWhile_cons (by decide)]
    simp only [if_true]
    rw [point_mag h]

theorem signedPoint_no {s : Str} {q : ℚ} (h : SignedPoint s q) {c : Byte} (h1 : isDigit c = false) (h2 : c ≠ chr '-') (h3 : c ≠ chr '.') : c ∉ s := by
  intro hm
  rcases (signedPoint_chars h).2 c hm with e | e | e
  · rw [h1] at e; cases e
  · exact h3 e
  · exact h2 e

theorem matchDec_point {val : Str} {q : ℚ} (h : SignedPoint val q) : matchDec val = true := by
  have h0 : (0 : Byte) ∉ val := signedPoint_no h (by decide) (by decide) (by decide)
  unfold matchDec
  rw [cText_self h0]
  obtain ⟨h1, h2⟩ := signedPoint_chars h
  simp only [Bool.and_eq_true, List.all_eq_true, Bool.not_eq_true', List.isEmpty_eq_false_iff, Bool.or_eq_true, beq_iff_eq, or_assoc]
  exact ⟨h1, h2⟩

/-! ### Property -/

/-- C114: a decimal number is accepted exactly when the `float` next to it is between the `float`s next to the limits. -/
theorem C114_range (w : Nat) (hw : Width w) (lo hi val : Str) (step : Option Str) (a b x : ℚ) (hlo : SignedPoint lo a) (hhi : SignedPoint hi b) (hval : SignedPoint val x)
    (hdot : chr '.' ∈ range lo hi step) (hl : (lo ++ hi).length < 2 ^ 30) :
    validAnyRange w (range lo hi step) val = .ok (decide (fl a ≤ fl x ∧ fl x ≤ fl b)) := by
  unfold validAnyRange
  have hs : (findFrom (range lo hi step) (chr '.') 0).isSome = true := by
    unfold findFrom
    simpa using hdot
  rw [if_pos hs]
  unfold validFloatRange
  rw [if_pos (matchDec_point hval), minMax_parts hw (fun _ h1 h2 h3 => signedPoint_no hlo h1 h2 h3) (fun _ h1 h2 h3 => signedPoint_no hhi h1 h2 h3) step hl,
    readFloat_point hval, readFloat_point hlo, readFloat_point hhi]
  simp

/-- C114: every decimal number between the limits is accepted. -/
theorem C114_inside (w : Nat) (hw : Width w) (lo hi val : Str) (step : Option Str) (a b x : ℚ) (hlo : SignedPoint lo a) (hhi : SignedPoint hi b) (hval : SignedPoint val x)
    (hdot : chr '.' ∈ range lo hi step) (hl : (lo ++ hi).length < 2 ^ 30) (hin : a ≤ x ∧ x ≤ b) : validAnyRange w (range lo hi step) val = .ok true := by
  rw [C114_range w hw lo hi val step a b x hlo hhi hval hdot hl, decide_eq_true ⟨fl_mono hin.1, fl_mono hin.2⟩]

/-- C114 (partial: a number outside is refused unless it is as near to the limit as the rounding, see `C114_rounding_refuted`). -/
theorem C114_outside_partial (w : Nat) (hw : Width w) (lo hi val : Str) (step : Option Str) (a b x : ℚ) (hlo : SignedPoint lo a) (hhi : SignedPoint hi b) (hval : SignedPoint val x)
    (hdot : chr '.' ∈ range lo hi step) (hl : (lo ++ hi).length < 2 ^ 30)
    (hout : x < a - (|x| + |a|) / 2 ^ 24 ∨ b + (|x| + |b|) / 2 ^ 24 < x) : validAnyRange w (range lo hi step) val = .ok false := by
  rw [C114_range w hw lo hi val step a b x hlo hhi hval hdot hl, decide_eq_false]
  rintro ⟨h1, h2⟩
  have ex := abs_le.1 (fl_rel x)
  have ea := abs_le.1 (fl_rel a)
  have eb := abs_le.1 (fl_rel b)
  rcases hout with h | h
  · linarith [ex.2, ea.1]
  · linarith [ex.1, eb.2]

theorem fl_close {x : ℚ} {k : ℤ} {n : ℤ} (h1 : 2 ^ (k + 23) ≤ |x|) (h2 : |x| < 2 ^ (k + 24)) (hr : |x / 2 ^ k - n| < 1 / 2) : fl x = n * 2 ^ k := by
  have hx : x ≠ 0 := by
    rintro rfl
    have : (0 : ℚ) < 2 ^ (k + 23) := by positivity
    simp at h1; linarith
  unfold fl
  rw [if_neg hx, lastBit_eq x k h1 h2]
  congr 2
  have hb := abs_le.1 (rne_bounds (x / 2 ^ k))
  have hr' := abs_lt.1 hr
  have l1 : (rne (x / 2 ^ k) : ℚ) < n + 1 := by linarith
  have l2 : (n : ℚ) - 1 < rne (x / 2 ^ k) := by linarith
  have l1' : rne (x / 2 ^ k) < n + 1 := by exact_mod_cast l1
  have l2' : n - 1 < rne (x / 2 ^ k) := by exact_mod_cast l2
  omega

/-- C114 (negation): a number above the limit is accepted if both have the same `float`. -/
theorem C114_rounding_refuted : SignedPoint (lit "0.50000001") (50000001 / 100000000) ∧ SignedPoint (lit "0.5") (1 / 2) ∧
    validAnyRange 64 (lit "0.0:0.5") (lit "0.50000001") = .ok true := by
  have h0 : SignedPoint (lit "0.0") 0 := Or.inl ⟨[0], [0], by decide, by decide, Or.inl (by decide), by norm_num [Nat.ofDigits]⟩
  have h5 : SignedPoint (lit "0.5") (1 / 2) := Or.inl ⟨[0], [5], by decide, by decide, Or.inl (by decide), by norm_num [Nat.ofDigits]⟩
  have hx : SignedPoint (lit "0.50000001") (50000001 / 100000000) :=
    Or.inl ⟨[0], [5, 0, 0, 0, 0, 0, 0, 1], by decide, by decide, Or.inl (by decide), by norm_num [Nat.ofDigits]⟩
  refine ⟨hx, h5, ?_⟩
  have e : range (lit "0.0") (lit "0.5") none = lit "0.0:0.5" := by decide
  have := C114_range 64 (Or.inr rfl) _ _ _ none _ _ _ h0 h5 hx (by decide) (by decide)
  rw [e] at this
  rw [this, decide_eq_true]
  have f5 : fl (1 / 2) = 1 / 2 := fl_of_float _ ⟨1, -1, by norm_num, by norm_num⟩
  have fx : fl (50000001 / 100000000) = (8388608 : ℤ) * 2 ^ (-24 : ℤ) := fl_close (by norm_num [abs_of_pos]) (by norm_num [abs_of_pos]) (by norm_num [abs_lt])
  rw [f5, fx, fl_zero]
  norm_num

/-- C114 (negation): text that is no number is accepted: it is read up to the second point or to a minus sign, and as 0 if there are no digits. -/
theorem C114_garbage_refuted : validAnyRange 64 (lit "0.0:2.0") (lit "1.5.7") = .ok true ∧ validAnyRange 64 (lit "0.0:2.0") (lit "1-1") = .ok true ∧
    validAnyRange 64 (lit "0.0:2.0") (lit ".") = .ok true := by
  have hv : ∀ val x, matchDec val = true → readFloat val = some (fl x) → 0 ≤ x → x ≤ 2 → validAnyRange 64 (lit "0.0:2.0") val = .ok true := by
    intro val x h1 h2 h3 h4
    have s0 : SignedPoint (lit "0.0") 0 := Or.inl ⟨[0], [0], by decide, by decide, Or.inl (by decide), by norm_num [Nat.ofDigits]⟩
    have s2 : SignedPoint (lit "2.0") 2 := Or.inl ⟨[2], [0], by decide, by decide, Or.inl (by decide), by norm_num [Nat.ofDigits]⟩
    have e : range (lit "0.0") (lit "2.0") none = lit "0.0:2.0" := by decide
    unfold validAnyRange validFloatRange
    rw [if_pos (by decide), if_pos h1, h2, ← e,
      minMax_parts (Or.inr rfl) (fun _ h1 h2 h3 => signedPoint_no s0 h1 h2 h3) (fun _ h1 h2 h3 => signedPoint_no s2 h1 h2 h3) none (by decide), readFloat_point s0, readFloat_point s2]
    simp [fl_mono h3, fl_mono h4]
  refine ⟨hv _ (3 / 2) (by decide) ?_ (by norm_num) (by norm_num), hv _ 1 (by decide) ?_ (by norm_num) (by norm_num), hv _ 0 (by decide) ?_ (by norm_num) (by norm_num)⟩
  · show some (fl (decMag (lit "1.5.7"))) = _
    have : decMag (lit "1.5.7") = (15 : ℕ) / 10 ^ 1 := rfl
    rw [this]; norm_num
  · show some (fl (decMag (lit "1-1"))) = _
    have : decMag (lit "1-1") = (1 : ℕ) / 10 ^ 0 := rfl
    rw [this]; norm_num
  · show some (fl (decMag (lit "."))) = _
    have : decMag (lit ".") = (0 : ℕ) / 10 ^ 0 := rfl
    rw [this]; norm_num

/-- C114: with a dot in the range a value with other characters than digits, dots and minus signs is refused. -/
theorem C114_reject (w : Nat) (valid val : Str) (hdot : chr '.' ∈ valid) (h0 : (0 : Byte) ∉ val) (h : val = [] ∨ ∃ c ∈ val, isDigit c = false ∧ c ≠ chr '-' ∧ c ≠ chr '.') :
    validAnyRange w valid val = .ok false := by
  unfold validAnyRange
  have hs : (findFrom valid (chr '.') 0).isSome = true := by
    unfold findFrom
    simpa using hdot
  rw [if_pos hs]
  unfold validFloatRange
  have : matchDec val = false := by
    unfold matchDec
    rw [cText_self h0]
    rcases h with rfl | ⟨c, hc, h1, h2, h3⟩
    · rfl
    · rw [Bool.and_eq_false_iff]
      right
      rw [List.all_eq_false]
      exact ⟨c, hc, by simp [h1, h2, h3]⟩
  rw [if_neg (by simp [this])]

/-- C114: a range with a step that has a point, and numbers with and without point. -/
example : SignedPoint (lit "-5") (-5) ∧ SignedPoint (lit "2.50") (5 / 2) ∧ chr '.' ∈ range (lit "-5") (lit "10") (some (lit "0.5")) ∧
    validAnyRange 64 (range (lit "-5") (lit "10") (some (lit "0.5"))) (lit "2.50") = .ok true ∧ validAnyRange 64 (range (lit "-5") (lit "10") (some (lit "0.5"))) (lit "-5.1") = .ok false := by
  have h1 : SignedPoint (lit "-5") (-5) := Or.inr ⟨lit "5", 5, by decide, ⟨[5], [], by decide, by decide, Or.inr ⟨rfl, by decide⟩, by norm_num [Nat.ofDigits]⟩, rfl⟩
  have h2 : SignedPoint (lit "2.50") (5 / 2) := Or.inl ⟨[2], [5, 0], by decide, by decide, Or.inl (by decide), by norm_num [Nat.ofDigits]⟩
  have h3 : SignedPoint (lit "10") 10 := Or.inl ⟨[1, 0], [], by decide, by decide, Or.inr ⟨rfl, by decide⟩, by norm_num [Nat.ofDigits]⟩
  have h4 : SignedPoint (lit "-5.1") (-(51 / 10)) := Or.inr ⟨lit "5.1", 51 / 10, by decide, ⟨[5], [1], by decide, by decide, Or.inl (by decide), by norm_num [Nat.ofDigits]⟩, rfl⟩
  have hd : chr '.' ∈ range (lit "-5") (lit "10") (some (lit "0.5")) := by decide
  refine ⟨h1, h2, hd, C114_inside 64 (Or.inr rfl) _ _ _ _ _ _ _ h1 h3 h2 hd (by decide) (by norm_num), C114_outside_partial 64 (Or.inr rfl) _ _ _ _ _ _ _ h1 h3 h4 hd (by decide) (Or.inl ?_)⟩
  norm_num [abs_of_pos, abs_of_neg]

end Verif.Config
