import Verif.Utils.SmallProps
import Verif.Core.NumberLemmas
import Verif.Core.Outcome
import Mathlib.Data.Nat.Log
import Mathlib.Data.List.TakeWhile
import Mathlib.Tactic.Ring
import Mathlib.Tactic.Linarith

/-
Property C149: the text of a `Statistic` (`Utils.h:144-160`).
-/

namespace Verif.Utils.StatText
open Verif Verif.Utils

/-! ### Model -/

/-- Division rounded to the nearest, halves to the even number, as `printf` rounds numbers it knows exactly (`Utils.h:152`). -/
def roundDiv (n p : Nat) : Nat :=
  if 2 * (n % p) < p then n / p else if p < 2 * (n % p) then n / p + 1 else if (n / p) % 2 = 0 then n / p else n / p + 1

/-- Three decimal digits and the exponent of the first one (`%.3g`, `Utils.h:152`). -/
def sig3 (n : Nat) : Nat × Nat :=
  let e := Nat.log 10 n
  let m := roundDiv n (10 ^ (e - 2))
  if m = 1000 then (100, e + 1) else (m, e)

/-- Three digits as `%g` writes them: a point after the first, no zeros at the end (`Utils.h:152`). -/
def mantissa (m : Nat) : Str :=
  if m % 100 = 0 then [digitChar (m / 100)]
  else if m % 10 = 0 then [digitChar (m / 100), chr '.', digitChar (m / 10 % 10)]
  else [digitChar (m / 100), chr '.', digitChar (m / 10 % 10), digitChar (m % 10)]

/-- `sprintf("%.3g",...)` of an integer from 1000 to 10^99, `printf` of the C standard (`Utils.h:152`). -/
def gText (p : Nat × Nat) : Str := mantissa p.1 ++ [chr 'e', chr '+', digitChar (p.2 / 10), digitChar (p.2 % 10)]

/-- `strcpy(buf+d,buf+s)` byte after byte up to the terminator (`Utils.h:153`). -/
def copyLoop : Nat → Str → Nat → Nat → Outcome Str
  | 0, _, _, _ => .ub
  | k + 1, buf, d, s =>
    match buf[s]? with
    | none => .ub
    | some c => if d < buf.length then (if c = 0 then .ok (buf.set d c) else copyLoop k (buf.set d c) (d + 1) (s + 1)) else .ub

/-- `strcpy` within one buffer, towards the front (`Utils.h:153`).  The C standard leaves it undefined when source and target overlap; `fwd`: this library copies from front to back, whatever the standard says. -/
def strcpyDown (fwd : Bool) (buf : Str) (d s : Nat) : Outcome Str :=
  let n := ((buf.drop s).takeWhile (· ≠ 0)).length
  if fwd = false ∧ s < d + n + 1 then .ub else copyLoop (buf.length + 1) buf d s

/-- `char buf[10]` after a text was written to it (`Utils.h:151`); what is behind the text is never read. -/
def buffer (t : Str) : Str := t ++ List.replicate (10 - t.length) 0

/-- `strchr(buf,'e')` (`Utils.h:153`). -/
def ePos (buf : Str) : Nat := buf.findIdx (· = chr 'e')

/-- What is printed for the number of samples (`Utils.h:148-156`); `buf` has ten characters. -/
def countText (fwd : Bool) (cnt : Nat) : Outcome Str :=
  if cnt ≤ 999999 then .ok (natText 10 cnt)
  else
    let t := gText (sig3 cnt)
    if 10 < t.length + 1 then .ub
    else
      if ePos (buffer t) < 10 ∧ (buffer t)[ePos (buffer t) + 1]? = some (chr '+') then
        (strcpyDown fwd (buffer t) (ePos (buffer t) + 1) (ePos (buffer t) + 2)).bind fun b => .ok (b.takeWhile (· ≠ 0))
      else .ok ((buffer t).takeWhile (· ≠ 0))

/-- `Statistic::text` on a stream in its first state (`Utils.h:144-160`); `real` is how the stream writes a `double`. -/
def text (real : Rat → Str) (fwd : Bool) (s : Statistic) : Outcome Str :=
  if s.mMin = s.mMax then .ok (lit "(" ++ intText s.mCurrent ++ lit ")")
  else (countText fwd s.mCnt).bind fun n =>
    .ok <| lit "(" ++ intText s.mCurrent ++ (lit " min=" ++ intText s.mMin) ++ (lit " max=" ++ intText s.mMax) ++ (lit " avg=" ++ real s.getAvg) ++ (lit " N=" ++ n) ++ lit ")"

/-! ### Specification -/

/-- The whole number that a text in decimal or scientific notation stands for. -/
def number (t : Str) : Nat :=
  let man := t.takeWhile (· ≠ chr 'e')
  let whole := man.takeWhile (· ≠ chr '.')
  let frac := (man.dropWhile (· ≠ chr '.')).drop 1
  let ex := scanNat 10 ((t.dropWhile (· ≠ chr 'e')).drop 1)
  scanNat 10 (whole ++ frac) * 10 ^ (ex - frac.length)

/-- A text that shows a number: itself up to 999999, and to half a percent above. -/
def ShowsCount (t : Str) (n : Nat) : Prop :=
  t.length ≤ 9 ∧ (n ≤ 999999 → number t = n) ∧ 200 * number t ≤ 201 * n ∧ 199 * n ≤ 200 * number t

/-! ### Lemmas -/

theorem roundDiv_near (n p : Nat) (hp : 0 < p) : 2 * n ≤ 2 * (roundDiv n p * p) + p ∧ 2 * (roundDiv n p * p) ≤ 2 * n + p := by
  have h := Nat.div_add_mod n p
  have hm := Nat.mod_lt n hp
  have hc : p * (n / p) = n / p * p := Nat.mul_comm _ _
  unfold roundDiv
  split
  · omega
  · split
    · rw [Nat.add_mul]; omega
    · split
      · omega
      · rw [Nat.add_mul]; omega

theorem roundDiv_ge (n p a : Nat) (hp : 0 < p) (h : a * p ≤ n) : a ≤ roundDiv n p := by
  have : a ≤ n / p := (Nat.le_div_iff_mul_le hp).2 h
  unfold roundDiv
  split
  · exact this
  · split
    · omega
    · split <;> omega

theorem roundDiv_le (n p a : Nat) (hp : 0 < p) (h : n ≤ a * p) : roundDiv n p ≤ a := by
  have hd := Nat.div_add_mod n p
  have hm := Nat.mod_lt n hp
  have hc : p * (n / p) = n / p * p := Nat.mul_comm _ _
  have : n / p ≤ a := by
    by_contra hcon
    have : (a + 1) * p ≤ n / p * p := Nat.mul_le_mul_right _ (by omega)
    rw [Nat.add_mul] at this
    omega
  by_cases he : n / p = a
  · have h0 : n % p = 0 := by rw [he] at hc hd; omega
    unfold roundDiv
    rw [if_pos (by omega)]
    omega
  · unfold roundDiv
    split
    · omega
    · split
      · omega
      · split <;> omega

theorem roundDiv_mono {n n' : Nat} (p : Nat) (hp : 0 < p) (h : n ≤ n') : roundDiv n p ≤ roundDiv n' p := by
  have hd := Nat.div_add_mod n p
  have hd' := Nat.div_add_mod n' p
  have hm := Nat.mod_lt n hp
  have hm' := Nat.mod_lt n' hp
  have hq : n / p ≤ n' / p := Nat.div_le_div_right h
  by_cases he : n / p = n' / p
  · have : n % p ≤ n' % p := by rw [he] at hd; omega
    unfold roundDiv
    rw [he]
    split
    · split
      · omega
      · split
        · omega
        · split <;> omega
    · split
      · rw [if_neg (by omega), if_pos (by omega)]
      · split
        · rw [if_neg (by omega)]
          split <;> omega
        · rw [if_neg (by omega)]
          split
          · omega
          · omega
  · have h1 : roundDiv n p ≤ n / p + 1 := by unfold roundDiv; split <;> [omega; (split <;> [omega; (split <;> omega)])]
    have h2 : n' / p ≤ roundDiv n' p := by unfold roundDiv; split <;> [omega; (split <;> [omega; (split <;> omega)])]
    omega

/-- What `sig3` gives, for numbers above 999999. -/
theorem sig3_bounds (n : Nat) (h6 : 999999 < n) (h32 : n < 2 ^ 32) :
    100 ≤ (sig3 n).1 ∧ (sig3 n).1 < 1000 ∧ 6 ≤ (sig3 n).2 ∧ (sig3 n).2 < 10 ∧ (sig3 n).1 * 10 ^ ((sig3 n).2 - 2) = roundDiv n (10 ^ (Nat.log 10 n - 2)) * 10 ^ (Nat.log 10 n - 2) := by
  have hn : n ≠ 0 := by omega
  have hlo : 10 ^ Nat.log 10 n ≤ n := Nat.pow_log_le_self 10 hn
  have hhi : n < 10 ^ (Nat.log 10 n + 1) := Nat.lt_pow_succ_log_self (by decide) n
  have he6 : 6 ≤ Nat.log 10 n := (Nat.le_log_iff_pow_le (by decide) hn).2 (by omega)
  have he9 : Nat.log 10 n < 10 := by
    by_contra hc
    have : 10 ^ 10 ≤ 10 ^ Nat.log 10 n := Nat.pow_le_pow_right (by decide) (by omega)
    omega
  generalize hE : Nat.log 10 n = e at *
  have hp : 0 < 10 ^ (e - 2) := Nat.pos_of_ne_zero (by positivity)
  have e1 : 10 ^ e = 100 * 10 ^ (e - 2) := by
    conv => lhs; rw [show e = 2 + (e - 2) by omega, Nat.pow_add]
  have e2 : 10 ^ (e + 1) = 1000 * 10 ^ (e - 2) := by
    conv => lhs; rw [show e + 1 = 3 + (e - 2) by omega, Nat.pow_add]
  have h1 := roundDiv_ge n (10 ^ (e - 2)) 100 hp (by omega)
  have h2 := roundDiv_le n (10 ^ (e - 2)) 1000 hp (by omega)
  unfold sig3
  rw [hE]
  simp only
  split
  · rename_i hk
    have h9 : e ≠ 9 := by
      intro h9
      subst h9
      have := (roundDiv_near n (10 ^ (9 - 2)) hp).2
      rw [hk] at this
      omega
    refine ⟨by simp, by simp, by simp; omega, by simp; omega, ?_⟩
    rw [hk]
    have : e + 1 - 2 = (e - 2) + 1 := by omega
    simp only [this, Nat.pow_succ]
    ring
  · refine ⟨h1, by simp; omega, he6, he9, rfl⟩

theorem digit : ∀ d, d < 10 → digitChar d ≠ 0#8 ∧ digitChar d ≠ 101#8 ∧ digitChar d ≠ 46#8 ∧ isDig 10 (digitChar d) = true ∧ digitVal (digitChar d) = some d := by decide

/-- What becomes of the text `w ++ "e+0" ++ x` in the buffer. -/
def Shortens (w : Str) (x : Byte) : Prop :=
  ePos (buffer (w ++ [101, 43, 48, x])) < 10 ∧ (buffer (w ++ [101, 43, 48, x]))[ePos (buffer (w ++ [101, 43, 48, x])) + 1]? = some 43 ∧
    strcpyDown false (buffer (w ++ [101, 43, 48, x])) (ePos (buffer (w ++ [101, 43, 48, x])) + 1) (ePos (buffer (w ++ [101, 43, 48, x])) + 2) = .ub ∧
    (strcpyDown true (buffer (w ++ [101, 43, 48, x])) (ePos (buffer (w ++ [101, 43, 48, x])) + 1) (ePos (buffer (w ++ [101, 43, 48, x])) + 2)).bind (fun b => .ok (b.takeWhile (· ≠ 0))) =
      .ok (w ++ [101, 48, x])

theorem shortens1 (a x : Byte) (ha : a ≠ 0#8) (ha' : a ≠ 101#8) (hx : x ≠ 0#8) : Shortens [a] x := by
  simp +decide [Shortens, strcpyDown, copyLoop, buffer, ePos, chr, List.findIdx_cons, List.replicate, Outcome.bind, ha, ha', hx]

theorem shortens3 (a b x : Byte) (ha : a ≠ 0#8) (ha' : a ≠ 101#8) (hb : b ≠ 0#8) (hb' : b ≠ 101#8) (hx : x ≠ 0#8) : Shortens [a, 46, b] x := by
  simp +decide [Shortens, strcpyDown, copyLoop, buffer, ePos, chr, List.findIdx_cons, List.replicate, Outcome.bind, ha, ha', hb, hb', hx]

theorem shortens4 (a b c x : Byte) (ha : a ≠ 0#8) (ha' : a ≠ 101#8) (hb : b ≠ 0#8) (hb' : b ≠ 101#8) (hc : c ≠ 0#8) (hc' : c ≠ 101#8) (hx : x ≠ 0#8) : Shortens [a, 46, b, c] x := by
  simp +decide [Shortens, strcpyDown, copyLoop, buffer, ePos, chr, List.findIdx_cons, List.replicate, Outcome.bind, ha, ha', hb, hb', hc, hc', hx]

theorem number1 (a x : Nat) (ha : a < 10) (hx : x < 10) : number [digitChar a, 101, 48, digitChar x] = a * 10 ^ x := by
  obtain ⟨-, ae, ad, ai, av⟩ := digit a ha
  obtain ⟨-, -, -, xi, xv⟩ := digit x hx
  have h48 : digitVal 48#8 = some 0 := by decide
  have i48 : isDig 10 48#8 = true := by decide
  have ee : chr 'e' = 101#8 := by decide
  have ed : chr '.' = 46#8 := by decide
  simp [number, scanNat, ee, ed, ae, ad, ai, av, xi, xv, h48, i48]

theorem number3 (a b x : Nat) (ha : a < 10) (hb : b < 10) (hx : x < 10) : number [digitChar a, 46, digitChar b, 101, 48, digitChar x] = (a * 10 + b) * 10 ^ (x - 1) := by
  obtain ⟨-, ae, ad, ai, av⟩ := digit a ha
  obtain ⟨-, be, bd, bi, bv⟩ := digit b hb
  obtain ⟨-, -, -, xi, xv⟩ := digit x hx
  have h48 : digitVal 48#8 = some 0 := by decide
  have i48 : isDig 10 48#8 = true := by decide
  have ee : chr 'e' = 101#8 := by decide
  have ed : chr '.' = 46#8 := by decide
  simp +decide [number, scanNat, ee, ed, ae, ad, ai, av, be, bi, bv, xi, xv, h48, i48]

theorem number4 (a b c x : Nat) (ha : a < 10) (hb : b < 10) (hc : c < 10) (hx : x < 10) :
    number [digitChar a, 46, digitChar b, digitChar c, 101, 48, digitChar x] = ((a * 10 + b) * 10 + c) * 10 ^ (x - 2) := by
  obtain ⟨-, ae, ad, ai, av⟩ := digit a ha
  obtain ⟨-, be, bd, bi, bv⟩ := digit b hb
  obtain ⟨-, ce, cd, ci, cv⟩ := digit c hc
  obtain ⟨-, -, -, xi, xv⟩ := digit x hx
  have h48 : digitVal 48#8 = some 0 := by decide
  have i48 : isDig 10 48#8 = true := by decide
  have ee : chr 'e' = 101#8 := by decide
  have ed : chr '.' = 46#8 := by decide
  simp +decide [number, scanNat, ee, ed, ae, ad, ai, av, be, bi, bv, ce, ci, cv, xi, xv, h48, i48]

/-- The text for three digits and an exponent. -/
theorem texts (e : Nat) (he : e < 10) (he6 : 6 ≤ e) (m : Nat) (hm : m < 1000) (hm1 : 100 ≤ m) :
    gText (m, e) = mantissa m ++ [101, 43, 48, digitChar e] ∧ (mantissa m).length ≤ 4 ∧ Shortens (mantissa m) (digitChar e) ∧ number (mantissa m ++ [101, 48, digitChar e]) = m * 10 ^ (e - 2) := by
  obtain ⟨a0, ae, ad, ai, av⟩ := digit (m / 100) (by omega)
  obtain ⟨b0, be, bd, bi, bv⟩ := digit (m / 10 % 10) (by omega)
  obtain ⟨c0, ce, cd, ci, cv⟩ := digit (m % 10) (by omega)
  obtain ⟨x0, xe, xd, xi, xv⟩ := digit e he
  have hz : e / 10 = 0 := by omega
  have hx : e % 10 = e := by omega
  have hz' : digitChar 0 = 48 := by decide
  have ee : chr 'e' = 101 := by decide
  have ed : chr '.' = 46 := by decide
  have ep : chr '+' = 43 := by decide
  refine ⟨by simp only [gText, hz, hx, hz', ee, ep], ?_⟩
  unfold mantissa
  rw [ed]
  split
  · refine ⟨by simp, shortens1 _ _ a0 ae x0, ?_⟩
    have := number1 (m / 100) e (by omega) he
    simp only [List.cons_append, List.nil_append]
    rw [this]
    have hp : 10 ^ e = 100 * 10 ^ (e - 2) := by conv => lhs; rw [show e = 2 + (e - 2) by omega, Nat.pow_add]
    rw [hp, ← Nat.mul_assoc]
    congr 1
    omega
  · split
    · refine ⟨by simp, shortens3 _ _ _ a0 ae b0 be x0, ?_⟩
      have := number3 (m / 100) (m / 10 % 10) e (by omega) (by omega) he
      simp only [List.cons_append, List.nil_append]
      rw [this]
      have hp : 10 ^ (e - 1) = 10 * 10 ^ (e - 2) := by conv => lhs; rw [show e - 1 = 1 + (e - 2) by omega, Nat.pow_add]
      rw [hp, ← Nat.mul_assoc]
      congr 1
      omega
    · refine ⟨by simp, shortens4 _ _ _ _ a0 ae b0 be c0 ce x0, ?_⟩
      have := number4 (m / 100) (m / 10 % 10) (m % 10) e (by omega) (by omega) (by omega) he
      simp only [List.cons_append, List.nil_append]
      rw [this]
      congr 1
      omega

/-- Above 999999. -/
theorem countText_large (n : Nat) (h6 : 999999 < n) (h32 : n < 2 ^ 32) :
    countText false n = .ub ∧ ∃ t, countText true n = .ok t ∧ t.length ≤ 9 ∧ number t = roundDiv n (10 ^ (Nat.log 10 n - 2)) * 10 ^ (Nat.log 10 n - 2) := by
  obtain ⟨h1, h2, h3, h4, h5⟩ := sig3_bounds n h6 h32
  obtain ⟨hg, hl, ⟨hs1, hs2, hs3, hs4⟩, hn⟩ := texts (sig3 n).2 h4 h3 (sig3 n).1 h2 h1
  have ep : chr '+' = 43 := by decide
  have hlen : ¬ 10 < (mantissa (sig3 n).1 ++ [101, 43, 48, digitChar (sig3 n).2]).length + 1 := by simp; omega
  constructor
  · simp only [countText]
    rw [if_neg (by omega), show gText (sig3 n) = _ from hg, if_neg hlen, ep, if_pos ⟨hs1, hs2⟩, hs3]
    rfl
  · refine ⟨_, ?_, ?_, hn.trans h5⟩
    · simp only [countText]
      rw [if_neg (by omega), show gText (sig3 n) = _ from hg, if_neg hlen, ep, if_pos ⟨hs1, hs2⟩, hs4]
    · simp; omega

theorem number_natText (n : Nat) : number (natText 10 n) = n := by
  have hd := natText_isDig (b := 10) (by decide) (by decide) n
  have he : ∀ c ∈ natText 10 n, c ≠ chr 'e' := fun c hc h => by have := hd c hc; rw [h] at this; revert this; decide
  have hp : ∀ c ∈ natText 10 n, c ≠ chr '.' := fun c hc h => by have := hd c hc; rw [h] at this; revert this; decide
  have h1 : (natText 10 n).takeWhile (· ≠ chr 'e') = natText 10 n := Verif.takeWhile_all (by simpa using he)
  have h2 : (natText 10 n).takeWhile (· ≠ chr '.') = natText 10 n := Verif.takeWhile_all (by simpa using hp)
  have h3 : (natText 10 n).dropWhile (· ≠ chr 'e') = [] := by rw [List.dropWhile_eq_nil_iff]; simpa using he
  have h4 : (natText 10 n).dropWhile (· ≠ chr '.') = [] := by rw [List.dropWhile_eq_nil_iff]; simpa using hp
  have h5 := scanNat_natText (b := 10) (by decide) (by decide) n
  unfold number
  simp only [h1, h2, h3, h4]
  simpa [scanNat] using h5

/-! ### C149 -/

/-- The count: itself up to 999999, above that to half a percent, and never more than nine characters, which with the terminator fit the buffer. -/
theorem C149_count_partial (n : Nat) (h : n < 2 ^ 32) (fwd : Bool) (hf : fwd = true ∨ n ≤ 999999) : ∃ t, countText fwd n = .ok t ∧ ShowsCount t n := by
  by_cases h6 : n ≤ 999999
  · refine ⟨natText 10 n, by simp [countText, h6], ?_, fun _ => number_natText n, ?_, ?_⟩
    · have := (natText_length n 6 (by decide)).2 (by omega)
      omega
    · rw [number_natText]; omega
    · rw [number_natText]; omega
  · have hft : fwd = true := hf.resolve_right h6
    subst hft
    obtain ⟨-, t, ht, hl, hn⟩ := countText_large n (by omega) h
    have hp : 0 < 10 ^ (Nat.log 10 n - 2) := Nat.pos_of_ne_zero (by positivity)
    obtain ⟨n1, n2⟩ := roundDiv_near n (10 ^ (Nat.log 10 n - 2)) hp
    have hlo : 10 ^ Nat.log 10 n ≤ n := Nat.pow_log_le_self 10 (by omega)
    have he6 : 6 ≤ Nat.log 10 n := (Nat.le_log_iff_pow_le (by decide) (by omega)).2 (by omega)
    have e1 : 10 ^ Nat.log 10 n = 100 * 10 ^ (Nat.log 10 n - 2) := by
      conv => lhs; rw [show Nat.log 10 n = 2 + (Nat.log 10 n - 2) by omega, Nat.pow_add]
    refine ⟨t, ht, hl, fun h => absurd h h6, ?_, ?_⟩ <;> rw [hn] <;> omega

/-- A greater count never reads as a smaller one. -/
theorem C149_order_partial (n n' : Nat) (hn : n ≤ n') (h : n' < 2 ^ 32) (t t' : Str) (ht : countText true n = .ok t) (ht' : countText true n' = .ok t') : number t ≤ number t' := by
  by_cases h6 : n' ≤ 999999
  · simp only [countText, if_pos h6, if_pos (show n ≤ 999999 by omega)] at ht ht'
    cases ht; cases ht'
    simpa [number_natText] using hn
  · obtain ⟨-, t2, ht2, -, hq⟩ := countText_large n' (by omega) h
    cases ht2.symm.trans ht'
    have hp' : 0 < 10 ^ (Nat.log 10 n' - 2) := Nat.pos_of_ne_zero (by positivity)
    have hlo' : 10 ^ Nat.log 10 n' ≤ n' := Nat.pow_log_le_self 10 (by omega)
    have he6' : 6 ≤ Nat.log 10 n' := (Nat.le_log_iff_pow_le (by decide) (by omega)).2 (by omega)
    have e1' : 10 ^ Nat.log 10 n' = 100 * 10 ^ (Nat.log 10 n' - 2) := by
      conv => lhs; rw [show Nat.log 10 n' = 2 + (Nat.log 10 n' - 2) by omega, Nat.pow_add]
    have hge : 10 ^ Nat.log 10 n' ≤ number t' := by
      rw [hq, e1']
      exact Nat.mul_le_mul_right _ (roundDiv_ge _ _ _ hp' (by omega))
    by_cases h6' : n ≤ 999999
    · simp only [countText, if_pos h6'] at ht
      cases ht
      rw [number_natText]
      have : 10 ^ 6 ≤ 10 ^ Nat.log 10 n' := Nat.pow_le_pow_right (by decide) he6'
      omega
    · obtain ⟨-, t3, ht3, -, hr⟩ := countText_large n (by omega) (by omega)
      cases ht3.symm.trans ht
      have hlog : Nat.log 10 n ≤ Nat.log 10 n' := Nat.log_mono_right hn
      by_cases hE : Nat.log 10 n = Nat.log 10 n'
      · rw [hr, hq, hE]
        exact Nat.mul_le_mul_right _ (roundDiv_mono _ hp' hn)
      · refine Nat.le_trans ?_ hge
        have hp : 0 < 10 ^ (Nat.log 10 n - 2) := Nat.pos_of_ne_zero (by positivity)
        have hhi : n < 10 ^ (Nat.log 10 n + 1) := Nat.lt_pow_succ_log_self (by decide) n
        have he6 : 6 ≤ Nat.log 10 n := (Nat.le_log_iff_pow_le (by decide) (by omega)).2 (by omega)
        have e2 : 10 ^ (Nat.log 10 n + 1) = 1000 * 10 ^ (Nat.log 10 n - 2) := by
          conv => lhs; rw [show Nat.log 10 n + 1 = 3 + (Nat.log 10 n - 2) by omega, Nat.pow_add]
        have h3 : number t ≤ 10 ^ (Nat.log 10 n + 1) := by
          rw [hr, e2]
          exact Nat.mul_le_mul_right _ (roundDiv_le _ _ _ hp (by omega))
        exact h3.trans (Nat.pow_le_pow_right (by decide) (by omega))

/-- C149, partial: the text of a statistic after 1 to 2^32-1 samples, on a stream in its first state.  If all samples are equal it shows this one value; otherwise the last, least and greatest sample, the average and the number of samples.
Missing: more than 999999 samples, two of them different, where the library does not copy overlapping texts from front to back (`C149_overlap_refuted`). -/
theorem C149_text_partial (real : Rat → Str) (fwd : Bool) (l : List Int) (x : Int) (h : (l ++ [x]).length < 2 ^ 32) (hf : fwd = true ∨ (l ++ [x]).length ≤ 999999) :
    ((∀ y ∈ l, y = x) → text real fwd (samples (l ++ [x])) = .ok (lit "(" ++ intText x ++ lit ")")) ∧
    ((∃ y ∈ l, y ≠ x) → ∃ lo hi n, IsLeast lo (l ++ [x]) ∧ IsGreatest hi (l ++ [x]) ∧ ShowsCount n (l ++ [x]).length ∧
      text real fwd (samples (l ++ [x])) = .ok (lit "(" ++ intText x ++ lit " min=" ++ intText lo ++ lit " max=" ++ intText hi ++
        lit " avg=" ++ real (((l ++ [x]).sum : Rat) / ((l ++ [x]).length : Rat)) ++ lit " N=" ++ n ++ lit ")")) := by
  obtain ⟨h1, h2, -, h4, h5⟩ := C47_statistic_partial l x h
  have hcur : (samples (l ++ [x])).mCurrent = x := by rw [samples_snoc]; rfl
  constructor
  · intro hall
    have e : ∀ y ∈ l ++ [x], y = x := by
      intro y hy
      rcases List.mem_append.1 hy with hy | hy
      · exact hall y hy
      · simpa using hy
    unfold text
    rw [if_pos (by rw [e _ h1.1, e _ h2.1]), hcur]
  · rintro ⟨y, hy, hne⟩
    obtain ⟨n, hn, hs⟩ := C149_count_partial _ h fwd hf
    refine ⟨_, _, n, h1, h2, hs, ?_⟩
    have hmm : (samples (l ++ [x])).mMin ≠ (samples (l ++ [x])).mMax := by
      intro he
      have a1 := h1.2 y (List.mem_append_left _ hy)
      have a2 := h2.2 y (List.mem_append_left _ hy)
      have b1 := h1.2 x (by simp)
      have b2 := h2.2 x (by simp)
      omega
    unfold text
    rw [if_neg hmm, hcur, h4, hn, h5]
    simp [Outcome.bind]

/-- C149 refuted: by the C standard every statistic with more than 999999 samples, two of them different, prints with undefined behaviour, because `strcpy` moves a text by one character. -/
theorem C149_overlap_refuted (real : Rat → Str) (l : List Int) (x : Int) (h : (l ++ [x]).length < 2 ^ 32) (h6 : 999999 < (l ++ [x]).length) (hd : ∃ y ∈ l, y ≠ x) :
    text real false (samples (l ++ [x])) = .ub := by
  obtain ⟨y, hy, hne⟩ := hd
  obtain ⟨h1, h2, -, h4, h5⟩ := C47_statistic_partial l x h
  have hmm : (samples (l ++ [x])).mMin ≠ (samples (l ++ [x])).mMax := by
    intro he
    have a1 := h1.2 y (List.mem_append_left _ hy)
    have a2 := h2.2 y (List.mem_append_left _ hy)
    have b1 := h1.2 x (by simp)
    have b2 := h2.2 x (by simp)
    omega
  unfold text
  rw [if_neg hmm, h4, (countText_large _ h6 h).1]
  rfl

/-- 1234567 samples read as 1230000; the largest count; a number that rounds up to the next power of ten. -/
example : countText true 1234567 = .ok (lit "1.23e06") ∧ number (lit "1.23e06") = 1230000 ∧ countText true 4294967295 = .ok (lit "4.29e09") ∧ countText true 9999999 = .ok (lit "1e07") ∧
    countText true 1205000 = .ok (lit "1.2e06") ∧ countText true 999999 = .ok (lit "999999") := by
  have l1 : Nat.log 10 1234567 = 6 := by decide +kernel
  have l2 : Nat.log 10 4294967295 = 9 := by decide +kernel
  have l3 : Nat.log 10 9999999 = 6 := by decide +kernel
  have l4 : Nat.log 10 1205000 = 6 := by decide +kernel
  refine ⟨?_, by decide, ?_, ?_, ?_, ?_⟩
  · simp only [countText, sig3, l1]; decide
  · simp only [countText, sig3, l2]; decide
  · simp only [countText, sig3, l3]; decide
  · simp only [countText, sig3, l4]; decide
  · decide +kernel

example : text (fun _ => lit "2.33333") true (samples [3, -1, 5]) = .ok (lit "(5 min=-1 max=5 avg=2.33333 N=3)") ∧ text (fun _ => lit "") false (samples [7, 7]) = .ok (lit "(7)") := by decide +kernel

end Verif.Utils.StatText
