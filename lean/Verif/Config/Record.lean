import Verif.Config.FloatRange
import Verif.Config.NumberProps

/-
Property C115: the numbers of a configuration record and its warnings (`Configuration.cpp:59-93`).
-/

namespace Verif.Config
open Verif

/-! ### Model -/

/-- The sign at the beginning (after the C standard): is there a minus, and what follows. -/
def splitSign : Str → Bool × Str
  | c :: t => if c = chr '-' then (true, t) else if c = chr '+' then (false, t) else (false, c :: t)
  | [] => (false, [])

/-- What follows the number read by `mag0`. -/
def rest0 : Str → Str
  | 48 :: x :: d :: t => if (x = chr 'x' ∨ x = chr 'X') ∧ isDig 16 d then (d :: t).dropWhile (isDig 16) else (48 :: x :: d :: t).dropWhile (isDig 8)
  | 48 :: t => (48 :: t).dropWhile (isDig 8)
  | s => s.dropWhile (isDig 10)

/-- The text at the end pointer of `strtol(s,&endptr,0)` (after the C standard): all of `s` if there is no number. -/
def strtolEnd (s : Str) : Str :=
  let m := (splitSign (s.dropWhile isSpace)).2
  if rest0 m = m then s else rest0 m

/-- What follows the digits after a point. -/
def fracRest : Str → Str
  | c :: t => if c = chr '.' then t.dropWhile isDigit else c :: t
  | [] => []

/-- The exponent at the beginning and what follows. -/
def exponent : Str → Int × Str
  | c :: t =>
    if (c = chr 'e' ∨ c = chr 'E') ∧ (splitSign t).2.takeWhile isDigit ≠ [] then
      (if (splitSign t).1 then -(scanNat 10 ((splitSign t).2.takeWhile isDigit) : Int) else scanNat 10 ((splitSign t).2.takeWhile isDigit), (splitSign t).2.dropWhile isDigit)
    else (0, c :: t)
  | [] => (0, [])

/-- Texts beginning with `0x`, `inf` or `nan` in either case. -/
def special (m : Str) : Bool := [lit "0x", lit "inf", lit "nan"].any fun p => (m.map lowerByte).take p.length == p
where
  /-- `tolower` -/
  lowerByte (c : Byte) : Byte := if 65 ≤ c.toNat ∧ c.toNat ≤ 90 then BitVec.ofNat 8 (c.toNat + 32) else c

/-- `strtof(s,&endptr)` (after the C standard): the value, `none` for infinity and NaN, and the text at the end pointer.
Simplification: hexadecimal numbers, infinity and NaN are left to `other`; no overflow and no subnormal numbers. -/
def strtof (other : Str → Option ℚ × Str) (s : Str) : Option ℚ × Str :=
  let p := splitSign (s.dropWhile isSpace)
  if special p.2 then other s
  else if p.2.takeWhile isDigit ++ fracDigits (p.2.dropWhile isDigit) = [] then (some 0, s)
  else
    let e := exponent (fracRest (p.2.dropWhile isDigit))
    (some (fl ((if p.1 then -1 else 1) * (decMag p.2 * 10 ^ e.1))), e.2)

/-- A `ConfigurationRecord` (`Configuration.h:76-106`) with its value and whether it has warned. -/
structure Record where
  value : Str
  warned : Bool

/-- The common text of `number` and `floatNumber` (`Configuration.cpp:59-74` and `77-93`): the record afterwards, the result, and whether a warning is logged. -/
def convert {α : Type} (conv : Str → α × Str) (zero : α) (r : Record) : Record × α × Bool :=
  if r.value = [] ∧ ¬ r.warned then ({ r with warned := true }, zero, true)
  else if (conv (cText r.value)).2 ≠ [] ∧ ¬ r.warned then ({ r with warned := true }, (conv (cText r.value)).1, true)
  else (r, (conv (cText r.value)).1, false)

/-- `ConfigurationRecord::number` (`Configuration.cpp:59-74`). -/
def number (r : Record) : Record × Int × Bool := convert (fun s => (strtol0 s, strtolEnd s)) 0 r

/-- `ConfigurationRecord::floatNumber` (`Configuration.cpp:77-93`). -/
def floatNumber (other : Str → Option ℚ × Str) (r : Record) : Record × Option ℚ × Bool := convert (strtof other) (some 0) r

/-- A reading as integer (`false`) or as floating-point number (`true`): the record afterwards and whether a warning is logged. -/
def readOnce (other : Str → Option ℚ × Str) (r : Record) (float : Bool) : Record × Bool :=
  if float then ((floatNumber other r).1, (floatNumber other r).2.2) else ((number r).1, (number r).2.2)

/-- The number of warnings logged by a sequence of readings. -/
def warnings (other : Str → Option ℚ × Str) : Record → List Bool → Nat
  | _, [] => 0
  | r, k :: ks => (if (readOnce other r k).2 then 1 else 0) + warnings other (readOnce other r k).1 ks

/-! ### Specification -/

/-- White space, at most one sign, then a text with property `P`. -/
def Written (P : Str → Prop) (s : Str) : Prop :=
  ∃ sp sg num, (∀ c ∈ sp, c = 32 ∨ (9 ≤ c.toNat ∧ c.toNat ≤ 13)) ∧ (sg = [] ∨ sg = [chr '-'] ∨ sg = [chr '+']) ∧ P num ∧ s = sp ++ (sg ++ num)

/-- `c` is a decimal digit. -/
def Dec (c : Byte) : Prop := 48 ≤ c.toNat ∧ c.toNat ≤ 57

/-- A whole number in C notation: decimal without leading 0, octal with leading 0, or hexadecimal with leading 0x. -/
def Numeral (s : Str) : Prop :=
  (∃ c t, s = c :: t ∧ Dec c ∧ c ≠ chr '0' ∧ ∀ d ∈ t, Dec d) ∨
  (∃ t, s = chr '0' :: t ∧ ∀ d ∈ t, 48 ≤ d.toNat ∧ d.toNat ≤ 55) ∨
  (∃ x t, s = chr '0' :: x :: t ∧ (x = chr 'x' ∨ x = chr 'X') ∧ t ≠ [] ∧ ∀ d ∈ t, Dec d ∨ (97 ≤ d.toNat ∧ d.toNat ≤ 102) ∨ (65 ≤ d.toNat ∧ d.toNat ≤ 70))

/-- A decimal number with or without exponent. -/
def Scientific (s : Str) (q : ℚ) : Prop :=
  Point s q ∨ ∃ m p e sg ds, Point m p ∧ (e = chr 'e' ∨ e = chr 'E') ∧ ds ≠ [] ∧ (∀ d ∈ ds, d < 10) ∧
    ((sg = [] ∨ sg = [chr '+']) ∧ q = p * 10 ^ (Nat.ofDigits 10 ds.reverse : ℕ) ∨ sg = [chr '-'] ∧ q = p / 10 ^ (Nat.ofDigits 10 ds.reverse : ℕ)) ∧ s = m ++ e :: (sg ++ Spec.digits ds)

/-! ### Proof -/

theorem ofNat_self (c : Byte) : BitVec.ofNat 8 c.toNat = c := by simp

theorem convert_same {α : Type} (conv : Str → α × Str) (zero : α) (h0 : conv [] = (zero, [])) (r : Record) : (convert conv zero r).2.1 = (conv (cText r.value)).1 := by
  unfold convert
  split
  · rename_i h
    rw [h.1]
    show zero = (conv []).1
    rw [h0]
  · split <;> rfl

theorem convert_warns {α : Type} (conv : Str → α × Str) (zero : α) (r : Record) :
    (convert conv zero r).2.2 = (decide (r.value = [] ∨ (conv (cText r.value)).2 ≠ []) && !r.warned) ∧ (convert conv zero r).1 = { r with warned := r.warned || (convert conv zero r).2.2 } := by
  unfold convert
  obtain ⟨v, w⟩ := r
  cases w <;> by_cases h : v = [] <;> by_cases h' : (conv (cText v)).2 = [] <;> simp [h, h']

theorem isSpace_iff (c : Byte) : isSpace c = true ↔ (c = 32 ∨ (9 ≤ c.toNat ∧ c.toNat ≤ 13)) := by
  have key : ∀ n, n < 256 → (isSpace (BitVec.ofNat 8 n) = true ↔ (BitVec.ofNat 8 n = 32 ∨ (9 ≤ (BitVec.ofNat 8 n).toNat ∧ (BitVec.ofNat 8 n).toNat ≤ 13))) := by decide +kernel
  simpa using key c.toNat c.isLt

theorem isDig10_iff (c : Byte) : isDig 10 c = true ↔ Dec c := by
  unfold Dec
  have key : ∀ n, n < 256 → (isDig 10 (BitVec.ofNat 8 n) = true ↔ (48 ≤ (BitVec.ofNat 8 n).toNat ∧ (BitVec.ofNat 8 n).toNat ≤ 57)) := by decide +kernel
  simpa using key c.toNat c.isLt

theorem isDigit_iff (c : Byte) : isDigit c = true ↔ Dec c := by
  unfold Dec
  have key : ∀ n, n < 256 → (isDigit (BitVec.ofNat 8 n) = true ↔ (48 ≤ (BitVec.ofNat 8 n).toNat ∧ (BitVec.ofNat 8 n).toNat ≤ 57)) := by decide +kernel
  simpa using key c.toNat c.isLt

theorem isDig8_iff (c : Byte) : isDig 8 c = true ↔ (48 ≤ c.toNat ∧ c.toNat ≤ 55) := by
  have key : ∀ n, n < 256 → (isDig 8 (BitVec.ofNat 8 n) = true ↔ (48 ≤ (BitVec.ofNat 8 n).toNat ∧ (BitVec.ofNat 8 n).toNat ≤ 55)) := by decide +kernel
  simpa using key c.toNat c.isLt

theorem isDig16_iff (c : Byte) : isDig 16 c = true ↔ (Dec c ∨ (97 ≤ c.toNat ∧ c.toNat ≤ 102) ∨ (65 ≤ c.toNat ∧ c.toNat ≤ 70)) := by
  unfold Dec
  have key : ∀ n, n < 256 → (isDig 16 (BitVec.ofNat 8 n) = true ↔ ((48 ≤ (BitVec.ofNat 8 n).toNat ∧ (BitVec.ofNat 8 n).toNat ≤ 57) ∨ (97 ≤ (BitVec.ofNat 8 n).toNat ∧ (BitVec.ofNat 8 n).toNat ≤ 102) ∨ (65 ≤ (BitVec.ofNat 8 n).toNat ∧ (BitVec.ofNat 8 n).toNat ≤ 70))) := by decide +kernel
  simpa using key c.toNat c.isLt

theorem dropWhile_nil {p : Byte → Bool} {s : Str} : s.dropWhile p = [] ↔ ∀ c ∈ s, p c = true := List.dropWhile_eq_nil_iff

theorem rest0_nonzero {c : Byte} {t : Str} (h : c ≠ 48) : rest0 (c :: t) = (c :: t).dropWhile (isDig 10) := by
  unfold rest0
  split
  · rename_i e; exact absurd (List.cons.inj e).1 h
  · rename_i e; exact absurd (List.cons.inj e).1 h
  · rfl

theorem rest0_three (x d : Byte) (t : Str) :
    rest0 (48 :: x :: d :: t) = if (x = chr 'x' ∨ x = chr 'X') ∧ isDig 16 d then (d :: t).dropWhile (isDig 16) else (48 :: x :: d :: t).dropWhile (isDig 8) := rfl

/-- The number is all of the text. -/
theorem rest0_nil {m : Str} (hm : m ≠ []) : rest0 m = [] ↔ Numeral m := by
  have e0 : chr '0' = 48 := rfl
  cases m with
  | nil => exact absurd rfl hm
  | cons c t =>
    by_cases h48 : c = 48
    · subst h48
      have octal : ∀ t : Str, (48 :: t : Str).dropWhile (isDig 8) = [] ↔ ∀ d ∈ t, 48 ≤ d.toNat ∧ d.toNat ≤ 55 := by
        intro t
        rw [dropWhile_nil]
        constructor
        · intro h d hd; exact (isDig8_iff d).1 (h d (List.mem_cons_of_mem _ hd))
        · intro h d hd
          rcases List.mem_cons.1 hd with rfl | hd
          · decide
          · exact (isDig8_iff d).2 (h d hd)
      have others : ∀ t : Str, (∀ x u, t = x :: u → (x = chr 'x' ∨ x = chr 'X') → u ≠ [] → ¬ ∀ d ∈ u, isDig 16 d = true) → (Numeral (48 :: t) ↔ ∀ d ∈ t, 48 ≤ d.toNat ∧ d.toNat ≤ 55) := by
        intro t hn
        constructor
        · rintro (⟨c, u, e, -, h, -⟩ | ⟨u, e, h⟩ | ⟨x, u, e, hx, hu, h⟩)
          · exact absurd (List.cons.inj e).1.symm h
          · rw [(List.cons.inj e).2]; exact h
          · exact absurd (fun d hd => (isDig16_iff d).2 (h d hd)) (hn x u (List.cons.inj e).2 hx hu)
        · intro h; exact Or.inr (Or.inl ⟨t, rfl, h⟩)
      match t with
      | [] => rw [others [] (by simp)]; exact octal []
      | [x] =>
        rw [others [x] (by
          intro y u e _ hu
          exact absurd (List.cons.inj e).2.symm hu)]
        exact octal [x]
      | x :: d :: t =>
        rw [rest0_three]
        split
        · rename_i h
          rw [dropWhile_nil]
          constructor
          · intro h'; exact Or.inr (Or.inr ⟨x, d :: t, rfl, h.1, by simp, fun c hc => (isDig16_iff c).1 (h' c hc)⟩)
          · rintro (⟨c, u, e, -, hz, -⟩ | ⟨u, e, hz⟩ | ⟨y, u, e, hx, hu, hz⟩)
            · exact absurd (List.cons.inj e).1.symm hz
            · have := hz x (by rw [← (List.cons.inj e).2]; simp)
              rcases h.1 with rfl | rfl <;> exact absurd this (by decide)
            · have := (List.cons.inj (List.cons.inj e).2).2
              intro c hc; exact (isDig16_iff c).2 (hz c (by rw [← this]; exact hc))
        · rename_i h
          rw [octal, others _ (by
            intro y u e hy _ hall
            obtain ⟨rfl, rfl⟩ := List.cons.inj e
            exact h ⟨hy, hall d (by simp)⟩)]
    · rw [rest0_nonzero h48, dropWhile_nil]
      constructor
      · intro h
        exact Or.inl ⟨c, t, rfl, (isDig10_iff c).1 (h c (by simp)), h48, fun d hd => (isDig10_iff d).1 (h d (List.mem_cons_of_mem _ hd))⟩
      · rintro (⟨c', u, e, h1, -, h⟩ | ⟨u, e, -⟩ | ⟨x, u, e, -⟩)
        · obtain ⟨rfl, rfl⟩ := List.cons.inj e
          intro d hd
          rcases List.mem_cons.1 hd with rfl | hd
          · exact (isDig10_iff _).2 h1
          · exact (isDig10_iff d).2 (h d hd)
        · exact absurd (List.cons.inj e).1 h48
        · exact absurd (List.cons.inj e).1 h48

theorem splitSign_spec (u : Str) : ∃ sg, (sg = [] ∨ sg = [chr '-'] ∨ sg = [chr '+']) ∧ u = sg ++ (splitSign u).2 := by
  cases u with
  | nil => exact ⟨[], Or.inl rfl, rfl⟩
  | cons c t =>
    simp only [splitSign]
    by_cases h : c = chr '-'
    · exact ⟨[chr '-'], Or.inr (Or.inl rfl), by simp [h]⟩
    · by_cases h' : c = chr '+'
      · exact ⟨[chr '+'], Or.inr (Or.inr rfl), by rw [if_neg h, if_pos h', h']; rfl⟩
      · exact ⟨[], Or.inl rfl, by rw [if_neg h, if_neg h']; rfl⟩

/-- A text whose first character is neither white space nor a sign. -/
def Solid (num : Str) : Prop := ∃ c t, num = c :: t ∧ isSpace c = false ∧ c ≠ chr '-' ∧ c ≠ chr '+'

theorem split_written {sp sg num : Str} (hsp : ∀ c ∈ sp, c = 32 ∨ (9 ≤ c.toNat ∧ c.toNat ≤ 13)) (hsg : sg = [] ∨ sg = [chr '-'] ∨ sg = [chr '+']) (hn : Solid num) :
    splitSign ((sp ++ (sg ++ num)).dropWhile isSpace) = (decide (sg = [chr '-']), num) := by
  obtain ⟨c, t, rfl, h1, h2, h3⟩ := hn
  rw [List.dropWhile_append_of_pos fun c hc => (isSpace_iff c).2 (hsp c hc)]
  rcases hsg with rfl | rfl | rfl
  · rw [List.nil_append, dropWhile_cons h1]
    simp [splitSign, h2, h3]
  · rw [List.cons_append, dropWhile_cons (by decide)]
    simp [splitSign]
  · rw [List.cons_append, dropWhile_cons (by decide)]
    simp [splitSign, show chr '+' ≠ chr '-' by decide]

theorem dec_solid {c : Byte} {t : Str} (h : Dec c ∨ c = chr '.') : Solid (c :: t) := by
  have := plain_char (c := c) (h.imp (isDigit_iff c).2 id)
  exact ⟨c, t, rfl, this.1, this.2.1, this.2.2⟩

theorem numeral_solid {num : Str} (h : Numeral num) : Solid num := by
  rcases h with ⟨c, t, rfl, h, -⟩ | ⟨t, rfl, -⟩ | ⟨x, t, rfl, -⟩
  · exact dec_solid (Or.inl h)
  · exact dec_solid (Or.inl (by unfold Dec; decide))
  · exact dec_solid (Or.inl (by unfold Dec; decide))

theorem space_split (s : Str) : ∃ sp, (∀ c ∈ sp, c = 32 ∨ (9 ≤ c.toNat ∧ c.toNat ≤ 13)) ∧ s = sp ++ s.dropWhile isSpace :=
  ⟨s.takeWhile isSpace, fun c hc => (isSpace_iff c).1 (mem_takeWhile_imp hc), (List.takeWhile_append_dropWhile).symm⟩

theorem strtolEnd_nil {s : Str} (hs : s ≠ []) : strtolEnd s = [] ↔ Written Numeral s := by
  constructor
  · intro h
    unfold strtolEnd at h
    simp only at h
    split at h
    · exact absurd h hs
    · rename_i hne
      obtain ⟨sp, h1, h2⟩ := space_split s
      obtain ⟨sg, h3, h4⟩ := splitSign_spec (s.dropWhile isSpace)
      refine ⟨sp, sg, (splitSign (s.dropWhile isSpace)).2, h1, h3, (rest0_nil ?_).1 h, by rw [← h4]; exact h2⟩
      intro e
      rw [h, e] at hne
      exact hne rfl
  · rintro ⟨sp, sg, num, h1, h2, h3, rfl⟩
    have hn : num ≠ [] := by
      obtain ⟨c, t, rfl, -⟩ := numeral_solid h3
      simp
    unfold strtolEnd
    simp only
    rw [split_written h1 h2 (numeral_solid h3)]
    have := (rest0_nil hn).2 h3
    simp only
    rw [this, if_neg (fun e => hn e.symm)]

theorem digits_of {s : Str} (h : ∀ c ∈ s, isDigit c = true) : ∃ ds : List Nat, (∀ d ∈ ds, d < 10) ∧ s = Spec.digits ds := by
  refine ⟨s.map fun c => c.toNat - 48, ?_, ?_⟩
  · intro d hd
    obtain ⟨c, hc, rfl⟩ := List.mem_map.1 hd
    have := (isDigit_iff c).1 (h c hc)
    unfold Dec at this
    omega
  · unfold Spec.digits
    rw [List.map_map]
    symm
    rw [List.map_congr_left (g := id), List.map_id]
    intro c hc
    have := (isDigit_iff c).1 (h c hc)
    unfold Dec at this
    show BitVec.ofNat 8 (48 + (c.toNat - 48)) = c
    rw [show 48 + (c.toNat - 48) = c.toNat by omega]
    exact ofNat_self c

/-- The mantissa: what is read, and what is left. -/
theorem mantissa_split (u : Str) (h : u.takeWhile isDigit ++ fracDigits (u.dropWhile isDigit) ≠ []) :
    ∃ m, Point m (decMag u) ∧ u = m ++ fracRest (u.dropWhile isDigit) := by
  obtain ⟨ip, hi, ei⟩ := digits_of (s := u.takeWhile isDigit) fun c hc => mem_takeWhile_imp hc
  have hu : u = u.takeWhile isDigit ++ u.dropWhile isDigit := List.takeWhile_append_dropWhile.symm
  have hfd : ∀ c ∈ fracDigits (u.dropWhile isDigit), isDigit c = true := by
    intro c hc
    unfold fracDigits at hc
    split at hc
    · split at hc
      · exact mem_takeWhile_imp hc
      · cases hc
    · cases hc
  obtain ⟨fp, hf, ef⟩ := digits_of hfd
  have hd : ∀ d ∈ ip ++ fp, d < 10 := fun d hd => (List.mem_append.1 hd).elim (hi d) (hf d)
  have happ : Spec.digits ip ++ Spec.digits fp = Spec.digits (ip ++ fp) := by simp [Spec.digits]
  have hval : decMag u = (Nat.ofDigits 10 (ip ++ fp).reverse : ℕ) / 10 ^ fp.length := by
    unfold decMag
    rw [ei, ef, happ, scanNat_digits hd]
    simp [Spec.digits]
  have hne : ip ++ fp ≠ [] := by
    intro e
    obtain ⟨rfl, rfl⟩ := List.append_eq_nil_iff.1 e
    rw [ei, ef] at h
    exact h rfl
  rw [hval]
  cases hr : u.dropWhile isDigit with
  | nil =>
    rw [hr] at ef hu
    have : fp = [] := by
      have := congrArg List.length ef
      simp only [fracDigits, Spec.digits, List.length_nil, List.length_map] at this
      exact List.length_eq_zero_iff.1 this.symm
    subst this
    exact ⟨Spec.digits ip, ⟨ip, [], hne, hd, Or.inr ⟨rfl, rfl⟩, rfl⟩, by rw [← ei]; exact hu⟩
  | cons c t =>
    rw [hr] at ef hu
    by_cases hc : c = chr '.'
    · subst hc
      simp only [fracDigits, if_true] at ef
      refine ⟨Spec.digits ip ++ chr '.' :: Spec.digits fp, ⟨ip, fp, hne, hd, Or.inl rfl, rfl⟩, ?_⟩
      simp only [fracRest, if_true]
      rw [← ef, ← ei, List.append_assoc, List.cons_append, List.takeWhile_append_dropWhile]
      exact hu
    · simp only [fracDigits, if_neg hc] at ef
      have : fp = [] := by
        have := congrArg List.length ef
        simp only [Spec.digits, List.length_nil, List.length_map] at this
        exact List.length_eq_zero_iff.1 this.symm
      subst this
      refine ⟨Spec.digits ip, ⟨ip, [], hne, hd, Or.inr ⟨rfl, rfl⟩, rfl⟩, ?_⟩
      simp only [fracRest, if_neg hc]
      rw [← ei]
      exact hu

/-- A mantissa followed by nothing or by a letter. -/
theorem mantissa_join {m : Str} {q : ℚ} (h : Point m q) (r : Str) (hr : ∀ c ∈ r.head?, isDigit c = false ∧ c ≠ chr '.') :
    (m ++ r).takeWhile isDigit ++ fracDigits ((m ++ r).dropWhile isDigit) ≠ [] ∧ decMag (m ++ r) = q ∧ fracRest ((m ++ r).dropWhile isDigit) = r := by
  have tw : r.takeWhile isDigit = [] := by
    cases r with
    | nil => rfl
    | cons c t => rw [List.takeWhile_cons_of_neg (by simp [(hr c rfl).1])]
  have dw : r.dropWhile isDigit = r := by
    cases r with
    | nil => rfl
    | cons c t => rw [List.dropWhile_cons_of_neg (by simp [(hr c rfl).1])]
  have fd : fracDigits r = [] := by
    cases r with
    | nil => rfl
    | cons c t => simp [fracDigits, (hr c rfl).2]
  have fr : fracRest r = r := by
    cases r with
    | nil => rfl
    | cons c t => simp [fracRest, (hr c rfl).2]
  obtain ⟨ip, fp, hne, hd, hs, rfl⟩ := h
  have hi : ∀ c ∈ Spec.digits ip, isDigit c = true := digits_all fun d h => hd d (List.mem_append_left _ h)
  have hf : ∀ c ∈ Spec.digits fp, isDigit c = true := digits_all fun d h => hd d (List.mem_append_right _ h)
  have happ : Spec.digits ip ++ Spec.digits fp = Spec.digits (ip ++ fp) := by simp [Spec.digits]
  have hlen : (Spec.digits fp).length = fp.length := by simp [Spec.digits]
  have hne' : Spec.digits (ip ++ fp) ≠ [] := by
    unfold Spec.digits
    simpa using hne
  rcases hs with rfl | ⟨rfl, rfl⟩
  · have h1 : (Spec.digits ip ++ chr '.' :: Spec.digits fp ++ r).takeWhile isDigit = Spec.digits ip := by
      rw [List.append_assoc, List.takeWhile_append_of_pos hi, List.cons_append, List.takeWhile_cons_of_neg (by decide), List.append_nil]
    have h2 : (Spec.digits ip ++ chr '.' :: Spec.digits fp ++ r).dropWhile isDigit = chr '.' :: (Spec.digits fp ++ r) := by
      rw [List.append_assoc, List.dropWhile_append_of_pos hi, List.cons_append, List.dropWhile_cons_of_neg (by decide)]
    unfold decMag
    rw [h1, h2]
    simp only [fracDigits, fracRest, if_true]
    rw [List.takeWhile_append_of_pos hf, List.dropWhile_append_of_pos hf, tw, dw, List.append_nil, happ, scanNat_digits hd, hlen]
    exact ⟨hne', rfl, rfl⟩
  · have h1 : (Spec.digits ip ++ r).takeWhile isDigit = Spec.digits ip := by
      rw [List.takeWhile_append_of_pos hi, tw, List.append_nil]
    have h2 : (Spec.digits ip ++ r).dropWhile isDigit = r := by
      rw [List.dropWhile_append_of_pos hi, dw]
    unfold decMag
    rw [h1, h2, fd, fr]
    simp only [List.append_nil] at hne' hd ⊢
    rw [scanNat_digits hd]
    exact ⟨hne', rfl, trivial⟩

theorem digits_solid {ds : List Nat} (hne : ds ≠ []) (hd : ∀ d ∈ ds, d < 10) : Solid (Spec.digits ds) := by
  cases ds with
  | nil => exact absurd rfl hne
  | cons d ds => exact dec_solid (Or.inl ((isDigit_iff _).1 (digits_all hd _ (by simp [Spec.digits]))))

theorem splitSign_digits {sg : Str} {ds : List Nat} (hsg : sg = [] ∨ sg = [chr '-'] ∨ sg = [chr '+']) (hne : ds ≠ []) (hd : ∀ d ∈ ds, d < 10) :
    splitSign (sg ++ Spec.digits ds) = (decide (sg = [chr '-']), Spec.digits ds) := by
  have := split_written (sp := []) (by simp) hsg (digits_solid hne hd)
  rw [List.nil_append] at this
  have hs : (sg ++ Spec.digits ds).dropWhile isSpace = sg ++ Spec.digits ds := by
    rcases hsg with rfl | rfl | rfl
    · obtain ⟨c, t, e, h, -⟩ := digits_solid hne hd
      rw [List.nil_append, e, dropWhile_cons h]
    · exact dropWhile_cons (by decide)
    · exact dropWhile_cons (by decide)
  rwa [hs] at this

/-- Decimal numbers are read whole. -/
theorem strtofU_written {m : Str} {q : ℚ} (h : Scientific m q) :
    m.takeWhile isDigit ++ fracDigits (m.dropWhile isDigit) ≠ [] ∧ decMag m * 10 ^ (exponent (fracRest (m.dropWhile isDigit))).1 = q ∧ (exponent (fracRest (m.dropWhile isDigit))).2 = [] := by
  rcases h with h | ⟨p, r, e, sg, ds, h, he, hne, hd, hsg, rfl⟩
  · have := mantissa_join h [] (by simp)
    rw [List.append_nil] at this
    obtain ⟨h1, h2, h3⟩ := this
    rw [h3, h2]
    exact ⟨h1, by simp [exponent], rfl⟩
  · have hhead : ∀ c ∈ (e :: (sg ++ Spec.digits ds)).head?, isDigit c = false ∧ c ≠ chr '.' := by
      intro c hc
      simp only [List.head?_cons, Option.mem_some_iff] at hc
      subst hc
      rcases he with rfl | rfl <;> decide
    obtain ⟨h1, h2, h3⟩ := mantissa_join h (e :: (sg ++ Spec.digits ds)) hhead
    rw [h3, h2]
    refine ⟨h1, ?_⟩
    have hsg' : sg = [] ∨ sg = [chr '-'] ∨ sg = [chr '+'] := by
      rcases hsg with ⟨h | h, -⟩ | ⟨h, -⟩
      · exact Or.inl h
      · exact Or.inr (Or.inr h)
      · exact Or.inr (Or.inl h)
    have ht : (Spec.digits ds).takeWhile isDigit = Spec.digits ds := takeWhile_all (digits_all hd)
    have hne' : Spec.digits ds ≠ [] := by
      unfold Spec.digits
      simpa using hne
    simp only [exponent, splitSign_digits hsg' hne hd, ht]
    rw [if_pos ⟨he, hne'⟩]
    refine ⟨?_, dropWhile_nil.2 (digits_all hd)⟩
    rw [scanNat_digits hd]
    rcases hsg with ⟨h, rfl⟩ | ⟨rfl, rfl⟩
    · have : sg ≠ [chr '-'] := by
        rcases h with rfl | rfl <;> decide
      simp [this]
    · simp [zpow_neg, div_eq_mul_inv]

theorem scientific_of {m : Str} (h1 : m.takeWhile isDigit ++ fracDigits (m.dropWhile isDigit) ≠ []) (h2 : (exponent (fracRest (m.dropWhile isDigit))).2 = []) : ∃ q, Scientific m q := by
  obtain ⟨p, hp, hm⟩ := mantissa_split m h1
  cases hr : fracRest (m.dropWhile isDigit) with
  | nil =>
    rw [hr, List.append_nil] at hm
    exact ⟨decMag m, Or.inl (by rw [← hm] at hp; exact hp)⟩
  | cons c t =>
    rw [hr] at h2 hm
    simp only [exponent] at h2
    split at h2
    · rename_i hc
      obtain ⟨ds, hd, e⟩ := digits_of (dropWhile_nil.1 h2)
      have hne : ds ≠ [] := by
        rintro rfl
        apply hc.2
        rw [e]
        rfl
      obtain ⟨sg, hsg, ht⟩ := splitSign_spec t
      rw [e] at ht
      rcases hsg with hs | hs | hs
      · exact ⟨_, Or.inr ⟨p, _, c, sg, ds, hp, hc.1, hne, hd, Or.inl ⟨Or.inl hs, rfl⟩, by rw [← ht]; exact hm⟩⟩
      · exact ⟨_, Or.inr ⟨p, _, c, sg, ds, hp, hc.1, hne, hd, Or.inr ⟨hs, rfl⟩, by rw [← ht]; exact hm⟩⟩
      · exact ⟨_, Or.inr ⟨p, _, c, sg, ds, hp, hc.1, hne, hd, Or.inl ⟨Or.inr hs, rfl⟩, by rw [← ht]; exact hm⟩⟩
    · cases h2

theorem scientific_solid {m : Str} {q : ℚ} (h : Scientific m q) : Solid m := by
  have key : ∀ m q, Point m q → ∃ c t, m = c :: t ∧ (Dec c ∨ c = chr '.') := by
    intro m q h
    obtain ⟨h1, h2⟩ := point_chars h
    cases m with
    | nil => exact absurd rfl h1
    | cons c t => exact ⟨c, t, rfl, (h2 c (by simp)).imp (isDigit_iff c).1 id⟩
  rcases h with h | ⟨p, r, e, sg, ds, h, -, -, -, -, rfl⟩
  · obtain ⟨c, t, rfl, hc⟩ := key _ _ h
    exact dec_solid hc
  · obtain ⟨c, t, rfl, hc⟩ := key _ _ h
    exact dec_solid hc

theorem special_head (c : Byte) (t : Str) (h : special (c :: t) = true) : (c = chr '0' ∧ ∃ x u, t = x :: u ∧ (x = chr 'x' ∨ x = chr 'X')) ∨ isAlpha c = true := by
  have k1 : ∀ n, n < 256 → special.lowerByte (BitVec.ofNat 8 n) = chr '0' → BitVec.ofNat 8 n = chr '0' := by decide +kernel
  have k2 : ∀ n, n < 256 → special.lowerByte (BitVec.ofNat 8 n) = chr 'x' → BitVec.ofNat 8 n = chr 'x' ∨ BitVec.ofNat 8 n = chr 'X' := by decide +kernel
  have k3 : ∀ n, n < 256 → special.lowerByte (BitVec.ofNat 8 n) = chr 'i' ∨ special.lowerByte (BitVec.ofNat 8 n) = chr 'n' → isAlpha (BitVec.ofNat 8 n) = true := by decide +kernel
  have g1 := k1 c.toNat c.isLt
  have g3 := k3 c.toNat c.isLt
  rw [ofNat_self] at g1 g3
  have e1 : lit "0x" = [chr '0', chr 'x'] := by decide
  have e2 : lit "inf" = [chr 'i', chr 'n', chr 'f'] := by decide
  have e3 : lit "nan" = [chr 'n', chr 'a', chr 'n'] := by decide
  simp only [special, e1, e2, e3, List.any_cons, List.any_nil, Bool.or_false, Bool.or_eq_true, beq_iff_eq, List.map_cons, List.length_cons, List.length_nil, List.take_succ_cons, List.cons.injEq] at h
  rcases h with ⟨h1, h2⟩ | ⟨h, -⟩ | ⟨h, -⟩
  · left
    refine ⟨g1 h1, ?_⟩
    cases t with
    | nil => simp at h2
    | cons x u =>
      have g2 := k2 x.toNat x.isLt
      rw [ofNat_self] at g2
      simp only [List.map_cons, List.take_succ_cons, List.cons.injEq] at h2
      exact ⟨x, u, rfl, g2 h2.1⟩
  · exact Or.inr (g3 (Or.inl h))
  · exact Or.inr (g3 (Or.inr h))

theorem scientific_not_special {m : Str} {q : ℚ} (h : Scientific m q) : special m = false := by
  have alpha : ∀ c : Byte, Dec c ∨ c = chr '.' → isAlpha c = false := by
    intro c hc
    have key : ∀ n, n < 256 → (48 ≤ (BitVec.ofNat 8 n).toNat ∧ (BitVec.ofNat 8 n).toNat ≤ 57) ∨ BitVec.ofNat 8 n = chr '.' → isAlpha (BitVec.ofNat 8 n) = false := by decide +kernel
    have := key c.toNat c.isLt
    rw [ofNat_self] at this
    exact this hc
  have key : ∀ m q r, Point m q → (∀ c ∈ r.head?, c ≠ chr 'x' ∧ c ≠ chr 'X') → special (m ++ r) = false := by
    intro m q r h hr
    obtain ⟨h1, h2⟩ := point_chars h
    cases m with
    | nil => exact absurd rfl h1
    | cons c t =>
      by_contra hs
      have hs : special (c :: (t ++ r)) = true := by simpa using hs
      rcases special_head c _ hs with ⟨-, x, u, e, hx⟩ | ha
      · have hx' : x ≠ chr 'x' ∧ x ≠ chr 'X' := by
          cases t with
          | nil => exact hr x (by rw [show r = x :: u from e]; rfl)
          | cons y t =>
            obtain ⟨rfl, -⟩ := List.cons.inj e
            rcases h2 y (by simp) with hd | rfl
            · constructor <;> (rintro rfl; revert hd; decide)
            · decide
        exact hx.elim hx'.1 hx'.2
      · rw [alpha c ((h2 c (by simp)).imp (isDigit_iff c).1 id)] at ha
        cases ha
  rcases h with h | ⟨p, r, e, sg, ds, h, he, -, -, -, rfl⟩
  · have := key _ _ [] h (by simp)
    rwa [List.append_nil] at this
  · refine key _ _ _ h ?_
    intro c hc
    simp only [List.head?_cons, Option.mem_some_iff] at hc
    subst hc
    rcases he with rfl | rfl <;> decide

/-! ### Property -/

/-- C115: the number returned does not depend on earlier readings or warnings. -/
theorem C115_same (other : Str → Option ℚ × Str) (v : Str) (w : Bool) : (number ⟨v, w⟩).2.1 = (number ⟨v, false⟩).2.1 ∧ (floatNumber other ⟨v, w⟩).2.1 = (floatNumber other ⟨v, false⟩).2.1 ∧
    (number ⟨v, w⟩).2.1 = strtol0 (cText v) ∧ (number ⟨v, w⟩).1.value = v ∧ (floatNumber other ⟨v, w⟩).1.value = v := by
  have h0 : strtof other [] = (some 0, []) := by
    unfold strtof
    simp [splitSign, fracDigits, show special [] = false by decide]
  have h1 := convert_same (fun s => (strtol0 s, strtolEnd s)) 0 (by decide)
  unfold number floatNumber
  rw [h1, h1, convert_same _ _ h0, convert_same _ _ h0, (convert_warns _ _ _).2, (convert_warns _ _ _).2]
  exact ⟨rfl, rfl, rfl, rfl, rfl⟩

/-- C115: however often and as whatever kind of number a record is read, at most one warning is logged, and exactly one if one of the readings by itself would warn. -/
theorem C115_once (other : Str → Option ℚ × Str) (v : Str) (ks : List Bool) :
    warnings other ⟨v, false⟩ ks ≤ 1 ∧ (warnings other ⟨v, false⟩ ks = 1 ↔ ∃ k ∈ ks, (readOnce other ⟨v, false⟩ k).2 = true) := by
  have hstep : ∀ w k, readOnce other ⟨v, w⟩ k = (⟨v, w || (readOnce other ⟨v, w⟩ k).2⟩, (readOnce other ⟨v, w⟩ k).2) := by
    intro w k
    unfold readOnce number floatNumber
    split
    · exact Prod.ext (convert_warns _ _ _).2 rfl
    · exact Prod.ext (convert_warns _ _ _).2 rfl
  have hdone : ∀ k, (readOnce other ⟨v, true⟩ k).2 = false := by
    intro k
    unfold readOnce number floatNumber
    split <;> simp [(convert_warns _ _ _).1]
  have done : ∀ ks, warnings other ⟨v, true⟩ ks = 0 := by
    intro ks
    induction ks with
    | nil => rfl
    | cons k ks ih =>
      have e := hstep true k
      unfold warnings
      rw [e, hdone k]
      simpa using ih
  induction ks with
  | nil => simp [warnings]
  | cons k ks ih =>
    have e := hstep false k
    unfold warnings
    rw [e]
    cases hk : (readOnce other ⟨v, false⟩ k).2 with
    | false => simpa [hk] using ih
    | true => simp [hk, done]

/-- C115: reading a record as integer warns at first exactly if its value is not, from beginning to end, an integer in C notation with optional white space and sign before it. -/
theorem C115_warn_integer (v : Str) (h0 : (0 : Byte) ∉ v) : (number ⟨v, false⟩).2.2 = true ↔ ¬ Written Numeral v := by
  unfold number
  rw [(convert_warns _ _ _).1]
  simp only [Bool.not_false, Bool.and_true, decide_eq_true_eq]
  rw [cText_self h0]
  by_cases hv : v = []
  · subst hv
    simp only [true_or, true_iff]
    rintro ⟨sp, sg, num, -, -, h, e⟩
    obtain ⟨c, t, rfl, -⟩ := numeral_solid h
    simp at e
  · simp [hv, ← strtolEnd_nil hv]

/-- C115: a decimal number, with or without sign, point and exponent, is read as the nearest `float`, without warning. -/
theorem C115_float (other : Str → Option ℚ × Str) (sp sg num : Str) (q : ℚ) (w : Bool) (hsp : ∀ c ∈ sp, c = 32 ∨ (9 ≤ c.toNat ∧ c.toNat ≤ 13)) (hsg : sg = [] ∨ sg = [chr '-'] ∨ sg = [chr '+'])
    (hq : Scientific num q) (h0 : (0 : Byte) ∉ sp ++ (sg ++ num)) : (floatNumber other ⟨sp ++ (sg ++ num), w⟩).2 = (some (fl (if sg = [chr '-'] then -q else q)), false) := by
  obtain ⟨h1, h2, h3⟩ := strtofU_written hq
  have hs : strtof other (sp ++ (sg ++ num)) = (some (fl (if sg = [chr '-'] then -q else q)), []) := by
    unfold strtof
    simp only [split_written hsp hsg (scientific_solid hq)]
    rw [if_neg (by simp [scientific_not_special hq]), if_neg h1, h2, h3]
    by_cases h : sg = [chr '-'] <;> simp [h]
  have hz : strtof other [] = (some 0, []) := by
    unfold strtof
    simp [splitSign, fracDigits, show special [] = false by decide]
  unfold floatNumber
  refine Prod.ext ?_ ?_
  · rw [convert_same _ _ hz]
    simp only
    rw [cText_self h0, hs]
  · rw [(convert_warns _ _ _).1]
    simp only
    rw [cText_self h0, hs]
    have : sp ++ (sg ++ num) ≠ [] := by
      obtain ⟨c, t, rfl, -⟩ := scientific_solid hq
      simp
    simp [this]

/-- C115: reading a record as `float` warns at first exactly if its value is not, from beginning to end, a decimal number with optional white space, sign, point and exponent
(values beginning with 0x, inf or nan aside). -/
theorem C115_warn_float (other : Str → Option ℚ × Str) (v : Str) (h0 : (0 : Byte) ∉ v) (hs : special (splitSign (v.dropWhile isSpace)).2 = false) :
    (floatNumber other ⟨v, false⟩).2.2 = true ↔ ¬ Written (fun s => ∃ q, Scientific s q) v := by
  constructor
  · rintro h ⟨sp, sg, num, h1, h2, ⟨q, h3⟩, rfl⟩
    rw [C115_float other sp sg num q false h1 h2 h3 h0] at h
    cases h
  · intro h
    unfold floatNumber
    rw [(convert_warns _ _ _).1]
    simp only [Bool.not_false, Bool.and_true, decide_eq_true_eq]
    rw [cText_self h0]
    by_cases hv : v = []
    · exact Or.inl hv
    · right
      intro he
      apply h
      unfold strtof at he
      simp only [hs] at he
      rw [if_neg (by simp)] at he
      split at he
      · exact absurd he hv
      · rename_i hd
        obtain ⟨sp, h1, h2⟩ := space_split v
        obtain ⟨sg, h3, h4⟩ := splitSign_spec (v.dropWhile isSpace)
        exact ⟨sp, sg, _, h1, h3, scientific_of hd he, by rw [← h4]; exact h2⟩

/-- C115: a number with exponent. -/
example (other : Str → Option ℚ × Str) : (floatNumber other ⟨lit " -2.5e+1", false⟩).2 = (some (-25), false) := by
  have hp : Point (lit "2.5") (5 / 2) := ⟨[2], [5], by decide, by decide, Or.inl (by decide), by norm_num [Nat.ofDigits]⟩
  have hs : Scientific (lit "2.5e+1") 25 :=
    Or.inr ⟨lit "2.5", 5 / 2, chr 'e', [chr '+'], [1], hp, Or.inl rfl, by decide, by decide, Or.inl ⟨Or.inr rfl, by norm_num [Nat.ofDigits]⟩, by decide⟩
  have := C115_float other [32] [chr '-'] (lit "2.5e+1") 25 false (by decide) (Or.inr (Or.inl rfl)) hs (by decide)
  have e : [32] ++ ([chr '-'] ++ lit "2.5e+1") = lit " -2.5e+1" := by decide
  rw [e] at this
  rw [this, if_pos rfl, fl_of_float _ ⟨-25, 0, by norm_num, by norm_num⟩]

/-- C115: with a record that needs no warning and one that does. -/
example : Written Numeral (lit " -0x1F") ∧ (number ⟨lit " -0x1F", false⟩).2 = (-31, false) ∧ (number ⟨lit "12 ", false⟩).2 = (12, true) ∧ (number ⟨lit "12 ", true⟩).2 = (12, false) := by
  refine ⟨(strtolEnd_nil (by decide)).1 (by decide +kernel), by decide +kernel, by decide +kernel, by decide +kernel⟩

end Verif.Config
