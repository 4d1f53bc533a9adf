import Verif.Config.TableProps
import Verif.Core.NumberLemmas
import Verif.Core.CInt
import Verif.Utils.SplitProps

/-
Properties C55 (numeric values) and C56 (vectors).
-/

namespace Verif.Config
open Verif.Utils.Spec Verif.Utils

/-! ### C55 -/

/-- C55: a 64-bit integer printed by `set` is read back by `strtol`. -/
theorem C55_round_trip (n : Int) (h1 : -(2 ^ 63) ≤ n) (h2 : n ≤ 2 ^ 63 - 1) : strtol0 (intText n) = n := by
  unfold strtol0
  rw [signed_intText mag0_natText n, clamp_of_mem h1 h2]

/-- C55 (partial: missing are keys, values and descriptions that are not clean, for which the stored text can differ, see C61 and C53_column_refuted): after `set(key,n)`, on any
history and after any time, `getNum(key)` returns `n`. -/
theorem C55_set_get_partial (db : Db) (schema : Str → Option Key) (last now t : Int) (ops : List Op) (k : Str) (n : Int) (hs : CleanSchema schema)
    (hc : ∀ op ∈ ops, CleanOp schema op) (hk : CleanKey k) (h1 : -(2 ^ 63) ≤ n) (h2 : n ≤ 2 ^ 63 - 1) :
    (getNum (run (fresh db schema last now) (ops ++ [.setNum k n, .tick t])) k).2 = some n ∧
    (getBool (run (fresh db schema last now) (ops ++ [.setNum k n, .tick t])) k).2 = some (decide (n ≠ 0)) := by
  have h := C53_getStr_partial db schema last now (ops ++ [.setNum k n, .tick t]) k hs (by
    intro op h
    rcases List.mem_append.1 h with h | h
    · exact hc op h
    · simp only [List.mem_cons, List.not_mem_nil, or_false] at h
      rcases h with rfl | rfl
      · exact hk
      · trivial) hk
  have e : idealRun (contents db) (ops ++ [.setNum k n, .tick t]) k = some (intText n) := by
    unfold idealRun
    rw [List.foldl_append]
    simp [ideal]
  have h : (lookup (run (fresh db schema last now) (ops ++ [.setNum k n, .tick t])) k).2 = some (intText n) := by
    unfold getStr at h
    rw [h]
    unfold answer
    rw [e]
    rfl
  have g : (getNum (run (fresh db schema last now) (ops ++ [.setNum k n, .tick t])) k).2 = some n := by
    unfold getNum
    rw [h]
    simp [C55_round_trip n h1 h2]
  refine ⟨g, ?_⟩
  unfold getBool
  rw [g]
  rfl

/-- The character of a decimal digit, after the ASCII table. -/
def decChar (d : Nat) : Byte := BitVec.ofNat 8 (48 + d)

/-- The characters of a hexadecimal digit, after the ASCII table. -/
def hexChar (p : Bool × Nat) : Byte := if p.2 < 10 then BitVec.ofNat 8 (48 + p.2) else if p.1 then BitVec.ofNat 8 (65 + (p.2 - 10)) else BitVec.ofNat 8 (97 + (p.2 - 10))

theorem decChar_val : ∀ d, d < 10 → digitVal (decChar d) = some d := by decide
theorem hexChar_val : ∀ b d, d < 16 → digitVal (hexChar (b, d)) = some d := by decide
theorem decChar_space : ∀ d, d < 10 → isSpace (decChar d) = false ∧ decChar d ≠ chr '-' ∧ decChar d ≠ chr '+' := by decide

theorem isDig_of {b : Nat} {c : Byte} {d : Nat} (h : digitVal c = some d) (hd : d < b) : isDig b c = true := by
  unfold isDig; rw [h]; simpa using hd

theorem mag0_decimal (d : Nat) (ds : List Nat) (hd : d ≠ 0) (hds : ∀ x ∈ d :: ds, x < 10) : mag0 ((d :: ds).map decChar) = Nat.ofDigits 10 (d :: ds).reverse := by
  have h48 : decChar d ≠ 48 := by
    have key : ∀ d, d < 10 → d ≠ 0 → decChar d ≠ 48 := by decide
    exact key d (hds d (by simp)) hd
  have hv : scanNat 10 ((d :: ds).map decChar) = Nat.ofDigits 10 (d :: ds).reverse := by
    rw [scanNat_all, foldDigits_map _ _ _ _ fun x hx => decChar_val x (hds x hx)]
    · simp
    · intro c hc
      obtain ⟨x, hx, rfl⟩ := List.mem_map.1 hc
      exact isDig_of (decChar_val x (hds x hx)) (hds x hx)
  rw [List.map_cons, mag0_nonzero h48, ← List.map_cons (f := decChar), hv]

theorem mag0_hexadecimal (up : Bool) (p : Bool × Nat) (ds : List (Bool × Nat)) (hds : ∀ x ∈ p :: ds, x.2 < 16) :
    mag0 (48 :: (if up then chr 'X' else chr 'x') :: (p :: ds).map hexChar) = Nat.ofDigits 16 ((p :: ds).map (·.2)).reverse := by
  have hv : scanNat 16 ((p :: ds).map hexChar) = Nat.ofDigits 16 ((p :: ds).map (·.2)).reverse := by
    rw [scanNat_all]
    · have fold : ∀ (l : List (Bool × Nat)) (a : Nat), (∀ x ∈ l, x.2 < 16) → foldDigits 16 a (l.map hexChar) = foldDigits 16 a ((l.map (·.2)).map digitChar) := by
        intro l
        induction l with
        | nil => intro a _; rfl
        | cons x l ih =>
          intro a h
          have h1 : digitVal (hexChar x) = some x.2 := hexChar_val x.1 x.2 (h x (by simp))
          have h2 : digitVal (digitChar x.2) = some x.2 := digitVal_digitChar x.2 (h x (by simp))
          have := ih (a * 16 + x.2) fun y hy => h y (by simp [hy])
          simp only [foldDigits, List.map_cons, List.foldl_cons, h1, h2, Option.getD_some] at this ⊢
          exact this
      rw [fold _ _ hds, foldDigits_map _ _ _ _ fun x hx => by
        obtain ⟨y, hy, rfl⟩ := List.mem_map.1 hx
        exact digitVal_digitChar _ (hds y hy)]
      simp
    · intro c hc
      obtain ⟨x, hx, rfl⟩ := List.mem_map.1 hc
      exact isDig_of (hexChar_val x.1 x.2 (hds x hx)) (hds x hx)
  have hp : isDig 16 (hexChar p) = true := isDig_of (hexChar_val p.1 p.2 (hds p (by simp))) (hds p (by simp))
  have hm : mag0 (48 :: (if up then chr 'X' else chr 'x') :: hexChar p :: ds.map hexChar) = scanNat 16 (hexChar p :: ds.map hexChar) := by
    rw [mag0_three, if_pos]
    refine ⟨?_, hp⟩
    cases up <;> simp
  rw [List.map_cons, hm, ← List.map_cons (f := hexChar), hv]

theorem mag0_octal (ds : List Nat) (hds : ∀ x ∈ ds, x < 8) : mag0 (48 :: ds.map decChar) = Nat.ofDigits 8 ds.reverse := by
  have hall : ∀ c ∈ (0 :: ds).map decChar, isDig 8 c = true := by
    intro c hc
    obtain ⟨x, hx, rfl⟩ := List.mem_map.1 hc
    have : x < 8 := by
      rcases List.mem_cons.1 hx with rfl | hx
      · omega
      · exact hds x hx
    exact isDig_of (decChar_val x (by omega)) this
  have hv : scanNat 8 ((0 :: ds).map decChar) = Nat.ofDigits 8 ds.reverse := by
    rw [scanNat_all hall, foldDigits_map _ _ _ _ fun x hx => by
      rcases List.mem_cons.1 hx with rfl | hx
      · exact decChar_val 0 (by omega)
      · exact decChar_val x (by have := hds x hx; omega)]
    rw [List.reverse_cons, Nat.ofDigits_append]
    simp
  have hm : mag0 (48 :: ds.map decChar) = scanNat 8 ((0 :: ds).map decChar) := by
    show _ = scanNat 8 (48 :: ds.map decChar)
    have nx : ∀ x, x < 8 → ¬ (decChar x = chr 'x' ∨ decChar x = chr 'X') := by decide
    cases ds with
    | nil => rfl
    | cons x ds =>
      cases ds with
      | nil => rfl
      | cons y ds =>
        simp only [List.map_cons]
        rw [mag0_three, if_neg]
        intro h
        exact nx x (hds x (by simp)) h.1
  rw [hm, hv]

/-- The texts of numbers as in the C language, and the numbers: decimal without leading zero, `0x` or `0X` and hexadecimal digits of either case, `0` and octal digits. -/
inductive CNumber : Str → Nat → Prop
  | decimal (d : Nat) (ds : List Nat) (hd : d ≠ 0) (hds : ∀ x ∈ d :: ds, x < 10) : CNumber ((d :: ds).map decChar) (Nat.ofDigits 10 (d :: ds).reverse)
  | hexadecimal (up : Bool) (p : Bool × Nat) (ds : List (Bool × Nat)) (hds : ∀ x ∈ p :: ds, x.2 < 16) :
      CNumber (48 :: (if up then chr 'X' else chr 'x') :: (p :: ds).map hexChar) (Nat.ofDigits 16 ((p :: ds).map (·.2)).reverse)
  | octal (ds : List Nat) (hds : ∀ x ∈ ds, x < 8) : CNumber (48 :: ds.map decChar) (Nat.ofDigits 8 ds.reverse)

theorem CNumber.mag {s : Str} {n : Nat} (h : CNumber s n) : mag0 s = n := by
  cases h with
  | decimal d ds hd hds => exact mag0_decimal d ds hd hds
  | hexadecimal up p ds hds => exact mag0_hexadecimal up p ds hds
  | octal ds hds => exact mag0_octal ds hds

theorem CNumber.head {s : Str} {n : Nat} (h : CNumber s n) : ∃ c t, s = c :: t ∧ isSpace c = false ∧ c ≠ chr '-' ∧ c ≠ chr '+' := by
  cases h with
  | decimal d ds hd hds => exact ⟨_, _, rfl, decChar_space d (hds d (by simp))⟩
  | hexadecimal up p ds hds => exact ⟨_, _, rfl, by decide, by decide, by decide⟩
  | octal ds hds => exact ⟨_, _, rfl, by decide, by decide, by decide⟩

theorem dropWhile_spaces {w s : Str} (hw : ∀ c ∈ w, c = 32 ∨ (9 : Byte) ≤ c ∧ c ≤ 13) {c : Byte} {t : Str} (hs : s = c :: t) (hc : isSpace c = false) : (w ++ s).dropWhile isSpace = s := by
  have key : ∀ c : Byte, c = 32 ∨ (9 : Byte) ≤ c ∧ c ≤ 13 → isSpace c = true := by decide
  induction w with
  | nil => rw [List.nil_append, hs, dropWhile_cons hc]
  | cons x w ih =>
    rw [List.cons_append, List.dropWhile_cons, if_pos (key x (hw x (by simp)))]
    exact ih fun c hc => hw c (by simp [hc])

/-- C55: a number in one of the three notations is read as such, after white space (space, tab, line ends) and an optional sign; below the smallest and beyond the largest 64-bit
integer it is read as that. -/
theorem C55_notations (w s : Str) (n : Nat) (hw : ∀ c ∈ w, c = 32 ∨ (9 : Byte) ≤ c ∧ c ≤ 13) (h : CNumber s n) :
    strtol0 (w ++ s) = min (n : Int) (2 ^ 63 - 1) ∧ strtol0 (w ++ chr '+' :: s) = min (n : Int) (2 ^ 63 - 1) ∧ strtol0 (w ++ chr '-' :: s) = max (-(n : Int)) (-(2 ^ 63)) := by
  obtain ⟨c, t, hs, h1, h2, h3⟩ := h.head
  have hm := h.mag
  refine ⟨?_, ?_, ?_⟩ <;> unfold strtol0
  · rw [dropWhile_spaces hw hs h1, hs, signed_plain h2 h3, ← hs, hm]
    unfold clamp
    rw [if_neg (by omega)]
    split <;> omega
  · rw [dropWhile_spaces hw rfl (by decide)]
    have : signed mag0 (chr '+' :: s) = mag0 s := by
      unfold signed
      exact (if_neg (by decide)).trans (if_pos rfl)
    rw [this, hm]
    unfold clamp
    rw [if_neg (by omega)]
    split <;> omega
  · rw [dropWhile_spaces hw rfl (by decide)]
    have : signed mag0 (chr '-' :: s) = -(mag0 s : Int) := by
      unfold signed
      exact if_pos rfl
    rw [this, hm]
    unfold clamp
    split
    · omega
    · rw [if_neg (by omega)]; omega

/-- C55: a decimal number without leading zero is read in positional notation (up to the largest 64-bit integer, and as that beyond). -/
theorem C55_decimal (d : Nat) (ds : List Nat) (hd : d ≠ 0) (hds : ∀ x ∈ d :: ds, x < 10) :
    strtol0 ((d :: ds).map decChar) = min ((Nat.ofDigits 10 (d :: ds).reverse : Nat) : Int) (2 ^ 63 - 1) :=
  (C55_notations [] _ _ (by simp) (.decimal d ds hd hds)).1

/-- C55: `0x` or `0X` and hexadecimal digits of either case are read in base 16. -/
theorem C55_hexadecimal (up : Bool) (p : Bool × Nat) (ds : List (Bool × Nat)) (hds : ∀ x ∈ p :: ds, x.2 < 16) :
    strtol0 (48 :: (if up then chr 'X' else chr 'x') :: (p :: ds).map hexChar) = min ((Nat.ofDigits 16 ((p :: ds).map (·.2)).reverse : Nat) : Int) (2 ^ 63 - 1) :=
  (C55_notations [] _ _ (by simp) (.hexadecimal up p ds hds)).1

/-- C55: `0` and octal digits are read in base 8. -/
theorem C55_octal (ds : List Nat) (hds : ∀ x ∈ ds, x < 8) : strtol0 (48 :: ds.map decChar) = min ((Nat.ofDigits 8 ds.reverse : Nat) : Int) (2 ^ 63 - 1) :=
  (C55_notations [] _ _ (by simp) (.octal ds hds)).1

/-- C55: with white space and a sign, inside and outside of the range. -/
example : strtol0 (lit " \t-0x1aF") = -431 ∧ strtol0 (lit "+017") = 15 ∧ strtol0 (lit "-99999999999999999999") = -(2 ^ 63) ∧ strtol0 (lit "99999999999999999999") = 2 ^ 63 - 1 := by decide +kernel

/-- C55: texts and numbers meeting the hypotheses, with negative numbers. -/
example : strtol0 (lit "-9223372036854775808") = -(2 ^ 63) ∧ strtol0 (lit "0x1aF") = 431 ∧ strtol0 (lit "017") = 15 ∧ strtol0 (lit "42") = 42 ∧
    (48 :: chr 'x' :: [(false, 1), (false, 10), (true, 15)].map hexChar) = lit "0x1aF" := by decide +kernel

/-! ### C56 -/

/-- The loop of `ConfigurationTable::getVectorOfStrings` (`Configuration.cpp:783-790`): skip spaces, cut a token with `strsep`; `fuel` is the length of the text. -/
def wordsLoop : Nat → Str → List Str
  | 0, _ => []
  | fuel + 1, lp =>
    match lp.dropWhile (· = 32) with
    | [] => []
    | c :: t =>
      match (c :: t).dropWhile (· ≠ 32) with
      | [] => [(c :: t).takeWhile (· ≠ 32)]
      | _ :: rest => (c :: t).takeWhile (· ≠ 32) :: wordsLoop fuel rest

/-- `ConfigurationTable::getVectorOfStrings` (`Configuration.cpp:765-793`) on the value found. -/
def vectorOfStrings (value : Str) : List Str := wordsLoop (cText value).length (cText value)

/-- The loop of `ConfigurationTable::getVector` (`Configuration.cpp:814-820`): the number is read from the rest of the text before the token is cut off. -/
def numsLoop : Nat → Str → List Int
  | 0, _ => []
  | fuel + 1, lp =>
    match lp.dropWhile (· = 32) with
    | [] => []
    | c :: t =>
      match (c :: t).dropWhile (· ≠ 32) with
      | [] => [uwrap32 (strtol0 (c :: t))]
      | _ :: rest => uwrap32 (strtol0 (c :: t)) :: numsLoop fuel rest

/-- `ConfigurationTable::getVector` (`Configuration.cpp:796-824`) on the value found. -/
def vectorOf (value : Str) : List Int := numsLoop (cText value).length (cText value)

theorem dropWhile_ne {s : Str} (c : Byte) {t : Str} (h : s.dropWhile (· = 32) = c :: t) : c ≠ 32 := by
  induction s with
  | nil => cases h
  | cons d s ih =>
    by_cases hd : d = 32
    · rw [List.dropWhile_cons_of_pos (by simpa using hd)] at h; exact ih h
    · rw [List.dropWhile_cons_of_neg (by simpa using hd)] at h; cases h; exact hd

theorem dropWhile_sep {s : Str} {c : Byte} {t : Str} (h : s.dropWhile (· ≠ 32) = c :: t) : c = 32 := by
  induction s with
  | nil => cases h
  | cons d s ih =>
    by_cases hd : d = 32
    · rw [List.dropWhile_cons_of_neg (by simpa using hd)] at h; cases h; exact hd
    · rw [List.dropWhile_cons_of_pos (by simpa using hd)] at h; exact ih h

theorem takeWhile_nosep (s : Str) : ∀ c ∈ s.takeWhile (· ≠ 32), decide (c = (32 : Byte)) = false := by
  intro c hc
  have := mem_takeWhile_imp hc
  simpa using this

/-- What one round of the loops sees. -/
theorem round (lp : Str) : (lp.dropWhile (· = 32) = [] ∧ words (· = 32) lp = []) ∨
    ∃ c t, lp.dropWhile (· = 32) = c :: t ∧ (c :: t).length ≤ lp.length ∧ c ≠ 32 ∧
      (((c :: t).dropWhile (· ≠ 32) = [] ∧ words (· = 32) lp = [c :: t] ∧ (c :: t).takeWhile (· ≠ 32) = c :: t) ∨
       ∃ rest, (c :: t).dropWhile (· ≠ 32) = 32 :: rest ∧ c :: t = (c :: t).takeWhile (· ≠ 32) ++ 32 :: rest ∧
        words (· = 32) lp = (c :: t).takeWhile (· ≠ 32) :: words (· = 32) rest) := by
  have hw : words (· = 32) lp = words (· = 32) (lp.dropWhile (· = 32)) := by
    conv => lhs; rw [← List.takeWhile_append_dropWhile (p := fun x : Byte => decide (x = 32)) (l := lp)]
    rw [words_sep]
    intro c hc
    exact mem_takeWhile_imp hc
  have hlen : (lp.dropWhile (fun x => decide (x = 32))).length ≤ lp.length := (List.dropWhile_suffix _).length_le
  cases h : lp.dropWhile (· = 32) with
  | nil => left; rw [hw, h]; exact ⟨rfl, words_nil _⟩
  | cons c t =>
    right
    have hc := dropWhile_ne c h
    rw [h] at hw hlen
    refine ⟨c, t, rfl, hlen, hc, ?_⟩
    have hsplit := List.takeWhile_append_dropWhile (p := fun x : Byte => decide (x ≠ 32)) (l := c :: t)
    have hne : (c :: t).takeWhile (fun x => decide (x ≠ 32)) ≠ [] := by
      rw [List.takeWhile_cons_of_pos (by simpa using hc)]; simp
    cases h2 : (c :: t).dropWhile (· ≠ 32) with
    | nil =>
      left
      rw [h2, List.append_nil] at hsplit
      refine ⟨rfl, ?_, hsplit⟩
      have := takeWhile_nosep (c :: t)
      rw [hsplit] at this
      rw [hw, words_last _ _ this (by simp)]
    | cons d rest =>
      right
      have hd := dropWhile_sep h2
      subst hd
      rw [h2] at hsplit
      refine ⟨rest, rfl, hsplit.symm, ?_⟩
      rw [hw]
      conv => lhs; rw [← hsplit]
      rw [words_cons _ _ _ _ (takeWhile_nosep _) hne (by simp)]

theorem wordsLoop_spec (fuel : Nat) (lp : Str) (h : lp.length ≤ fuel) : wordsLoop fuel lp = words (· = 32) lp := by
  induction fuel generalizing lp with
  | zero =>
    have : lp = [] := List.length_eq_zero_iff.1 (by omega)
    subst this
    rw [words_nil]; rfl
  | succ fuel ih =>
    unfold wordsLoop
    rcases round lp with ⟨h1, h2⟩ | ⟨c, t, h1, h2, -, ⟨h3, h4, h5⟩ | ⟨rest, h3, h4, h5⟩⟩
    · rw [h1, h2]
    · rw [h1, h4]
      simp only [h3, h5]
    · rw [h1, h5]
      simp only [h3]
      rw [ih rest]
      have := congrArg List.length h4
      simp only [List.length_append, List.length_cons] at this h2
      omega

/-- C56: `getVectorOfStrings` returns the words of the value, in order (`words` are the maximal runs without space, see C43_words_are_runs). -/
theorem C56_strings (value : Str) : vectorOfStrings value = words (· = 32) (cText value) := wordsLoop_spec _ _ (Nat.le_refl _)

/-- Reading a number stops at a space. -/
theorem strtol0_stop (w rest : Str) (h : ∃ c ∈ w, isSpace c = false) : strtol0 (w ++ 32 :: rest) = strtol0 w := by
  have stop : ∀ b, isDig b 32 = false := by
    intro b
    have : digitVal 32 = none := by decide
    unfold isDig; rw [this]
  have mag : ∀ t : Str, mag0 (t ++ 32 :: rest) = mag0 t := by
    intro t
    match t with
    | [] => rw [List.nil_append, mag0_nonzero (by decide)]; exact scanNat_stop (s := []) (stop 10)
    | c :: t =>
      by_cases hc : c = 48
      · subst hc
        match t with
        | [] =>
          have e1 : mag0 ([48] ++ 32 :: rest) = scanNat 8 ([48] ++ 32 :: rest) := by
            cases rest with
            | nil => rfl
            | cons r rest =>
              show mag0 (48 :: 32 :: r :: rest) = _
              rw [mag0_three, if_neg]
              · rfl
              · rintro ⟨h | h, -⟩ <;> exact absurd h (by decide)
          rw [e1, scanNat_stop (stop 8)]; rfl
        | [x] =>
          have e1 : mag0 ([48, x] ++ 32 :: rest) = scanNat 8 ([48, x] ++ 32 :: rest) := by
            show mag0 (48 :: x :: 32 :: rest) = _
            rw [mag0_three, if_neg]
            · rfl
            · intro h; have := h.2; rw [stop 16] at this; cases this
          rw [e1, scanNat_stop (stop 8)]; rfl
        | x :: d :: t =>
          show (if (x = chr 'x' ∨ x = chr 'X') ∧ isDig 16 d then scanNat 16 ((d :: t) ++ 32 :: rest) else scanNat 8 ((48 :: x :: d :: t) ++ 32 :: rest)) =
            (if (x = chr 'x' ∨ x = chr 'X') ∧ isDig 16 d then scanNat 16 (d :: t) else scanNat 8 (48 :: x :: d :: t))
          rw [scanNat_stop (stop 16), scanNat_stop (stop 8)]
      · rw [List.cons_append, mag0_nonzero hc, mag0_nonzero hc, ← List.cons_append, scanNat_stop (stop 10)]
  unfold strtol0
  congr 1
  have hd : ∀ w : Str, (∃ c ∈ w, isSpace c = false) → ∃ c t, w.dropWhile isSpace = c :: t ∧ (w ++ 32 :: rest).dropWhile isSpace = (c :: t) ++ 32 :: rest := by
    intro w
    induction w with
    | nil => rintro ⟨c, hc, -⟩; cases hc
    | cons c w ih =>
      rintro ⟨d, hd, hs⟩
      by_cases hc : isSpace c = true
      · rw [List.cons_append, List.dropWhile_cons_of_pos hc, List.dropWhile_cons_of_pos hc]
        apply ih
        rcases List.mem_cons.1 hd with rfl | hd
        · rw [hs] at hc; cases hc
        · exact ⟨d, hd, hs⟩
      · exact ⟨c, w, by rw [List.dropWhile_cons_of_neg hc], by rw [List.cons_append, List.dropWhile_cons_of_neg hc]⟩
  obtain ⟨c, t, h1, h2⟩ := hd w h
  rw [h1, h2]
  show signed mag0 (c :: (t ++ 32 :: rest)) = signed mag0 (c :: t)
  unfold signed
  simp only
  rw [mag t]
  have := mag (c :: t)
  rw [List.cons_append] at this
  rw [this]

theorem numsLoop_spec (fuel : Nat) (lp : Str) (h : lp.length ≤ fuel) (hw : ∀ w ∈ words (· = 32) lp, ∃ c ∈ w, isSpace c = false) :
    numsLoop fuel lp = (words (· = 32) lp).map fun w => uwrap32 (strtol0 w) := by
  induction fuel generalizing lp with
  | zero =>
    have : lp = [] := List.length_eq_zero_iff.1 (by omega)
    subst this
    rw [words_nil]; rfl
  | succ fuel ih =>
    unfold numsLoop
    rcases round lp with ⟨h1, h2⟩ | ⟨c, t, h1, h2, -, ⟨h3, h4, h5⟩ | ⟨rest, h3, h4, h5⟩⟩
    · rw [h1, h2]; rfl
    · rw [h1, h4]
      simp only [h3]
      rfl
    · rw [h1, h5]
      rw [h5] at hw
      simp only [h3]
      rw [List.map_cons, ih rest _ fun w hx => hw w (List.mem_cons_of_mem _ hx)]
      · congr 2
        conv => lhs; rw [h4]
        exact strtol0_stop _ _ (hw _ (List.mem_cons_self ..))
      · have := congrArg List.length h4
        simp only [List.length_append, List.length_cons] at this h2
        omega

/-- C56, partial: `getVector` returns the numbers of the words (modulo 2^32), in order, if no word consists of other white space only.  Missing: such words, see
`C56_tab_refuted`. -/
theorem C56_numbers_partial (value : Str) (hw : ∀ w ∈ words (· = 32) (cText value), ∃ c ∈ w, isSpace c = false) :
    vectorOf value = (words (· = 32) (cText value)).map fun w => uwrap32 (strtol0 w) := numsLoop_spec _ _ (Nat.le_refl _) hw

/-- C56 (negation): a tab between two spaces makes the number after it appear twice. -/
theorem C56_tab_refuted : vectorOf (lit "1 \t 5") = [1, 5, 5] ∧ vectorOfStrings (lit "1 \t 5") = [lit "1", lit "\t", lit "5"] := by decide +kernel

/-- C56: a value meeting the hypothesis. -/
example : (∀ w ∈ words (· = 32) (cText (lit "  10 0x20  -1 ")), ∃ c ∈ w, isSpace c = false) ∧ vectorOf (lit "  10 0x20  -1 ") = [10, 32, 4294967295] := by decide +kernel

end Verif.Config
