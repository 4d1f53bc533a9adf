import Verif.Config.Record
import Verif.Sockets.Props

/-
Property C157: what is read of a value that `isValidValue` accepted (`Configuration.cpp:361-638`, `59-93`, `727-765`, `Sockets.cpp:54-70`).
-/

namespace Verif.Config.Checked
open Verif Verif.Config Verif.Config.Spec Verif.Sockets

/-! ### Model -/

/-- `ConfigurationTable::getFloat` (`Configuration.cpp:753-763`) with `ConfigurationRecord::floatNumber` (`77-93`).  Whether the record has warned does not matter (C115). -/
def getFloat (other : Str → Option ℚ × Str) (s : Table) (k : Str) : Table × Option (Option ℚ) := ((lookup s k).1, (lookup s k).2.map fun v => (floatNumber other ⟨v, false⟩).2.1)

/-! ### Specification -/

/-- White space, a sign or none, and a zero followed by another digit. -/
def LeadingZero (s : Str) : Prop :=
  ∃ sp sg d t, (∀ c ∈ sp, isSpace c = true) ∧ (sg = [] ∨ sg = [chr '-'] ∨ sg = [chr '+']) ∧ Dec d ∧ s = sp ++ (sg ++ chr '0' :: d :: t)

/-- The table after a history, `set(k,v)` and some time. -/
def after (db : Db) (schema : Str → Option Key) (last now : Int) (ops : List Op) (k v : Str) (t : Int) : Table := run (fresh db schema last now) (ops ++ [.set k v, .tick t])

/-! ### Lemmas -/

theorem after_lookup (db : Db) (schema : Str → Option Key) (last now t : Int) (ops : List Op) (k v : Str) (hs : CleanSchema schema) (hc : ∀ op ∈ ops, CleanOp schema op) (hk : CleanKey k)
    (hv : CleanValue v) : (lookup (after db schema last now ops k v t) k).2 = some v := by
  have h := C53_getStr_partial db schema last now (ops ++ [.set k v, .tick t]) k hs (by
    intro op h
    rcases List.mem_append.1 h with h | h
    · exact hc op h
    · simp only [List.mem_cons, List.not_mem_nil, or_false] at h
      rcases h with rfl | rfl
      · exact ⟨hk, hv⟩
      · trivial) hk
  have e : idealRun (contents db) (ops ++ [.set k v, .tick t]) k = some v := by
    unfold idealRun
    rw [List.foldl_append]
    simp [ideal]
  unfold getStr at h
  unfold after
  rw [h]
  unfold answer
  rw [e]
  rfl

theorem scan_zero {b : Nat} (hb : 2 ≤ b) (hb2 : b ≤ 16) (t : Str) (h : ∀ d u, t = d :: u → isDig b d = false) : scanNat b (48 :: t) = 0 := by
  have h48 : isDig b 48 = true := by
    have key : ∀ b, b ≤ 16 → 2 ≤ b → isDig b 48 = true := by decide
    exact key b hb2 hb
  have e0 : scanNat b [48] = 0 := by
    have key : ∀ b, b ≤ 16 → 2 ≤ b → scanNat b [48] = 0 := by decide
    exact key b hb2 hb
  cases t with
  | nil => exact e0
  | cons d u =>
    have := scanNat_stop (s := [48]) (t := u) (h d u rfl)
    rw [List.cons_append, List.nil_append] at this
    rw [this, e0]

/-- Without a leading zero base 0 is base 10. -/
theorem mag0_ten (s : Str) (h : ∀ d t, s = 48 :: d :: t → isDig 10 d = false ∧ d ≠ chr 'x' ∧ d ≠ chr 'X') : mag0 s = scanNat 10 s := by
  have d8 : ∀ c : Byte, isDig 10 c = false → isDig 8 c = false := by
    intro c hc
    by_contra h8
    rw [Bool.not_eq_false, isDig8_iff] at h8
    have : isDig 10 c = true := (isDig10_iff c).2 ⟨h8.1, by omega⟩
    rw [this] at hc
    cases hc
  match s, h with
  | [], _ => rfl
  | c :: t, h =>
    by_cases hc : c = 48
    · subst hc
      have h10 : scanNat 10 (48 :: t) = 0 := scan_zero (by omega) (by omega) t fun d u e => (h d u (by rw [e])).1
      have h8 : scanNat 8 (48 :: t) = 0 := scan_zero (by omega) (by omega) t fun d u e => d8 d (h d u (by rw [e])).1
      rw [h10]
      match t, h, h8 with
      | [], _, h8 => exact h8
      | [d], _, h8 => exact h8
      | x :: d :: t, h, h8 =>
        obtain ⟨-, h2, h3⟩ := h x (d :: t) rfl
        rw [mag0_three, if_neg (by simp [h2, h3]), h8]
    · exact mag0_nonzero hc

theorem signed_ten (s : Str) (h : ∀ d t, (splitSign s).2 = 48 :: d :: t → isDig 10 d = false ∧ d ≠ chr 'x' ∧ d ≠ chr 'X') : signed mag0 s = signed (scanNat 10) s := by
  match s, h with
  | [], _ => rfl
  | c :: t, h =>
    simp only [signed]
    simp only [splitSign] at h
    split_ifs with h1 h2
    · rw [if_pos h1] at h; rw [mag0_ten t h]
    · rw [if_neg h1, if_pos h2] at h; rw [mag0_ten t h]
    · rw [if_neg h1, if_neg h2] at h; rw [mag0_ten _ h]

theorem splitSign_parts (s : Str) : ∃ sg, (sg = [] ∨ sg = [chr '-'] ∨ sg = [chr '+']) ∧ s = sg ++ (splitSign s).2 := by
  match s with
  | [] => exact ⟨[], Or.inl rfl, rfl⟩
  | c :: t =>
    simp only [splitSign]
    split_ifs with h1 h2
    · exact ⟨[chr '-'], Or.inr (Or.inl rfl), by rw [h1]; rfl⟩
    · exact ⟨[chr '+'], Or.inr (Or.inr rfl), by rw [h2]; rfl⟩
    · exact ⟨[], Or.inl rfl, rfl⟩

theorem not_leading {s : Str} (hz : ¬ LeadingZero s) {d : Byte} {t : Str} (h : (splitSign (s.dropWhile isSpace)).2 = 48 :: d :: t) : isDig 10 d = false := by
  by_contra hd
  rw [Bool.not_eq_false, isDig10_iff] at hd
  obtain ⟨sg, h1, h2⟩ := splitSign_parts (s.dropWhile isSpace)
  apply hz
  refine ⟨s.takeWhile isSpace, sg, d, t, fun c hc => List.mem_takeWhile_imp hc, h1, hd, ?_⟩
  rw [h] at h2
  show s = s.takeWhile isSpace ++ (sg ++ 48 :: d :: t)
  rw [← h2, List.takeWhile_append_dropWhile]

theorem clamp_inside {lo hi x n : Int} (h : clamp lo hi x = n) (h1 : lo < n) (h2 : n < hi) : x = n := by
  unfold clamp at h
  split_ifs at h <;> omega

theorem readInt_signed_eq {s : Str} {n : Int} (h : readInt s = some n) (h1 : -(2 ^ 31) < n) (h2 : n < 2 ^ 31 - 1) : signed (scanNat 10) (s.dropWhile isSpace) = n := by
  unfold readInt at h
  split at h
  · cases h
  · rename_i c t e
    rw [e]
    exact clamp_inside (Option.some.inj h) h1 h2

/-- The number read is the number checked. -/
theorem strtol0_readInt {s : Str} {n : Int} (h : readInt s = some n) (h1 : -(2 ^ 31) < n) (h2 : n < 2 ^ 31 - 1) (hz : ¬ LeadingZero s)
    (hx : ∀ d t, (splitSign (s.dropWhile isSpace)).2 = 48 :: d :: t → d ≠ chr 'x' ∧ d ≠ chr 'X') : strtol0 s = n := by
  unfold strtol0
  rw [signed_ten _ fun d t e => ⟨not_leading hz e, hx d t e⟩, readInt_signed_eq h h1 h2, clamp_of_mem (by omega) (by omega)]

theorem atol_readInt {s : Str} {n : Int} (h : readInt s = some n) (h1 : -(2 ^ 31) < n) (h2 : n < 2 ^ 31 - 1) : atol s = n := by
  unfold atol
  rw [readInt_signed_eq h h1 h2, clamp_of_mem (by omega) (by omega)]

theorem signed_scan {s : Str} {v : Int} (h : Signed s v) : signed (scanNat 10) (s.dropWhile isSpace) = v := by
  rcases h with ⟨n, h, rfl⟩ | ⟨n, t, rfl, h, rfl⟩
  · obtain ⟨c, t, rfl, h1, h2, h3⟩ := decimal_cons h
    rw [dropWhile_cons h1, signed_plain h2 h3, scanNat_decimal h]
  · rw [dropWhile_cons (by decide)]
    simp only [signed, if_pos]
    rw [scanNat_decimal h]

theorem split_tail (s : Str) : ∀ c ∈ (splitSign (s.dropWhile isSpace)).2, c ∈ s := by
  intro c hc
  obtain ⟨sg, -, h2⟩ := splitSign_parts (s.dropWhile isSpace)
  have : c ∈ s.dropWhile isSpace := by rw [h2]; exact List.mem_append_right _ hc
  exact (List.dropWhile_suffix _).subset this

/-! ### C157 -/

/-- C157: a value accepted for a BOOLEAN key reads as what it says, at any later time. -/
theorem C157_boolean_partial (w : Nat) (vv v : Str) (h : isValidValue w .boolean vv v = .ok true) (db : Db) (schema : Str → Option Key) (last now t : Int) (ops : List Op) (k : Str)
    (hs : CleanSchema schema) (hc : ∀ op ∈ ops, CleanOp schema op) (hk : CleanKey k) :
    (v = lit "0" ∧ (getBool (after db schema last now ops k v t) k).2 = some false) ∨ (v = lit "1" ∧ (getBool (after db schema last now ops k v t) k).2 = some true) := by
  rcases (C57_boolean w vv v).1 h with rfl | rfl
  · left
    refine ⟨rfl, ?_⟩
    unfold getBool getNum
    rw [after_lookup db schema last now t ops k _ hs hc hk (by decide)]
    rfl
  · right
    refine ⟨rfl, ?_⟩
    unfold getBool getNum
    rw [after_lookup db schema last now t ops k _ hs hc hk (by decide)]
    rfl

/-- C157, partial (missing: a leading zero, C157_octal_refuted, and limits at the ends of `int`, C157_overflow_refuted): a value accepted for a VALRANGE key, whatever else it looks like, is read by `getNum` as a number within
the range, at any later time; if it is a number, as that number. -/
theorem C157_range_partial (w : Nat) (hw : Width w) (lo hi v : Str) (step : Option Str) (a b : Int) (hlo : Signed lo a) (hhi : Signed hi b) (ha : -(2 ^ 31) < a ∧ a < 2 ^ 31 - 1)
    (hb : -(2 ^ 31) < b ∧ b < 2 ^ 31 - 1) (hl : (lo ++ hi).length < 2 ^ 30) (h0 : (0 : Byte) ∉ v) (h : isValidValue w .valRange (range lo hi step) v = .ok true) (hz : ¬ LeadingZero v)
    (db : Db) (schema : Str → Option Key) (last now t : Int) (ops : List Op) (k : Str) (hs : CleanSchema schema) (hc : ∀ op ∈ ops, CleanOp schema op) (hk : CleanKey k) :
    ∃ n, (getNum (after db schema last now ops k v t) k).2 = some n ∧ a ≤ n ∧ n ≤ b ∧ ∀ m, Signed v m → n = m := by
  have h : validRange w (range lo hi step) v = .ok true := h
  unfold validRange at h
  split_ifs at h with hm
  swap
  · cases h
  rw [minMax_range hw hlo hhi step hl, readInt_signed hlo, readInt_signed hhi, clamp_of_mem (by omega) (by omega), clamp_of_mem (by omega) (by omega)] at h
  have hch : ∀ c ∈ v, isDigit c = true ∨ c = chr '-' := by
    unfold matchInt at hm
    rw [cText_self h0] at hm
    simp only [Bool.and_eq_true, List.all_eq_true, Bool.or_eq_true, beq_iff_eq] at hm
    exact hm.2
  cases hr : readInt v with
  | none => rw [hr] at h; cases h
  | some n =>
    rw [hr] at h
    simp only [Outcome.ok.injEq, Bool.and_eq_true, decide_eq_true_eq] at h
    have hn := strtol0_readInt hr (by omega) (by omega) hz (by
      intro d t e
      have hd : d ∈ v := split_tail v d (by rw [e]; simp)
      rcases hch d hd with hd | rfl
      · constructor
        · rintro rfl; exact absurd hd (by decide)
        · rintro rfl; exact absurd hd (by decide)
      · decide)
    refine ⟨n, ?_, h.1.2, h.2, ?_⟩
    · unfold getNum
      rw [after_lookup db schema last now t ops k v hs hc hk ⟨?_, h0⟩]
      · simp [hn]
      · intro hq
        rcases hch _ hq with h | h
        · exact absurd h (by decide)
        · exact absurd h (by decide)
    · intro m hm
      have := signed_scan hm
      rw [readInt_signed_eq hr (by omega) (by omega)] at this
      exact this

/-- C157, partial (missing: a leading zero, C157_octal_refuted): a value accepted for a PORT key is read by `getNum` as a port. -/
theorem C157_port_partial (w : Nat) (vv v : Str) (hv : CleanValue v) (h : isValidValue w .port vv v = .ok true) (hz : ¬ LeadingZero v)
    (db : Db) (schema : Str → Option Key) (last now t : Int) (ops : List Op) (k : Str) (hs : CleanSchema schema) (hc : ∀ op ∈ ops, CleanOp schema op) (hk : CleanKey k) :
    ∃ n, (getNum (after db schema last now ops k v t) k).2 = some n ∧ 1 ≤ n ∧ n ≤ 65535 := by
  have h : validPort v = .ok true := h
  unfold validPort at h
  cases hr : readInt v with
  | none => rw [hr] at h; cases h
  | some n =>
    rw [hr] at h
    simp only [Outcome.ok.injEq, Bool.and_eq_true, decide_eq_true_eq] at h
    have hn := strtol0_readInt hr (by omega) (by omega) hz (by
      intro d t e
      have hs := readInt_signed_eq hr (by omega) (by omega)
      have hd := not_leading hz e
      exfalso
      have e0 : scanNat 10 (48 :: d :: t) = 0 := scan_zero (by omega) (by omega) _ fun d' u e' => by
        obtain ⟨rfl, rfl⟩ := List.cons.inj e'
        exact hd
      match he : v.dropWhile isSpace with
      | [] => rw [he] at e; cases e
      | c :: u =>
        rw [he] at hs e
        simp only [signed] at hs
        simp only [splitSign] at e
        split_ifs at hs e with h1 h2
        · simp only at e; rw [e, e0] at hs; omega
        · simp only at e; rw [e, e0] at hs; omega
        · simp only at e; rw [e, e0] at hs; omega)
    refine ⟨n, ?_, h.1, h.2⟩
    unfold getNum
    rw [after_lookup db schema last now t ops k v hs hc hk hv]
    simp [hn]

theorem matchDec_chars {v : Str} (h0 : (0 : Byte) ∉ v) (h : matchDec v = true) : v ≠ [] ∧ ∀ c ∈ v, isDigit c = true ∨ c = chr '.' ∨ c = chr '-' := by
  unfold matchDec at h
  rw [cText_self h0] at h
  simp only [Bool.and_eq_true, List.all_eq_true, Bool.or_eq_true, beq_iff_eq, Bool.not_eq_true', List.isEmpty_eq_false_iff] at h
  exact ⟨h.1, fun c hc => by rcases h.2 c hc with (h | h) | h <;> simp [h]⟩

theorem plain_chars {c : Byte} (h : isDigit c = true ∨ c = chr '.' ∨ c = chr '-') :
    isSpace c = false ∧ c ≠ chr '+' ∧ c ≠ chr 'e' ∧ c ≠ chr 'E' ∧ special.lowerByte c ≠ chr 'x' ∧ special.lowerByte c ≠ chr 'i' ∧ special.lowerByte c ≠ chr 'n' := by
  have key : ∀ n, n < 256 → isDigit (BitVec.ofNat 8 n) = true → isSpace (BitVec.ofNat 8 n) = false ∧ BitVec.ofNat 8 n ≠ chr '+' ∧ BitVec.ofNat 8 n ≠ chr 'e' ∧ BitVec.ofNat 8 n ≠ chr 'E' ∧
      special.lowerByte (BitVec.ofNat 8 n) ≠ chr 'x' ∧ special.lowerByte (BitVec.ofNat 8 n) ≠ chr 'i' ∧ special.lowerByte (BitVec.ofNat 8 n) ≠ chr 'n' := by decide +kernel
  rcases h with h | rfl | rfl
  · have := key c.toNat c.isLt
    rw [ofNat_self] at this
    exact this h
  · decide
  · decide

theorem plain_special {m : Str} (hch : ∀ c ∈ m, isDigit c = true ∨ c = chr '.' ∨ c = chr '-') : special m = false := by
  by_contra h
  rw [Bool.not_eq_false] at h
  unfold special at h
  rw [List.any_eq_true] at h
  obtain ⟨p, hp, h⟩ := h
  rw [beq_iff_eq] at h
  have hsub : ∀ x ∈ p, ∃ c ∈ m, special.lowerByte c = x := by
    intro x hx
    rw [← h] at hx
    obtain ⟨c, hc, e⟩ := List.mem_map.1 (List.mem_of_mem_take hx)
    exact ⟨c, hc, e⟩
  simp only [List.mem_cons, List.not_mem_nil, or_false] at hp
  rcases hp with rfl | rfl | rfl
  · obtain ⟨c, hc, e⟩ := hsub (chr 'x') (by decide)
    exact (plain_chars (hch c hc)).2.2.2.2.1 e
  · obtain ⟨c, hc, e⟩ := hsub (chr 'i') (by decide)
    exact (plain_chars (hch c hc)).2.2.2.2.2.1 e
  · obtain ⟨c, hc, e⟩ := hsub (chr 'n') (by decide)
    exact (plain_chars (hch c hc)).2.2.2.2.2.2 e

theorem fracRest_mem {m : Str} : ∀ c ∈ fracRest m, c ∈ m := by
  intro c hc
  match m, hc with
  | [], hc => cases hc
  | d :: t, hc =>
    simp only [fracRest] at hc
    split_ifs at hc
    · exact List.mem_cons_of_mem _ ((List.dropWhile_suffix _).subset hc)
    · exact hc

theorem plain_exponent {m : Str} (hch : ∀ c ∈ m, isDigit c = true ∨ c = chr '.' ∨ c = chr '-') : (exponent m).1 = 0 := by
  match m, hch with
  | [], _ => rfl
  | c :: t, hch =>
    have h := plain_chars (hch c (by simp))
    simp only [exponent]
    rw [if_neg (by simp [h.2.2.1, h.2.2.2.1])]

theorem plain_core (other : Str → Option ℚ × Str) (s m : Str) (b : Bool) (hch : ∀ c ∈ m, isDigit c = true ∨ c = chr '.' ∨ c = chr '-') :
    (if special m then other s else if m.takeWhile isDigit ++ fracDigits (m.dropWhile isDigit) = [] then (some 0, s)
      else (some (fl ((if b then -1 else 1) * (decMag m * 10 ^ (exponent (fracRest (m.dropWhile isDigit))).1))), (exponent (fracRest (m.dropWhile isDigit))).2)).1 =
    some (fl ((if b then -1 else 1) * decMag m)) := by
  rw [plain_special hch, if_neg (by simp)]
  by_cases h : m.takeWhile isDigit ++ fracDigits (m.dropWhile isDigit) = []
  · rw [if_pos h]
    have : decMag m = 0 := by
      unfold decMag
      rw [h]
      have : scanNat 10 [] = 0 := rfl
      rw [this]
      simp
    rw [this, mul_zero]
    simp [fl]
  · rw [if_neg h, plain_exponent (m := fracRest (m.dropWhile isDigit)) fun c hc => hch c ((List.dropWhile_suffix _).subset (fracRest_mem c hc))]
    simp

/-- `strtof` and the stream read the same number of a text of digits, points and minus signs. -/
theorem strtof_stream (other : Str → Option ℚ × Str) (v : Str) (hne : v ≠ []) (hch : ∀ c ∈ v, isDigit c = true ∨ c = chr '.' ∨ c = chr '-') : readFloat v = (strtof other v).1 := by
  obtain ⟨c, t, rfl⟩ := List.exists_cons_of_ne_nil hne
  have hp := plain_chars (hch c (by simp))
  have hsp : (c :: t).dropWhile isSpace = c :: t := dropWhile_cons hp.1
  have hm : ∀ x ∈ (splitSign (c :: t)).2, isDigit x = true ∨ x = chr '.' ∨ x = chr '-' := by
    intro x hx
    have := split_tail (c :: t) x (by rw [hsp]; exact hx)
    exact hch x this
  have hs : (strtof other (c :: t)).1 = some (fl ((if (splitSign (c :: t)).1 then -1 else 1) * decMag (splitSign (c :: t)).2)) := by
    rw [← plain_core other (c :: t) _ _ hm]
    unfold strtof
    rw [hsp]
  rw [hs]
  unfold readFloat
  rw [hsp]
  simp only [splitSign]
  by_cases h1 : c = chr '-'
  · simp [h1]
  · simp [h1, hp.2.1]

/-- C157, partial (missing: as C53): a value accepted for a VALRANGE key with a decimal point in its range, whatever else it looks like, is read by `getFloat` as a `float` between the `float`s nearest to the limits. -/
theorem C157_float_partial (w : Nat) (hw : Width w) (lo hi v : Str) (step : Option Str) (a b : ℚ) (hlo : SignedPoint lo a) (hhi : SignedPoint hi b) (hdot : chr '.' ∈ range lo hi step)
    (hl : (lo ++ hi).length < 2 ^ 30) (h0 : (0 : Byte) ∉ v) (h : validAnyRange w (range lo hi step) v = .ok true) (other : Str → Option ℚ × Str)
    (db : Db) (schema : Str → Option Key) (last now t : Int) (ops : List Op) (k : Str) (hs : CleanSchema schema) (hc : ∀ op ∈ ops, CleanOp schema op) (hk : CleanKey k) :
    ∃ x, (getFloat other (after db schema last now ops k v t) k).2 = some (some x) ∧ fl a ≤ x ∧ x ≤ fl b ∧ ∀ y, SignedPoint v y → x = fl y := by
  unfold validAnyRange at h
  have hs' : (findFrom (range lo hi step) (chr '.') 0).isSome = true := by
    unfold findFrom
    simpa using hdot
  rw [if_pos hs'] at h
  unfold validFloatRange at h
  split_ifs at h with hm
  swap
  · cases h
  obtain ⟨hne, hch⟩ := matchDec_chars h0 hm
  rw [minMax_parts hw (fun _ h1 h2 h3 => signedPoint_no hlo h1 h2 h3) (fun _ h1 h2 h3 => signedPoint_no hhi h1 h2 h3) step hl, readFloat_point hlo, readFloat_point hhi] at h
  cases hr : readFloat v with
  | none => rw [hr] at h; cases h
  | some x =>
    rw [hr] at h
    simp only [Outcome.ok.injEq, Bool.and_eq_true, decide_eq_true_eq] at h
    refine ⟨x, ?_, h.1, h.2, fun y hy => ?_⟩
    · unfold getFloat
      rw [after_lookup db schema last now t ops k v hs hc hk ⟨?_, h0⟩]
      · simp only [Option.map_some]
        unfold floatNumber
        rw [convert_same (strtof other) (some 0) rfl, cText_self h0, ← strtof_stream other v hne hch, hr]
      · intro hq
        rcases hch _ hq with h | h | h <;> exact absurd h (by decide)
    · have := readFloat_point hy
      rw [hr] at this
      exact Option.some.inj this

/-- C157, partial (missing: values without a colon, C157_colon_refuted): a value accepted for an IPANDPORT or HOSTANDPORT key resolves, if its host does, to the address of the text before the colon and the port after it. -/
theorem C157_address_partial (w : Nat) (hw : Width w) (vv host rest : Str) (hcol : chr ':' ∉ host) (hl : (host ++ chr ':' :: rest).length < 2 ^ 31) (h0 : (0 : Byte) ∉ host)
    (h : isValidValue w .ipAndPort vv (host ++ chr ':' :: rest) = .ok true ∨ isValidValue w .hostAndPort vv (host ++ chr ':' :: rest) = .ok true) (resolver : Str → Option Sockets.Host) :
    Spec.Host host ∧ ∃ p : Nat, 1 ≤ p ∧ p ≤ 65535 ∧ (∀ n, Decimal rest n → p = n) ∧
      resolveAddress resolver (host ++ chr ':' :: rest) = match resolver host with
        | some a => if a.family = 2 then some { family := 2, ip := a.addr, port := p } else none
        | none => none := by
  have key : Spec.Host host ∧ 1 ≤ (readInt rest).getD (-1) ∧ (readInt rest).getD (-1) ≤ 65535 := by
    rcases h with h | h
    · have h : Outcome.ok (validIpPort w (host ++ chr ':' :: rest)) = Outcome.ok true := h
      rw [Outcome.ok.injEq, validIpPort, twoParts_split hw hcol hl] at h
      simp only [Bool.and_eq_true, decide_eq_true_eq, isValidIP_iff, cText_self h0] at h
      exact ⟨quad_host h.1.1, h.1.2, h.2⟩
    · have h : Outcome.ok (validHostPort w (host ++ chr ':' :: rest)) = Outcome.ok true := h
      rw [Outcome.ok.injEq, validHostPort, twoParts_split hw hcol hl] at h
      simp only [Bool.and_eq_true, Bool.or_eq_true, decide_eq_true_eq, isValidIP_iff, matchHost_iff, cText_self h0] at h
      exact ⟨h.1.1.elim quad_host id, h.1.2, h.2⟩
  obtain ⟨k1, k2, k3⟩ := key
  refine ⟨k1, ?_⟩
  cases hr : readInt rest with
  | none => rw [hr] at k2; simp at k2
  | some n =>
    rw [hr, Option.getD_some] at k2 k3
    refine ⟨n.toNat, by omega, by omega, ?_, ?_⟩
    · intro m hm
      rw [readInt_decimal hm, Option.some.injEq] at hr
      omega
    · rw [C73_exact _ _ _ hcol, atol_readInt hr (by omega) (by omega)]
      have : (n % 2 ^ 16).toNat = n.toNat := by omega
      rw [this]
      unfold resolveHost
      cases resolver host with
      | none => rfl
      | some a =>
        by_cases hf : a.family = 2
        · simp [hf, AF_INET]
        · simp [hf, AF_INET]

/-- C157, refuted for a leading zero: accepted as a decimal number, read as an octal one, which may be out of the range and no port. -/
theorem C157_octal_refuted : isValidValue 64 .valRange (range (lit "10") (lit "20") none) (lit "010") = .ok true ∧ isValidValue 64 .port [] (lit "08") = .ok true ∧
    ∀ (db : Db) (schema : Str → Option Key) (last now t : Int) (ops : List Op) (k : Str), CleanSchema schema → (∀ op ∈ ops, CleanOp schema op) → CleanKey k →
      (getNum (after db schema last now ops k (lit "010") t) k).2 = some 8 ∧ (getNum (after db schema last now ops k (lit "08") t) k).2 = some 0 := by
  refine ⟨by decide +kernel, by decide +kernel, fun db schema last now t ops k hs hc hk => ⟨?_, ?_⟩⟩
  · unfold getNum
    rw [after_lookup db schema last now t ops k _ hs hc hk (by decide)]
    rfl
  · unfold getNum
    rw [after_lookup db schema last now t ops k _ hs hc hk (by decide)]
    rfl

/-- C157, refuted for limits at the ends of `int`: 99999999999 is accepted as at most 2147483647, and read as it is. -/
theorem C157_overflow_refuted : isValidValue 64 .valRange (range (lit "0") (lit "2147483647") none) (lit "99999999999") = .ok true ∧
    ∀ (db : Db) (schema : Str → Option Key) (last now t : Int) (ops : List Op) (k : Str), CleanSchema schema → (∀ op ∈ ops, CleanOp schema op) → CleanKey k →
      (getNum (after db schema last now ops k (lit "99999999999") t) k).2 = some 99999999999 := by
  refine ⟨by decide +kernel, fun db schema last now t ops k hs hc hk => ?_⟩
  unfold getNum
  rw [after_lookup db schema last now t ops k _ hs hc hk (by decide)]
  rfl

/-- C157, refuted for addresses without colon: accepted on 64 bits, but they do not resolve. -/
theorem C157_colon_refuted (resolver : Str → Option Sockets.Host) : isValidValue 64 .ipAndPort [] (lit "10.0.0.1") = .ok true ∧ isValidValue 64 .hostAndPort [] (lit "10.0.0.1") = .ok true ∧
    resolveAddress resolver (lit "10.0.0.1") = none := ⟨by decide +kernel, by decide +kernel, (C73_no_colon resolver _ (by decide)).1⟩

/-- C157: a value that is no number but accepted: the part read is in the range. -/
example : isValidValue 64 .valRange (range (lit "1") (lit "10") none) (lit "5-3") = .ok true ∧ ¬ LeadingZero (lit "5-3") ∧ strtol0 (lit "5-3") = 5 := by
  refine ⟨by decide +kernel, ?_, by decide +kernel⟩
  rintro ⟨sp, sg, d, t, h1, h2, -, h⟩
  match sp, h1, h with
  | c :: sp, h1, h =>
    have := h1 c (by simp)
    have e : lit "5-3" = chr '5' :: lit "-3" := rfl
    rw [e] at h
    obtain ⟨rfl, -⟩ := List.cons.inj h
    exact absurd this (by decide)
  | [], _, h => rcases h2 with rfl | rfl | rfl <;> exact absurd (Option.some.inj (congrArg List.head? h)) (by decide)

/-- C157: an address meeting the hypotheses. -/
example : isValidValue 64 .ipAndPort [] (lit "127.0.0.1" ++ chr ':' :: lit "05060") = .ok true ∧
    resolveAddress (fun _ => some ⟨2, 1⟩) (lit "127.0.0.1" ++ chr ':' :: lit "05060") = some { family := 2, ip := 1, port := 5060 } := by decide +kernel

/-- C157: a clean key and an empty history. -/
example : CleanKey (lit "GSM.Radio.C0") ∧ CleanSchema (fun _ => none) ∧ isValidValue 64 .valRange (lit "-5:100(5)") (lit "-5") = .ok true ∧
    (getNum (after [] (fun _ => none) 0 0 [] (lit "GSM.Radio.C0") (lit "-5") 7) (lit "GSM.Radio.C0")).2 = some (-5) := by
  refine ⟨by decide, (fun _ _ h => (nomatch h)), by decide +kernel, by decide +kernel⟩

end Verif.Config.Checked
