import Verif.Config.ValidLemmas

/-
C57-C60: what `isValidValue` accepts.  `w` is the width of `size_t`; the code is the same on 32 and 64 bits but behaves differently (C58, C59).
-/

namespace Verif.Config
open Spec

/-! ### C57 -/

/-- C57: boolean keys. -/
theorem C57_boolean (w : Nat) (vv val : Str) : isValidValue w .boolean vv val = .ok true ↔ val = lit "0" ∨ val = lit "1" := by
  show Outcome.ok _ = Outcome.ok true ↔ _
  rw [Outcome.ok.injEq]
  simp [or_comm]

/-- C57 (partial: missing are values containing a NUL character, see C57_nul_refuted): IP address keys. -/
theorem C57_ip_partial (w : Nat) (vv val : Str) (h0 : (0 : Byte) ∉ val) : isValidValue w .ipAddress vv val = .ok true ↔ Quad val := by
  show Outcome.ok _ = Outcome.ok true ↔ _
  rw [Outcome.ok.injEq, isValidIP_iff, cText_self h0]

/-- Every dotted quad is accepted, without a condition. -/
theorem C57_ip_complete (w : Nat) (vv val : Str) (h : Quad val) : isValidValue w .ipAddress vv val = .ok true :=
  (C57_ip_partial w vv val (quad_nul h)).2 h

theorem matchPath_iff (val : Str) : matchPath val = true ↔ Path (cText val) := by
  unfold matchPath Path Over
  have k : ∀ c : Byte, (isAlnum c || c == chr '/' || c == chr '_' || c == chr '.' || c == chr '-') = true ↔ (isAlnum c = true ∨ c ∈ lit "/_.-") := by
    intro c
    have : lit "/_.-" = [chr '/', chr '_', chr '.', chr '-'] := by decide
    rw [this]
    simp [or_assoc]
  simp only [Bool.and_eq_true, List.all_eq_true, k, Bool.not_eq_true', List.isEmpty_eq_false_iff]

theorem matchHost_iff (val : Str) : matchHost val = true ↔ Host (cText val) := by
  unfold matchHost Host Over
  have k : ∀ c : Byte, (isAlnum c || c == chr '_' || c == chr '.' || c == chr '-') = true ↔ (isAlnum c = true ∨ c ∈ lit "_.-") := by
    intro c
    have : lit "_.-" = [chr '_', chr '.', chr '-'] := by decide
    rw [this]
    simp [or_assoc]
  simp only [Bool.and_eq_true, List.all_eq_true, k, Bool.not_eq_true', List.isEmpty_eq_false_iff]

/-- C57 (partial: missing are values containing a NUL character): file path keys. -/
theorem C57_path_partial (w : Nat) (vv val : Str) (h0 : (0 : Byte) ∉ val) : isValidValue w .filepath vv val = .ok true ↔ Path val := by
  show Outcome.ok _ = Outcome.ok true ↔ _
  rw [Outcome.ok.injEq, matchPath_iff, cText_self h0]

/-- C57 (partial: missing are values that are not decimal numbers, see C57_garbage_refuted and C57_empty_refuted): port keys accept a decimal number of any length exactly
when it is between 1 and 65535. -/
theorem C57_port_partial (w : Nat) (vv val : Str) (n : Nat) (h : Decimal val n) : isValidValue w .port vv val = .ok (decide (1 ≤ n ∧ n ≤ 65535)) := by
  show validPort val = _
  unfold validPort
  rw [readInt_decimal h]
  simp only [Outcome.ok.injEq]
  rw [← Bool.decide_and]
  refine decide_eq_decide.2 ?_
  omega

/-- C57: the optional types accept the empty value and otherwise what the required type accepts. -/
theorem C57_optional (w : Nat) (vv val : Str) : ∀ p ∈ [(KType.filepathOpt, KType.filepath), (.ipAddressOpt, .ipAddress), (.portOpt, .port), (.choiceOpt, .choice), (.cidrOpt, .cidr),
    (.hostAndPortOpt, .hostAndPort)], isValidValue w p.1 vv val = if val = [] then .ok true else isValidValue w p.2 vv val := by
  intro p hp
  simp only [List.mem_cons, List.not_mem_nil, or_false] at hp
  cases val <;> rcases hp with rfl | rfl | rfl | rfl | rfl | rfl <;> simp [isValidValue]

/-- C57 (negation): port keys accept a number followed by garbage. -/
theorem C57_garbage_refuted : isValidValue 64 .port [] (lit "80abc") = .ok true ∧ isValidValue 64 .port [] (lit "  80") = .ok true ∧ ¬ ∃ n, Decimal (lit "80abc") n := by
  refine ⟨by decide +kernel, by decide +kernel, ?_⟩
  rintro ⟨n, h⟩
  exact absurd (decimal_chars h (chr 'a') (by decide)) (by decide)

/-- C57 (negation): for the empty or blank value a port key reads a variable that was never set. -/
theorem C57_empty_refuted : isValidValue 64 .port [] [] = .ub ∧ isValidValue 64 .port [] (lit " ") = .ub ∧ isValidValue 64 .portOpt [] (lit " ") = .ub := by decide +kernel

/-- C57 (negation): text behind a NUL character is not looked at. -/
theorem C57_nul_refuted : isValidValue 64 .ipAddress [] (lit "1.2.3.4" ++ 0 :: lit "x") = .ok true ∧ isValidValue 64 .filepath [] (lit "a" ++ 0 :: lit "*") = .ok true := by decide +kernel

/-- C57: legal values. -/
example : Quad (lit "192.168.0.1") ∧ Path (lit "/etc/OpenBTS/OpenBTS.db") ∧ Decimal (lit "0080") 80 := by
  refine ⟨⟨192, 168, 0, 1, lit "192", lit "168", lit "0", lit "1", by omega, by omega, by omega, by omega, ⟨[1, 9, 2], ?_⟩, ⟨[1, 6, 8], ?_⟩, ⟨[0], ?_⟩, ⟨[1], ?_⟩, by decide⟩,
    ⟨by decide, by decide⟩, ⟨[0, 0, 8, 0], ?_⟩⟩ <;> decide

/-- C57: illegal dotted quads. -/
example : ¬ Quad (lit "1.2.3") ∧ ¬ Quad (lit "1.2.3.256") ∧ ¬ Quad (lit "01.2.3.4") ∧ ¬ Quad (lit "1.2.3.4.5") ∧ ¬ Quad (lit "1..2.3") := by
  simp only [← pton_quad]
  decide +kernel

/-! ### C58 -/

/-- C58 (partial: missing are 64-bit lists without descriptions, see C58_plain_64, and lists of 2^31 characters or more): with descriptions, the accepted values are exactly the choices, on 32 and 64 bits. -/
theorem C58_described_partial (w : Nat) (hw : Width w) (l : List (Str × Str)) (val : Str) (hne : l ≠ []) (hv : ∀ e ∈ l, chr '|' ∉ e.1 ∧ chr ',' ∉ e.1 ∧ chr ',' ∉ e.2)
    (hl : (described l).length < 2 ^ 31) : isValidValue w .choice (described l) val = .ok (decide (val ∈ l.map (·.1))) := by
  show Outcome.ok (choiceLoop w (described l) val ((described l).length + 1) 0) = _
  have hf : l.length ≤ (described l).length + 1 := by
    have := length_commas (l.map fun e => e.1 ++ chr '|' :: e.2)
    rw [List.length_map] at this
    exact this
  have := choice_described hw val l hne hv [] ((described l).length + 1) hf hl
  exact congrArg Outcome.ok this

/-- C58 (partial: 32 bits only, see C58_plain_64 for the others): without descriptions the accepted values are exactly the choices. -/
theorem C58_plain_32_partial (l : List Str) (val : Str) (hne : l ≠ []) (hv : ∀ x ∈ l, chr '|' ∉ x ∧ chr ',' ∉ x) (hl : (commas l).length < 2 ^ 31) :
    isValidValue 32 .choice (commas l) val = .ok (decide (val ∈ l)) :=
  congrArg Outcome.ok (choice_plain32 val l hne hv [] _ (length_commas l) hl)

/-- What 64 bits make of a list without descriptions: accepted are exactly the ends of the list, commas included. -/
theorem C58_plain_64 (l : List Str) (val : Str) (hne : l ≠ []) (hv : ∀ x ∈ l, chr '|' ∉ x ∧ chr ',' ∉ x) (hl : (commas l).length < 2 ^ 31) :
    isValidValue 64 .choice (commas l) val = .ok true ↔ ∃ t, t ≠ [] ∧ t <:+ l ∧ val = commas t := by
  show Outcome.ok _ = Outcome.ok true ↔ _
  rw [Outcome.ok.injEq]
  exact choice_plain64 val l hne hv [] _ (length_commas l) hl

/-- C58 (negation): on 64 bits every choice but the last of a list without descriptions is refused, and the whole list is accepted as a value. -/
theorem C58_plain_refuted : isValidValue 64 .choice (lit "850,900,1800") (lit "850") = .ok false ∧ isValidValue 64 .choice (lit "850,900,1800") (lit "900") = .ok false ∧
    isValidValue 64 .choice (lit "850,900,1800") (lit "850,900,1800") = .ok true := by decide +kernel

/-- C58 (negation, in general): a list of at least two choices does not accept its first one unless it equals an end of the list. -/
theorem C58_first_refuted (x y : Str) (l : List Str) (hv : ∀ z ∈ x :: y :: l, chr '|' ∉ z ∧ chr ',' ∉ z) (hl : (commas (x :: y :: l)).length < 2 ^ 31) (hx : x ∉ y :: l) :
    isValidValue 64 .choice (commas (x :: y :: l)) x ≠ .ok true := by
  intro h
  obtain ⟨t, h1, h2, h3⟩ := (C58_plain_64 (x :: y :: l) x (by simp) hv hl).1 h
  cases t with
  | nil => exact h1 rfl
  | cons a t =>
    cases t with
    | nil =>
      have h3 : x = a := h3
      subst h3
      rcases List.suffix_cons_iff.1 h2 with h | h
      · simp at h
      · exact hx (h.subset (by simp))
    | cons b t =>
      rw [commas_cons] at h3
      exact (hv x (by simp)).2 (by rw [h3]; simp)

/-- C58: the band selection of the real schema. -/
example : described [(lit "850", lit "GSM850"), (lit "900", lit "PGSM900")] = lit "850|GSM850,900|PGSM900" ∧
    (∀ e ∈ [(lit "850", lit "GSM850"), (lit "900", lit "PGSM900")], chr '|' ∉ e.1 ∧ chr ',' ∉ e.1 ∧ chr ',' ∉ e.2) ∧ lit "850" ∉ [lit "900", lit "1800"] := by decide +kernel

/-! ### C59 -/

/-- C59 (partial: missing are values without the delimiter on 64 bits, see C59_missing_refuted, and second parts that are not decimal numbers, see C59_garbage_refuted). -/
theorem C59_cidr_partial (w : Nat) (hw : Width w) (vv ip num : Str) (n : Nat) (hd : chr '/' ∉ ip) (h0 : (0 : Byte) ∉ ip) (hn : Decimal num n) (hl : (ip ++ chr '/' :: num).length < 2 ^ 31) :
    isValidValue w .cidr vv (ip ++ chr '/' :: num) = .ok true ↔ Quad ip ∧ n ≤ 32 := by
  show Outcome.ok (validCidr w _) = Outcome.ok true ↔ _
  rw [Outcome.ok.injEq, validCidr, twoParts_split hw hd hl, readInt_decimal hn]
  simp only [Option.getD_some, Bool.and_eq_true, decide_eq_true_eq, isValidIP_iff, cText_self h0]
  constructor
  · rintro ⟨⟨h1, -⟩, h3⟩; exact ⟨h1, by omega⟩
  · rintro ⟨h1, h3⟩; exact ⟨⟨h1, by omega⟩, by omega⟩

/-- C59 (partial, as C59_cidr_partial). -/
theorem C59_ipport_partial (w : Nat) (hw : Width w) (vv ip num : Str) (n : Nat) (hd : chr ':' ∉ ip) (h0 : (0 : Byte) ∉ ip) (hn : Decimal num n) (hl : (ip ++ chr ':' :: num).length < 2 ^ 31) :
    isValidValue w .ipAndPort vv (ip ++ chr ':' :: num) = .ok true ↔ Quad ip ∧ 1 ≤ n ∧ n ≤ 65535 := by
  show Outcome.ok (validIpPort w _) = Outcome.ok true ↔ _
  rw [Outcome.ok.injEq, validIpPort, twoParts_split hw hd hl, readInt_decimal hn]
  simp only [Option.getD_some, Bool.and_eq_true, decide_eq_true_eq, isValidIP_iff, cText_self h0]
  constructor
  · rintro ⟨⟨h1, h2⟩, h3⟩; exact ⟨h1, by omega, by omega⟩
  · rintro ⟨h1, h2, h3⟩; exact ⟨⟨h1, by omega⟩, by omega⟩

theorem canonical_host {s : Str} {n : Nat} (h : Canonical s n) : ∀ c ∈ s, isAlnum c = true := by
  intro c hc
  have := decimal_chars (decimal_of_canonical h) c hc
  simp [isAlnum, this]

/-- A dotted quad is also a host name. -/
theorem quad_host {s : Str} (h : Quad s) : Host s := by
  obtain ⟨a, b, c, d, x, y, z, t, -, -, -, -, hx, hy, hz, ht, rfl⟩ := h
  have kd : chr '.' ∈ lit "_.-" := by decide
  refine ⟨by simp, ?_⟩
  intro e he
  simp only [List.mem_append, List.mem_cons] at he
  rcases he with ((he | rfl | he) | rfl | he) | rfl | he
  · exact Or.inl (canonical_host hx e he)
  · exact Or.inr kd
  · exact Or.inl (canonical_host hy e he)
  · exact Or.inr kd
  · exact Or.inl (canonical_host hz e he)
  · exact Or.inr kd
  · exact Or.inl (canonical_host ht e he)

/-- C59 (partial, as C59_cidr_partial). -/
theorem C59_hostport_partial (w : Nat) (hw : Width w) (vv host num : Str) (n : Nat) (hd : chr ':' ∉ host) (h0 : (0 : Byte) ∉ host) (hn : Decimal num n)
    (hl : (host ++ chr ':' :: num).length < 2 ^ 31) : isValidValue w .hostAndPort vv (host ++ chr ':' :: num) = .ok true ↔ Host host ∧ 1 ≤ n ∧ n ≤ 65535 := by
  show Outcome.ok (validHostPort w _) = Outcome.ok true ↔ _
  rw [Outcome.ok.injEq, validHostPort, twoParts_split hw hd hl, readInt_decimal hn]
  simp only [Option.getD_some, Bool.and_eq_true, Bool.or_eq_true, decide_eq_true_eq, isValidIP_iff, matchHost_iff, cText_self h0]
  constructor
  · rintro ⟨⟨h1, h2⟩, h3⟩; exact ⟨h1.elim quad_host id, by omega, by omega⟩
  · rintro ⟨h1, h2, h3⟩; exact ⟨⟨Or.inr h1, by omega⟩, by omega⟩

/-- C59 (partial: 32 bits only): a value without the delimiter is refused. -/
theorem C59_missing_32_partial (vv val : Str) : (chr '/' ∉ val → isValidValue 32 .cidr vv val = .ok false) ∧
    (chr ':' ∉ val → isValidValue 32 .ipAndPort vv val = .ok false ∧ isValidValue 32 .hostAndPort vv val = .ok false) := by
  refine ⟨fun h => ?_, fun h => ⟨?_, ?_⟩⟩
  · show Outcome.ok (validCidr 32 _) = _
    rw [validCidr, twoParts_missing32 h]
  · show Outcome.ok (validIpPort 32 _) = _
    rw [validIpPort, twoParts_missing32 h]
  · show Outcome.ok (validHostPort 32 _) = _
    rw [validHostPort, twoParts_missing32 h]

/-- C59 (negation): on 64 bits a plain address is accepted as network and as address with port, a plain number as host with port. -/
theorem C59_missing_refuted : isValidValue 64 .cidr [] (lit "10.0.0.1") = .ok true ∧ isValidValue 64 .ipAndPort [] (lit "10.0.0.1") = .ok true ∧
    isValidValue 64 .hostAndPort [] (lit "80") = .ok true := by decide +kernel

/-- C59 (negation, in general): on 64 bits every address with a non-zero first octet is accepted as address with port. -/
theorem C59_no_port_refuted (vv x rest : Str) (a : Nat) (ha : 1 ≤ a) (hx : Canonical x a) (hq : Quad (x ++ chr '.' :: rest)) (hc : chr ':' ∉ x ++ chr '.' :: rest)
    (h255 : a < 256) (hl : (x ++ chr '.' :: rest).length < 2 ^ 31) : isValidValue 64 .ipAndPort vv (x ++ chr '.' :: rest) = .ok true := by
  show Outcome.ok (validIpPort 64 _) = Outcome.ok true
  rw [Outcome.ok.injEq, validIpPort, twoParts_missing hc hl]
  have hr : readInt (x ++ chr '.' :: rest) = some (a : Int) := by
    obtain ⟨c, t, e, h1, h2, h3⟩ := decimal_cons (decimal_of_canonical hx)
    unfold readInt
    rw [e, List.cons_append, dropWhile_cons h1]
    simp only
    rw [signed_plain h2 h3, ← List.cons_append, ← e, scanNat_stop (by decide), scanNat_decimal (decimal_of_canonical hx), clamp_of_mem (by omega) (by omega)]
  rw [hr]
  simp only [Option.getD_some, Bool.and_eq_true, decide_eq_true_eq, isValidIP_iff, cText_self (quad_nul hq)]
  exact ⟨⟨hq, by omega⟩, by omega⟩

/-- C59 (negation): garbage behind the number is accepted. -/
theorem C59_garbage_refuted : isValidValue 64 .cidr [] (lit "10.0.0.1/8x") = .ok true ∧ isValidValue 64 .ipAndPort [] (lit "10.0.0.1:80:90") = .ok true ∧
    isValidValue 64 .cidr [] (lit "10.0.0.1/x") = .ok true := by decide +kernel

/-- C59: values meeting the hypotheses, legal and illegal. -/
example : lit "10.0.0.1/24" = lit "10.0.0.1" ++ chr '/' :: lit "24" ∧ chr '/' ∉ lit "10.0.0.1" ∧ (0 : Byte) ∉ lit "10.0.0.1" ∧ Decimal (lit "24") 24 ∧ Decimal (lit "33") 33 ∧
    isValidValue 64 .cidr [] (lit "10.0.0.1/24") = .ok true ∧ isValidValue 64 .cidr [] (lit "10.0.0.1/33") = .ok false := by
  refine ⟨by decide, by decide, by decide, ⟨[2, 4], ?_⟩, ⟨[3, 3], ?_⟩, by decide +kernel, by decide +kernel⟩ <;> decide

/-! ### C60 -/

theorem matchInt_signed {val : Str} {n : Int} (h : Signed val n) : matchInt val = true := by
  have h0 : (0 : Byte) ∉ val := signed_no h (by decide) (by decide)
  unfold matchInt
  rw [cText_self h0]
  obtain ⟨h1, h2⟩ := signed_chars h
  simp only [Bool.and_eq_true, List.all_eq_true, Bool.not_eq_true', List.isEmpty_eq_false_iff, Bool.or_eq_true, beq_iff_eq]
  exact ⟨h1, h2⟩

/-- C60 (partial: missing are numbers beyond 32 bits, see C60_overflow_refuted, and texts that are not numbers, see C60_dash_refuted): an integer is accepted exactly when it is between the limits,
with and without a step. -/
theorem C60_range_partial (w : Nat) (hw : Width w) (lo hi val : Str) (step : Option Str) (a b n : Int) (hlo : Signed lo a) (hhi : Signed hi b) (hval : Signed val n)
    (ha : -(2 ^ 31) ≤ a ∧ a ≤ 2 ^ 31 - 1) (hb : -(2 ^ 31) ≤ b ∧ b ≤ 2 ^ 31 - 1) (hn : -(2 ^ 31) ≤ n ∧ n ≤ 2 ^ 31 - 1) (hl : (lo ++ hi).length < 2 ^ 30) :
    isValidValue w .valRange (range lo hi step) val = .ok (decide (a ≤ n ∧ n ≤ b)) := by
  show validRange w _ _ = _
  unfold validRange
  rw [if_pos (matchInt_signed hval), minMax_range hw hlo hhi step hl, readInt_signed hval, readInt_signed hlo, readInt_signed hhi, clamp_of_mem hn.1 hn.2, clamp_of_mem ha.1 ha.2,
    clamp_of_mem hb.1 hb.2, findFrom_zero, idx_none (signed_no hval (by decide) (by decide))]
  simp

/-- C60: a value that is empty or contains anything but digits and minus signs is refused. -/
theorem C60_reject (w : Nat) (valid val : Str) (h0 : (0 : Byte) ∉ val) (h : val = [] ∨ ∃ c ∈ val, isDigit c = false ∧ c ≠ chr '-') : isValidValue w .valRange valid val = .ok false := by
  show validRange w _ _ = _
  unfold validRange
  have : matchInt val = false := by
    unfold matchInt
    rw [cText_self h0]
    rcases h with rfl | ⟨c, hc, h1, h2⟩
    · rfl
    · rw [Bool.and_eq_false_iff]
      right
      rw [List.all_eq_false]
      exact ⟨c, hc, by simp [h1, h2]⟩
  rw [if_neg (by simp [this])]

/-- C60 (negation): minus signs are accepted anywhere; the value is read up to them. -/
theorem C60_dash_refuted : isValidValue 64 .valRange (lit "1:10") (lit "5-3") = .ok true ∧ isValidValue 64 .valRange (lit "0:10") (lit "-") = .ok true ∧
    isValidValue 64 .valRange (lit "0:10") (lit "--5") = .ok true := by decide +kernel

/-- C60 (negation): a number above the range is accepted if the limit is the largest `int`. -/
theorem C60_overflow_refuted : isValidValue 64 .valRange (lit "0:2147483647") (lit "99999999999") = .ok true := by decide +kernel

/-- C60: a range and values meeting the hypotheses. -/
example : range (lit "-5") (lit "100") (some (lit "5")) = lit "-5:100(5)" ∧ Signed (lit "-5") (-5) ∧ Signed (lit "100") 100 ∧
    isValidValue 64 .valRange (lit "-5:100(5)") (lit "-5") = .ok true ∧ isValidValue 64 .valRange (lit "-5:100(5)") (lit "101") = .ok false := by
  refine ⟨by decide, Or.inr ⟨5, lit "5", by decide, ⟨[5], ?_⟩, by decide⟩, Or.inl ⟨100, ⟨[1, 0, 0], ?_⟩, by decide⟩, by decide +kernel, by decide +kernel⟩ <;> decide

end Verif.Config
