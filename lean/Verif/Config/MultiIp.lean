import Verif.Config.ValidProps

/-
Property C95: lists of addresses (`MIPADDRESS`), the remaining address case of `ConfigurationTable::isValidValue` (`Configuration.cpp:515-554`).
-/

namespace Verif.Config
open Verif.Config.Spec

/-- One round of case MIPADDRESS (`Configuration.cpp:528-549`), `p` being `startPos` after the increment.  The delimiter is always searched from the beginning of the value, and its
position is used as the length of the address and as the place of the port number. -/
def mipStep (w : Nat) (val : Str) (p : Nat) : Bool :=
  let endPos := u32 (asSize w (findFrom val (chr ' ') p))
  if isValidIP (substr val p (u32 ((endPos : Int) - p))) then true
  else
    let delimiter := u32 (asSize w (findFrom val (chr ':') 0))
    if delimiter ≠ 2 ^ w - 1 then
      let port := (readInt (substr val (u32 ((delimiter : Int) + 1)) endPos)).getD (-1)
      isValidIP (substr val p delimiter) && decide (1 ≤ port) && decide (port ≤ 65535)
    else false

/-- The loop (`Configuration.cpp:528-552`): the first failing round ends it; `fuel` bounds the number of rounds. -/
def mipLoop (w : Nat) (val : Str) : Nat → Nat → Bool
  | 0, _ => false
  | fuel + 1, p =>
    if mipStep w val p then
      match findFrom val (chr ' ') p with
      | none => true
      | some q => mipLoop w val fuel (q + 1)
    else false

/-- Case MIPADDRESS (`Configuration.cpp:521-554`). -/
def validMip (w : Nat) (val : Str) : Bool := mipLoop w val (val.length + 1) 0

/-- Case MIPADDRESS_OPT (`Configuration.cpp:515-521`). -/
def validMipOpt (w : Nat) (val : Str) : Bool := val.isEmpty || validMip w val

/-- Texts separated by single blanks. -/
def blanks : List Str → Str
  | [] => []
  | [x] => x
  | x :: y :: l => x ++ chr ' ' :: blanks (y :: l)

/-- A legal entry: an address, or an address and a port. -/
def MipEntry (e : Str) : Prop := Quad e ∨ ∃ ip num n, e = ip ++ chr ':' :: num ∧ Quad ip ∧ Decimal num n ∧ 1 ≤ n ∧ n ≤ 65535

/-! ### Helpers -/

theorem quad_chars {s : Str} (h : Quad s) : ∀ c ∈ s, isAlnum c = true ∨ c ∈ lit "_.-" := (quad_host h).2

theorem quad_no_blank {s : Str} (h : Quad s) : chr ' ' ∉ s := fun hm => by
  rcases quad_chars h _ hm with h | h <;> revert h <;> decide

theorem quad_no_colon {s : Str} (h : Quad s) : chr ':' ∉ s := fun hm => by
  rcases quad_chars h _ hm with h | h <;> revert h <;> decide

theorem quad_ne_nil {s : Str} (h : Quad s) : s ≠ [] := (quad_host h).1

theorem isValidIP_quad {s : Str} (h : Quad s) : isValidIP s = true := by
  rw [isValidIP_iff, cText_self (quad_nul h)]; exact h

/-- The text of the round that begins after `pre`: up to the next blank. -/
theorem mip_token (w : Nat) (hw : Width w) (pre x rest : Str) (hx : chr ' ' ∉ x) (hr : rest = [] ∨ ∃ t, rest = chr ' ' :: t)
    (hl : (pre ++ (x ++ rest)).length < 2 ^ 31) :
    substr (pre ++ (x ++ rest)) pre.length (u32 ((u32 (asSize w (findFrom (pre ++ (x ++ rest)) (chr ' ') pre.length)) : Int) - (pre.length : Int))) = x := by
  have hlen : pre.length + (x.length + rest.length) < 2 ^ 31 := by simpa using hl
  rw [substr_at, findFrom_at]
  rcases hr with rfl | ⟨t, rfl⟩
  · rw [List.append_nil, idx_none hx]
    have e : u32 ((asSize w (Option.map (· + pre.length) none) : Nat) : Int) = 2 ^ 32 - 1 := by
      rw [Option.map_none]; rcases hw with rfl | rfl <;> decide
    rw [e]
    apply List.take_of_length_le
    unfold u32; simp at hlen; omega
  · rw [idx_split hx]
    have e : u32 ((asSize w (Option.map (· + pre.length) (some x.length)) : Nat) : Int) = x.length + pre.length := by
      simp only [Option.map_some, asSize]; exact u32_small (by omega)
    rw [e]
    have e2 : u32 (((x.length + pre.length : Nat) : Int) - (pre.length : Int)) = x.length := by
      unfold u32; omega
    rw [e2]; simp

theorem blanks_cons (x y : Str) (l : List Str) : blanks (x :: y :: l) = x ++ chr ' ' :: blanks (y :: l) := rfl

theorem length_blanks (l : List Str) : l.length ≤ (blanks l).length + 1 := by
  induction l with
  | nil => simp
  | cons x l ih =>
    cases l with
    | nil => simp
    | cons y l => rw [blanks_cons]; simp at ih ⊢; omega

theorem mem_blanks {l : List Str} {c : Byte} (h : ∀ x ∈ l, c ∉ x) (hc : c ≠ chr ' ') : c ∉ blanks l := by
  induction l with
  | nil => simp [blanks]
  | cons x l ih =>
    cases l with
    | nil => simpa [blanks] using h x (by simp)
    | cons y l =>
      rw [blanks_cons]
      simp only [List.mem_append, List.mem_cons, not_or]
      exact ⟨h x (by simp), hc, ih fun z hz => h z (by simp [hz])⟩

theorem blanks_tail (x : Str) (l : List Str) : ∃ rest, blanks (x :: l) = x ++ rest ∧ (rest = [] ∨ ∃ t, rest = chr ' ' :: t) := by
  cases l with
  | nil => exact ⟨[], by simp [blanks], Or.inl rfl⟩
  | cons y l => exact ⟨chr ' ' :: blanks (y :: l), rfl, Or.inr ⟨_, rfl⟩⟩

/-- Every entry an address: the loop goes through, whatever stands before. -/
theorem mip_quads (w : Nat) (hw : Width w) (l : List Str) (hne : l ≠ []) (hq : ∀ x ∈ l, Quad x) (pre : Str) (fuel : Nat) (hf : l.length ≤ fuel)
    (hl : (pre ++ blanks l).length < 2 ^ 31) : mipLoop w (pre ++ blanks l) fuel pre.length = true := by
  induction l generalizing pre fuel with
  | nil => exact absurd rfl hne
  | cons x l ih =>
    obtain ⟨f, rfl⟩ : ∃ f, fuel = f + 1 := ⟨fuel - 1, by simp at hf; omega⟩
    have hx := hq x (by simp)
    have hstep : mipStep w (pre ++ blanks (x :: l)) pre.length = true := by
      obtain ⟨rest, e, hr⟩ := blanks_tail x l
      rw [e] at hl ⊢
      unfold mipStep
      simp only
      rw [mip_token w hw pre x rest (quad_no_blank hx) hr hl, if_pos (isValidIP_quad hx)]
    unfold mipLoop
    rw [if_pos hstep]
    cases l with
    | nil =>
      rw [show blanks [x] = x from rfl, findFrom_at, idx_none (quad_no_blank hx)]
      rfl
    | cons y l =>
      rw [blanks_cons, findFrom_at, idx_split (quad_no_blank hx)]
      simp only [Option.map_some]
      have := ih (by simp) (fun z hz => hq z (by simp [hz])) (pre ++ (x ++ [chr ' '])) f (by simp at hf ⊢; omega)
        (by rw [blanks_cons] at hl; simp at hl ⊢; omega)
      have e2 : (pre ++ (x ++ [chr ' '])).length = x.length + pre.length + 1 := by simp; omega
      rw [e2] at this
      have e3 : pre ++ (x ++ [chr ' ']) ++ blanks (y :: l) = pre ++ (x ++ chr ' ' :: blanks (y :: l)) := by simp
      rwa [e3] at this

/-- Without a colon, one round is right. -/
theorem mip_plain_step (w : Nat) (hw : Width w) (pre x rest : Str) (hx : chr ' ' ∉ x) (hr : rest = [] ∨ ∃ t, rest = chr ' ' :: t)
    (hc : chr ':' ∉ pre ++ (x ++ rest)) (h0 : (0 : Byte) ∉ pre ++ (x ++ rest)) (hl : (pre ++ (x ++ rest)).length < 2 ^ 31) :
    mipStep w (pre ++ (x ++ rest)) pre.length = true ↔ Quad x := by
  have hx0 : (0 : Byte) ∉ x := fun h => h0 (by rw [List.mem_append, List.mem_append]; exact Or.inr (Or.inl h))
  have hxr0 : (0 : Byte) ∉ x ++ rest := fun h => h0 (by rw [List.mem_append]; exact Or.inr h)
  unfold mipStep
  simp only
  rw [mip_token w hw pre x rest hx hr hl]
  by_cases hq : Quad x
  · rw [if_pos (isValidIP_quad hq)]; simp [hq]
  · have hnv : ¬ isValidIP x = true := by rw [isValidIP_iff, cText_self hx0]; exact hq
    rw [if_neg hnv]
    have hd : u32 ((asSize w (findFrom (pre ++ (x ++ rest)) (chr ':') 0) : Nat) : Int) = 2 ^ 32 - 1 := by
      rw [findFrom_zero, idx_none hc]
      rcases hw with rfl | rfl <;> rfl
    rw [hd]
    have hrest : ¬ isValidIP (substr (pre ++ (x ++ rest)) pre.length (2 ^ 32 - 1)) = true := by
      rw [substr_at, List.take_of_length_le (by simp at hl ⊢; omega), isValidIP_iff, cText_self hxr0]
      rcases hr with rfl | ⟨t, rfl⟩
      · simpa using hq
      · intro h; exact quad_no_blank h (by simp)
    rw [Bool.eq_false_iff.2 hrest]
    simp [hq]

theorem mip_plain (w : Nat) (hw : Width w) (l : List Str) (hne : l ≠ []) (hb : ∀ x ∈ l, chr ' ' ∉ x) (pre : Str) (fuel : Nat) (hf : l.length ≤ fuel)
    (hc : chr ':' ∉ pre ++ blanks l) (h0 : (0 : Byte) ∉ pre ++ blanks l) (hl : (pre ++ blanks l).length < 2 ^ 31) :
    mipLoop w (pre ++ blanks l) fuel pre.length = true ↔ ∀ x ∈ l, Quad x := by
  induction l generalizing pre fuel with
  | nil => exact absurd rfl hne
  | cons x l ih =>
    obtain ⟨f, rfl⟩ : ∃ f, fuel = f + 1 := ⟨fuel - 1, by simp at hf; omega⟩
    have hx := hb x (by simp)
    have hstep : mipStep w (pre ++ blanks (x :: l)) pre.length = true ↔ Quad x := by
      obtain ⟨rest, e, hr⟩ := blanks_tail x l
      rw [e] at hl hc h0 ⊢
      exact mip_plain_step w hw pre x rest hx hr hc h0 hl
    unfold mipLoop
    by_cases hq : Quad x
    · rw [if_pos (hstep.2 hq)]
      cases l with
      | nil =>
        rw [show blanks [x] = x from rfl, findFrom_at, idx_none hx]
        simp [hq]
      | cons y l =>
        rw [blanks_cons, findFrom_at, idx_split hx]
        simp only [Option.map_some]
        have e3 : pre ++ (x ++ [chr ' ']) ++ blanks (y :: l) = pre ++ blanks (x :: y :: l) := by rw [blanks_cons]; simp
        have := ih (by simp) (fun z hz => hb z (by simp [hz])) (pre ++ (x ++ [chr ' '])) f (by simp at hf ⊢; omega)
          (by rw [e3]; exact hc) (by rw [e3]; exact h0) (by rw [e3]; exact hl)
        have e2 : (pre ++ (x ++ [chr ' '])).length = x.length + pre.length + 1 := by simp; omega
        rw [e2, e3, blanks_cons] at this
        rw [this]
        simp [hq]
    · rw [if_neg (fun h => hq (hstep.1 h))]
      simp [hq]

/-! ### C95 -/

/-- C95 (partial: lists without ports): a list of texts separated by single blanks, none with a colon, is accepted exactly when all of them are addresses. -/
theorem C95_plain_partial (w : Nat) (hw : Width w) (l : List Str) (hne : l ≠ []) (hb : ∀ x ∈ l, chr ' ' ∉ x ∧ chr ':' ∉ x ∧ (0 : Byte) ∉ x)
    (hl : (blanks l).length < 2 ^ 31) : validMip w (blanks l) = true ↔ ∀ x ∈ l, MipEntry x := by
  have h := mip_plain w hw l hne (fun x hx => (hb x hx).1) [] ((blanks l).length + 1) (length_blanks l)
    (mem_blanks (fun x hx => (hb x hx).2.1) (by decide)) (mem_blanks (fun x hx => (hb x hx).2.2) (by decide)) (by simpa using hl)
  unfold validMip
  simp only [List.nil_append, List.length_nil] at h
  rw [h]
  constructor
  · exact fun h x hx => Or.inl (h x hx)
  · intro h x hx
    rcases h x hx with hq | ⟨ip, num, n, rfl, -⟩
    · exact hq
    · exact absurd (by simp) (hb _ hx).2.1

/-- C95 (partial: lists of addresses, the first with a number after a colon, the others without): accepted exactly if the number is a port. -/
theorem C95_first_port_partial (w : Nat) (hw : Width w) (ip num : Str) (n : Nat) (l : List Str) (hip : Quad ip) (hn : Decimal num n)
    (hq : ∀ x ∈ l, Quad x) (hl : (blanks ((ip ++ chr ':' :: num) :: l)).length < 2 ^ 31) : validMip w (blanks ((ip ++ chr ':' :: num) :: l)) = true ↔ 1 ≤ n ∧ n ≤ 65535 := by
  have hnum : chr ' ' ∉ num := fun h => by have := decimal_chars hn _ h; revert this; decide
  have hx : chr ' ' ∉ ip ++ chr ':' :: num := by
    simp only [List.mem_append, List.mem_cons, not_or]
    exact ⟨quad_no_blank hip, by decide, hnum⟩
  obtain ⟨rest, e, hr⟩ := blanks_tail (ip ++ chr ':' :: num) l
  have hstep : mipStep w (blanks ((ip ++ chr ':' :: num) :: l)) 0 = true ↔ 1 ≤ n ∧ n ≤ 65535 := by
    rw [e] at hl ⊢
    have hlen : ip.length + (num.length + 1) + rest.length < 2 ^ 31 := by simp at hl; omega
    have ht := mip_token w hw [] (ip ++ chr ':' :: num) rest hx hr (by simpa using hl)
    simp only [List.nil_append, List.length_nil] at ht
    unfold mipStep
    simp only
    rw [show ((0 : Nat) : Int) = 0 from rfl] at ht ⊢
    rw [ht]
    have hnq : ¬ isValidIP (ip ++ chr ':' :: num) = true := by
      rw [isValidIP_iff, cText_self]
      · intro h; exact quad_no_colon h (by simp)
      · simp only [List.mem_append, List.mem_cons, not_or]
        exact ⟨quad_nul hip, by decide, fun h => by have := decimal_chars hn _ h; revert this; decide⟩
    rw [if_neg hnq]
    have hd : u32 ((asSize w (findFrom (ip ++ chr ':' :: num ++ rest) (chr ':') 0) : Nat) : Int) = ip.length := by
      rw [findFrom_zero, List.append_assoc, List.cons_append, idx_split (quad_no_colon hip)]
      exact u32_small (n := ip.length) (by omega)
    rw [hd, if_pos (small_ne_npos hw (by omega))]
    have e1 : substr (ip ++ chr ':' :: num ++ rest) 0 ip.length = ip := by simp [substr]
    have e2 : u32 ((ip.length : Int) + 1) = ip.length + 1 := by unfold u32; omega
    rw [e1, e2]
    -- the text the port is read from begins with the digits, followed by nothing or by a blank
    have e3 : ∀ k, num.length ≤ k → ∃ t, substr (ip ++ chr ':' :: num ++ rest) (ip.length + 1) k = num ++ t ∧ (t = [] ∨ ∃ u, t = chr ' ' :: u) := by
      intro k hk
      have : substr (ip ++ chr ':' :: num ++ rest) (ip.length + 1) k = (num ++ rest).take k := by
        have := substr_at (ip ++ [chr ':']) (num ++ rest) k
        simpa using this
      rw [this, List.take_append, List.take_of_length_le hk]
      rcases hr with rfl | ⟨t, rfl⟩
      · exact ⟨[], by simp, Or.inl rfl⟩
      · cases hkk : k - num.length with
        | zero => exact ⟨[], by simp, Or.inl rfl⟩
        | succ m => exact ⟨_, rfl, Or.inr ⟨_, rfl⟩⟩
    have hk : num.length ≤ u32 ((asSize w (findFrom (ip ++ chr ':' :: num ++ rest) (chr ' ') 0) : Nat) : Int) := by
      rw [findFrom_zero]
      rcases hr with rfl | ⟨t, rfl⟩
      · rw [List.append_nil, idx_none hx]
        have : u32 ((asSize w none : Nat) : Int) = 2 ^ 32 - 1 := by rcases hw with rfl | rfl <;> rfl
        rw [this]; omega
      · rw [idx_split hx]
        have : u32 ((asSize w (some (ip ++ chr ':' :: num).length) : Nat) : Int) = (ip ++ chr ':' :: num).length :=
          u32_small (n := (ip ++ chr ':' :: num).length) (by simp at hlen ⊢; omega)
        rw [this]; simp; omega
    obtain ⟨t, et, ht⟩ := e3 _ hk
    rw [et]
    have hread : readInt (num ++ t) = some (min (n : Int) (2 ^ 31 - 1)) := by
      obtain ⟨c, s, es, g1, g2, g3⟩ := decimal_cons hn
      unfold readInt
      rw [es, List.cons_append, dropWhile_cons g1]
      simp only
      rw [signed_plain g2 g3, ← List.cons_append, ← es]
      have : scanNat 10 (num ++ t) = n := by
        rcases ht with rfl | ⟨u, rfl⟩
        · rw [List.append_nil, scanNat_decimal hn]
        · rw [scanNat_stop (by decide), scanNat_decimal hn]
      rw [this]
      unfold clamp
      congr 1
      omega
    rw [hread]
    simp only [Option.getD_some, Bool.and_eq_true, decide_eq_true_eq]
    simp only [isValidIP_quad hip, true_and]
    omega
  unfold validMip mipLoop
  by_cases hs : mipStep w (blanks ((ip ++ chr ':' :: num) :: l)) 0 = true
  swap
  · rw [if_neg hs]
    rw [hstep] at hs
    exact ⟨fun h => (by cases h), fun h => absurd h hs⟩
  rw [if_pos hs]
  rw [hstep] at hs
  refine iff_of_true ?_ hs
  cases l with
  | nil =>
    rw [show blanks [ip ++ chr ':' :: num] = ip ++ chr ':' :: num from rfl, findFrom_zero, idx_none hx]
  | cons y l =>
    rw [blanks_cons, findFrom_zero, idx_split hx]
    simp only
    have := mip_quads w hw (y :: l) (by simp) hq (ip ++ chr ':' :: num ++ [chr ' ']) (ip ++ chr ':' :: num ++ chr ' ' :: blanks (y :: l)).length
      (by have := length_blanks (y :: l); simp at this ⊢; omega) (by rw [blanks_cons] at hl; simpa using hl)
    have e2 : (ip ++ chr ':' :: num ++ [chr ' ']).length = (ip ++ chr ':' :: num).length + 1 := by simp; omega
    rw [e2] at this
    have e3 : ip ++ chr ':' :: num ++ [chr ' '] ++ blanks (y :: l) = ip ++ chr ':' :: num ++ chr ' ' :: blanks (y :: l) := by simp
    rwa [e3] at this

/-- C95 (optional lists): the empty value is accepted by the optional type only. -/
theorem C95_optional (w : Nat) (val : Str) : validMipOpt w val = true ↔ val = [] ∨ validMip w val = true := by
  unfold validMipOpt
  cases val <;> simp

/-- C95 (empty list): refused. -/
theorem C95_empty (w : Nat) (hw : Width w) : validMip w [] = false := by
  rcases hw with rfl | rfl <;> decide +kernel

/-- C95 is refuted: a legal list whose port is not in the first entry is refused. -/
theorem C95_second_port_refuted : validMip 64 (lit "1.2.3.4 5.6.7.8:80") = false ∧ validMip 64 (lit "1.2.3.4:80 50.60.70.80:80") = false := by decide +kernel

/-- C95 is refuted: illegal entries after the first are accepted, since the port of the first entry is examined instead of theirs, and only as many characters as the first address has. -/
theorem C95_illegal_refuted : validMip 64 (lit "1.2.3.4:80 5.6.7.8:99999") = true ∧ validMip 64 (lit "1.2.3.4:80 5.6.7.8 garbage") = false ∧
    validMip 64 (lit "1.2.3.4:80 5.6.7.8garbage") = true := by decide +kernel

/-- C95: lists meeting the hypotheses, accepted and refused. -/
example : validMip 64 (lit "10.0.0.1 10.0.0.2") = true ∧ validMip 64 (lit "10.0.0.1:5060 10.0.0.2") = true ∧ validMip 64 (lit "10.0.0.1 10.0.0.256") = false ∧
    validMip 64 (lit "10.0.0.1  10.0.0.2") = false ∧ validMip 64 (lit "10.0.0.1:0") = false ∧ blanks [lit "10.0.0.1", lit "10.0.0.2"] = lit "10.0.0.1 10.0.0.2" := by decide +kernel

end Verif.Config
