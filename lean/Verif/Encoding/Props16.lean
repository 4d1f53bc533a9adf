import Verif.Encoding.Props64

/-
Property C38 and the hexadecimal part of C39.
-/

namespace Verif.Encoding
open Verif Verif.BitVector Verif.BitVector.Spec Spec

/-- The characters that are not white space. -/
def solid (t : Str) : Str := t.filter fun c => !isSpace c

/-- one character shifted into a byte; a character that is not a hex digit is left out -/
def nibStep (acc : Byte) (c : Byte) : Byte :=
  match val16 c with
  | some d => (acc <<< 4) ||| BitVec.ofNat 8 d
  | none => acc

theorem group16_spec (s : Str) (accum : Byte) (j : Nat) (err : Option String) (hj : j ≤ 2) :
    ∃ cs, solid s = cs ++ solid (group16 s accum j err).1 ∧
      (group16 s accum j err).2.2.1 = j + cs.length ∧ (group16 s accum j err).2.2.1 ≤ 2 ∧
      ((group16 s accum j err).2.2.1 < 2 → (group16 s accum j err).1 = []) ∧
      (group16 s accum j err).2.1 = cs.foldl nibStep accum ∧
      ((group16 s accum j err).2.2.2.isSome ↔ (err.isSome ∨ ∃ c ∈ cs, val16 c = none)) := by
  induction s generalizing accum j err with
  | nil => exact ⟨[], by simp [group16, solid, hj]⟩
  | cons ch rest ih =>
    unfold group16
    by_cases h2 : j < 2
    · rw [if_pos h2]
      by_cases hsp : isSpace ch = true
      · rw [if_pos hsp]
        obtain ⟨cs, h1, h3⟩ := ih accum j err hj
        refine ⟨cs, ?_, h3⟩
        rw [← h1]; simp [solid, hsp]
      · rw [if_neg hsp]
        have hsol : solid (ch :: rest) = ch :: solid rest := by simp [solid, hsp]
        simp only
        obtain ⟨r1, r2⟩ := reverse16 ch
        cases hv : val16 ch with
        | none =>
          rw [if_pos (r2 hv)]
          obtain ⟨cs, h1, h3, h4, h5, h6, h7⟩ := ih accum (j + 1) (some msgBadHex) (by omega)
          refine ⟨ch :: cs, ?_, ?_, h4, h5, ?_, ?_⟩
          · rw [hsol, h1]; rfl
          · rw [h3]; simp; omega
          · rw [h6]; simp [nibStep, hv]
          · rw [h7]; simp [hv]
        | some d =>
          obtain ⟨rd, rlt⟩ := r1 d hv
          rw [rd, if_neg (by omega)]
          obtain ⟨cs, h1, h3, h4, h5, h6, h7⟩ := ih ((accum <<< 4) ||| BitVec.ofNat 8 d) (j + 1) err (by omega)
          refine ⟨ch :: cs, ?_, ?_, h4, h5, ?_, ?_⟩
          · rw [hsol, h1]; rfl
          · rw [h3]; simp; omega
          · rw [h6]; simp [nibStep, hv]
          · rw [h7]; simp [hv]
    · rw [if_neg h2]
      exact ⟨[], by simp; omega⟩

/-- pairs of characters to bytes -/
def pairBytes : Str → Str
  | [] => []
  | [c] => [nibStep 0 c]
  | c :: d :: rest => nibStep (nibStep 0 c) d :: pairBytes rest

/-- C39 (hex, exact error condition): hexDecode reports an error exactly if some character is neither
white space nor a hex digit, or the number of characters that are not white space is odd. -/
theorem hexDecode_spec (t : Str) (err : Option String) :
    (hexDecode t err).1 = pairBytes (solid t) ∧
      ((hexDecode t err).2.isSome ↔
        (err.isSome ∨ (∃ c ∈ solid t, val16 c = none) ∨ (solid t).length % 2 = 1)) := by
  induction hn : t.length using Nat.strongRecOn generalizing t err with
  | _ n ih =>
    cases t with
    | nil => rw [hexDecode]; simp [solid, pairBytes]
    | cons ch rest =>
      rw [hexDecode]
      simp only
      obtain ⟨cs, h1, h2, h3, h4, h5, h6⟩ := group16_spec (ch :: rest) 0 0 err (by omega)
      obtain ⟨i1, i2⟩ := ih _ (by rw [← hn]; exact group16_decreases ch rest 0 0 err (by omega))
        (group16 (ch :: rest) 0 0 err).1
        (if (group16 (ch :: rest) 0 0 err).2.2.1 = 1 then some msgOddHex else (group16 (ch :: rest) 0 0 err).2.2.2) rfl
      rw [i1, i2, h1]
      simp only [Nat.zero_add] at h2
      clear i1 i2
      generalize group16 (ch :: rest) 0 0 err = g at *
      by_cases hfull : cs.length = 2
      · match cs, hfull with
        | [a, b], _ =>
          rw [h2]
          refine ⟨?_, ?_⟩
          · simp [pairBytes, h5]
          · simp only [List.length_cons, List.length_nil, Nat.reduceAdd, Nat.reduceEqDiff, if_false, h6,
              List.mem_cons, List.not_mem_nil, or_false, List.cons_append, List.nil_append]
            have : ((solid g.1).length + 1 + 1) % 2 = 1 ↔
              (solid g.1).length % 2 = 1 := by omega
            simp only [exists_eq_or_imp, this, or_assoc, exists_eq_left]
      · have hlt : cs.length < 2 := by omega
        have hr := h4 (by omega)
        rw [h2, hr]
        match cs, hlt with
        | [], _ => simp [solid, pairBytes, h6]
        | [a], _ => simp [solid, pairBytes, h5]

theorem C39_hex_error (t : Str) : (hexDecode t none).2.isSome ↔
    ((∃ c ∈ t, isSpace c = false ∧ val16 c = none) ∨ (solid t).length % 2 = 1) := by
  rw [(hexDecode_spec t none).2]
  simp only [Option.isSome_none, Bool.false_eq_true, false_or, solid, List.mem_filter]
  constructor
  · rintro (⟨c, ⟨h1, h2⟩, h3⟩ | h)
    · exact Or.inl ⟨c, h1, by simpa using h2, h3⟩
    · exact Or.inr h
  · rintro (⟨c, h1, h2, h3⟩ | h)
    · exact Or.inl ⟨c, ⟨h1, by simp [h2]⟩, h3⟩
    · exact Or.inr h

theorem nib_pair (a b : Nat) (ha : a < 16) (hb : b < 16) :
    (((0 : Byte) <<< 4 ||| BitVec.ofNat 8 a) <<< 4) ||| BitVec.ofNat 8 b = BitVec.ofNat 8 (16 * a + b) := by
  have : ∀ x y : Fin 16, (((0 : Byte) <<< 4 ||| BitVec.ofNat 8 x.val) <<< 4) ||| BitVec.ofNat 8 y.val =
    BitVec.ofNat 8 (16 * x.val + y.val) := by decide +kernel
  exact this ⟨a, ha⟩ ⟨b, hb⟩

/-- C39 (hex, result): without error the result is the octets of the digits' bits. -/
theorem C39_hex_result (t : Str) (h : (hexDecode t none).2 = none) :
    (hexDecode t none).1 = octets (((solid t).filterMap val16).flatMap fun n => msbDigits 4 n) := by
  have hs := hexDecode_spec t none
  rw [hs.1]
  have h2 : ¬ ((∃ c ∈ solid t, val16 c = none) ∨ (solid t).length % 2 = 1) := by
    intro hc
    have := hs.2.mpr (Or.inr hc)
    rw [h] at this; cases this
  generalize solid t = u at h2
  clear hs h
  induction hn : u.length using Nat.strongRecOn generalizing u with
  | _ n ih =>
    match u, hn with
    | [], _ => simp [pairBytes, octets, groups_short]
    | [c], _ => exact absurd (Or.inr rfl) h2
    | c :: d :: rest, hn =>
      simp only [not_or, not_exists, not_and] at h2
      obtain ⟨h2, h3⟩ := h2
      have hc := h2 c (by simp)
      have hd := h2 d (by simp)
      obtain ⟨a, ha⟩ := Option.ne_none_iff_exists'.mp hc
      obtain ⟨b, hb⟩ := Option.ne_none_iff_exists'.mp hd
      have la := ((reverse16 c).1 a ha).2
      have lb := ((reverse16 d).1 b hb).2
      unfold pairBytes
      rw [ih rest.length (by simp at hn; omega) rest (by
        simp only [not_or, not_exists, not_and]
        refine ⟨fun x hx => h2 x (by simp [hx]), ?_⟩
        simp only [List.length_cons] at h3; omega) rfl]
      simp only [nibStep, ha, hb, List.filterMap_cons, List.flatMap_cons]
      rw [nib_pair a b la lb]
      unfold octets
      rw [← List.append_assoc, groups_append 8 (by omega) _ _ (by simp [msbDigits_length]), msbValue_append,
        List.map_cons]
      simp only [msbValue_msbDigits, msbDigits_length]
      congr 2
      omega

example : hexDecode (lit "4 1\n5a") none = (lit "AZ", none) := by decide +kernel
example : (hexDecode (lit "4g") none).2 = some msgBadHex ∧ (hexDecode (lit "415") none).2 = some msgOddHex := by
  decide +kernel

/-! ### C38 -/

theorem tohex_facts (c : Byte) : val16 (tohex1 ((c.sshiftRight 4).toNat &&& 0xf)) = some (c.toNat / 16) ∧
    val16 (tohex1 (c.toNat &&& 0xf)) = some (c.toNat % 16) ∧
    isSpace (tohex1 ((c.sshiftRight 4).toNat &&& 0xf)) = false ∧ isSpace (tohex1 (c.toNat &&& 0xf)) = false := by
  have : ∀ c : Byte, val16 (tohex1 ((c.sshiftRight 4).toNat &&& 0xf)) = some (c.toNat / 16) ∧
    val16 (tohex1 (c.toNat &&& 0xf)) = some (c.toNat % 16) ∧
    isSpace (tohex1 ((c.sshiftRight 4).toNat &&& 0xf)) = false ∧ isSpace (tohex1 (c.toNat &&& 0xf)) = false :=
    forall_byte _ (by decide +kernel)
  exact this c

theorem solid_hexEncode (s : Str) : solid (hexEncode s) = hexEncode s ∧
    (∀ c ∈ hexEncode s, val16 c ≠ none) ∧ (hexEncode s).length = 2 * s.length ∧ pairBytes (hexEncode s) = s := by
  induction s with
  | nil => simp [hexEncode, solid, pairBytes]
  | cons c s ih =>
    obtain ⟨f1, f2, f3, f4⟩ := tohex_facts c
    obtain ⟨i1, i2, i3, i4⟩ := ih
    have e : hexEncode (c :: s) = tohex1 ((c.sshiftRight 4).toNat &&& 0xf) :: tohex1 (c.toNat &&& 0xf) :: hexEncode s := by
      simp [hexEncode]
    rw [e]
    refine ⟨?_, ?_, ?_, ?_⟩
    · unfold solid at *
      rw [List.filter_cons_of_pos (by simp [f3]), List.filter_cons_of_pos (by simp [f4]), i1]
    · intro x hx
      simp only [List.mem_cons] at hx
      rcases hx with rfl | rfl | hx
      · rw [f1]; simp
      · rw [f2]; simp
      · exact i2 x hx
    · simp [i3]; omega
    · unfold pairBytes
      rw [i4]
      simp only [nibStep, f1, f2]
      have := c.isLt
      rw [nib_pair _ _ (by omega) (by omega), show 16 * (c.toNat / 16) + c.toNat % 16 = c.toNat by omega]
      simp

theorem hex_roundtrip (s t' : Str) (h : SpacesInserted (hexEncode s) t') : hexDecode t' none = (s, none) := by
  obtain ⟨h1, h2⟩ := hexDecode_spec t' none
  obtain ⟨e1, e2, e3, e4⟩ := solid_hexEncode s
  have hs : solid t' = hexEncode s := h
  rw [hs] at h1 h2
  apply Prod.ext
  · rw [h1, e4]
  · cases he : (hexDecode t' none).2 with
    | none => rfl
    | some e =>
      rw [he] at h2
      have := h2.mp rfl
      simp only [Option.isSome_none, Bool.false_eq_true, false_or] at this
      rcases this with ⟨c, hc, hn⟩ | ho
      · exact absurd hn (e2 c hc)
      · omega

/-- The names both functions know. -/
def Known (e : Str) : Prop := e = lit "binary" ∨ e = lit "hex" ∨ e = lit "base16" ∨ e = lit "base64"

/-- C38 (round trip): for every known encoding name and every byte string, encoding reports no error
and decoding gives the string back without error; except for "binary" this stays so when white space
is inserted into the text. -/
theorem C38_roundtrip (s e : Str) (he : Known e) :
    (encodeToString s e).2 = none ∧
    decodeToString (encodeToString s e).1 e = (s, none) ∧
    (e ≠ lit "binary" → ∀ t', SpacesInserted (encodeToString s e).1 t' → decodeToString t' e = (s, none)) := by
  have n1 : lit "hex" ≠ lit "binary" := by decide
  have n2 : lit "base16" ≠ lit "binary" := by decide
  have n3 : lit "base64" ≠ lit "binary" := by decide
  have n4 : ¬ (lit "base64" = lit "hex" ∨ lit "base64" = lit "base16") := by decide
  rcases he with rfl | rfl | rfl | rfl
  · refine ⟨?_, ?_, fun h => absurd rfl h⟩ <;> simp [encodeToString, decodeToString]
  · have key : ∀ t', SpacesInserted (encodeToString s (lit "hex")).1 t' → decodeToString t' (lit "hex") = (s, none) := by
      intro t' ht
      unfold encodeToString at ht
      unfold decodeToString
      rw [if_neg n1, if_pos (Or.inl rfl)] at *
      exact hex_roundtrip s t' ht
    refine ⟨by unfold encodeToString; rw [if_neg n1, if_pos (Or.inl rfl)], key _ ?_, fun _ => key⟩
    unfold encodeToString SpacesInserted
    rw [if_neg n1, if_pos (Or.inl rfl)]
    exact (solid_hexEncode s).1
  · have key : ∀ t', SpacesInserted (encodeToString s (lit "base16")).1 t' → decodeToString t' (lit "base16") = (s, none) := by
      intro t' ht
      unfold encodeToString at ht
      unfold decodeToString
      rw [if_neg n2, if_pos (Or.inr rfl)] at *
      exact hex_roundtrip s t' ht
    refine ⟨by unfold encodeToString; rw [if_neg n2, if_pos (Or.inr rfl)], key _ ?_, fun _ => key⟩
    unfold encodeToString SpacesInserted
    rw [if_neg n2, if_pos (Or.inr rfl)]
    exact (solid_hexEncode s).1
  · have key : ∀ t', SpacesInserted (encodeToString s (lit "base64")).1 t' → decodeToString t' (lit "base64") = (s, none) := by
      intro t' ht
      unfold encodeToString at ht
      unfold decodeToString
      rw [if_neg n3, if_neg n4, if_pos rfl] at *
      exact C37_roundtrip s t' ht
    refine ⟨by unfold encodeToString; rw [if_neg n3, if_neg n4, if_pos rfl], key _ ?_, fun _ => key⟩
    unfold encodeToString SpacesInserted
    rw [if_neg n3, if_neg n4, if_pos rfl]
    simp only
    rw [C37_encode_rfc]
    unfold rfcEncode
    simp only
    rw [List.filter_eq_self]
    intro c hc
    rw [List.mem_append] at hc
    rcases hc with hc | hc
    · obtain ⟨n, hn, rfl⟩ := List.mem_map.mp hc
      rw [(alpha64_facts n (groups_lt 6 _ n hn)).2.2]; rfl
    · rw [(List.mem_replicate.mp hc).2]; decide

/-- C38 (unknown names): every other name gives an error and no data, in both directions. -/
theorem C38_unknown (s e : Str) (h : ¬ Known e) :
    encodeToString s e = ([], some msgBadEncoding) ∧ decodeToString s e = ([], some msgBadEncoding) := by
  simp only [Known, not_or] at h
  obtain ⟨h1, h2, h3, h4⟩ := h
  unfold encodeToString decodeToString
  rw [if_neg h1, if_neg (by simp [h2, h3]), if_neg h4, if_neg h1, if_neg (by simp [h2, h3]), if_neg h4]
  exact ⟨rfl, rfl⟩

/-- C38 (case, negation): the names are meant to be compared without regard to case (the argument is
wrapped in `stringCaseInsensitive`), but "HEX" is rejected. -/
theorem C38_case_refuted :
    (decodeToString (lit "41") (lit "hex")).2 = none ∧
    decodeToString (lit "41") (lit "HEX") = ([], some msgBadEncoding) := by decide +kernel

example : decodeToString (encodeToString (lit "hello") (lit "base64")).1 (lit "base64") = (lit "hello", none) :=
  (C38_roundtrip _ _ (by unfold Known; simp)).2.1
example : ¬ Known (lit "Base64") := by unfold Known; decide

end Verif.Encoding
