import Verif.Encoding.Props16
import Verif.Encoding.Props64

/-
Property C39: which message the decoders report (`Utils.cpp:653-742`).
-/

namespace Verif.Encoding
open Verif Verif.Encoding.Spec

/-! ### Specification -/

/-- The message for a base64 text: that of data after the end if there is any, otherwise that of wrong characters. -/
def message64 (t : Str) (err : Option String) : Option String :=
  if (t.dropWhile (· ≠ chr '=')).any (fun c => !(isSpace c || c == chr '=')) then some "found data after '=' terminator in base64 data"
  else if (t.takeWhile (· ≠ chr '=')).any (fun c => !isSpace c && (val64 c).isNone) then some "invalid characters in base64 data"
  else err

/-- The message for a hex text: that of an odd number of characters (white space aside) if it is odd, otherwise that of wrong characters. -/
def message16 (t : Str) (err : Option String) : Option String :=
  if (solid t).length % 2 = 1 then some "Unexpected odd length of hex encoded string"
  else if (solid t).any (fun c => (val16 c).isNone) then some "unexpected character in hex data"
  else err

/-! ### Proof -/

theorem scan_fold (rest : Str) (err : Option String) :
    rest.foldl (fun e c => if !(isSpace c || c == chr '=') then some msgAfterEnd else e) err = if rest.any (fun c => !(isSpace c || c == chr '=')) then some msgAfterEnd else err := by
  induction rest generalizing err with
  | nil => rfl
  | cons c rest ih =>
    rw [List.foldl_cons, ih, List.any_cons]
    by_cases h : (isSpace c || c == chr '=') = true
    · simp [h]
    · simp [h]

theorem group64_message (s : Str) (accum j : Nat) (err : Option String) : message64 (group64 s accum j err).rest (group64 s accum j err).err = message64 s err := by
  induction s generalizing accum j err with
  | nil => rfl
  | cons ch rest ih =>
    unfold group64
    split
    · have tw : ch ≠ chr '=' → (ch :: rest).takeWhile (· ≠ chr '=') = ch :: rest.takeWhile (· ≠ chr '=') ∧ (ch :: rest).dropWhile (· ≠ chr '=') = rest.dropWhile (· ≠ chr '=') := by
        intro h; simp [h]
      by_cases hs : isSpace ch = true
      · rw [if_pos hs, ih]
        have hne : ch ≠ chr '=' := by rintro rfl; revert hs; decide
        unfold message64
        rw [(tw hne).1, (tw hne).2, List.any_cons]
        simp only [hs, Bool.not_true, Bool.false_and, Bool.false_or]
      · rw [if_neg hs]
        by_cases he : ch = chr '='
        · rw [if_pos he, scan_fold]
          subst he
          have e1 : (chr '=' :: rest).dropWhile (· ≠ chr '=') = chr '=' :: rest := by simp
          have e2 : (chr '=' :: rest).takeWhile (· ≠ chr '=') = [] := by simp
          unfold message64
          rw [e1, e2, List.any_cons]
          simp [msgAfterEnd]
        · rw [if_neg he]
          simp only
          rw [reverse64 ch he]
          have e : ∀ x, message64 (ch :: rest) x = if (rest.dropWhile (· ≠ chr '=')).any (fun c => !(isSpace c || c == chr '=')) then some "found data after '=' terminator in base64 data"
              else if ((val64 ch).isNone || (rest.takeWhile (· ≠ chr '=')).any (fun c => !isSpace c && (val64 c).isNone)) then some "invalid characters in base64 data" else x := by
            intro x
            unfold message64
            rw [(tw he).1, (tw he).2, List.any_cons]
            simp only [Bool.eq_false_iff.2 hs, Bool.not_false, Bool.true_and]
          rw [e]
          cases hv : val64 ch with
          | none =>
            rw [if_pos (by simp), ih]
            unfold message64
            simp [msgBad64]
          | some d =>
            have := val64_lt ch d hv
            rw [if_neg (by simp; omega), ih]
            unfold message64
            simp
    · rfl

theorem base64_message (t : Str) (err : Option String) : (base64Decode t err).2 = message64 t err := by
  induction hn : t.length using Nat.strongRecOn generalizing t err with
  | _ n ih =>
    cases t with
    | nil => rw [base64Decode]; rfl
    | cons ch rest =>
      rw [base64Decode]
      simp only
      rw [ih _ (by rw [← hn]; exact group64_decreases ch rest 0 0 err (by omega)) _ _ rfl, group64_message]

theorem group16_message (s : Str) (accum : Byte) (j : Nat) (err : Option String) (hj : j ≤ 2) :
    ∃ cs, solid s = cs ++ solid (group16 s accum j err).1 ∧ (group16 s accum j err).2.2.1 = j + cs.length ∧ (group16 s accum j err).2.2.1 ≤ 2 ∧ ((group16 s accum j err).2.2.1 < 2 → (group16 s accum j err).1 = []) ∧
      (group16 s accum j err).2.2.2 = if cs.any (fun c => (val16 c).isNone) then some msgBadHex else err := by
  induction s generalizing accum j err with
  | nil => exact ⟨[], by simp [group16, solid, hj]⟩
  | cons ch rest ih =>
    unfold group16
    by_cases h2 : j < 2
    · rw [if_pos h2]
      by_cases hsp : isSpace ch = true
      · rw [if_pos hsp]
        obtain ⟨cs, h1, h3⟩ := ih accum j err hj
        refine ⟨cs, ?_, h3⟩
        rw [← h1]; simp [solid, hsp]
      · rw [if_neg hsp]
        have hsol : solid (ch :: rest) = ch :: solid rest := by simp [solid, hsp]
        simp only
        obtain ⟨r1, r2⟩ := reverse16 ch
        cases hv : val16 ch with
        | none =>
          rw [if_pos (r2 hv)]
          obtain ⟨cs, h1, h3, h4, h5, h6⟩ := ih accum (j + 1) (some msgBadHex) (by omega)
          refine ⟨ch :: cs, ?_, ?_, h4, h5, ?_⟩
          · rw [hsol, h1]; rfl
          · rw [h3]; simp; omega
          · rw [h6]; simp [hv]
        | some d =>
          obtain ⟨rd, rlt⟩ := r1 d hv
          rw [rd, if_neg (by omega)]
          obtain ⟨cs, h1, h3, h4, h5, h6⟩ := ih ((accum <<< 4) ||| BitVec.ofNat 8 d) (j + 1) err (by omega)
          refine ⟨ch :: cs, ?_, ?_, h4, h5, ?_⟩
          · rw [hsol, h1]; rfl
          · rw [h3]; simp; omega
          · rw [h6]; simp [hv]
    · rw [if_neg h2]
      exact ⟨[], by simp; omega⟩

theorem hex_message (t : Str) (err : Option String) : (hexDecode t err).2 = message16 t err := by
  induction hn : t.length using Nat.strongRecOn generalizing t err with
  | _ n ih =>
    cases t with
    | nil => rw [hexDecode]; rfl
    | cons ch rest =>
      rw [hexDecode]
      simp only
      obtain ⟨cs, h1, h3, h4, h5, h6⟩ := group16_message (ch :: rest) 0 0 err (by omega)
      rw [ih _ (by rw [← hn]; exact group16_decreases ch rest 0 0 err (by omega)) _ _ rfl, h6]
      unfold message16
      rw [h1]
      rw [Nat.zero_add] at h3
      by_cases hfull : (group16 (ch :: rest) 0 0 err).2.2.1 = 2
      · have hc : cs.length = 2 := by omega
        rw [List.length_append, hc, List.any_append]
        have e : (2 + (solid (group16 (ch :: rest) 0 0 err).1).length) % 2 = (solid (group16 (ch :: rest) 0 0 err).1).length % 2 := by omega
        rw [e, if_neg (show ¬ (group16 (ch :: rest) 0 0 err).2.2.1 = 1 by omega)]
        cases (List.any cs fun c => (val16 c).isNone) <;> simp [msgBadHex]
      · have hr := h5 (by omega)
        rw [hr]
        by_cases h : cs.length = 1
        · rw [if_pos (h3.trans h)]; simp [solid, h, msgOddHex]
        · have h0 : cs = [] := List.length_eq_zero_iff.1 (by omega)
          subst h0
          rw [if_neg (show ¬ (group16 (ch :: rest) 0 0 err).2.2.1 = 1 by rw [h3]; simp)]; simp [solid]

/-- C39: which message is reported for a base64 text, for every text. -/
theorem C39_base64_message (t : Str) : (base64Decode t none).2 =
    if (∃ c ∈ t.dropWhile (· ≠ chr '='), isSpace c = false ∧ c ≠ chr '=') then some "found data after '=' terminator in base64 data"
    else if (∃ c ∈ t.takeWhile (· ≠ chr '='), isSpace c = false ∧ val64 c = none) then some "invalid characters in base64 data"
    else none := by
  rw [base64_message, message64]
  simp

example : (base64Decode (lit "Zm*9=x") none).2 = some "found data after '=' terminator in base64 data" ∧ (base64Decode (lit "Zm*9v") none).2 = some "invalid characters in base64 data" := by
  decide +kernel

/-- C39: which message is reported for a hex text, for every text. -/
theorem C39_hex_message (t : Str) : (hexDecode t none).2 =
    if (solid t).length % 2 = 1 then some "Unexpected odd length of hex encoded string"
    else if (∃ c ∈ solid t, val16 c = none) then some "unexpected character in hex data"
    else none := by
  rw [hex_message, message16]
  simp

example : (hexDecode (lit "4x1") none).2 = some "Unexpected odd length of hex encoded string" ∧ (hexDecode (lit "4 x") none).2 = some "unexpected character in hex data" ∧ (hexDecode (lit "4 1\n") none) = (lit "A", none) := by
  decide +kernel

end Verif.Encoding
