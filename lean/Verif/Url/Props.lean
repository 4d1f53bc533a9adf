import Verif.Url.Model
import Verif.Encoding.Lemmas

/-
Property C40.
-/

namespace Verif.Url
open Verif

/-- Standard percent-decoding (RFC 3986): `%` followed by two hex digits is that byte, anything else
stands for itself; `none` for a malformed escape. -/
def percentDecode : Str → Option Str
  | [] => some []
  | c :: rest =>
    if c = chr '%' then
      match rest with
      | h :: l :: rest' =>
        match Encoding.Spec.val16 h, Encoding.Spec.val16 l with
        | some a, some b => (percentDecode rest').map (BitVec.ofNat 8 (16 * a + b) :: ·)
        | _, _ => none
      | _ => none
    else (percentDecode rest).map (c :: ·)

/-- What one byte comes back as. -/
def back (ch : Byte) : Byte :=
  if kept ch then ch
  else
    let f := fun n => if n < 10 then n else n - 1
    let g := fun n => if n = 10 then 0 else f n
    BitVec.ofNat 8 (16 * g (ch.toNat / 16) + g (ch.toNat % 16))

/-- Bytes whose escape needs no digit above 9. -/
def Decimal (ch : Byte) : Prop := ch.toNat / 16 < 10 ∧ ch.toNat % 16 < 10

instance (ch : Byte) : Decidable (Decimal ch) := by unfold Decimal; infer_instance

theorem digits_eq : digits = [48, 49, 50, 51, 52, 53, 54, 55, 56, 57, 48, 65, 66, 67, 68, 69, 70] := by decide +kernel

theorem marks_eq : lit "-_.!~'()" = [45, 95, 46, 33, 126, 39, 40, 41] := by decide +kernel

theorem marks'_eq : lit "-_.!~'()%" = [45, 95, 46, 33, 126, 39, 40, 41, 37] := by decide +kernel

theorem enc_one (ch : Byte) (rest : Str) :
    percentDecode ((if kept ch then [ch] else escape ch) ++ rest) = (percentDecode rest).map (back ch :: ·) := by
  have hk : ∀ b : Byte, kept b = true → b ≠ chr '%' := by
    simp only [kept, marks_eq]; exact Encoding.forall_byte _ (by decide +kernel)
  have he : ∀ b : Byte, kept b = false → ∃ a c, Encoding.Spec.val16 (digits.getD ((b.sshiftRight 4).toNat &&& 0x0f) 0) = some a ∧
      Encoding.Spec.val16 (digits.getD (b.toNat &&& 0x0f) 0) = some c ∧ BitVec.ofNat 8 (16 * a + c) = back b := by
    have : ∀ b : Byte, kept b = false → (match Encoding.Spec.val16 (digits.getD ((b.sshiftRight 4).toNat &&& 0x0f) 0),
        Encoding.Spec.val16 (digits.getD (b.toNat &&& 0x0f) 0) with
      | some a, some c => decide (BitVec.ofNat 8 (16 * a + c) = back b)
      | _, _ => false) = true := by
      simp only [back, kept, marks_eq, digits_eq]; exact Encoding.forall_byte _ (by decide +kernel)
    intro b hb
    have h := this b hb
    split at h
    · next a c h1 h2 => exact ⟨a, c, h1, h2, of_decide_eq_true h⟩
    · cases h
  by_cases h : kept ch = true
  · rw [if_pos h]
    simp only [List.cons_append, List.nil_append]
    have hb : back ch = ch := by simp [back, h]
    rw [percentDecode.eq_def]
    simp only [if_neg (hk ch h), hb]
  · have h' : kept ch = false := by simpa using h
    rw [if_neg h]
    obtain ⟨a, c, h1, h2, h3⟩ := he ch h'
    simp only [escape, List.cons_append, List.nil_append]
    rw [percentDecode, if_pos rfl]
    simp only [h1, h2, h3]

theorem decode_encode (s : Str) : percentDecode (urlEncode s) = some (s.map back) := by
  induction s with
  | nil => rfl
  | cons c s ih =>
    unfold urlEncode at *
    rw [List.flatMap_cons, enc_one, ih]; rfl

theorem back_eq_iff (ch : Byte) : back ch = ch ↔ (kept ch = true ∨ Decimal ch) := by
  have : ∀ b : Byte, back b = b ↔ (kept b = true ∨ Decimal b) := by
    simp only [back, kept, marks_eq]; exact Encoding.forall_byte _ (by decide +kernel)
  exact this ch

/-- C40, partial: percent-decoding always succeeds, and gives back the original string exactly when
every character is kept as it is or has both hexadecimal digits of its code below 10.  Missing:
all other strings, see `C40_refuted`. -/
theorem C40_roundtrip_partial (s : Str) :
    (percentDecode (urlEncode s)).isSome ∧
    (percentDecode (urlEncode s) = some s ↔ ∀ c ∈ s, kept c = true ∨ Decimal c) := by
  rw [decode_encode]
  refine ⟨rfl, ?_⟩
  rw [Option.some.injEq]
  constructor
  · intro h c hc
    rw [← back_eq_iff]
    obtain ⟨i, hi, rfl⟩ := List.mem_iff_getElem.mp hc
    have h2 := congrArg (fun l => l[i]?) h
    simp only [List.getElem?_map, List.getElem?_eq_getElem hi, Option.map_some, Option.some.injEq] at h2
    exact h2
  · intro h
    conv => rhs; rw [← List.map_id s]
    apply List.map_congr_left
    intro c hc
    exact (back_eq_iff c).mpr (h c hc)

/-- C40 (negation): `*` and space get the same encoding, and `/` decodes to `.`. -/
theorem C40_refuted : urlEncode (lit "*") = urlEncode (lit " ") ∧
    percentDecode (urlEncode (lit "a/b")) = some (lit "a.b") := by decide +kernel

/-- C40: a text of letters, digits and the characters -_.!~'() is not changed by the encoding (so it has no second encoding), and any other character but NUL is escaped. -/
theorem C40_unchanged (s : Str) : urlEncode s = s ↔ ∀ c ∈ s, isAlnum c = true ∨ c ∈ lit "-_.!~'()" ∨ c = 0 := by
  have hk : ∀ b : Byte, kept b = true ↔ isAlnum b = true ∨ b ∈ lit "-_.!~'()" ∨ b = 0 := by
    intro b
    simp [kept, or_assoc]
  have hl : ∀ s : Str, s.length ≤ (urlEncode s).length := by
    intro s
    induction s with
    | nil => exact Nat.le_refl _
    | cons c s ih =>
      unfold urlEncode at *
      rw [List.flatMap_cons, List.length_append]
      have : 1 ≤ (if kept c then [c] else escape c).length := by split <;> simp [escape]
      rw [List.length_cons]
      omega
  induction s with
  | nil => simp [urlEncode]
  | cons c s ih =>
    refine Iff.trans ?_ (List.forall_mem_cons ..).symm
    refine Iff.trans ?_ (and_congr (hk c) ih)
    have e : urlEncode (c :: s) = (if kept c then [c] else escape c) ++ urlEncode s := by
      unfold urlEncode; rw [List.flatMap_cons]
    rw [e]
    by_cases h : kept c = true
    · simp [h]
    · rw [if_neg h]
      constructor
      · intro g
        have := congrArg List.length g
        have := hl s
        simp [escape] at *
        omega
      · intro g; exact absurd g.1 h

example : urlEncode (lit "it's_(A-9).txt~!") = lit "it's_(A-9).txt~!" := by decide +kernel

/-- C40 (alphabet), partial: the output consists of characters allowed in a URL component, apart
from NUL, which is passed through. -/
theorem C40_output_alphabet_partial (s : Str) : ∀ c ∈ urlEncode s,
    isAlnum c = true ∨ c ∈ lit "-_.!~'()%" ∨ c = 0 := by
  intro c hc
  unfold urlEncode at hc
  rw [List.mem_flatMap] at hc
  obtain ⟨b, -, hb⟩ := hc
  have key : ∀ b : Byte, ∀ x ∈ (if kept b then [b] else escape b),
    isAlnum x = true ∨ x ∈ lit "-_.!~'()%" ∨ x = 0 := by
    have : ∀ b : Byte, (if kept b then [b] else escape b).all (fun x => isAlnum x || (lit "-_.!~'()%").contains x || x == 0) = true := by
      simp only [kept, escape, marks_eq, marks'_eq, digits_eq]; exact Encoding.forall_byte _ (by decide +kernel)
    intro b x hx
    have := List.all_eq_true.1 (this b) x hx
    simpa [or_assoc] using this
  exact key b c hb

example : urlEncode (lit "a b!") = lit "a%20b!" ∧ percentDecode (lit "a%20b!") = some (lit "a b!") := by
  decide +kernel

end Verif.Url
