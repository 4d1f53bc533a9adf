import Verif.BitVector.Model
import Verif.BitVector.Spec
import Verif.Soft.Model
import Mathlib.Tactic.NormNum
import Mathlib.Algebra.Order.Field.Rat

/-
Property C94: bit vectors as text (constructor from a C string, operator<< of BitVector and SoftVector).
-/

namespace Verif.BitVector
open Verif

/-- `operator<<` for `SoftVector`, BitVector.cpp:353-361. -/
def softPrint (v : List Rat) : List Char :=
  v.map fun x => if x < 1 / 4 then '0' else if x > 3 / 4 then '1' else '-'

/-- The text of a list of bits. -/
def bitText (bs : List Bool) : List Char := bs.map fun b => if b then '1' else '0'

theorem and_one_ne (c : BitVec 8) : ((c &&& 1) != 0) = c.getLsbD 0 := by
  revert c; decide

/-- C94 (constructor): bit number i is 1 exactly when character number i is '1', for every text. -/
theorem C94_parse (s : List Char) : Spec.bits (ofString s) = s.map (· == '1') ∧ Spec.Normalised (ofString s) := by
  constructor
  · unfold Spec.bits ofString
    rw [List.map_map]
    apply List.map_congr_left
    intro c _
    by_cases h : c = '1' <;> simp [h]
  · intro c hc
    unfold ofString at hc
    obtain ⟨x, -, rfl⟩ := List.mem_map.1 hc
    split
    · exact Or.inr rfl
    · exact Or.inl rfl

/-- C94 (constructor), through the accessor `bit`. -/
theorem C94_parse_bit (s : List Char) (i : Nat) (h : i < s.length) :
    bit (ofString s) i = .ok (s[i] == '1') := by
  unfold bit ofString
  rw [List.getElem?_map, List.getElem?_eq_getElem h]
  simp only [Option.map_some]
  by_cases hc : s[i] = '1' <;> simp [hc]

/-- C94 (output): the text printed is that of the bits, one character each. -/
theorem C94_print (v : Bits) : print v = bitText (Spec.bits v) := by
  unfold print bitText Spec.bits
  rw [List.map_map]
  apply List.map_congr_left
  intro c _
  simp only [Function.comp, and_one_ne]

/-- C94 (text to vector to text): a text of zeros and ones is printed back unchanged. -/
theorem C94_text_roundtrip (s : List Char) (h : ∀ c ∈ s, c = '0' ∨ c = '1') : print (ofString s) = s := by
  rw [C94_print, (C94_parse s).1]
  unfold bitText
  rw [List.map_map]
  conv => rhs; rw [← List.map_id s]
  apply List.map_congr_left
  intro c hc
  rcases h c hc with rfl | rfl <;> simp

example : print (ofString "0110".toList) = "0110".toList :=
  C94_text_roundtrip _ (by decide)

/-- C94 (vector to text to vector): reading back the printed text gives a vector with the same bits,
and equal under operator== exactly when all stored chars are 0 or 1. -/
theorem C94_vector_roundtrip (v : Bits) :
    Spec.bits (ofString (print v)) = Spec.bits v ∧
      (eqOp v (ofString (print v)) = true ↔ Spec.Normalised v) := by
  have hb : Spec.bits (ofString (print v)) = Spec.bits v := by
    rw [(C94_parse _).1, C94_print]
    unfold bitText
    rw [List.map_map]
    conv => rhs; rw [← List.map_id (Spec.bits v)]
    apply List.map_congr_left
    intro b _
    cases b <;> simp
  refine ⟨hb, ?_⟩
  have hn := (C94_parse (print v)).2
  constructor
  · intro he
    unfold eqOp at he
    rw [Bool.and_eq_true] at he
    have : v = ofString (print v) := by simpa using he.2
    rw [this]; exact hn
  · intro hv
    have : v = ofString (print v) := by
      have hlen : (ofString (print v)).length = v.length := by simp [ofString, print]
      apply List.ext_getElem hlen.symm
      intro i h1 h2
      have e : (Spec.bits (ofString (print v)))[i]? = (Spec.bits v)[i]? := by rw [hb]
      unfold Spec.bits at e
      rw [List.getElem?_map, List.getElem?_map, List.getElem?_eq_getElem h1,
        List.getElem?_eq_getElem h2] at e
      simp only [Option.map_some, Option.some.injEq] at e
      rcases hv _ (List.getElem_mem h1) with ha | ha <;>
        rcases hn _ (List.getElem_mem h2) with hb' | hb' <;> rw [ha, hb'] at e ⊢ <;> simp at e
    unfold eqOp
    rw [← this]; simp

/-- C94 (length). -/
theorem C94_length (s : List Char) (v : Bits) : (ofString s).length = s.length ∧ (print v).length = v.length := by
  simp [ofString, print]

/-- C94 (rejection of other texts) is refuted: any other character silently counts as 0. -/
theorem C94_other_refuted : ofString "1x2".toList = ofString "100".toList := by decide

/-- C94 (soft vectors): the text of a soft vector made from bits is the text of the bits. -/
theorem C94_soft_ofBits (v : Bits) : softPrint (Soft.ofBits v) = print v := by
  unfold softPrint Soft.ofBits print
  rw [List.map_map]
  apply List.map_congr_left
  intro c _
  simp only [Function.comp]
  split <;> norm_num

/-- C94 (soft vectors): every character shown as 0 or 1 is the sliced bit; values between 1/4 and 3/4
are shown as '-'. -/
theorem C94_soft_sliced (v : List Rat) (i : Nat) (h : i < v.length) :
    ((softPrint v)[i]? = some '-' ↔ 1 / 4 ≤ v[i] ∧ v[i] ≤ 3 / 4) ∧
      ((softPrint v)[i]? ≠ some '-' → (softPrint v)[i]? = (print (Soft.sliced v))[i]?) := by
  have e1 : (softPrint v)[i]? = some (if v[i] < 1 / 4 then '0' else if v[i] > 3 / 4 then '1' else '-') := by
    unfold softPrint; rw [List.getElem?_map, List.getElem?_eq_getElem h]; rfl
  have e2 : (print (Soft.sliced v))[i]? = some (if v[i] > 1 / 2 then '1' else '0') := by
    unfold print Soft.sliced
    rw [List.getElem?_map, List.getElem?_map, List.getElem?_eq_getElem h]
    simp only [Option.map_some]
    split <;> rfl
  rw [e1, e2]
  by_cases c1 : v[i] < 1 / 4
  · have : ¬ v[i] > 1 / 2 := by intro h; have := lt_trans h c1; norm_num at this
    rw [if_pos c1, if_neg this]
    refine ⟨⟨fun h => absurd h (by decide), fun h => absurd c1 (not_lt.2 h.1)⟩, fun _ => rfl⟩
  · by_cases c2 : v[i] > 3 / 4
    · have : v[i] > 1 / 2 := lt_trans (by norm_num) c2
      rw [if_neg c1, if_pos c2, if_pos this]
      refine ⟨⟨fun h => absurd h (by decide), fun h => absurd c2 (not_lt.2 h.2)⟩, fun _ => rfl⟩
    · rw [if_neg c1, if_neg c2]
      exact ⟨⟨fun _ => ⟨not_lt.1 c1, not_lt.1 c2⟩, fun _ => rfl⟩, fun h => absurd rfl h⟩

example : softPrint [1, 1 / 10, 3 / 5] = ['1', '0', '-'] := by
  unfold softPrint; norm_num

end Verif.BitVector
