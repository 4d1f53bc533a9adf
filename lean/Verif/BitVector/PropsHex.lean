import Verif.BitVector.PropsPack

/-
Property C05, reading: what `BitVector::unhex` does with any text without white space, for vectors of any size.
-/

namespace Verif.BitVector
open Verif Spec

/-- Specification: the value of a hexadecimal digit, small or capital. -/
def digitValue (c : Char) : Option Nat :=
  ("0123456789abcdef".toList.idxOf? c).or ("0123456789ABCDEF".toList.idxOf? c)

/-- Specification: the six white space characters of the C locale. -/
def whites : List Char := [' ', '\t', '\n', '\r', Char.ofNat 11, Char.ofNat 12]

theorem char_cases (c : Char) : (∃ n : Fin 128, c = Char.ofNat n.1) ∨ 128 ≤ c.toNat := by
  rcases Nat.lt_or_ge c.toNat 128 with h | h
  · exact .inl ⟨⟨c.toNat, h⟩, by simp⟩
  · exact .inr h

theorem isSpaceC_iff (c : Char) : isSpaceC c = true ↔ c ∈ whites := by
  rcases char_cases c with ⟨n, rfl⟩ | h
  · revert n; decide +kernel
  · constructor
    · intro hs
      simp only [isSpaceC, Bool.or_eq_true, beq_iff_eq] at hs
      rcases hs with ((((rfl | rfl) | rfl) | e) | e) | rfl
      · exact absurd h (by decide)
      · exact absurd h (by decide)
      · exact absurd h (by decide)
      · omega
      · omega
      · exact absurd h (by decide)
    · intro hm
      simp only [whites, List.mem_cons, List.not_mem_nil, or_false] at hm
      rcases hm with rfl | rfl | rfl | rfl | rfl | rfl <;> exact absurd h (by decide)

theorem hexVal_eq (c : Char) : hexVal c = digitValue c := by
  rcases char_cases c with ⟨n, rfl⟩ | h
  · revert n; decide +kernel
  · have h1 : hexVal c = none := by
      unfold hexVal
      have e : ∀ d : Char, d.toNat < 128 → ¬ c ≤ d := by
        intro d hd hle
        have : c.toNat ≤ d.toNat := hle
        omega
      rw [if_neg (fun hh => e '9' (by decide) hh.2), if_neg (fun hh => e 'f' (by decide) hh.2),
        if_neg (fun hh => e 'F' (by decide) hh.2)]
    have h2 : digitValue c = none := by
      unfold digitValue
      have e : ∀ l : List Char, (∀ d ∈ l, d.toNat < 128) → l.idxOf? c = none := by
        intro l hl
        rw [List.idxOf?_eq_none_iff]
        intro hm
        have := hl c hm
        omega
      rw [e _ (by decide), e _ (by decide)]; rfl
    rw [h1, h2]

theorem digitValue_lt (c : Char) (d : Nat) (h : digitValue c = some d) : d < 16 := by
  rcases char_cases c with ⟨n, rfl⟩ | hc
  · revert d; revert n; decide +kernel
  · rw [← hexVal_eq] at h
    unfold hexVal at h
    have e : ∀ x : Char, x.toNat < 128 → ¬ c ≤ x := by
      intro x hx hle
      have : c.toNat ≤ x.toNat := hle
      omega
    rw [if_neg (fun hh => e '9' (by decide) hh.2), if_neg (fun hh => e 'f' (by decide) hh.2),
      if_neg (fun hh => e 'F' (by decide) hh.2)] at h
    cases h

theorem scan1x_nospace (src : List Char) (h : ∀ c ∈ src, c ∉ whites) (i : Nat) :
    scan1x (src.drop i) = (src[i]?).bind digitValue := by
  unfold scan1x
  cases hd : src.drop i with
  | nil =>
    rw [List.drop_eq_nil_iff] at hd
    rw [List.getElem?_eq_none hd]; rfl
  | cons c t =>
    have hi : src[i]? = some c := by rw [← List.head?_drop, hd]; rfl
    have hc : isSpaceC c = false := by
      have := h c (List.mem_of_getElem? hi)
      rw [← isSpaceC_iff] at this
      simpa using this
    rw [List.dropWhile_cons_of_neg (by simp [hc]), hi]
    exact hexVal_eq c

theorem unhexLoop_spec (src : List Char) (hw : ∀ c ∈ src, c ∉ whites) (i k : Nat) (v : Bits) (h : 4 * (i + k) ≤ v.length) :
    ∃ v' good, unhexLoop src i k v = .ok (v', good) ∧ v'.length = v.length ∧
      (good = true ↔ ∀ j, j < k → ((src[i + j]?).bind digitValue).isSome) ∧
      (good = true → (∀ j, j < 4 * i → (bits v')[j]? = (bits v)[j]?) ∧
        ∀ m b, m < k → b < 4 → (bits v')[4 * (i + m) + b]? = ((src[i + m]?).bind digitValue).map fun d => d.testBit (3 - b)) := by
  induction k generalizing i v with
  | zero => exact ⟨v, true, rfl, rfl, by simp, fun _ => ⟨fun _ _ => rfl, fun m b hm => by omega⟩⟩
  | succ k ih =>
    rw [unhexLoop, scan1x_nospace src hw]
    rcases hd : (src[i]?).bind digitValue with _ | d
    · refine ⟨v, false, rfl, rfl, ?_, by simp⟩
      constructor
      · intro hf; cases hf
      · intro hf
        have := hf 0 (by omega)
        rw [Nat.add_zero, hd] at this
        cases this
    · have hd16 : d < 16 := by
        obtain ⟨c, -, hc⟩ := Option.bind_eq_some_iff.1 hd
        exact digitValue_lt c d hc
      obtain ⟨v1, h1, h2, h3, -, -⟩ := C01_fillField v (i * 4) 4 (BitVec.ofNat 64 d) (.inr (by omega))
      obtain ⟨v2, good, g1, g2, g3, g4⟩ := ih (i + 1) v1 (by omega)
      have hlen : (msbDigits 4 (BitVec.ofNat 64 d).toNat).length = 4 := by simp [msbDigits]
      have hov := fun j => overwrite_getElem? (bits v) (msbDigits 4 (BitVec.ofNat 64 d).toNat) (i * 4) j
        (by rw [hlen, bits_length]; omega)
      rw [← h3, hlen] at hov
      refine ⟨v2, good, by simp [h1, g1], by omega, ?_, ?_⟩
      · rw [g3]
        constructor
        · intro hf j hj
          cases j with
          | zero => rw [Nat.add_zero, hd]; rfl
          | succ j =>
            have := hf j (by omega)
            rw [show i + 1 + j = i + (j + 1) by omega] at this
            exact this
        · intro hf j hj
          have := hf (j + 1) (by omega)
          rw [show i + (j + 1) = i + 1 + j by omega] at this
          exact this
      · intro hg
        obtain ⟨a1, a2⟩ := g4 hg
        refine ⟨?_, ?_⟩
        · intro j hj
          rw [a1 j (by omega), hov, if_neg (by omega)]
        · intro m b hm hb
          cases m with
          | zero =>
            rw [a1 _ (by omega), hov, if_pos (by omega), Nat.add_zero, hd, List.getElem?_eq_getElem (by omega)]
            have : 4 * i + b - i * 4 = b := by omega
            simp only [this, msbDigits, List.getElem_map, List.getElem_range, Option.map_some, Nat.reduceSub]
            rw [BitVec.toNat_ofNat, Nat.mod_eq_of_lt (by omega)]
          | succ m =>
            have := a2 m b (by omega) hb
            rw [show i + 1 + m = i + (m + 1) by omega] at this
            exact this

/-- C05 (reading any text without white space into a vector of any size): `unhex` reports success exactly when each of the digits needed (one per four bits, one more for a
rest) is there and is a hexadecimal digit, small or capital; then every group of four bits holds its digit, and a rest of `r` bits the low `r` bits of the last digit. -/
theorem C05_unhex (v : Bits) (src : List Char) (hw : ∀ c ∈ src, c ∉ whites) :
    ∃ v' good, unhex v src = .ok (v', good) ∧ v'.length = v.length ∧
      (good = true ↔ ∀ j, 4 * j < v.length → ((src[j]?).bind digitValue).isSome) ∧
      (good = true → ∀ j, j < v.length → (bits v')[j]? =
        ((src[j / 4]?).bind digitValue).map fun d => d.testBit (min 4 (v.length - 4 * (j / 4)) - 1 - j % 4)) := by
  obtain ⟨v1, good, h1, h2, h3, h4⟩ := unhexLoop_spec src hw 0 (v.length / 4) v (by omega)
  simp only [Nat.zero_add] at h3 h4
  unfold unhex
  simp only [h1, Outcome.bind_ok]
  cases good with
  | false =>
    refine ⟨v1, false, rfl, h2, ?_, by simp⟩
    constructor
    · intro h; cases h
    · intro h
      have : false = true := h3.2 fun j hj => h j (by omega)
      cases this
  | true =>
    have h3' := h3.1 rfl
    obtain ⟨-, h4'⟩ := h4 rfl
    simp only [Bool.not_true, Bool.false_eq_true, if_false]
    by_cases hr : v.length - v.length / 4 * 4 > 0
    · rw [if_pos hr, scan1x_nospace src hw]
      rcases hd : (src[v.length / 4]?).bind digitValue with _ | d
      · refine ⟨v1, false, rfl, h2, ?_, by simp⟩
        constructor
        · intro h; cases h
        · intro h
          have := h (v.length / 4) (by omega)
          rw [hd] at this; cases this
      · have hd16 : d < 16 := by
          obtain ⟨c, -, hc⟩ := Option.bind_eq_some_iff.1 hd
          exact digitValue_lt c d hc
        obtain ⟨v2, g1, g2, g3, -, -⟩ := C01_fillField v1 (v.length / 4 * 4) (v.length - v.length / 4 * 4) (BitVec.ofNat 64 d) (.inr (by omega))
        have hlen : (msbDigits (v.length - v.length / 4 * 4) (BitVec.ofNat 64 d).toNat).length = v.length - v.length / 4 * 4 := by simp [msbDigits]
        have hov := fun j => overwrite_getElem? (bits v1) (msbDigits (v.length - v.length / 4 * 4) (BitVec.ofNat 64 d).toNat) (v.length / 4 * 4) j
          (by rw [hlen, bits_length]; omega)
        rw [← g3, hlen] at hov
        refine ⟨v2, true, by simp [g1], by omega, ?_, ?_⟩
        · refine ⟨fun _ j hj => ?_, fun _ => rfl⟩
          rcases Nat.lt_or_ge j (v.length / 4) with hl | hl
          · exact h3' j hl
          · rw [show j = v.length / 4 by omega, hd]; rfl
        · intro _ j hj
          rw [hov]
          by_cases hc : v.length / 4 * 4 ≤ j
          · rw [if_pos (by omega), show j / 4 = v.length / 4 by omega, hd, List.getElem?_eq_getElem (by omega)]
            simp only [msbDigits, List.getElem_map, List.getElem_range, Option.map_some]
            rw [BitVec.toNat_ofNat, Nat.mod_eq_of_lt (by omega)]
            congr 2; omega
          · rw [if_neg (by omega)]
            have := h4' (j / 4) (j % 4) (by omega) (by omega)
            rw [show 4 * (j / 4) + j % 4 = j by omega] at this
            rw [this, show min 4 (v.length - 4 * (j / 4)) - 1 - j % 4 = 3 - j % 4 by omega]
    · rw [if_neg hr]
      refine ⟨v1, true, rfl, h2, ?_, ?_⟩
      · exact ⟨fun _ j hj => h3' j (by omega), fun _ => rfl⟩
      · intro _ j hj
        have := h4' (j / 4) (j % 4) (by omega) (by omega)
        rw [show 4 * (j / 4) + j % 4 = j by omega] at this
        rw [this, show min 4 (v.length - 4 * (j / 4)) - 1 - j % 4 = 3 - j % 4 by omega]

/-- C05: capital digits, a vector of six bits, and a text that is not hexadecimal. -/
example : unhex (List.replicate 8 0) "Fa".toList = .ok ([1, 1, 1, 1, 1, 0, 1, 0], true) ∧
    unhex (List.replicate 6 0) "B3".toList = .ok ([1, 0, 1, 1, 1, 1], true) ∧
    unhex (List.replicate 8 0) "Fg".toList = .ok ([1, 1, 1, 1, 0, 0, 0, 0], false) ∧ digitValue 'C' = some 12 := by decide +kernel

end Verif.BitVector
