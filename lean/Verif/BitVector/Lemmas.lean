import Verif.BitVector.Model
import Verif.BitVector.Spec

/-
Helper lemmas about bit values and the field loops.
-/

namespace Verif.BitVector
open Verif Spec

theorem char_and_one (c : BitVec 8) : (c &&& 1).setWidth 64 = BitVec.ofNat 64 (c.getLsbD 0).toNat := by
  revert c; decide

theorem char_and_one32 (c : BitVec 8) :
    (c &&& 1).setWidth 32 = BitVec.ofNat 32 (c.getLsbD 0).toNat := by
  revert c; decide

theorem char_bit (c : BitVec 8) : ((c &&& 1) != 0) = c.getLsbD 0 := by
  revert c; decide

/-- char stored for a bit -/
def bitChar (b : Bool) : BitVec 8 := if b then 1 else 0

theorem bitChar_bit (b : Bool) : (bitChar b).getLsbD 0 = b := by cases b <;> rfl

theorem val_and_one (x : BitVec 64) :
    (x &&& 1).setWidth 8 = bitChar (x.getLsbD 0) := by
  unfold bitChar
  apply BitVec.eq_of_getLsbD_eq
  intro i hi
  cases h : x.getLsbD 0 <;> by_cases h0 : i = 0 <;> simp_all

theorem shiftor_toNat (acc : BitVec 64) (b : Bool) :
    ((acc <<< 1) ||| BitVec.ofNat 64 b.toNat).toNat = (2 * acc.toNat + b.toNat) % 2 ^ 64 := by
  have h : ((acc <<< 1) ||| BitVec.ofNat 64 b.toNat) = BitVec.ofNat 64 (2 * acc.toNat + b.toNat) := by
    apply BitVec.eq_of_getLsbD_eq
    intro i hi
    simp only [BitVec.getLsbD_or, BitVec.getLsbD_shiftLeft, BitVec.getLsbD_ofNat]
    cases i with
    | zero => cases b <;> simp <;> omega
    | succ i =>
      have hb : (2 * acc.toNat + b.toNat).testBit (i + 1) = acc.toNat.testBit i := by
        rw [Nat.testBit_succ]
        congr 1
        cases b <;> simp <;> omega
      have hz : b.toNat.testBit (i + 1) = false := by
        cases b <;> simp [Nat.testBit_succ]
      rw [hb, hz]
      simp [hi, BitVec.getLsbD]
  rw [h, BitVec.toNat_ofNat]

theorem msbValue_foldl (bs : List Bool) (a : Nat) :
    bs.foldl (fun a b => 2 * a + b.toNat) a = a * 2 ^ bs.length + msbValue bs := by
  unfold msbValue
  induction bs generalizing a with
  | nil => simp
  | cons b bs ih =>
    simp only [List.foldl_cons, List.length_cons]
    rw [ih, ih (2 * 0 + b.toNat), Nat.pow_succ]
    simp only [Nat.add_mul, Nat.mul_comm, Nat.mul_assoc]
    omega

theorem msbValue_cons (b : Bool) (bs : List Bool) :
    msbValue (b :: bs) = b.toNat * 2 ^ bs.length + msbValue bs := by
  have h := msbValue_foldl bs b.toNat
  simp only [msbValue, List.foldl_cons] at *
  simpa using h

theorem msbValue_nil : msbValue [] = 0 := rfl

theorem msbValue_append (a b : List Bool) :
    msbValue (a ++ b) = msbValue a * 2 ^ b.length + msbValue b := by
  unfold msbValue
  rw [List.foldl_append, msbValue_foldl]; rfl

theorem msbValue_lt (bs : List Bool) : msbValue bs < 2 ^ bs.length := by
  induction bs with
  | nil => simp [msbValue_nil]
  | cons b bs ih =>
    rw [msbValue_cons, List.length_cons, Nat.pow_succ]
    cases b <;> simp <;> omega

theorem testBit_msbValue (bs : List Bool) (i : Nat) (hi : i < bs.length) :
    (msbValue bs).testBit i = bs[bs.length - 1 - i]'(by omega) := by
  induction bs generalizing i with
  | nil => simp at hi
  | cons b bs ih =>
    rw [msbValue_cons]
    simp only [List.length_cons] at hi
    have hlt := msbValue_lt bs
    rcases Nat.lt_or_ge i bs.length with h | h
    · rw [Nat.mul_comm, Nat.testBit_two_pow_mul_add _ hlt, if_pos h, ih i h]
      simp only [List.length_cons]
      rw [List.getElem_cons, dif_neg (by omega)]
      congr 1; omega
    · have : i = bs.length := by omega
      subst this
      rw [Nat.mul_comm, Nat.testBit_two_pow_mul_add _ hlt, if_neg (by omega)]
      cases b <;> simp

theorem msbValue_msbDigits (n x : Nat) : msbValue (msbDigits n x) = x % 2 ^ n := by
  apply Nat.eq_of_testBit_eq
  intro i
  have hl : (msbDigits n x).length = n := by simp [msbDigits]
  rcases Nat.lt_or_ge i n with h | h
  · rw [testBit_msbValue _ _ (by omega)]
    simp only [msbDigits, List.getElem_map, List.getElem_range, List.length_map, List.length_range]
    rw [Nat.testBit_mod_two_pow]
    simp only [h, decide_true, Bool.true_and]
    congr 1; omega
  · have h1 : msbValue (msbDigits n x) < 2 ^ i :=
      Nat.lt_of_lt_of_le (msbValue_lt _) (by rw [hl]; exact Nat.pow_le_pow_right (by omega) h)
    rw [Nat.testBit_lt_two_pow h1, Nat.testBit_mod_two_pow]
    simp; omega

theorem msbDigits_msbValue (bs : List Bool) : msbDigits bs.length (msbValue bs) = bs := by
  apply List.ext_getElem
  · simp [msbDigits]
  · intro i h1 h2
    simp only [msbDigits, List.getElem_map, List.getElem_range]
    rw [testBit_msbValue _ _ (by omega)]
    congr 1; omega

theorem lsbValue_reverse (bs : List Bool) : lsbValue bs = msbValue bs.reverse := by
  induction bs with
  | nil => rfl
  | cons b bs ih =>
    rw [List.reverse_cons, msbValue_append, lsbValue, ih]
    simp [msbValue_cons, msbValue_nil]; omega

theorem lsbDigits_reverse (n x : Nat) : (lsbDigits n x).reverse = msbDigits n x := by
  apply List.ext_getElem
  · simp [lsbDigits, msbDigits]
  · intro i h1 h2
    simp [lsbDigits, msbDigits]

theorem lsbValue_lsbDigits (n x : Nat) : lsbValue (lsbDigits n x) = x % 2 ^ n := by
  rw [lsbValue_reverse, lsbDigits_reverse, msbValue_msbDigits]

theorem bits_length (v : Bits) : (bits v).length = v.length := by simp [bits]

theorem bits_getElem? (v : Bits) (i : Nat) : (bits v)[i]? = v[i]?.map fun c => c.getLsbD 0 := by
  simp [bits]

theorem window_length (bs : List Bool) (i n : Nat) (h : i + n ≤ bs.length) :
    (window bs i n).length = n := by
  simp [window]; omega

theorem peekLoop_ok (v : Bits) (dp n : Nat) (acc : BitVec 64) (h : dp + n ≤ v.length) :
    peekLoop v dp n acc =
      .ok (BitVec.ofNat 64 (acc.toNat * 2 ^ n + msbValue (window (bits v) dp n))) := by
  induction n generalizing dp acc with
  | zero => simp [peekLoop, window, msbValue_nil]
  | succ n ih =>
    have hlt : dp < v.length := by omega
    simp only [peekLoop, List.getElem?_eq_getElem hlt]
    rw [char_and_one, ih _ _ (by omega)]
    have hw : window (bits v) dp (n + 1) = v[dp].getLsbD 0 :: window (bits v) (dp + 1) n := by
      unfold window
      rw [List.drop_eq_getElem_cons (by simp [bits]; omega)]
      simp [bits]
    rw [hw, msbValue_cons, window_length _ _ _ (by simp [bits]; omega), shiftor_toNat]
    congr 1
    apply BitVec.eq_of_toNat_eq
    simp only [BitVec.toNat_ofNat]
    rw [Nat.add_mod, Nat.mod_mul_mod, ← Nat.add_mod]
    congr 1
    rw [Nat.pow_succ, Nat.add_mul, ← Nat.add_assoc]
    congr 2
    rw [Nat.mul_comm 2, Nat.mul_assoc, Nat.mul_comm 2]

theorem peekLoop_ub (v : Bits) (dp n : Nat) (acc : BitVec 64) (h : v.length < dp + n)
    (hn : dp ≤ v.length) : peekLoop v dp n acc = .ub := by
  induction n generalizing dp acc with
  | zero => omega
  | succ n ih =>
    simp only [peekLoop]
    split
    · rfl
    · next hc =>
      have : dp < v.length := (List.getElem?_eq_some_iff.mp hc).1
      exact ih _ _ (by omega) (by omega)

theorem peekRevLoop_ok (v : Bits) (base n : Nat) (acc : BitVec 64) (h : base + n ≤ v.length) :
    peekRevLoop v base n acc =
      .ok (BitVec.ofNat 64 (acc.toNat * 2 ^ n + lsbValue (window (bits v) base n))) := by
  induction n generalizing acc with
  | zero => simp [peekRevLoop, window, lsbValue]
  | succ n ih =>
    have hlt : base + n < v.length := by omega
    simp only [peekRevLoop, List.getElem?_eq_getElem hlt]
    rw [char_and_one, ih _ (by omega)]
    have hw : window (bits v) base (n + 1) = window (bits v) base n ++ [v[base + n].getLsbD 0] := by
      unfold window
      rw [List.take_add_one]
      congr 1
      simp [bits, hlt]
    rw [hw, lsbValue_reverse, lsbValue_reverse, List.reverse_append, List.reverse_cons,
      List.reverse_nil, List.nil_append, List.singleton_append, msbValue_cons, List.length_reverse,
      window_length _ _ _ (by simp [bits]; omega), shiftor_toNat]
    congr 1
    apply BitVec.eq_of_toNat_eq
    simp only [BitVec.toNat_ofNat]
    rw [Nat.add_mod, Nat.mod_mul_mod, ← Nat.add_mod]
    congr 1
    rw [Nat.pow_succ, Nat.add_mul, ← Nat.add_assoc]
    congr 2
    rw [Nat.mul_comm 2, Nat.mul_assoc, Nat.mul_comm 2]

theorem fillLoop_length (base n : Nat) (x : BitVec 64) (v : Bits) :
    (fillLoop base n x v).length = v.length := by
  induction n generalizing x v with
  | zero => rfl
  | succ n ih => simp [fillLoop, ih]

theorem fillLoop_getElem? (base n : Nat) (x : BitVec 64) (v : Bits) (h : base + n ≤ v.length)
    (j : Nat) :
    (fillLoop base n x v)[j]? =
      if base ≤ j ∧ j < base + n then some (bitChar (x.getLsbD (n - 1 - (j - base)))) else v[j]? := by
  induction n generalizing x v with
  | zero =>
    simp only [fillLoop, Nat.add_zero]
    rw [if_neg (by omega)]
  | succ n ih =>
    simp only [fillLoop]
    rw [ih _ _ (by simp; omega), val_and_one]
    by_cases h1 : base ≤ j ∧ j < base + n
    · rw [if_pos h1, if_pos (by omega)]
      simp only [BitVec.getLsbD_ushiftRight]
      congr 3; omega
    · rw [if_neg h1]
      rw [List.getElem?_set]
      by_cases h2 : base + n = j
      · have h3 : n + 1 - 1 - (j - base) = 0 := by omega
        have h4 : base ≤ j ∧ j < base + (n + 1) := by omega
        have h5 : base + n < v.length := by omega
        rw [if_pos h2, if_pos h5, if_pos h4, h3]
      · rw [if_neg h2, if_neg (by omega)]

theorem fillRevLoop_length (dp n : Nat) (x : BitVec 64) (v : Bits) :
    (fillRevLoop dp n x v).length = v.length := by
  induction n generalizing x v dp with
  | zero => rfl
  | succ n ih => simp [fillRevLoop, ih]

theorem fillRevLoop_getElem? (base n : Nat) (x : BitVec 64) (v : Bits) (h : base + n ≤ v.length)
    (j : Nat) :
    (fillRevLoop base n x v)[j]? =
      if base ≤ j ∧ j < base + n then some (bitChar (x.getLsbD (j - base))) else v[j]? := by
  induction n generalizing x v base with
  | zero =>
    simp only [fillRevLoop, Nat.add_zero]
    rw [if_neg (by omega)]
  | succ n ih =>
    simp only [fillRevLoop]
    rw [ih _ _ _ (by simp; omega), val_and_one]
    by_cases h1 : base + 1 ≤ j ∧ j < base + 1 + n
    · rw [if_pos h1, if_pos (by omega)]
      simp only [BitVec.getLsbD_ushiftRight]
      congr 3; omega
    · rw [if_neg h1]
      rw [List.getElem?_set]
      by_cases h2 : base = j
      · have h3 : j - base = 0 := by omega
        have h4 : base ≤ j ∧ j < base + (n + 1) := by omega
        have h5 : base < v.length := by omega
        rw [if_pos h2, if_pos h5, if_pos h4, h3]
      · rw [if_neg h2, if_neg (by omega)]

/-- what a list looks like after overwriting, by index -/
theorem overwrite_getElem? (bs new : List Bool) (i j : Nat) (h : i + new.length ≤ bs.length) :
    (overwrite bs i new)[j]? =
      if i ≤ j ∧ j < i + new.length then new[j - i]? else bs[j]? := by
  unfold overwrite
  rw [List.getElem?_append, List.getElem?_append]
  simp only [List.length_append, List.length_take]
  have hm : min i bs.length = i := by omega
  rw [hm]
  by_cases h1 : j < i
  · rw [if_pos (by omega), if_pos h1, if_neg (by omega), List.getElem?_take, if_pos h1]
  · by_cases h2 : j < i + new.length
    · rw [if_pos h2, if_neg h1, if_pos (by omega)]
    · rw [if_neg h2, if_neg (by omega), List.getElem?_drop]
      congr 1; omega

theorem bits_fillLoop (base n : Nat) (x : BitVec 64) (v : Bits) (h : base + n ≤ v.length) :
    bits (fillLoop base n x v) = overwrite (bits v) base (msbDigits n x.toNat) := by
  apply List.ext_getElem?
  intro j
  have hl : (msbDigits n x.toNat).length = n := by simp [msbDigits]
  rw [bits_getElem?, fillLoop_getElem? _ _ _ _ h, overwrite_getElem? _ _ _ _ (by simp [bits, hl]; omega), hl]
  by_cases h1 : base ≤ j ∧ j < base + n
  · rw [if_pos h1, if_pos h1]
    rw [List.getElem?_eq_getElem (by omega)]
    simp only [Option.map_some, bitChar_bit, msbDigits, List.getElem_map, List.getElem_range]
    rfl
  · rw [if_neg h1, if_neg h1, bits_getElem?]

theorem bits_fillRevLoop (base n : Nat) (x : BitVec 64) (v : Bits) (h : base + n ≤ v.length) :
    bits (fillRevLoop base n x v) = overwrite (bits v) base (lsbDigits n x.toNat) := by
  apply List.ext_getElem?
  intro j
  have hl : (lsbDigits n x.toNat).length = n := by simp [lsbDigits]
  rw [bits_getElem?, fillRevLoop_getElem? _ _ _ _ h, overwrite_getElem? _ _ _ _ (by simp [bits, hl]; omega), hl]
  by_cases h1 : base ≤ j ∧ j < base + n
  · rw [if_pos h1, if_pos h1]
    rw [List.getElem?_eq_getElem (by omega)]
    simp only [Option.map_some, bitChar_bit, lsbDigits, List.getElem_map, List.getElem_range]
    rfl
  · rw [if_neg h1, if_neg h1, bits_getElem?]

theorem window_overwrite (bs new : List Bool) (i : Nat) (h : i + new.length ≤ bs.length) :
    window (overwrite bs i new) i new.length = new := by
  apply List.ext_getElem?
  intro j
  unfold window
  rw [List.getElem?_take, List.getElem?_drop, overwrite_getElem? _ _ _ _ h]
  by_cases hj : j < new.length
  · rw [if_pos hj, if_pos (by omega)]; congr 1; omega
  · rw [if_neg hj, List.getElem?_eq_none (by omega)]

theorem overwrite_length (bs new : List Bool) (i : Nat) (h : i + new.length ≤ bs.length) :
    (overwrite bs i new).length = bs.length := by
  simp [overwrite]; omega

/-- two stored vectors agree on all bits and lengths iff `bits` agree -/
theorem window_bits_congr (v w : Bits) (h : bits v = bits w) (i n : Nat) :
    window (bits v) i n = window (bits w) i n := by rw [h]

end Verif.BitVector
