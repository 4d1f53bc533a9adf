import Verif.Encoding.Model
import Verif.Encoding.Spec
import Verif.BitVector.Lemmas

/-
Lemmas about bit groups and the character tables.
-/

namespace Verif.Encoding
open Verif Verif.BitVector Verif.BitVector.Spec Spec

/-! ### Numbers of bit strings -/

theorem msbValue_take (bs : List Bool) (k : Nat) :
    msbValue (bs.take k) = msbValue bs / 2 ^ (bs.length - k) := by
  have h := msbValue_append (bs.take k) (bs.drop k)
  rw [List.take_append_drop] at h
  have hl := msbValue_lt (bs.drop k)
  rw [List.length_drop] at h hl
  rw [h]
  rw [Nat.mul_comm, Nat.mul_add_div (Nat.two_pow_pos _), Nat.div_eq_of_lt hl, Nat.add_zero]

theorem msbValue_drop (bs : List Bool) (k : Nat) :
    msbValue (bs.drop k) = msbValue bs % 2 ^ (bs.length - k) := by
  have h := msbValue_append (bs.take k) (bs.drop k)
  rw [List.take_append_drop] at h
  have hl := msbValue_lt (bs.drop k)
  rw [List.length_drop] at h hl
  rw [h, Nat.mul_comm, Nat.mul_add_mod, Nat.mod_eq_of_lt hl]

theorem msbDigits_length (n x : Nat) : (msbDigits n x).length = n := by simp [msbDigits]

theorem groups_append (k : Nat) (hk : 0 < k) (xs rest : List Bool) (h : xs.length = k) :
    groups k (xs ++ rest) = msbValue xs :: groups k rest := by
  rw [groups, dif_pos ⟨hk, by simp; omega⟩]
  rw [← h, List.take_left, List.drop_left]

theorem groups_short (k : Nat) (bs : List Bool) (h : bs.length < k) : groups k bs = [] := by
  rw [groups, dif_neg (by omega)]

theorem groups_step (k : Nat) (hk : 0 < k) (bs rest : List Bool) (h : k ≤ bs.length) :
    groups k (bs ++ rest) = msbValue bs / 2 ^ (bs.length - k) :: groups k (bs.drop k ++ rest) := by
  have : bs ++ rest = bs.take k ++ (bs.drop k ++ rest) := by
    rw [← List.append_assoc, List.take_append_drop]
  rw [this, groups_append k hk _ _ (by simp; omega), msbValue_take]

theorem groups8_24 (xs rest : List Bool) (h : xs.length = 24) :
    groups 8 (xs ++ rest) = msbValue xs / 65536 :: msbValue xs / 256 % 256 :: msbValue xs % 256 ::
      groups 8 rest := by
  have hlt := msbValue_lt xs
  rw [groups_step 8 (by omega) _ _ (by omega), groups_step 8 (by omega) _ _ (by simp; omega),
    groups_step 8 (by omega) _ _ (by simp; omega)]
  simp only [List.length_drop, h, List.drop_drop, msbValue_drop]
  rw [List.drop_eq_nil_of_le (by omega), List.nil_append]
  simp only [Nat.reduceSub, Nat.reduceAdd, Nat.reducePow, Nat.pow_zero, Nat.div_one, h] at *
  congr 2
  · omega

theorem groups6_24 (xs rest : List Bool) (h : xs.length = 24) :
    groups 6 (xs ++ rest) = msbValue xs / 262144 :: msbValue xs / 4096 % 64 :: msbValue xs / 64 % 64 ::
      msbValue xs % 64 :: groups 6 rest := by
  have hlt := msbValue_lt xs
  rw [groups_step 6 (by omega) _ _ (by omega), groups_step 6 (by omega) _ _ (by simp; omega),
    groups_step 6 (by omega) _ _ (by simp; omega), groups_step 6 (by omega) _ _ (by simp; omega)]
  simp only [List.length_drop, h, List.drop_drop, msbValue_drop]
  rw [List.drop_eq_nil_of_le (by omega), List.nil_append]
  simp only [Nat.reduceSub, Nat.reduceAdd, Nat.reducePow, Nat.pow_zero, Nat.div_one, h] at *
  congr 2
  · omega
  · congr 1; omega

theorem groups_step' (k : Nat) (hk : 0 < k) (bs : List Bool) (h : k ≤ bs.length) :
    groups k bs = msbValue bs / 2 ^ (bs.length - k) :: groups k (bs.drop k) := by
  have := groups_step k hk bs [] h
  rwa [List.append_nil, List.append_nil] at this

theorem groups6_12 (xs : List Bool) (h : xs.length = 12) :
    groups 6 xs = [msbValue xs / 64, msbValue xs % 64] := by
  have hd : ∀ k, (xs.drop k).length = 12 - k := fun k => by rw [List.length_drop, h]
  rw [groups_step' 6 (by omega) _ (by omega), groups_step' 6 (by omega) _ (by rw [hd]; omega),
    List.drop_drop, groups_short 6 _ (by rw [hd]; omega), msbValue_drop, hd, h]
  simp

theorem groups6_18 (xs : List Bool) (h : xs.length = 18) :
    groups 6 xs = [msbValue xs / 4096, msbValue xs / 64 % 64, msbValue xs % 64] := by
  have hd : ∀ k, (xs.drop k).length = 18 - k := fun k => by rw [List.length_drop, h]
  rw [groups_step' 6 (by omega) _ (by omega), groups_step' 6 (by omega) _ (by rw [hd]; omega),
    List.drop_drop, groups_step' 6 (by omega) _ (by rw [hd]; omega), List.drop_drop,
    groups_short 6 _ (by rw [hd]; omega), msbValue_drop, msbValue_drop, hd, hd, h]
  simp
  omega

theorem groups8_12 (xs : List Bool) (h : xs.length = 12) : groups 8 xs = [msbValue xs / 16] := by
  rw [groups_step' 8 (by omega) _ (by omega), groups_short 8 _ (by rw [List.length_drop]; omega), h]

theorem groups8_18 (xs : List Bool) (h : xs.length = 18) :
    groups 8 xs = [msbValue xs / 1024, msbValue xs / 4 % 256] := by
  have hd : ∀ k, (xs.drop k).length = 18 - k := fun k => by rw [List.length_drop, h]
  rw [groups_step' 8 (by omega) _ (by omega), groups_step' 8 (by omega) _ (by rw [hd]; omega),
    List.drop_drop, groups_short 8 _ (by rw [hd]; omega), msbValue_drop, hd, h]
  simp
  omega

/-- splitting into groups of six and joining them again loses nothing of a whole number of groups -/
theorem flatMap_groups (k : Nat) (hk : 0 < k) (bs : List Bool) (h : bs.length % k = 0) :
    (groups k bs).flatMap (fun n => msbDigits k n) = bs := by
  induction hn : bs.length using Nat.strongRecOn generalizing bs with
  | _ n ih =>
    by_cases hz : bs.length = 0
    · rw [List.length_eq_zero_iff.mp hz, groups_short _ _ (by simpa using hk)]; rfl
    · have hle : k ≤ bs.length := by
        rcases Nat.lt_or_ge bs.length k with hlt | hge
        · rw [Nat.mod_eq_of_lt hlt] at h; omega
        · exact hge
      rw [groups, dif_pos ⟨hk, hle⟩, List.flatMap_cons]
      rw [ih (bs.drop k).length (by simp; omega) (bs.drop k) (by
        rw [List.length_drop, ← Nat.mod_eq_sub_mod hle]; exact h) rfl]
      have hl : (bs.take k).length = k := by simp; omega
      conv => lhs; arg 1; rw [← hl]
      conv => lhs; arg 1; arg 2; rw [hl]
      rw [msbDigits_msbValue, List.take_append_drop]

/-- the octets of the bits of `s` followed by fewer than eight bits are `s` -/
theorem octets_bitsOf (s : Str) (z : List Bool) (hz : z.length < 8) : octets (bitsOf s ++ z) = s := by
  induction s with
  | nil => simp [octets, bitsOf, groups_short 8 z hz]
  | cons b s ih =>
    unfold octets bitsOf at *
    rw [List.flatMap_cons, List.append_assoc, groups_append 8 (by omega) _ _ (msbDigits_length _ _),
      List.map_cons, ih, msbValue_msbDigits, Nat.mod_eq_of_lt b.isLt]
    simp

theorem bitsOf_length (s : Str) : (bitsOf s).length = 8 * s.length := by
  induction s with
  | nil => rfl
  | cons b s ih =>
    unfold bitsOf at *
    rw [List.flatMap_cons, List.length_append, ih, msbDigits_length, List.length_cons]; omega

theorem groups_length (k : Nat) (hk : 0 < k) (bs : List Bool) : (groups k bs).length = bs.length / k := by
  induction hn : bs.length using Nat.strongRecOn generalizing bs with
  | _ n ih =>
    rw [groups]
    split
    · next h =>
      rw [List.length_cons, ih (bs.drop k).length (by simp; omega) _ rfl, List.length_drop, ← hn]
      rw [Nat.div_eq_sub_div hk h.2]
    · next h => rw [Nat.div_eq_of_lt (by omega)]; rfl

theorem groups_lt (k : Nat) (bs : List Bool) : ∀ n ∈ groups k bs, n < 2 ^ k := by
  induction hn : bs.length using Nat.strongRecOn generalizing bs with
  | _ n ih =>
    intro x hx
    rw [groups] at hx
    split at hx
    · next h =>
      rcases List.mem_cons.mp hx with rfl | hx
      · have := msbValue_lt (bs.take k)
        rw [List.length_take, Nat.min_eq_left h.2] at this
        exact this
      · exact ih (bs.drop k).length (by simp; omega) _ rfl x hx
    · cases hx

/-! ### Tables -/

theorem forall_byte (p : Byte → Prop) (h : ∀ n : Fin 256, p (BitVec.ofFin n)) : ∀ b, p b :=
  fun b => h b.toFin

theorem reverse64 (c : Byte) (hc : c ≠ chr '=') :
    sMapBase64Reverse.getD c.toNat 0 = (val64 c).getD 255 := by
  have : ∀ b : Byte, b ≠ chr '=' → sMapBase64Reverse.getD b.toNat 0 = (val64 b).getD 255 :=
    forall_byte _ (by decide +kernel)
  exact this c hc

theorem reverse16 (c : Byte) : (∀ v, val16 c = some v → sMapHexReverse.getD c.toNat 0 = v ∧ v < 16) ∧
    (val16 c = none → 16 ≤ sMapHexReverse.getD c.toNat 0) := by
  have : ∀ b : Byte, (match val16 b with
      | some v => decide (sMapHexReverse.getD b.toNat 0 = v ∧ v < 16)
      | none => decide (16 ≤ sMapHexReverse.getD b.toNat 0)) = true := forall_byte _ (by decide +kernel)
  have h := this c
  constructor
  · intro v hv; rw [hv] at h; exact of_decide_eq_true h
  · intro hv; rw [hv] at h; exact of_decide_eq_true h

theorem enc1_eq (n : Nat) : enc1 n = alpha64 (n % 64) := by
  have : ∀ k : Fin 64, sMapBase64.getD k.val 0 = alpha64 k.val := by decide +kernel
  have h := this ⟨n % 64, Nat.mod_lt _ (by omega)⟩
  unfold enc1
  rw [Nat.and_comm, show (0x3f : Nat) = 2 ^ 6 - 1 by rfl, Nat.and_two_pow_sub_one_eq_mod]
  exact h

theorem alpha64_facts (n : Nat) (h : n < 64) :
    val64 (alpha64 n) = some n ∧ alpha64 n ≠ chr '=' ∧ isSpace (alpha64 n) = false := by
  have : ∀ k : Fin 64, val64 (alpha64 k.val) = some k.val ∧ alpha64 k.val ≠ chr '=' ∧
    isSpace (alpha64 k.val) = false := by decide +kernel
  exact this ⟨n, h⟩

theorem val64_lt (c : Byte) (n : Nat) (h : val64 c = some n) : n < 64 := by
  have : ∀ b : Byte, (match val64 b with | some v => decide (v < 64) | none => true) = true :=
    forall_byte _ (by decide +kernel)
  have h2 := this c
  rw [h] at h2; exact of_decide_eq_true h2

theorem val64_space (c : Byte) (h : isSpace c = true) : val64 c = none ∧ c ≠ chr '=' := by
  have : ∀ b : Byte, isSpace b = true → val64 b = none ∧ b ≠ chr '=' := forall_byte _ (by decide +kernel)
  exact this c h

end Verif.Encoding
