import Verif.Crc.Model
import Verif.Crc.Spec
import Verif.BitVector.Lemmas
import Mathlib.Algebra.CharP.Two
import Mathlib.Tactic.LinearCombination
import Mathlib.Tactic.Ring
import Mathlib.Algebra.Polynomial.Degree.Lemmas

/-
Helper lemmas connecting the shift register to polynomial arithmetic over GF(2).
-/

namespace Verif.Crc
open Verif Verif.BitVector Verif.BitVector.Spec Spec Polynomial

theorem ofBool_xor (a b : Bool) : ofBool (a ^^ b) = ofBool a + ofBool b := by
  cases a <;> cases b <;> decide
theorem ofBool_and (a b : Bool) : ofBool (a && b) = ofBool a * ofBool b := by
  cases a <;> cases b <;> decide
theorem ofBool_inj (a b : Bool) (h : ofBool a = ofBool b) : a = b := by
  revert h; cases a <;> cases b <;> decide
theorem f2_add_self (a : F2) : a + a = 0 := CharTwo.add_self_eq_zero a
theorem poly_add_self (p : F2[X]) : p + p = 0 := by
  ext i; simp [f2_add_self]

theorem coeff_numPoly (n x i : Nat) :
    (numPoly n x).coeff i = if i < n then ofBool (x.testBit i) else 0 := by
  unfold numPoly
  rw [finsetSum_coeff]
  simp only [coeff_C_mul_X_pow]
  rw [Finset.sum_ite_eq]
  simp

theorem degree_numPoly_lt (n x : Nat) : (numPoly n x).degree < n := by
  rw [degree_lt_iff_coeff_zero]
  intro m hm
  rw [coeff_numPoly, if_neg (by omega)]

theorem genPoly_monic (n c : Nat) : (genPoly n c).Monic := monic_X_pow_add (degree_numPoly_lt n c)

theorem degree_genPoly (n c : Nat) : (genPoly n c).degree = n := by
  unfold genPoly
  rw [degree_add_eq_left_of_degree_lt]
  · exact degree_X_pow n
  · rw [degree_X_pow]; exact degree_numPoly_lt n c

theorem numPoly_congr (n x y : Nat) (h : ∀ i, i < n → x.testBit i = y.testBit i) :
    numPoly n x = numPoly n y := by
  ext i
  rw [coeff_numPoly, coeff_numPoly]
  split
  · next hi => rw [h i hi]
  · rfl

theorem numPoly_inj (n x y : Nat) (hx : x < 2 ^ n) (hy : y < 2 ^ n) (h : numPoly n x = numPoly n y) :
    x = y := by
  apply Nat.eq_of_testBit_eq
  intro i
  by_cases hi : i < n
  · have := congrArg (fun p => p.coeff i) h
    simp only [coeff_numPoly, if_pos hi] at this
    exact ofBool_inj _ _ this
  · have h1 : 2 ^ n ≤ 2 ^ i := Nat.pow_le_pow_right (by omega) (by omega)
    rw [Nat.testBit_lt_two_pow (by omega), Nat.testBit_lt_two_pow (by omega)]

/-- the low bit of a sign extended char is its bit -/
theorem signExtend_low (c : BitVec 8) : (c.signExtend 32).getLsbD 0 = c.getLsbD 0 := by
  revert c; decide

theorem in_and_one (x : BitVec 32) : (x &&& 1).setWidth 64 = BitVec.ofNat 64 (x.getLsbD 0).toNat := by
  apply BitVec.eq_of_getLsbD_eq
  intro i hi
  cases h : x.getLsbD 0 <;> by_cases h0 : i = 0 <;> simp_all

theorem and_one_ne_zero (x : BitVec 64) : (x &&& 1 ≠ 0) ↔ x.getLsbD 0 = true := by
  constructor
  · intro h
    cases h0 : x.getLsbD 0 with
    | true => rfl
    | false =>
      exfalso; apply h
      apply BitVec.eq_of_getLsbD_eq
      intro i hi
      by_cases hi0 : i = 0
      · subst hi0; simpa using h0
      · simp [hi0]
  · intro h hc
    have := congrArg (fun y => y.getLsbD 0) hc
    simp only [BitVec.getLsbD_and, h] at this
    simp at this

/-- register update of `syndromeShift` in terms of the observable bit -/
def synStep (coeff : BitVec 64) (L : Nat) (s : BitVec 64) (b : Bool) : BitVec 64 :=
  let t := (s <<< 1) ^^^ BitVec.ofNat 64 b.toNat
  if s.getLsbD (L - 1) then t ^^^ coeff else t

/-- register update of `encoderShift` in terms of the observable bit -/
def encStep (coeff : BitVec 64) (L : Nat) (s : BitVec 64) (b : Bool) : BitVec 64 :=
  if (s.getLsbD (L - 1) ^^ b) then (s <<< 1) ^^^ coeff else s <<< 1

theorem len_1_eq (L : Nat) (h1 : 0 < L) (h2 : L < 64) : (L + (2 ^ 32 - 1)) % 2 ^ 32 = L - 1 := by omega

theorem syndromeShift_eq (g : Generator) (c : BitVec 8) (h1 : 0 < g.len) (h2 : g.len < 64)
    (hl : g.len_1 = g.len - 1) :
    g.syndromeShift (c.signExtend 32) =
      .ok { g with state := synStep g.coeff g.len g.state (c.getLsbD 0) } := by
  unfold Generator.syndromeShift synStep
  rw [if_pos (by omega)]
  simp only [in_and_one, signExtend_low, and_one_ne_zero, hl, BitVec.getLsbD_ushiftRight, Nat.add_zero]

theorem encoderShift_eq (g : Generator) (c : BitVec 8) (h1 : 0 < g.len) (h2 : g.len < 64)
    (hl : g.len_1 = g.len - 1) :
    g.encoderShift (c.signExtend 32) =
      .ok { g with state := encStep g.coeff g.len g.state (c.getLsbD 0) } := by
  unfold Generator.encoderShift encStep
  rw [if_pos (by omega)]
  simp only [and_one_ne_zero, hl, BitVec.getLsbD_xor, BitVec.getLsbD_ushiftRight, Nat.add_zero,
    BitVec.getLsbD_setWidth, signExtend_low]
  simp

theorem syndromeLoop_eq (v : Bits) (g : Generator) (h1 : 0 < g.len) (h2 : g.len < 64)
    (hl : g.len_1 = g.len - 1) :
    syndromeLoop v g = .ok { g with state := (bits v).foldl (synStep g.coeff g.len) g.state } := by
  induction v generalizing g with
  | nil => simp [syndromeLoop, bits]
  | cons c cs ih =>
    simp only [syndromeLoop]
    rw [syndromeShift_eq g c h1 h2 hl, Outcome.bind_ok, ih { g with state := synStep g.coeff g.len g.state (c.getLsbD 0) } h1 h2 hl]
    simp [bits]

theorem parityLoop_eq (v : Bits) (g : Generator) (h1 : 0 < g.len) (h2 : g.len < 64)
    (hl : g.len_1 = g.len - 1) :
    parityLoop v g = .ok { g with state := (bits v).foldl (encStep g.coeff g.len) g.state } := by
  induction v generalizing g with
  | nil => simp [parityLoop, bits]
  | cons c cs ih =>
    simp only [parityLoop]
    rw [encoderShift_eq g c h1 h2 hl, Outcome.bind_ok, ih { g with state := encStep g.coeff g.len g.state (c.getLsbD 0) } h1 h2 hl]
    simp [bits]

/-- bits of the syndrome step below the register length -/
theorem synStep_bit (c s : BitVec 64) (L : Nat) (b : Bool) (i : Nat) (hi : i < L) (hL : L < 64) :
    (synStep c L s b).toNat.testBit i =
      ((if i = 0 then b else s.toNat.testBit (i - 1)) ^^
        (s.toNat.testBit (L - 1) && c.toNat.testBit i)) := by
  have hi64 : i < 64 := by omega
  have hb : (BitVec.ofNat 64 b.toNat).getLsbD i = (decide (i = 0) && b) := by
    cases b <;> by_cases h0 : i = 0 <;> simp_all
  have ht : ((s <<< 1) ^^^ BitVec.ofNat 64 b.toNat).getLsbD i =
      (if i = 0 then b else s.getLsbD (i - 1)) := by
    rw [BitVec.getLsbD_xor, BitVec.getLsbD_shiftLeft, hb]
    by_cases h0 : i = 0
    · simp [h0]
    · simp only [hi64, h0, decide_true, decide_false, Bool.false_and, Bool.xor_false, Bool.true_and, if_false]
      rw [show decide (i < 1) = false by simp; omega]
      simp
  show (synStep c L s b).getLsbD i = _
  unfold synStep
  simp only
  cases hf : s.getLsbD (L - 1) with
  | true =>
    rw [if_pos rfl, BitVec.getLsbD_xor, ht]
    have : s.toNat.testBit (L - 1) = true := hf
    rw [this]; rfl
  | false =>
    rw [if_neg (by simp), ht]
    have : s.toNat.testBit (L - 1) = false := hf
    rw [this]; simp [BitVec.getLsbD]

/-- bits of the encoder step below the register length -/
theorem encStep_bit (c s : BitVec 64) (L : Nat) (b : Bool) (i : Nat) (hi : i < L) (hL : L < 64) :
    (encStep c L s b).toNat.testBit i =
      ((if i = 0 then false else s.toNat.testBit (i - 1)) ^^
        ((s.toNat.testBit (L - 1) ^^ b) && c.toNat.testBit i)) := by
  have hi64 : i < 64 := by omega
  have ht : (s <<< 1).getLsbD i = (if i = 0 then false else s.getLsbD (i - 1)) := by
    rw [BitVec.getLsbD_shiftLeft]
    by_cases h0 : i = 0
    · simp [h0]
    · simp only [hi64, h0, decide_true, Bool.true_and, if_false]
      rw [show decide (i < 1) = false by simp; omega]
      simp
  show (encStep c L s b).getLsbD i = _
  unfold encStep
  have hs : s.toNat.testBit (L - 1) = s.getLsbD (L - 1) := rfl
  rw [hs]
  cases hf : (s.getLsbD (L - 1) ^^ b) with
  | true =>
    rw [if_pos rfl, BitVec.getLsbD_xor, ht]; rfl
  | false =>
    rw [if_neg (by simp), ht]; simp [BitVec.getLsbD]

theorem X_mul_coeff (p : F2[X]) (i : Nat) : (X * p).coeff i = if i = 0 then 0 else p.coeff (i - 1) := by
  cases i with
  | zero => simp
  | succ i => rw [coeff_X_mul]; simp

theorem genPoly_coeff (n c i : Nat) :
    (genPoly n c).coeff i = (if i = n then 1 else 0) + (if i < n then ofBool (c.testBit i) else 0) := by
  unfold genPoly
  rw [coeff_add, coeff_numPoly, coeff_X_pow]

theorem synStep_poly (c s : BitVec 64) (L : Nat) (b : Bool) (h1 : 0 < L) (hL : L < 64) :
    numPoly L (synStep c L s b).toNat + genPoly L c.toNat * C (ofBool (s.toNat.testBit (L - 1))) =
      X * numPoly L s.toNat + C (ofBool b) := by
  ext i
  simp only [coeff_add, coeff_mul_C, coeff_numPoly, genPoly_coeff, X_mul_coeff, coeff_C]
  rcases Nat.lt_trichotomy i L with hi | hi | hi
  · rw [if_pos hi, if_neg (show ¬ i = L by omega), if_pos hi, synStep_bit c s L b i hi hL, ofBool_xor, ofBool_and]
    by_cases h0 : i = 0
    · simp only [h0, if_true]
      have := f2_add_self (ofBool (s.toNat.testBit (L - 1)) * ofBool (c.toNat.testBit 0))
      linear_combination this
    · simp only [h0, if_false]
      rw [if_pos (by omega)]
      have := f2_add_self (ofBool (s.toNat.testBit (L - 1)) * ofBool (c.toNat.testBit i))
      linear_combination this
  · subst hi
    simp [show ¬ i = 0 by omega, show i - 1 < i by omega]
  · rw [if_neg (by omega), if_neg (show ¬ i = L by omega), if_neg (by omega), if_neg (show ¬ i = 0 by omega),
      if_neg (by omega), if_neg (by omega)]
    simp

theorem encStep_poly (c s : BitVec 64) (L : Nat) (b : Bool) (h1 : 0 < L) (hL : L < 64) :
    numPoly L (encStep c L s b).toNat +
        genPoly L c.toNat * C (ofBool (s.toNat.testBit (L - 1)) + ofBool b) =
      X * numPoly L s.toNat + X ^ L * C (ofBool b) := by
  ext i
  simp only [coeff_add, coeff_mul_C, coeff_numPoly, genPoly_coeff, X_mul_coeff, coeff_X_pow]
  rcases Nat.lt_trichotomy i L with hi | hi | hi
  · rw [if_pos hi, if_neg (show ¬ i = L by omega), if_pos hi, encStep_bit c s L b i hi hL, ofBool_xor, ofBool_and,
      ofBool_xor]
    have := f2_add_self ((ofBool (s.toNat.testBit (L - 1)) + ofBool b) * ofBool (c.toNat.testBit i))
    by_cases h0 : i = 0
    · simp only [h0, if_true] at this ⊢
      have h2 : ofBool false = 0 := rfl
      rw [h2]
      linear_combination this
    · simp only [h0, if_false]
      rw [if_pos (by omega)]
      linear_combination this
  · subst hi
    simp [show ¬ i = 0 by omega, show i - 1 < i by omega]
  · rw [if_neg (by omega), if_neg (show ¬ i = L by omega), if_neg (by omega), if_neg (show ¬ i = 0 by omega),
      if_neg (by omega)]
    simp

theorem mod_of_eq (L c : Nat) (r q f : F2[X]) (hd : r.degree < L) (h : r + genPoly L c * q = f) :
    f %ₘ genPoly L c = r :=
  (div_modByMonic_unique q r (genPoly_monic L c) ⟨h, by rw [degree_genPoly]; exact hd⟩).2

theorem mod_mod (L c : Nat) (p : F2[X]) : (p %ₘ genPoly L c) %ₘ genPoly L c = p %ₘ genPoly L c := by
  rw [modByMonic_eq_self_iff (genPoly_monic L c)]
  exact degree_modByMonic_lt p (genPoly_monic L c)

/-- replacing a factor by its remainder -/
theorem mul_mod_right (L c : Nat) (a p : F2[X]) :
    (a * (p %ₘ genPoly L c)) %ₘ genPoly L c = (a * p) %ₘ genPoly L c := by
  rw [mul_modByMonic, mod_mod, ← mul_modByMonic]

theorem synRun_poly (c : BitVec 64) (L : Nat) (h1 : 0 < L) (hL : L < 64) (bs : List Bool) :
    ∀ (s : BitVec 64) (p : F2[X]), numPoly L s.toNat = p %ₘ genPoly L c.toNat →
      numPoly L (bs.foldl (synStep c L) s).toNat =
        (bs.foldl (fun p b => X * p + C (ofBool b)) p) %ₘ genPoly L c.toNat := by
  induction bs with
  | nil => intro s p h; exact h
  | cons b bs ih =>
    intro s p h
    simp only [List.foldl_cons]
    apply ih
    have := mod_of_eq L c.toNat _ _ _ (degree_numPoly_lt L _) (synStep_poly c s L b h1 hL)
    rw [← this, h, add_modByMonic, mul_mod_right, ← add_modByMonic]

theorem encRun_poly (c : BitVec 64) (L : Nat) (h1 : 0 < L) (hL : L < 64) (bs : List Bool) :
    ∀ (s : BitVec 64) (p : F2[X]), numPoly L s.toNat = (X ^ L * p) %ₘ genPoly L c.toNat →
      numPoly L (bs.foldl (encStep c L) s).toNat =
        (X ^ L * bs.foldl (fun p b => X * p + C (ofBool b)) p) %ₘ genPoly L c.toNat := by
  induction bs with
  | nil => intro s p h; exact h
  | cons b bs ih =>
    intro s p h
    simp only [List.foldl_cons]
    apply ih
    have := mod_of_eq L c.toNat _ _ _ (degree_numPoly_lt L _) (encStep_poly c s L b h1 hL)
    rw [← this, h, add_modByMonic, mul_mod_right, ← add_modByMonic]
    congr 1
    ring

theorem numPoly_zero (L : Nat) : numPoly L 0 = 0 := by
  ext i; rw [coeff_numPoly]; split <;> simp [ofBool]

/-- masked state -/
theorem mask_bit (L i : Nat) (hL : L < 64) :
    (((1 : BitVec 64) <<< L) - 1).getLsbD i = decide (i < L) := by
  have h1 : (((1 : BitVec 64) <<< L) - 1).toNat = 2 ^ L - 1 := by
    have hp : 2 ^ L < 2 ^ 64 := Nat.pow_lt_pow_right (by omega) hL
    have hp1 : 1 ≤ 2 ^ L := Nat.one_le_two_pow
    rw [BitVec.toNat_sub_of_le]
    · rw [BitVec.toNat_shiftLeft]
      simp only [BitVec.ofNat_eq_ofNat, BitVec.toNat_ofNat, Nat.reducePow, Nat.one_mod, Nat.shiftLeft_eq, one_mul]
      omega
    · rw [BitVec.le_def, BitVec.toNat_shiftLeft]
      simp only [BitVec.ofNat_eq_ofNat, BitVec.toNat_ofNat, Nat.reducePow, Nat.one_mod, Nat.shiftLeft_eq, one_mul]
      omega
  rw [BitVec.getLsbD, h1, Nat.testBit_two_pow_sub_one]

theorem stateWord_bit (g : Generator) (i : Nat) (hL : g.len < 64)
    (hm : g.mask = ((1 : BitVec 64) <<< g.len) - 1) :
    g.stateWord.toNat.testBit i = (g.state.toNat.testBit i && decide (i < g.len)) := by
  show g.stateWord.getLsbD i = _
  rw [Generator.stateWord, BitVec.getLsbD_and, hm, mask_bit _ _ hL]
  rfl

theorem stateWord_lt (g : Generator) (hL : g.len < 64) (hm : g.mask = ((1 : BitVec 64) <<< g.len) - 1) :
    g.stateWord.toNat < 2 ^ g.len := by
  apply Nat.lt_pow_two_of_testBit
  intro i hi
  rw [stateWord_bit g i hL hm]
  simp; omega

/-- generators as the constructor makes them (any register content) -/
structure WellFormed (g : Generator) : Prop where
  pos : 0 < g.len
  lt : g.len < 64
  mask : g.mask = ((1 : BitVec 64) <<< g.len) - 1
  len_1 : g.len_1 = g.len - 1

theorem mkGenerator_wf (c : BitVec 64) (L : Nat) (h1 : 0 < L) (g : Generator)
    (h : mkGenerator c L = .ok g) : WellFormed g ∧ g.coeff = c ∧ g.len = L := by
  unfold mkGenerator at h
  split at h
  · next hL =>
    injection h with h
    subst h
    exact ⟨⟨h1, hL, rfl, len_1_eq L h1 hL⟩, rfl, rfl⟩
  · simp at h

/-- the syndrome as a remainder -/
theorem syndrome_poly (v : Bits) (g : Generator) (hg : WellFormed g) :
    ∃ s, syndrome v g = .ok s ∧ s.toNat < 2 ^ g.len ∧
      numPoly g.len s.toNat = wordPoly (bits v) %ₘ genPoly g.len g.coeff.toNat := by
  unfold syndrome
  rw [syndromeLoop_eq v g.clear hg.pos hg.lt hg.len_1]
  refine ⟨_, rfl, stateWord_lt _ hg.lt hg.mask, ?_⟩
  rw [wordPoly, ← synRun_poly g.coeff g.len hg.pos hg.lt (bits v) 0 0 (by simp [numPoly_zero])]
  apply numPoly_congr
  intro i hi
  rw [stateWord_bit _ i (by exact hg.lt) (by exact hg.mask)]
  simp [Generator.clear, hi]

/-- the parity word as a remainder -/
theorem parity_poly (v : Bits) (g : Generator) (hg : WellFormed g) :
    ∃ s, parity v g = .ok s ∧ s.toNat < 2 ^ g.len ∧
      numPoly g.len s.toNat = (X ^ g.len * wordPoly (bits v)) %ₘ genPoly g.len g.coeff.toNat := by
  unfold parity
  rw [parityLoop_eq v g.clear hg.pos hg.lt hg.len_1]
  refine ⟨_, rfl, stateWord_lt _ hg.lt hg.mask, ?_⟩
  rw [wordPoly, ← encRun_poly g.coeff g.len hg.pos hg.lt (bits v) 0 0 (by simp [numPoly_zero])]
  apply numPoly_congr
  intro i hi
  rw [stateWord_bit _ i (by exact hg.lt) (by exact hg.mask)]
  simp [Generator.clear, hi]

theorem wordPoly_foldl (bs : List Bool) (p : F2[X]) :
    bs.foldl (fun p b => X * p + C (ofBool b)) p = X ^ bs.length * p + wordPoly bs := by
  unfold wordPoly
  induction bs generalizing p with
  | nil => simp
  | cons b bs ih =>
    simp only [List.foldl_cons, List.length_cons]
    rw [ih, ih (X * 0 + C (ofBool b))]
    ring

theorem wordPoly_append (a b : List Bool) :
    wordPoly (a ++ b) = X ^ b.length * wordPoly a + wordPoly b := by
  unfold wordPoly
  rw [List.foldl_append, wordPoly_foldl]; rfl

theorem wordPoly_cons (b : Bool) (bs : List Bool) :
    wordPoly (b :: bs) = X ^ bs.length * C (ofBool b) + wordPoly bs := by
  have := wordPoly_append [b] bs
  simpa [wordPoly] using this

theorem coeff_wordPoly (bs : List Bool) (i : Nat) :
    (wordPoly bs).coeff i = if i < bs.length then ofBool (bs.getD (bs.length - 1 - i) false) else 0 := by
  induction bs generalizing i with
  | nil => simp [wordPoly]
  | cons b bs ih =>
    rw [wordPoly_cons, coeff_add, ih, coeff_mul_C, coeff_X_pow]
    simp only [List.length_cons]
    rcases Nat.lt_trichotomy i bs.length with hi | hi | hi
    · rw [if_neg (by omega), if_pos hi, if_pos (by omega)]
      have : bs.length + 1 - 1 - i = (bs.length - 1 - i) + 1 := by omega
      rw [this, List.getD_cons_succ]; simp
    · subst hi
      simp
    · rw [if_neg (by omega), if_neg (by omega), if_neg (by omega)]; simp

theorem wordPoly_msbDigits (n x : Nat) : wordPoly (msbDigits n x) = numPoly n x := by
  ext i
  rw [coeff_wordPoly, coeff_numPoly]
  have hl : (msbDigits n x).length = n := by simp [msbDigits]
  rw [hl]
  split
  · next hi =>
    rw [List.getD_eq_getElem?_getD, List.getElem?_eq_getElem (by omega)]
    simp only [msbDigits, List.getElem_map, List.getElem_range, Option.getD_some]
    congr 2; omega
  · rfl

theorem degree_wordPoly_lt (bs : List Bool) : (wordPoly bs).degree < bs.length := by
  rw [degree_lt_iff_coeff_zero]
  intro m hm
  rw [coeff_wordPoly, if_neg (by omega)]

theorem wordPoly_xor (a b : List Bool) (h : a.length = b.length) :
    wordPoly (List.zipWith (· ^^ ·) a b) = wordPoly a + wordPoly b := by
  induction a generalizing b with
  | nil =>
    cases b with
    | nil => simp [wordPoly]
    | cons _ _ => simp at h
  | cons x a ih =>
    cases b with
    | nil => simp at h
    | cons y b =>
      simp only [List.length_cons, Nat.add_right_cancel_iff] at h
      rw [List.zipWith_cons_cons, wordPoly_cons, wordPoly_cons, wordPoly_cons, ih b h, ofBool_xor]
      simp only [List.length_zipWith, h, min_self, map_add]
      ring

end Verif.Crc
