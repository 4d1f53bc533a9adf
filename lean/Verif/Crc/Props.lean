import Verif.Crc.Lemmas
import Verif.BitVector.PropsFields
import Mathlib.RingTheory.Coprime.Lemmas

/-
Properties C06, C07, C08: parity words and syndromes.
-/

namespace Verif.Crc
open Verif Verif.BitVector Verif.BitVector.Spec Spec Polynomial

/-! ### C08: the syndrome is the polynomial remainder -/

/-- C08 (syndrome): for every generator of degree 1..63 and every word, `syndrome` succeeds and is the
remainder of the word polynomial modulo the generator polynomial, whatever the register held before
and whether or not the leading term of the generator is stored. -/
theorem C08_syndrome_is_remainder (coeff : BitVec 64) (L : Nat) (hL : 0 < L) (hL' : L < 64)
    (junk : BitVec 64) (v : Bits) :
    ∃ g s, mkGenerator coeff L = .ok g ∧ syndrome v { g with state := junk } = .ok s ∧
      s.toNat < 2 ^ L ∧
      numPoly L s.toNat = wordPoly (bits v) %ₘ genPoly L coeff.toNat := by
  have hm : ∃ g, mkGenerator coeff L = .ok g := by simp [mkGenerator, hL']
  obtain ⟨g, hg⟩ := hm
  obtain ⟨wf, hc, hl⟩ := mkGenerator_wf coeff L hL g hg
  obtain ⟨s, h1, h2, h3⟩ := syndrome_poly v { g with state := junk } ⟨wf.pos, wf.lt, wf.mask, wf.len_1⟩
  simp only [hl, hc] at h2 h3
  exact ⟨g, s, hg, h1, h2, h3⟩

/-- C08 (parity): the parity word is the remainder of the message polynomial times `X^L`. -/
theorem C08_parity_is_remainder (coeff : BitVec 64) (L : Nat) (hL : 0 < L) (hL' : L < 64)
    (junk : BitVec 64) (v : Bits) :
    ∃ g s, mkGenerator coeff L = .ok g ∧ parity v { g with state := junk } = .ok s ∧
      s.toNat < 2 ^ L ∧
      numPoly L s.toNat = (X ^ L * wordPoly (bits v)) %ₘ genPoly L coeff.toNat := by
  have hm : ∃ g, mkGenerator coeff L = .ok g := by simp [mkGenerator, hL']
  obtain ⟨g, hg⟩ := hm
  obtain ⟨wf, hc, hl⟩ := mkGenerator_wf coeff L hL g hg
  obtain ⟨s, h1, h2, h3⟩ := parity_poly v { g with state := junk } ⟨wf.pos, wf.lt, wf.mask, wf.len_1⟩
  simp only [hl, hc] at h2 h3
  exact ⟨g, s, hg, h1, h2, h3⟩

/-- C08 (lengths): a generator of degree 0 cannot be used, since its first shift is by 2^32-1 places; the lengths 1 to 63 are the only ones that work for every word. -/
theorem C08_lengths (coeff : BitVec 64) (L : Nat) :
    (0 < L ∧ L < 64) ↔ ∃ g, mkGenerator coeff L = .ok g ∧ (∀ v, syndrome v g ≠ .ub) ∧ ∀ v, parity v g ≠ .ub := by
  constructor
  · rintro ⟨h1, h2⟩
    obtain ⟨g, -, hg, -⟩ := C08_syndrome_is_remainder coeff L h1 h2 0 []
    have e : { g with state := 0 } = g := by
      simp only [mkGenerator, if_pos h2] at hg
      cases hg
      rfl
    refine ⟨g, hg, fun v => ?_, fun v => ?_⟩
    · obtain ⟨g', s, hg', h, -⟩ := C08_syndrome_is_remainder coeff L h1 h2 0 v
      cases hg.symm.trans hg'
      rw [e] at h
      rw [h]
      intro h; cases h
    · obtain ⟨g', s, hg', h, -⟩ := C08_parity_is_remainder coeff L h1 h2 0 v
      cases hg.symm.trans hg'
      rw [e] at h
      rw [h]
      intro h; cases h
  · rintro ⟨g, hg, hs, -⟩
    by_cases h2 : L < 64
    · refine ⟨Nat.pos_of_ne_zero ?_, h2⟩
      rintro rfl
      simp only [mkGenerator, if_pos h2] at hg
      cases hg
      exact hs [0] rfl
    · simp only [mkGenerator, if_neg h2] at hg
      cases hg

theorem numPoly_xor (L x y : Nat) : numPoly L (x ^^^ y) = numPoly L x + numPoly L y := by
  ext i
  rw [coeff_add, coeff_numPoly, coeff_numPoly, coeff_numPoly]
  split
  · rw [Nat.testBit_xor, ofBool_xor]
  · simp

/-- C08 (linearity): the syndrome of the bitwise xor of two equally long words is the xor of their
syndromes. -/
theorem C08_linear (g : Generator) (hg : WellFormed g) (a b c : Bits)
    (hlen : a.length = b.length) (hc : bits c = List.zipWith (· ^^ ·) (bits a) (bits b)) :
    ∃ sa sb, syndrome a g = .ok sa ∧ syndrome b g = .ok sb ∧ syndrome c g = .ok (sa ^^^ sb) := by
  obtain ⟨sa, a1, a2, a3⟩ := syndrome_poly a g hg
  obtain ⟨sb, b1, b2, b3⟩ := syndrome_poly b g hg
  obtain ⟨sc, c1, c2, c3⟩ := syndrome_poly c g hg
  refine ⟨sa, sb, a1, b1, ?_⟩
  rw [c1]
  congr 1
  apply BitVec.eq_of_toNat_eq
  apply numPoly_inj g.len _ _ c2
  · rw [BitVec.toNat_xor]; exact Nat.xor_lt_two_pow a2 b2
  · rw [c3, BitVec.toNat_xor, numPoly_xor, a3, b3, hc, wordPoly_xor _ _ (by simp [bits_length, hlen]), add_modByMonic]

/-! ### C06: appending the parity word -/

theorem bits_append (a b : Bits) : bits (a ++ b) = bits a ++ bits b := by simp [bits]

/-- C06 (plain): for every generator of degree 1..63, every message and every target of the parity
size, the codeword message++parity has syndrome 0. -/
theorem C06_codeword_checks (coeff : BitVec 64) (L : Nat) (hL : 0 < L) (hL' : L < 64)
    (data target : Bits) (ht : target.length = L) :
    ∃ g p, mkGenerator coeff L = .ok g ∧ writeParityWord g data target false = .ok p ∧
      p.length = L ∧ syndrome (data ++ p) g = .ok 0 := by
  have hm : ∃ g, mkGenerator coeff L = .ok g := by simp [mkGenerator, hL']
  obtain ⟨g, hg⟩ := hm
  obtain ⟨wf, hc, hl⟩ := mkGenerator_wf coeff L hL g hg
  obtain ⟨w, h1, h2, h3⟩ := parity_poly data g wf
  obtain ⟨p, p1, p2, p3, -, -⟩ := C01_fillField target 0 g.len w (.inr (by omega))
  have hpl : p.length = L := by omega
  have hpb : bits p = msbDigits g.len w.toNat := by
    rw [p3, overwrite]
    simp only [List.take_zero, List.nil_append, Nat.zero_add]
    rw [List.drop_eq_nil_of_le (by simp [bits, msbDigits, ht, hl]), List.append_nil]
  refine ⟨g, p, hg, ?_, hpl, ?_⟩
  · simp [writeParityWord, h1, p1]
  · obtain ⟨s, s1, s2, s3⟩ := syndrome_poly (data ++ p) g wf
    rw [s1]
    congr 1
    apply BitVec.eq_of_toNat_eq
    apply numPoly_inj g.len _ _ s2 (by simp)
    rw [s3, bits_append, wordPoly_append, hpb, wordPoly_msbDigits, h3]
    have : (msbDigits g.len w.toNat).length = g.len := by simp [msbDigits]
    rw [this, add_modByMonic, mod_mod, poly_add_self]
    simp [numPoly_zero]

theorem numPoly_not (L : Nat) (w : BitVec 64) (hL : L ≤ 64) :
    numPoly L (~~~ w).toNat = numPoly L w.toNat + numPoly L (2 ^ L - 1) := by
  ext i
  rw [coeff_add, coeff_numPoly, coeff_numPoly, coeff_numPoly]
  split
  · next hi =>
    have h1 : (~~~ w).toNat.testBit i = !(w.toNat.testBit i) := by
      show (~~~ w).getLsbD i = !(w.getLsbD i)
      simp; omega
    rw [h1, Nat.testBit_two_pow_sub_one]
    simp only [hi, decide_true]
    cases w.toNat.testBit i <;> decide
  · simp

/-- C06 (default, inverted parity): the codeword has the all-ones syndrome. -/
theorem C06_inverted_codeword (coeff : BitVec 64) (L : Nat) (hL : 0 < L) (hL' : L < 64)
    (data target : Bits) (ht : target.length = L) :
    ∃ g p s, mkGenerator coeff L = .ok g ∧ writeParityWord g data target true = .ok p ∧
      p.length = L ∧ syndrome (data ++ p) g = .ok s ∧ s.toNat = 2 ^ L - 1 := by
  have hm : ∃ g, mkGenerator coeff L = .ok g := by simp [mkGenerator, hL']
  obtain ⟨g, hg⟩ := hm
  obtain ⟨wf, hc, hl⟩ := mkGenerator_wf coeff L hL g hg
  obtain ⟨w, h1, h2, h3⟩ := parity_poly data g wf
  obtain ⟨p, p1, p2, p3, -, -⟩ := C01_fillField target 0 g.len (~~~ w) (.inr (by omega))
  have hpl : p.length = L := by omega
  have hpb : bits p = msbDigits g.len (~~~ w).toNat := by
    rw [p3, overwrite]
    simp only [List.take_zero, List.nil_append, Nat.zero_add]
    rw [List.drop_eq_nil_of_le (by simp [bits, msbDigits, ht, hl]), List.append_nil]
  obtain ⟨s, s1, s2, s3⟩ := syndrome_poly (data ++ p) g wf
  refine ⟨g, p, s, hg, ?_, hpl, s1, ?_⟩
  · simp [writeParityWord, h1, p1]
  · rw [← hl]
    apply numPoly_inj g.len _ _ s2 (by have := Nat.one_le_two_pow (n := g.len); omega)
    rw [s3, bits_append, wordPoly_append, hpb, wordPoly_msbDigits, numPoly_not _ _ (by omega), h3]
    have : (msbDigits g.len (~~~ w).toNat).length = g.len := by simp [msbDigits]
    rw [this, add_modByMonic, add_modByMonic, mod_mod, ← add_assoc, poly_add_self, zero_add]
    rw [modByMonic_eq_self_iff (genPoly_monic _ _), degree_genPoly]
    exact degree_numPoly_lt _ _

/-- C06 (shape): the parity word occupies the first `L` positions of the target; a longer target
keeps its remaining stored chars. -/
theorem C06_target_frame (g : Generator) (hg : WellFormed g) (data target p : Bits) (inv : Bool)
    (h : writeParityWord g data target inv = .ok p) :
    p.length = target.length ∧ ∀ j, g.len ≤ j → p[j]? = target[j]? := by
  obtain ⟨w, h1, -, -⟩ := parity_poly data g hg
  simp only [writeParityWord, h1, Outcome.bind_ok] at h
  by_cases hf : g.len ≤ target.length
  · obtain ⟨q, q1, q2, -, -, q5⟩ := C01_fillField target 0 g.len (if inv then ~~~ w else w) (.inr (by omega))
    rw [q1] at h
    injection h with h
    subst h
    exact ⟨q2, fun j hj => q5 j (by omega)⟩
  · rw [C01_fillField_misfit _ _ _ _ (by have := hg.pos; omega) (by omega)] at h
    simp at h

/-- The 40-bit GSM fire code generator as used by OpenBTS (leading term stored). -/
example : ∃ g p, mkGenerator 0x10004820009 40 = .ok g ∧
    writeParityWord g [1, 0, 255, 1, 0] (List.replicate 40 7) false = .ok p ∧
      p.length = 40 ∧ syndrome ([1, 0, 255, 1, 0] ++ p) g = .ok 0 :=
  C06_codeword_checks _ 40 (by decide) (by decide) _ _ (by decide)

/-! ### C07: burst detection -/

theorem isCoprime_X_pow_gen (L c : Nat) (hc : c.testBit 0 = true) (hL : 0 < L) (b : Nat) :
    IsCoprime (genPoly L c) (X ^ b) := by
  apply IsCoprime.pow_right
  -- genPoly = X * q + 1
  have h : ∃ q : F2[X], genPoly L c = X * q + 1 := by
    obtain ⟨q, hq⟩ := X_dvd_sub_C (p := genPoly L c)
    refine ⟨q, ?_⟩
    have h0 : (genPoly L c).coeff 0 = 1 := by
      rw [genPoly_coeff, if_neg (by omega), if_pos hL, hc]; decide
    rw [h0] at hq
    rw [← hq]; simp
  obtain ⟨q, hq⟩ := h
  refine ⟨1, q, ?_⟩
  rw [hq]
  have := poly_add_self (X * q)
  linear_combination this

/-- C07 (core): a non-zero error pattern that is zero outside `n ≤ L` consecutive positions has a
non-zero syndrome, when the generator has constant term 1. -/
theorem C07_burst_syndrome_nonzero (g : Generator) (hg : WellFormed g)
    (hc : g.coeff.toNat.testBit 0 = true) (e : Bits) (before after : Nat) (burst : List Bool)
    (he : bits e = List.replicate before false ++ burst ++ List.replicate after false)
    (hb : burst.length ≤ g.len) (hnz : true ∈ burst) :
    ∃ s, syndrome e g = .ok s ∧ s ≠ 0 := by
  obtain ⟨s, s1, s2, s3⟩ := syndrome_poly e g hg
  refine ⟨s, s1, ?_⟩
  rintro rfl
  have hz : ∀ n, wordPoly (List.replicate n false) = 0 := by
    intro n
    induction n with
    | zero => simp [wordPoly]
    | succ n ih => rw [List.replicate_succ, wordPoly_cons, ih]; simp [ofBool]
  have hw : wordPoly (bits e) = X ^ after * wordPoly burst := by
    rw [he, wordPoly_append, wordPoly_append, hz, hz]; simp
  rw [hw] at s3
  simp only [BitVec.ofNat_eq_ofNat, BitVec.toNat_ofNat, Nat.zero_mod, numPoly_zero] at s3
  have hd := (modByMonic_eq_zero_iff_dvd (genPoly_monic g.len g.coeff.toNat)).mp s3.symm
  have hd2 := (isCoprime_X_pow_gen g.len g.coeff.toNat hc hg.pos after).dvd_of_dvd_mul_left hd
  have hzero : wordPoly burst = 0 := by
    have hm := genPoly_monic g.len g.coeff.toNat
    rw [← (modByMonic_eq_zero_iff_dvd hm).mpr hd2]
    symm
    rw [modByMonic_eq_self_iff hm, degree_genPoly]
    exact lt_of_lt_of_le (degree_wordPoly_lt burst) (by exact_mod_cast hb)
  obtain ⟨k, hk, hkt⟩ := List.getElem_of_mem hnz
  have hco := coeff_wordPoly burst (burst.length - 1 - k)
  rw [hzero, if_pos (by omega)] at hco
  have : burst.length - 1 - (burst.length - 1 - k) = k := by omega
  rw [this, List.getD_eq_getElem?_getD, List.getElem?_eq_getElem hk, hkt] at hco
  simp [ofBool] at hco

/-- C07: flipping any non-empty set of bits lying within `L` consecutive positions of any word changes
its syndrome.  `sent` and `received` are any two stored vectors whose observable bits differ exactly by
the error pattern. -/
theorem C07_burst_detected (g : Generator) (hg : WellFormed g)
    (hc : g.coeff.toNat.testBit 0 = true) (sent received : Bits) (before after : Nat)
    (burst : List Bool) (hlen : before + burst.length + after = sent.length)
    (hr : bits received = List.zipWith (· ^^ ·) (bits sent)
      (List.replicate before false ++ burst ++ List.replicate after false))
    (hb : burst.length ≤ g.len) (hnz : true ∈ burst) :
    ∃ s r, syndrome sent g = .ok s ∧ syndrome received g = .ok r ∧ r ≠ s := by
  let pat := List.replicate before false ++ burst ++ List.replicate after false
  let e : Bits := pat.map fun b => if b then 1 else 0
  have hbe : bits e = pat := by
    simp only [bits, e, List.map_map]
    conv => rhs; rw [← List.map_id pat]
    apply List.map_congr_left
    intro b _
    cases b <;> decide
  obtain ⟨x, x1, x2⟩ := C07_burst_syndrome_nonzero g hg hc e before after burst hbe hb hnz
  obtain ⟨sa, sb, a1, b1, c1⟩ := C08_linear g hg sent e received
    (by simp [e, pat]; omega) (by rw [hbe]; exact hr)
  refine ⟨sa, _, a1, c1, ?_⟩
  intro h
  rw [b1] at x1
  injection x1 with x1
  apply x2
  rw [← x1]
  have : sa ^^^ (sa ^^^ sb) = sa ^^^ sa := by rw [h]
  rw [← BitVec.xor_assoc, BitVec.xor_self, BitVec.zero_xor] at this
  exact this

/-- C07 (single bit errors): flipping one bit of any word changes its syndrome. -/
theorem C07_single_bit_detected (g : Generator) (hg : WellFormed g)
    (hc : g.coeff.toNat.testBit 0 = true) (sent received : Bits) (k : Nat) (hk : k < sent.length)
    (hlen : received.length = sent.length)
    (hr : ∀ j, (bits received)[j]? = if j = k then ((bits sent)[j]?).map (! ·) else (bits sent)[j]?) :
    ∃ s r, syndrome sent g = .ok s ∧ syndrome received g = .ok r ∧ r ≠ s := by
  apply C07_burst_detected g hg hc sent received k (sent.length - 1 - k) [true]
  · simp; omega
  · apply List.ext_getElem?
    intro j
    rw [hr, List.getElem?_zipWith]
    rcases Nat.lt_trichotomy j k with h | h | h
    · rw [if_neg (by omega), List.append_assoc, List.getElem?_append_left (by simp; omega)]
      rw [List.getElem?_replicate, if_pos h]
      cases (bits sent)[j]? <;> simp
    · subst h
      rw [if_pos rfl, List.append_assoc, List.getElem?_append_right (by simp)]
      simp only [List.length_replicate, Nat.sub_self, List.singleton_append, List.getElem?_cons_zero]
      cases (bits sent)[j]? <;> simp
    · rw [if_neg (by omega), List.getElem?_append_right (by simp; omega)]
      rw [List.getElem?_replicate]
      by_cases hj : j < sent.length
      · rw [if_pos (by simp; omega)]
        cases (bits sent)[j]? <;> simp
      · rw [List.getElem?_eq_none (by rw [bits_length]; omega)]
  · exact hg.pos
  · simp

/-- Non-vacuity: an 8-bit CRC and a 3-position burst. -/
example : ∃ s r, syndrome [1, 0, 1, 1, 0, 0] { coeff := 0x107, state := 0, mask := 255, len := 8, len_1 := 7 } = .ok s ∧
    syndrome [1, 1, 1, 0, 0, 0] { coeff := 0x107, state := 0, mask := 255, len := 8, len_1 := 7 } = .ok r ∧ r ≠ s :=
  C07_burst_detected _ ⟨by decide, by decide, by decide, by decide⟩ (by decide) _ _ 1 2 [true, false, true]
    (by decide) (by decide) (by decide) (by decide)

/-- The constant-term hypothesis is needed: with constant term 0 an error in the first bit of a long
enough word can go undetected. -/
theorem C07_constant_term_needed : ∃ g : Generator, WellFormed g ∧ g.coeff.toNat.testBit 0 = false ∧
    syndrome [1, 0, 0] g = syndrome [0, 0, 0] g :=
  ⟨{ coeff := 0, state := 0, mask := 3, len := 2, len_1 := 1 }, ⟨by decide, by decide, by decide, by decide⟩,
    by decide, by decide⟩

end Verif.Crc
