import Verif.Crc.Props
import Verif.BitVector.PropsMisc
import Verif.Soft.Props
import Mathlib.Algebra.Polynomial.Eval.Defs
import Mathlib.Algebra.Polynomial.Eval.Degree

/-
Property C147: a block with parity, interleaved, through a noisy channel and back: what the check of the receiver says.

The functions are those of `Verif.Crc.Model`, `Verif.BitVector.Model` and `Verif.Soft.Model`: `Parity::writeParityWord`, `BitVector::map`, the constructor of `SoftVector`, `SoftVector::sliced`, `BitVector::unmap`,
`Parity::syndrome`.  Soft bits are exact rationals.
-/

namespace Verif.Crc.Channel
open Verif Verif.BitVector Verif.BitVector.Spec Verif.Crc Verif.Crc.Spec Verif.Soft Polynomial

/-- The sender: the data with their parity word, inverted or not, in the order of the table (`BitVector.cpp:267-272,226-231`). -/
def send (g : Generator) (inv : Bool) (table : List Nat) (data : Bits) : Outcome Bits := do
  let p ← writeParityWord g data (List.replicate g.len 0) inv
  map (data ++ p) table (List.replicate table.length 0)

/-- The receiver: the soft bits sliced and put back into order, with the syndrome of the block (`BitVector.cpp:292-301,236-241,261-264`). -/
def receive (g : Generator) (table : List Nat) (soft : List Rat) : Outcome (Bits × BitVec 64) := do
  let back ← unmap (sliced soft) table (List.replicate table.length 0)
  let s ← syndrome back g
  pure (back, s)

/-! ### Specification -/

/-- The bits that the channel changed: those on the other side of one half. -/
def errors (sent : Bits) (soft : List Rat) : List Bool := List.zipWith (fun c x => c.getLsbD 0 ^^ decide (1 / 2 < x)) sent soft

/-- The errors in the order of the block: bit `table[k]` of the block is bit `k` of the channel. -/
def inBlock (table : List Nat) (e : List Bool) : List Bool := (List.range table.length).map fun j => e.getD (table.idxOf j) false

/-- A permutation of the positions of a block. -/
def IsInterleaver (table : List Nat) : Prop := table.Nodup ∧ ∀ m ∈ table, m < table.length

/-- What the receiver expects as the syndrome. -/
def expected (L : Nat) (inv : Bool) : Nat := if inv then 2 ^ L - 1 else 0

/-! ### Proof -/

theorem inBlock_length (table : List Nat) (e : List Bool) : (inBlock table e).length = table.length := by simp [inBlock]

theorem inBlock_get {table : List Nat} (hi : IsInterleaver table) (e : List Bool) (k : Nat) (hk : k < table.length) : (inBlock table e)[table[k]]? = some (e.getD k false) := by
  have h1 : table[k] < table.length := hi.2 _ (List.getElem_mem hk)
  have h2 : table.idxOf table[k] = k := hi.1.idxOf_getElem k hk
  simp [inBlock, h1, h2]

theorem bits_sliced (y : List Rat) : bits (sliced y) = y.map fun x => decide (1 / 2 < x) := by
  simp only [bits, sliced, List.map_map]
  apply List.map_congr_left
  intro x _
  simp only [Function.comp]
  by_cases h : 1 / 2 < x
  · rw [if_pos h, decide_eq_true h]; decide
  · rw [if_neg h, decide_eq_false h]; decide

theorem codeword (coeff : BitVec 64) (L : Nat) (hL : 0 < L) (hL' : L < 64) (inv : Bool) (data : Bits) :
    ∃ g p s, mkGenerator coeff L = .ok g ∧ writeParityWord g data (List.replicate L 0) inv = .ok p ∧ p.length = L ∧ syndrome (data ++ p) g = .ok s ∧ s.toNat = expected L inv := by
  cases inv with
  | false =>
    obtain ⟨g, p, h1, h2, h3, h4⟩ := C06_codeword_checks coeff L hL hL' data (List.replicate L 0) (by simp)
    exact ⟨g, p, 0, h1, h2, h3, h4, rfl⟩
  | true =>
    obtain ⟨g, p, s, h1, h2, h3, h4, h5⟩ := C06_inverted_codeword coeff L hL hL' data (List.replicate L 0) (by simp)
    exact ⟨g, p, s, h1, h2, h3, h4, h5⟩

theorem toBits (l : List Bool) : bits (l.map fun b => if b then (1 : BitVec 8) else 0) = l := by
  simp only [bits, List.map_map]
  conv => rhs; rw [← List.map_id l]
  apply List.map_congr_left
  intro b _
  cases b <;> decide

/-! ### C147 -/

/-- C147, sending: for every generator of degree 1 to 63, parity inverted or not, every interleaver and data that fill it, the sender succeeds; what it sends is the block of the data and their parity word, bit `table[k]` of the block
as bit `k`. -/
theorem C147_sends (coeff : BitVec 64) (L : Nat) (hL : 0 < L) (hL' : L < 64) (inv : Bool) (table : List Nat) (hi : IsInterleaver table) (data : Bits) (hlen : data.length + L = table.length) :
    ∃ g sent p s, mkGenerator coeff L = .ok g ∧ send g inv table data = .ok sent ∧ writeParityWord g data (List.replicate L 0) inv = .ok p ∧ p.length = L ∧
      sent.length = table.length ∧ (∀ k (hk : k < table.length), sent[k]? = (data ++ p)[table[k]]?) ∧ syndrome (data ++ p) g = .ok s ∧ s.toNat = expected L inv := by
  obtain ⟨g, p, s0, hg, hp, hpl, hs0, hexp⟩ := codeword coeff L hL hL' inv data
  obtain ⟨wf, hc, hl⟩ := mkGenerator_wf coeff L hL g hg
  have hcl : (data ++ p).length = table.length := by simp; omega
  obtain ⟨sent, m1, m2, m3, -⟩ := C09_map (data ++ p) (List.replicate table.length 0) table (by rw [hcl]; exact hi.2) (by simp)
  refine ⟨g, sent, p, s0, hg, ?_, hp, hpl, by simpa using m2, m3, hs0, hexp⟩
  unfold send
  rw [hl, hp]
  exact m1

/-- C147, receiving: whatever soft bits arrive, the receiver succeeds, the received block is the sent one with the errors at their places in the block, and the check is passed exactly if the generator divides the polynomial of these
errors. -/
theorem C147_check (coeff : BitVec 64) (L : Nat) (hL : 0 < L) (hL' : L < 64) (inv : Bool) (table : List Nat) (hi : IsInterleaver table) (data : Bits)
    (hlen : data.length + L = table.length) (g : Generator) (hg : mkGenerator coeff L = .ok g) (sent p : Bits) (hsend : send g inv table data = .ok sent)
    (hp : writeParityWord g data (List.replicate L 0) inv = .ok p) (soft : List Rat) (hs : soft.length = table.length) :
    ∃ back s, receive g table soft = .ok (back, s) ∧ bits back = List.zipWith (· ^^ ·) (bits data ++ bits p) (inBlock table (errors sent soft)) ∧
      (s.toNat = expected L inv ↔ genPoly L coeff.toNat ∣ wordPoly (inBlock table (errors sent soft))) := by
  obtain ⟨g', sent', p', s0, hg', hsend', hp', hpl, hsl, m3, hs0, hexp⟩ := C147_sends coeff L hL hL' inv table hi data hlen
  rw [hg] at hg'
  injection hg' with hg'
  subst hg'
  rw [hsend] at hsend'
  injection hsend' with hsend'
  subst hsend'
  rw [hp] at hp'
  injection hp' with hp'
  subst hp'
  obtain ⟨wf, hc, hl⟩ := mkGenerator_wf coeff L hL g hg
  have hcl : (data ++ p).length = table.length := by simp; omega
  obtain ⟨back, u1, u2, u3, -⟩ := C09_unmap (sliced soft) (List.replicate table.length 0) table (by simpa using hi.2) (by simp [sliced, hs]) hi.1
  have hel : (errors sent soft).length = table.length := by simp [errors, hsl, hs]
  have hb : bits back = List.zipWith (· ^^ ·) (bits (data ++ p)) (inBlock table (errors sent soft)) := by
    apply List.ext_getElem?
    intro j
    rcases Nat.lt_or_ge j table.length with hj | hj
    · obtain ⟨k, hk, rfl⟩ := List.getElem_of_mem (perm_table_surj table hi.1 hi.2 j hj)
      rw [List.getElem?_zipWith, inBlock_get hi _ k hk]
      have e1 : (bits back)[table[k]]? = some (decide (1 / 2 < soft[k]'(by omega))) := by
        have := u3 k hk
        have h2 : (bits (sliced soft))[k]? = some (decide (1 / 2 < soft[k]'(by omega))) := by
          rw [bits_sliced, List.getElem?_map, List.getElem?_eq_getElem (by omega)]; rfl
        simp only [bits, List.getElem?_map] at h2 ⊢
        rw [this, h2]
      have e2 : (bits (data ++ p))[table[k]]? = some ((sent[k]'(by omega)).getLsbD 0) := by
        have := m3 k hk
        simp only [bits, List.getElem?_map]
        rw [← this, List.getElem?_eq_getElem (by omega)]; rfl
      have e3 : (errors sent soft).getD k false = ((sent[k]'(by omega)).getLsbD 0 ^^ decide (1 / 2 < soft[k]'(by omega))) := by
        rw [List.getD_eq_getElem?_getD, List.getElem?_eq_getElem (by omega)]
        simp [errors]
      rw [e1, e2, e3]
      simp
    · have hbl : back.length = table.length := by simpa using u2
      rw [List.getElem?_eq_none (by simp [bits]; omega), List.getElem?_eq_none (by simp [bits, inBlock_length]; omega)]
  obtain ⟨sa, se, a1, b1, c1⟩ := C08_linear g wf (data ++ p) ((inBlock table (errors sent soft)).map fun b => if b then (1 : BitVec 8) else 0) back
    (by rw [hcl]; simp [inBlock_length]) (by rw [toBits]; exact hb)
  obtain ⟨s2, d1, d2, d3⟩ := syndrome_poly ((inBlock table (errors sent soft)).map fun b => if b then (1 : BitVec 8) else 0) g wf
  rw [b1] at d1
  injection d1 with d1
  subst d1
  rw [toBits] at d3
  rw [hs0] at a1
  injection a1 with a1
  subst a1
  refine ⟨back, s0 ^^^ se, ?_, ?_, ?_⟩
  · unfold receive
    rw [u1]
    show (syndrome back g).bind _ = _
    rw [c1]
    rfl
  · rw [hb]; simp [bits]
  · rw [hl, hc] at d3
    have hz : se = 0 ↔ genPoly L coeff.toNat ∣ wordPoly (inBlock table (errors sent soft)) := by
      rw [← modByMonic_eq_zero_iff_dvd (genPoly_monic L coeff.toNat), ← d3]
      constructor
      · rintro rfl; simp [numPoly_zero]
      · intro h
        apply BitVec.eq_of_toNat_eq
        refine numPoly_inj L _ _ (by rw [← hl]; exact d2) (by simp) ?_
        rw [h]; simp [numPoly_zero]
    rw [← hz, ← hexp]
    constructor
    · intro h
      have h' : s0 ^^^ se = s0 := BitVec.eq_of_toNat_eq h
      have : s0 ^^^ (s0 ^^^ se) = s0 ^^^ s0 := by rw [h']
      rw [← BitVec.xor_assoc, BitVec.xor_self, BitVec.zero_xor] at this
      exact this
    · rintro rfl; simp

theorem errors_length {sent : Bits} {soft : List Rat} {n : Nat} (h1 : sent.length = n) (h2 : soft.length = n) : (errors sent soft).length = n := by simp [errors, h1, h2]

/-- C147, noise: if no soft bit is moved by one half or more, the block arrives as it was and passes the check. -/
theorem C147_noise (coeff : BitVec 64) (L : Nat) (hL : 0 < L) (hL' : L < 64) (inv : Bool) (table : List Nat) (hi : IsInterleaver table) (data : Bits)
    (hlen : data.length + L = table.length) (noise : List Rat) (hn : noise.length = table.length) (hsmall : ∀ x ∈ noise, -(1 / 2) < x ∧ x < 1 / 2) :
    ∃ g sent back s, mkGenerator coeff L = .ok g ∧ send g inv table data = .ok sent ∧ receive g table (List.zipWith (· + ·) (ofBits sent) noise) = .ok (back, s) ∧
      s.toNat = expected L inv ∧ (bits back).take data.length = bits data := by
  obtain ⟨g, sent, p, s0, hg, hsend, hp, hpl, hsl, -, -, -⟩ := C147_sends coeff L hL hL' inv table hi data hlen
  have hl : (List.zipWith (· + ·) (ofBits sent) noise).length = table.length := by simp [ofBits, hsl, hn]
  obtain ⟨back, s, hr, hb, hc⟩ := C147_check coeff L hL hL' inv table hi data hlen g hg sent p hsend hp _ hl
  have hz : inBlock table (errors sent (List.zipWith (· + ·) (ofBits sent) noise)) = List.replicate table.length false := by
    rw [List.eq_replicate_iff]
    refine ⟨inBlock_length .., fun b hb => ?_⟩
    simp only [inBlock, List.mem_map, List.mem_range] at hb
    obtain ⟨j, _, rfl⟩ := hb
    rw [List.getD_eq_getElem?_getD]
    generalize table.idxOf j = k
    by_cases hk : k < table.length
    · have hb1 : k < sent.length := by omega
      have hb2 : k < noise.length := by omega
      have hx := hsmall noise[k] (List.getElem_mem hb2)
      rw [List.getElem?_eq_getElem (by rw [errors_length hsl hl]; exact hk)]
      simp only [errors, List.getElem_zipWith, Option.getD_some, ofBits, List.getElem_map, BitVector.char_bit]
      cases (sent[k]).getLsbD 0
      · simp only [Bool.false_xor, decide_eq_false_iff_not]
        norm_num
        linarith [hx.2]
      · simp only [Bool.true_xor, Bool.not_eq_false', decide_eq_true_eq]
        norm_num
        linarith [hx.1]
    · rw [List.getElem?_eq_none (by rw [errors_length hsl hl]; omega)]; rfl
  have hw : ∀ n, wordPoly (List.replicate n false) = 0 := by
    intro n
    induction n with
    | zero => simp [wordPoly]
    | succ n ih => rw [List.replicate_succ, wordPoly_cons, ih]; simp [ofBool]
  refine ⟨g, sent, back, s, hg, hsend, hr, hc.2 (by rw [hz, hw]; exact dvd_zero _), ?_⟩
  rw [hb, hz]
  apply List.ext_getElem?
  intro j
  by_cases hj : j < data.length
  · rw [List.getElem?_take_of_lt hj, List.getElem?_zipWith, List.getElem?_replicate, if_pos (by omega), List.getElem?_append_left (by simpa [bits] using hj)]
    cases (bits data)[j]? <;> simp
  · rw [List.getElem?_eq_none (by simp; omega), List.getElem?_eq_none (by simp [bits]; omega)]

theorem getD_eq_get {l : List Bool} {k : Nat} (hk : k < l.length) : l.getD k false = l[k] := by
  rw [List.getD_eq_getElem?_getD, List.getElem?_eq_getElem hk]; rfl

/-- Interleaving only changes the order of the errors. -/
theorem inBlock_perm {table : List Nat} (hi : IsInterleaver table) {e : List Bool} (he : e.length = table.length) : (inBlock table e).Perm e := by
  have hp : table.Perm (List.range table.length) := by
    apply List.Subperm.perm_of_length_le
    · exact List.subperm_of_subset hi.1 fun x hx => by simpa using hi.2 x hx
    · simp
  have h1 : (inBlock table e).Perm (table.map fun j => e.getD (table.idxOf j) false) := (hp.map _).symm
  have h2 : (table.map fun j => e.getD (table.idxOf j) false) = e := by
    apply List.ext_getElem
    · simp [he]
    · intro k hk hk'
      have hkt : k < table.length := by simpa using hk
      rw [List.getElem_map, hi.1.idxOf_getElem k hkt, getD_eq_get hk']
  rw [h2] at h1
  exact h1

theorem eval_wordPoly (l : List Bool) : (wordPoly l).eval 1 = (l.count true : F2) := by
  induction l with
  | nil => simp [wordPoly]
  | cons b l ih =>
    rw [wordPoly_cons]
    simp only [eval_add, eval_mul, eval_pow, eval_X, one_pow, eval_C, one_mul, ih]
    cases b
    · simp [ofBool]
    · simp [ofBool, add_comm]

theorem eval_numPoly (L c : Nat) : (numPoly L c).eval 1 = (((List.range L).filter fun i => c.testBit i).length : F2) := by
  unfold numPoly
  induction L with
  | zero => simp
  | succ L ih =>
    rw [Finset.sum_range_succ, eval_add, ih, List.range_succ, List.filter_append]
    cases h : c.testBit L <;> simp [ofBool, h]

/-- C147, an odd number of errors: if the generator has an even number of terms (with the leading one), the check fails, whatever the interleaver. -/
theorem C147_odd (coeff : BitVec 64) (L : Nat) (hL : 0 < L) (hL' : L < 64) (inv : Bool) (table : List Nat) (hi : IsInterleaver table) (data : Bits)
    (hlen : data.length + L = table.length) (g : Generator) (hg : mkGenerator coeff L = .ok g) (sent : Bits) (hsend : send g inv table data = .ok sent)
    (soft : List Rat) (hs : soft.length = table.length) (hterms : ((List.range L).filter fun i => coeff.toNat.testBit i).length % 2 = 1)
    (hodd : (errors sent soft).count true % 2 = 1) :
    ∃ back s, receive g table soft = .ok (back, s) ∧ s.toNat ≠ expected L inv := by
  obtain ⟨g', sent', p, s0, hg', hsend', hp, hpl, hsl, -, -, -⟩ := C147_sends coeff L hL hL' inv table hi data hlen
  rw [hg] at hg'
  injection hg' with hg'
  subst hg'
  rw [hsend] at hsend'
  injection hsend' with hsend'
  subst hsend'
  obtain ⟨back, s, hr, -, hc⟩ := C147_check coeff L hL hL' inv table hi data hlen g hg sent p hsend hp soft hs
  refine ⟨back, s, hr, fun h => ?_⟩
  obtain ⟨q, hq⟩ := hc.1 h
  have h1 := congrArg (eval 1) hq
  rw [eval_wordPoly, (inBlock_perm hi (errors_length hsl hs)).count_eq, eval_mul, genPoly, eval_add, eval_pow, eval_X, one_pow, eval_numPoly] at h1
  have h2 : ∀ n : Nat, n % 2 = 1 → (n : F2) = 1 := by
    intro n hn
    have := (ZMod.natCast_eq_natCast_iff n 1 2).2 (by simpa [Nat.ModEq] using hn)
    simpa using this
  rw [h2 _ hodd, h2 _ hterms, f2_add_self, zero_mul] at h1
  exact one_ne_zero h1

/-- C147, errors near each other in the block: if the generator has constant term 1, at least one bit is wrong, and all wrong bits lie within as many positions of the block as there are parity bits, the check fails. -/
theorem C147_burst (coeff : BitVec 64) (L : Nat) (hL : 0 < L) (hL' : L < 64) (inv : Bool) (table : List Nat) (hi : IsInterleaver table) (data : Bits)
    (hlen : data.length + L = table.length) (g : Generator) (hg : mkGenerator coeff L = .ok g) (sent : Bits) (hsend : send g inv table data = .ok sent)
    (soft : List Rat) (hs : soft.length = table.length) (hc1 : coeff.toNat.testBit 0 = true) (a : Nat) (hne : true ∈ errors sent soft)
    (hb : ∀ k (hk : k < table.length), (errors sent soft).getD k false = true → a ≤ table[k] ∧ table[k] < a + L) :
    ∃ back s, receive g table soft = .ok (back, s) ∧ s.toNat ≠ expected L inv := by
  obtain ⟨g', sent', p, s0, hg', hsend', hp, hpl, hsl, -, -, -⟩ := C147_sends coeff L hL hL' inv table hi data hlen
  rw [hg] at hg'
  injection hg' with hg'
  subst hg'
  rw [hsend] at hsend'
  injection hsend' with hsend'
  subst hsend'
  obtain ⟨back, s, hr, -, hc⟩ := C147_check coeff L hL hL' inv table hi data hlen g hg sent p hsend hp soft hs
  refine ⟨back, s, hr, fun h => ?_⟩
  have hd := hc.1 h
  have hel := errors_length hsl hs
  obtain ⟨wf, hco, hl⟩ := mkGenerator_wf coeff L hL g hg
  -- the pattern in the block, cut in three
  have hE : (inBlock table (errors sent soft)).length = table.length := inBlock_length ..
  have hout : ∀ j, j < table.length → ¬ (a ≤ j ∧ j < a + L) → (inBlock table (errors sent soft))[j]? = some false := by
    intro j hj hno
    obtain ⟨k, hk, rfl⟩ := List.getElem_of_mem (perm_table_surj table hi.1 hi.2 j hj)
    rw [inBlock_get hi _ k hk]
    cases hx : (errors sent soft).getD k false
    · rfl
    · exact absurd (hb k hk hx) hno
  have hmem : true ∈ inBlock table (errors sent soft) := (inBlock_perm hi hel).mem_iff.2 hne
  generalize hEE : inBlock table (errors sent soft) = E at *
  have hcut : E = List.replicate (E.take a).length false ++ (E.drop a).take L ++ List.replicate (E.drop (a + L)).length false := by
    have h1 : E.take a = List.replicate (E.take a).length false := by
      rw [List.eq_replicate_iff]
      refine ⟨rfl, fun b hb => ?_⟩
      obtain ⟨j, hj, rfl⟩ := List.getElem_of_mem hb
      have hj' : j < a ∧ j < E.length := by simpa using hj
      have := hout j (by omega) (by omega)
      rw [List.getElem_take]
      rw [List.getElem?_eq_getElem hj'.2] at this
      simpa using this
    have h3 : E.drop (a + L) = List.replicate (E.drop (a + L)).length false := by
      rw [List.eq_replicate_iff]
      refine ⟨rfl, fun b hb => ?_⟩
      obtain ⟨j, hj, rfl⟩ := List.getElem_of_mem hb
      have hj' : j < E.length - (a + L) := by simpa using hj
      have := hout (a + L + j) (by omega) (by omega)
      rw [List.getElem_drop]
      rw [List.getElem?_eq_getElem (by omega)] at this
      simpa using this
    rw [← h1, ← h3, List.append_assoc, ← List.drop_drop, List.take_append_drop, List.take_append_drop]
  obtain ⟨s', e1, e2⟩ := C07_burst_syndrome_nonzero g wf (by rw [hco]; exact hc1) (E.map fun b => if b then (1 : BitVec 8) else 0) _ _ _ (by rw [toBits]; exact hcut)
    (by rw [hl]; simp) (by
      rw [hcut, List.mem_append, List.mem_append] at hmem
      rcases hmem with (hm | hm) | hm
      · exact absurd (List.eq_of_mem_replicate hm) (by decide)
      · exact hm
      · exact absurd (List.eq_of_mem_replicate hm) (by decide))
  obtain ⟨s2, d1, d2, d3⟩ := syndrome_poly (E.map fun b => if b then (1 : BitVec 8) else 0) g wf
  rw [e1] at d1
  injection d1 with d1
  subst d1
  rw [toBits, hl, hco, (modByMonic_eq_zero_iff_dvd (genPoly_monic L coeff.toNat)).2 hd] at d3
  apply e2
  apply BitVec.eq_of_toNat_eq
  refine numPoly_inj L _ _ (by rw [← hl]; exact d2) (by simp) ?_
  rw [d3]; simp [numPoly_zero]

/-- C147, two errors: with a generator of constant term 1, they pass the check exactly if the generator divides `X^d + 1`, where `d` is their distance in the block; their distance in the channel does not matter. -/
theorem C147_two (coeff : BitVec 64) (L : Nat) (hL : 0 < L) (hL' : L < 64) (inv : Bool) (table : List Nat) (hi : IsInterleaver table) (data : Bits)
    (hlen : data.length + L = table.length) (g : Generator) (hg : mkGenerator coeff L = .ok g) (sent : Bits) (hsend : send g inv table data = .ok sent)
    (soft : List Rat) (hs : soft.length = table.length) (hc1 : coeff.toNat.testBit 0 = true) (i k : Nat) (hii : i < table.length) (hk : k < table.length) (hik : table[i] < table[k])
    (he : ∀ j, (errors sent soft).getD j false = true ↔ j = i ∨ j = k) :
    ∃ back s, receive g table soft = .ok (back, s) ∧ (s.toNat = expected L inv ↔ genPoly L coeff.toNat ∣ X ^ (table[k] - table[i]) + 1) := by
  obtain ⟨g', sent', p, s0, hg', hsend', hp, hpl, hsl, -, -, -⟩ := C147_sends coeff L hL hL' inv table hi data hlen
  rw [hg] at hg'
  injection hg' with hg'
  subst hg'
  rw [hsend] at hsend'
  injection hsend' with hsend'
  subst hsend'
  obtain ⟨back, s, hr, -, hc⟩ := C147_check coeff L hL hL' inv table hi data hlen g hg sent p hsend hp soft hs
  refine ⟨back, s, hr, ?_⟩
  rw [hc]
  have hkn : table[k] < table.length := hi.2 _ (List.getElem_mem hk)
  have hw : wordPoly (inBlock table (errors sent soft)) = X ^ (table.length - 1 - table[k]) * (X ^ (table[k] - table[i]) + 1) := by
    rw [mul_add, ← pow_add, mul_one, show table.length - 1 - table[k] + (table[k] - table[i]) = table.length - 1 - table[i] by omega]
    ext m
    rw [coeff_wordPoly, inBlock_length, coeff_add, coeff_X_pow, coeff_X_pow]
    by_cases hm : m < table.length
    · rw [if_pos hm]
      obtain ⟨x, hx, hxe⟩ := List.getElem_of_mem (perm_table_surj table hi.1 hi.2 (table.length - 1 - m) (by omega))
      rw [List.getD_eq_getElem?_getD, ← hxe, inBlock_get hi _ x hx, Option.getD_some]
      have hinj : ∀ y (hy : y < table.length), table[x] = table[y] ↔ x = y := fun y hy => ⟨fun h => (hi.1.getElem_inj_iff).1 h, fun h => by subst h; rfl⟩
      by_cases h1 : x = i
      · subst h1
        rw [(he x).2 (.inl rfl), if_pos (by omega), if_neg (by omega)]
        simp [ofBool]
      · by_cases h2 : x = k
        · subst h2
          rw [(he x).2 (.inr rfl), if_neg (by omega), if_pos (by omega)]
          simp [ofBool]
        · have hn1 := mt (hinj i hii).1 h1
          have hn2 := mt (hinj k hk).1 h2
          have hf : (errors sent soft).getD x false = false := by
            cases hx2 : (errors sent soft).getD x false
            · rfl
            · rcases (he x).1 hx2 with h | h
              · exact absurd h h1
              · exact absurd h h2
          rw [hf, if_neg (by omega), if_neg (by omega)]
          simp [ofBool]
    · rw [if_neg hm, if_neg (by omega), if_neg (by omega)]
      simp
  rw [hw]
  exact ⟨fun h => (isCoprime_X_pow_gen L coeff.toNat hc1 hL _).dvd_of_dvd_mul_left h, fun h => Dvd.dvd.mul_left h _⟩

/-- An interleaver that sends the first and the last bit of a block of eight next to each other. -/
def adjacent : List Nat := [0, 7, 1, 2, 3, 4, 5, 6]

/-- C147 refuted for errors near each other in the channel: with three parity bits every burst of three in the block is found (`C147_burst`), but two neighbouring bits of the channel, wrong because of an interleaver, pass the check, and the
receiver has other data than were sent. -/
theorem C147_neighbours_refuted : ∃ g, mkGenerator 3 3 = .ok g ∧ IsInterleaver adjacent ∧ send g true adjacent [1, 0, 1, 1, 0] = .ok [1, 1, 0, 1, 1, 0, 1, 1] ∧
    errors [1, 1, 0, 1, 1, 0, 1, 1] [0, 0, 0, 1, 1, 0, 1, 1] = [true, true, false, false, false, false, false, false] ∧
    receive g adjacent [0, 0, 0, 1, 1, 0, 1, 1] = .ok ([0, 0, 1, 1, 0, 1, 1, 0], 7) ∧ expected 3 true = 7 := by
  refine ⟨{ coeff := 3, state := 0, mask := 7, len := 3, len_1 := 2 }, by decide +kernel, ⟨by decide, by decide⟩, by decide +kernel, ?_, ?_, by decide⟩
  · norm_num [errors]
    decide
  · have h : sliced [0, 0, 0, 1, 1, 0, 1, 1] = [0, 0, 0, 1, 1, 0, 1, 1] := by norm_num [sliced]
    rw [receive, h]
    decide +kernel

/-- The 40 parity bits of GSM, inverted, a block of 184 + 40 bits with an interleaver of stride 57 and noise of a third. -/
example : ∃ g sent back s, mkGenerator 0x10004820009 40 = .ok g ∧ send g true ((List.range 224).map fun k => 57 * k % 224) (List.replicate 184 1) = .ok sent ∧
    receive g ((List.range 224).map fun k => 57 * k % 224) (List.zipWith (· + ·) (ofBits sent) (List.replicate 224 (1 / 3))) = .ok (back, s) ∧
      s.toNat = expected 40 true ∧ (bits back).take (List.replicate 184 (1 : BitVec 8)).length = bits (List.replicate 184 1) :=
  C147_noise _ 40 (by decide) (by decide) true _ ⟨by decide +kernel, by decide +kernel⟩ _ (by rw [List.length_map, List.length_range, List.length_replicate]) _ (by rw [List.length_map, List.length_range, List.length_replicate]) fun x hx => by
    rw [List.eq_of_mem_replicate hx]; norm_num

end Verif.Crc.Channel
