import Verif.VectorHeap.Props

/-
Property C18, single elements and `fill`: what is inside is reached, what is outside is refused.
-/

namespace Verif.VectorHeap
open Verif

/-- C18 (`operator[]`, reading): an index inside gives the element; an index outside up to 2^62 stops on the assertion. -/
theorem C18_read_partial (s : St) (i idx : Nat) (l : List Val) (h : HasElems s i l) :
    (∀ hi : idx < l.length, read s i idx = .ok l[idx]) ∧ (l.length ≤ idx → idx ≤ 2 ^ 62 → read s i idx = .assertFail) := by
  obtain ⟨v, hv, e1, e2, e3, e4⟩ := h
  constructor
  · intro hi
    have w1 : wadd v.mStart idx = v.mStart + idx := wadd_eq (by omega)
    unfold read
    rw [get_ok.mpr hv, Outcome.bind_ok, w1, if_neg (by omega), readN_sub e4 idx 1 (by omega), Outcome.bind_ok]
    congr 1
    rw [List.drop_eq_getElem_cons hi]; rfl
  · intro hi h62
    have w1 : wadd v.mStart idx = v.mStart + idx := wadd_eq (by omega)
    unfold read
    rw [get_ok.mpr hv, Outcome.bind_ok, w1, if_pos (by omega)]

/-- C18 (`operator[]`, writing): an index inside changes exactly that element; an index outside up to 2^62 stops on the assertion. -/
theorem C18_write_partial (s : St) (i idx : Nat) (x : Val) (l : List Val) (h : HasElems s i l) :
    (idx < l.length → ∃ s', write s i idx x = .ok s' ∧ HasElems s' i (l.set idx x)) ∧
      (l.length ≤ idx → idx ≤ 2 ^ 62 → write s i idx x = .assertFail) := by
  obtain ⟨v, hv, E⟩ := h
  constructor
  · intro hi
    obtain ⟨h, w1, -, w2⟩ := write_spec x hv E hi
    exact ⟨_, w1, v, hv, w2⟩
  · intro hi h62
    obtain ⟨e1, e2, e3, e4⟩ := E
    have w1 : wadd v.mStart idx = v.mStart + idx := wadd_eq (by omega)
    unfold write
    rw [get_ok.mpr hv, Outcome.bind_ok, w1, if_pos (by omega)]

/-- C18 (indices beyond 2^62) is refuted: an index near 2^64 wraps around to an address before the vector, passes the assertion, and the access is undefined. -/
theorem C18_index_wrap_refuted : readAfter [.construct 0 3] 0 (2 ^ 64 - 1) = .ub := by decide

/-- C18 (`fill(x,start,length)`): exactly the elements `start .. start+length-1` become `x`; a range that ends outside (numbers up to 2^62) stops on the assertion. -/
theorem C18_fill_partial (s : St) (i : Nat) (x : Val) (start len : Nat) (l : List Val) (h : HasElems s i l) :
    (start + len ≤ l.length → ∃ s', fill s i x start len = .ok s' ∧ HasElems s' i (l.take start ++ List.replicate len x ++ l.drop (start + len))) ∧
      (l.length < start + len → start + len ≤ 2 ^ 62 → fill s i x start len = .assertFail) := by
  obtain ⟨v, hv, e1, e2, e3, e4⟩ := h
  constructor
  · intro hr
    have w1 : wadd v.mStart start = v.mStart + start := wadd_eq (by omega)
    have w2 : wadd (v.mStart + start) len = v.mStart + start + len := wadd_eq (by omega)
    have w := readN_sub e4 start len hr
    obtain ⟨h, hw⟩ := writeN_of_readN (x := List.replicate len x) (by rw [List.length_replicate]; exact w)
    have hl2 : (l.take start ++ List.replicate len x ++ l.drop (start + len)).length = l.length := by simp; omega
    refine ⟨{ s with heap := h }, ?_, v, hv, ?_⟩
    · unfold fill
      rw [get_ok.mpr hv, Outcome.bind_ok]
      simp only [w1, w2]
      rw [if_neg (by omega), show v.mStart + start + len - (v.mStart + start) = len by omega, hw, Outcome.bind_ok]
    · have rd := readN_write_in hw e4 (by omega) (by simp; omega)
      refine ⟨by rw [dataAddr_congr (writeN_frame hw).2.2]; exact e1, by rw [hl2]; exact e2, e3, ?_⟩
      rw [hl2]
      show readN h v.blk v.mStart _ = _
      rw [rd]
      congr 1
      rw [show v.mStart + start - v.mStart = start by omega]
      simp only [splice, List.length_replicate]
  · intro hr h62
    have w1 : wadd v.mStart start = v.mStart + start := wadd_eq (by omega)
    have w2 : wadd (v.mStart + start) len = v.mStart + start + len := wadd_eq (by omega)
    unfold fill
    rw [get_ok.mpr hv, Outcome.bind_ok]
    simp only [w1, w2]
    rw [if_pos (by omega)]

/-- C18 (copying between vectors in different blocks, outside): a range that ends outside the target or is longer than the source stops on the assertion, and nothing is written. -/
theorem C18_copy_out_of_range_partial (s : St) (i o start span : Nat) (l m : List Val) (hi : HasElems s i l) (ho : HasElems s o m) (h62 : start + span ≤ 2 ^ 62) :
    (m.length < start + span ∨ l.length < span → copyToSegment s i o start span = .assertFail) ∧
      (l.length < start + span ∨ m.length < span → segmentCopyTo s i o start span = .assertFail) := by
  obtain ⟨vi, hvi, -, e2, e3, -⟩ := hi
  obtain ⟨vo, hvo, -, f2, f3, -⟩ := ho
  constructor
  · intro hr
    have w1 : wadd vo.mStart start = vo.mStart + start := wadd_eq (by omega)
    have w2 : wadd (vo.mStart + start) span = vo.mStart + start + span := wadd_eq (by omega)
    have w3 : wadd vi.mStart span = vi.mStart + span := wadd_eq (by omega)
    unfold copyToSegment
    rw [get_ok.mpr hvi, Outcome.bind_ok, get_ok.mpr hvo, Outcome.bind_ok]
    simp only [w1, w2, w3]
    by_cases hc : m.length < start + span
    · rw [if_pos (by omega)]
    · rw [if_neg (by omega), if_pos (by omega)]
  · intro hr
    have w1 : wadd vi.mStart start = vi.mStart + start := wadd_eq (by omega)
    have w2 : wadd (vi.mStart + start) span = vi.mStart + start + span := wadd_eq (by omega)
    have w3 : wadd vo.mStart span = vo.mStart + span := wadd_eq (by omega)
    unfold segmentCopyTo
    rw [get_ok.mpr hvi, Outcome.bind_ok, get_ok.mpr hvo, Outcome.bind_ok]
    simp only [w1, w2, w3]
    by_cases hc : l.length < start + span
    · rw [if_pos (by omega)]
    · rw [if_neg (by omega), if_pos (by omega)]

/-- C18: the last element, the place behind it, and a fill of the middle. -/
example : readAfter [.construct 0 3, .fill 0 (some 7) 0 3, .fill 0 (some 5) 1 1] 0 2 = .ok (some 7) ∧
    readAfter [.construct 0 3, .fill 0 (some 7) 0 3, .fill 0 (some 5) 1 1] 0 1 = .ok (some 5) ∧
    readAfter [.construct 0 3] 0 3 = .assertFail ∧ sizeAfter [.construct 0 3, .write 0 3 (some 1)] 0 = .assertFail ∧
    sizeAfter [.construct 0 3, .fill 0 (some 1) 2 2] 0 = .assertFail := by decide

end Verif.VectorHeap
