import Verif.VectorHeap.Lemmas

/-
Properties C15, C17, C18.
-/

namespace Verif.VectorHeap
open Verif

/-! ### The allocator's addresses are the same in all states of a run -/

theorem resize_addr {s s' : St} {i n : Nat} (e : resize s i n = .ok s') : s'.heap.addr = s.heap.addr := by
  unfold resize at e
  obtain ⟨v, -, e⟩ := Outcome.bind_eq_ok.mp e
  obtain ⟨⟨h, w⟩, hi, e⟩ := Outcome.bind_eq_ok.mp e
  injection e with e
  subst e
  show h.addr = _
  rw [← (frame_free s.heap v).1]
  unfold vInit at hi
  split at hi
  · injection hi with hi; injection hi with h1 h2; rw [← h1]
  · split at hi
    · cases hi
    · injection hi with hi; injection hi with h1 h2; rw [← h1]

theorem clone_addr {s s' : St} {i j : Nat} (e : clone s i j = .ok s') : s'.heap.addr = s.heap.addr := by
  unfold clone at e
  obtain ⟨n, -, e⟩ := Outcome.bind_eq_ok.mp e
  obtain ⟨s1, hr, e⟩ := Outcome.bind_eq_ok.mp e
  obtain ⟨vi, -, e⟩ := Outcome.bind_eq_ok.mp e
  obtain ⟨vj, -, e⟩ := Outcome.bind_eq_ok.mp e
  obtain ⟨b, -, e⟩ := Outcome.bind_eq_ok.mp e
  obtain ⟨h, hm, e⟩ := Outcome.bind_eq_ok.mp e
  injection e with e
  subst e
  exact (memcpy_frame hm).2.2.trans (resize_addr hr)

theorem vConcat_addr {s s' : St} {i a b : Nat} (e : vConcat s i a b = .ok s') : s'.heap.addr = s.heap.addr := by
  unfold vConcat at e
  obtain ⟨na, -, e⟩ := Outcome.bind_eq_ok.mp e
  obtain ⟨nb, -, e⟩ := Outcome.bind_eq_ok.mp e
  obtain ⟨s1, hr, e⟩ := Outcome.bind_eq_ok.mp e
  obtain ⟨vi, -, e⟩ := Outcome.bind_eq_ok.mp e
  obtain ⟨va, -, e⟩ := Outcome.bind_eq_ok.mp e
  obtain ⟨ba, -, e⟩ := Outcome.bind_eq_ok.mp e
  obtain ⟨h, hm, e⟩ := Outcome.bind_eq_ok.mp e
  obtain ⟨vb, -, e⟩ := Outcome.bind_eq_ok.mp e
  obtain ⟨ba', -, e⟩ := Outcome.bind_eq_ok.mp e
  obtain ⟨bb, -, e⟩ := Outcome.bind_eq_ok.mp e
  obtain ⟨h2, hm2, e⟩ := Outcome.bind_eq_ok.mp e
  injection e with e
  subst e
  exact (memcpy_frame hm2).2.2.trans ((memcpy_frame hm).2.2.trans (resize_addr hr))

theorem shiftMem_addr {s s' : St} {i j : Nat} (e : shiftMem s i j = .ok s') : s'.heap.addr = s.heap.addr := by
  unfold shiftMem at e
  obtain ⟨s1, hc, e⟩ := Outcome.bind_eq_ok.mp e
  obtain ⟨vj, hj, e⟩ := Outcome.bind_eq_ok.mp e
  obtain ⟨v2, hj2, e⟩ := Outcome.bind_eq_ok.mp e
  injection e with e
  subst e
  have := resize_addr hc
  exact this

theorem makeAlias_addr {s s' : St} {i j : Nat} (e : makeAlias s i j = .ok s') : s'.heap.addr = s.heap.addr := by
  unfold makeAlias at e
  obtain ⟨vi, hi, e⟩ := Outcome.bind_eq_ok.mp e
  obtain ⟨vj, hj, e⟩ := Outcome.bind_eq_ok.mp e
  obtain ⟨s1, hs, e⟩ := Outcome.bind_eq_ok.mp e
  obtain ⟨vi', hi', e⟩ := Outcome.bind_eq_ok.mp e
  obtain ⟨vj', hj', e⟩ := Outcome.bind_eq_ok.mp e
  injection e with e
  subst e
  show s1.heap.addr = _
  split at hs
  · split at hs
    · cases hs
    · exact resize_addr hs
  · injection hs with hs; subst hs; rfl

theorem assign_addr {s s' : St} {i j : Nat} (e : assign s i j = .ok s') : s'.heap.addr = s.heap.addr := by
  unfold assign at e
  obtain ⟨vj, -, e⟩ := Outcome.bind_eq_ok.mp e
  split at e
  · exact clone_addr e
  · exact makeAlias_addr e

theorem construct_addr {s s' : St} {k n : Nat} (e : construct s k n = .ok s') : s'.heap.addr = s.heap.addr := by
  unfold construct at e
  obtain ⟨u, -, e⟩ := Outcome.bind_eq_ok.mp e
  have := resize_addr e
  exact this

theorem segment_addr {s s' : St} {k j st sp : Nat} (e : segment s k j st sp = .ok s') : s'.heap.addr = s.heap.addr := by
  unfold segment at e
  obtain ⟨u, -, e⟩ := Outcome.bind_eq_ok.mp e
  obtain ⟨v, -, e⟩ := Outcome.bind_eq_ok.mp e
  dsimp only at e
  split at e
  · cases e
  · injection e with e; subst e; rfl

theorem destroy_addr {s s' : St} {k : Nat} (e : destroy s k = .ok s') : s'.heap.addr = s.heap.addr := by
  unfold destroy at e
  obtain ⟨s1, hc, e⟩ := Outcome.bind_eq_ok.mp e
  injection e with e
  subst e
  have := resize_addr hc
  exact this

theorem step_addr {s s' : St} {o : Op} (e : step s o = .ok s') : s'.heap.addr = s.heap.addr := by
  cases o with
  | construct k n => exact construct_addr e
  | copyShift k j =>
    simp only [step, copyShift] at e
    obtain ⟨u, -, e⟩ := Outcome.bind_eq_ok.mp e
    obtain ⟨vj, hj, e⟩ := Outcome.bind_eq_ok.mp e
    injection e with e
    subst e
    rfl
  | copyConst k j =>
    simp only [step, copyConst] at e
    obtain ⟨u, -, e⟩ := Outcome.bind_eq_ok.mp e
    have := clone_addr e
    exact this
  | copyBit k j =>
    simp only [step, copyBit] at e
    obtain ⟨u, -, e⟩ := Outcome.bind_eq_ok.mp e
    have := assign_addr e
    exact this
  | concat k a b =>
    simp only [step, concat] at e
    obtain ⟨u, -, e⟩ := Outcome.bind_eq_ok.mp e
    have := vConcat_addr e
    exact this
  | vConcat i a b => exact vConcat_addr e
  | segment k j st sp => exact segment_addr e
  | tail k j st =>
    simp only [step, tail] at e
    obtain ⟨n, -, e⟩ := Outcome.bind_eq_ok.mp e
    exact segment_addr e
  | cloneSegment k t j st sp =>
    simp only [step, cloneSegment] at e
    obtain ⟨s1, e1, e⟩ := Outcome.bind_eq_ok.mp e
    obtain ⟨s2, e2, e⟩ := Outcome.bind_eq_ok.mp e
    obtain ⟨s3, e3, e⟩ := Outcome.bind_eq_ok.mp e
    rw [destroy_addr e, clone_addr e3, construct_addr e2, segment_addr e1]
  | assign i j => exact assign_addr e
  | assignConst i j => exact clone_addr e
  | assignShift i j => exact shiftMem_addr e
  | makeAlias i j => exact makeAlias_addr e
  | resize i n => exact resize_addr e
  | clear i => exact resize_addr e
  | destroy i => exact destroy_addr e
  | write i idx x =>
    simp only [step, write] at e
    obtain ⟨v, -, e⟩ := Outcome.bind_eq_ok.mp e
    split at e
    · cases e
    · obtain ⟨h, hh, e⟩ := Outcome.bind_eq_ok.mp e
      injection e with e; subst e
      exact (writeN_frame hh).2.2
  | copyToSegment i o st sp =>
    simp only [step, copyToSegment] at e
    obtain ⟨v, -, e⟩ := Outcome.bind_eq_ok.mp e
    obtain ⟨w, -, e⟩ := Outcome.bind_eq_ok.mp e
    split at e
    · cases e
    · split at e
      · cases e
      · obtain ⟨h, hh, e⟩ := Outcome.bind_eq_ok.mp e
        injection e with e; subst e
        exact (memcpy_frame hh).2.2
  | segmentCopyTo i o st sp =>
    simp only [step, segmentCopyTo] at e
    obtain ⟨v, -, e⟩ := Outcome.bind_eq_ok.mp e
    obtain ⟨w, -, e⟩ := Outcome.bind_eq_ok.mp e
    split at e
    · cases e
    · split at e
      · cases e
      · obtain ⟨h, hh, e⟩ := Outcome.bind_eq_ok.mp e
        injection e with e; subst e
        exact (memcpy_frame hh).2.2
  | fill i x st len =>
    simp only [step, fill] at e
    obtain ⟨v, -, e⟩ := Outcome.bind_eq_ok.mp e
    split at e
    · cases e
    · obtain ⟨h, hh, e⟩ := Outcome.bind_eq_ok.mp e
      injection e with e; subst e
      exact (writeN_frame hh).2.2

theorem run_addr (ops : List Op) {s s' : St} (e : run s ops = .ok s') : s'.heap.addr = s.heap.addr := by
  induction ops generalizing s with
  | nil => injection e with e; subst e; rfl
  | cons o ops ih =>
    obtain ⟨s1, h1, h2⟩ := Outcome.bind_eq_ok.mp e
    rw [ih h2, step_addr h1]

/-- States programs can reach. -/
def Reachable (s : St) : Prop := ∃ addr ops, GoodAddr addr ∧ run (init addr) ops = .ok s

theorem Reachable.inv {s : St} (h : Reachable s) : Inv s ∧ GoodAddr s.heap.addr := by
  obtain ⟨addr, ops, hg, hr⟩ := h
  refine ⟨run_inv ops hr (init_inv addr), ?_⟩
  rw [run_addr ops hr]; exact hg

/-! ### C17 -/

/-- The objects `i` and `j` are different and `j` does not show memory that `i` owns. -/
def Apart (s : St) (i j : Nat) : Prop := i ≠ j ∧ ∃ vi vj, s.vecs i = some vi ∧ s.vecs j = some vj ∧ Separate vi vj

/-- C17, partial: after each of the three assignment operators the target has exactly the elements the source had, and the
source still shows them.  Missing: assignment from itself (`C17_self_refuted`) and from a segment of itself
(`C17_own_segment_refuted`). -/
theorem C17_assign_partial (s : St) (hs : Reachable s) (i j : Nat) (l : List Val) (hl : l.length ≤ 2 ^ 62) (hj : HasElems s j l)
    (ha : Apart s i j) :
    (∃ s', assign s i j = .ok s' ∧ HasElems s' i l ∧ HasElems s' j l) ∧
    (∃ s', assignConst s i j = .ok s' ∧ HasElems s' i l ∧ HasElems s' j l) ∧
    (∃ s', assignShift s i j = .ok s' ∧ HasElems s' i l ∧ HasElems s' j l) := by
  obtain ⟨H, hga⟩ := hs.inv
  obtain ⟨hne, vi, vj, hvi, hvj, hsep⟩ := ha
  obtain ⟨vj', hvj', E⟩ := hj
  rw [hvj] at hvj'; injection hvj' with hvj'; subst hvj'
  have hclone : ∃ s', clone s i j = .ok s' ∧ HasElems s' i l ∧ HasElems s' j l := by
    obtain ⟨h, w, hc, hF, hE, -⟩ := clone_spec hvi hvj hne E hl hsep hga H
    exact ⟨_, hc, ⟨w, set_vecs_same _ _ _, hE⟩, ⟨vj, by rw [set_vecs_other _ _ _ _ (Ne.symm hne)]; exact hvj, hF.elems E hsep⟩⟩
  obtain ⟨h, w, hr, hF, -, -, -, -, -, -⟩ := resize_spec hvi (show 0 ≤ 2 ^ 62 by omega) hga H
  have hw : w = {} := by
    obtain ⟨w', hw', h0⟩ := resize_get hr
    rw [set_vecs_same] at hw'; injection hw' with hw'; rw [hw', h0 rfl]
  subst hw
  have Ej := hF.elems E hsep
  have hgj : ({ s with heap := h }.set i {}).get j = .ok vj :=
    get_ok.mpr (by rw [set_vecs_other _ _ _ _ (Ne.symm hne)]; exact hvj)
  have hgi : ({ s with heap := h }.set i {}).get i = .ok {} := get_ok.mpr (set_vecs_same _ _ _)
  refine ⟨?_, hclone, ?_⟩
  · unfold assign
    rw [get_ok.mpr hvj, Outcome.bind_ok]
    by_cases ho : vj.mData.isSome = true
    · rw [if_pos ho]; exact hclone
    · rw [if_neg ho]
      have hnone : vj.mData = none := Option.not_isSome_iff_eq_none.mp ho
      unfold makeAlias
      rw [get_ok.mpr hvi, Outcome.bind_ok, get_ok.mpr hvj, Outcome.bind_ok]
      have hzero : ∀ (h : Heap) (w : Vec), w.mData = none → w.blk = vj.blk → w.mStart = vj.mStart → w.mEnd = vj.mEnd →
          Elems h vj l → Elems h w l := by
        intro h w h0 h1 h2 h3 E
        obtain ⟨e1, e2, e3, e4⟩ := E
        exact ⟨by simp [Heap.dataAddr, h0], by rw [h3, h2]; exact e2, by rw [h3]; exact e3, by rw [h1, h2]; exact e4⟩
      by_cases hio : vi.mData.isSome = true
      · rw [if_pos hio, if_neg (by rw [hnone]; intro hc; rw [hc] at hio; cases hio)]
        have : clear s i = .ok ({ s with heap := h }.set i {}) := hr
        rw [this, Outcome.bind_ok, hgi, Outcome.bind_ok, hgj, Outcome.bind_ok]
        refine ⟨_, rfl, ⟨_, set_vecs_same _ _ _, hzero _ _ rfl rfl rfl rfl Ej⟩,
          ⟨vj, by rw [set_vecs_other _ _ _ _ (Ne.symm hne), set_vecs_other _ _ _ _ (Ne.symm hne)]; exact hvj, Ej⟩⟩
      · rw [if_neg hio, Outcome.bind_ok, get_ok.mpr hvi, Outcome.bind_ok, get_ok.mpr hvj, Outcome.bind_ok]
        refine ⟨_, rfl, ⟨_, set_vecs_same _ _ _, hzero _ _ (Option.not_isSome_iff_eq_none.mp hio) rfl rfl rfl E⟩,
          ⟨vj, by rw [set_vecs_other _ _ _ _ (Ne.symm hne)]; exact hvj, E⟩⟩
  · unfold assignShift shiftMem
    have : clear s i = .ok ({ s with heap := h }.set i {}) := hr
    rw [this, Outcome.bind_ok, hgj, Outcome.bind_ok]
    have hgj2 : (({ s with heap := h }.set i {}).set i vj).get j = .ok vj :=
      get_ok.mpr (by rw [set_vecs_other _ _ _ _ (Ne.symm hne)]; exact get_ok.mp hgj)
    simp only []
    rw [hgj2, Outcome.bind_ok]
    refine ⟨_, rfl, ⟨vj, by rw [set_vecs_other _ _ _ _ hne, set_vecs_same], Ej⟩, ⟨_, set_vecs_same _ _ _, ?_⟩⟩
    obtain ⟨e1, e2, e3, e4⟩ := Ej
    exact ⟨by simp [Heap.dataAddr], e2, e3, e4⟩

/-- Blocks at increasing addresses. -/
def sampleAddr (i : Nat) : Nat := min (1000 * i + 1000) (2 ^ 62)

theorem sampleAddr_good : GoodAddr sampleAddr := by intro i; unfold sampleAddr; omega

/-- Result of reading after a run (tests and witnesses). -/
def readAfter (ops : List Op) (i k : Nat) : Outcome Val := do read (← run (init sampleAddr) ops) i k

/-- Result of `size()` after a run. -/
def sizeAfter (ops : List Op) (i : Nat) : Outcome Nat := do size (← run (init sampleAddr) ops) i

/-- C17 (negation): assigning a vector that owns its memory to itself loses the contents (`operator=` of `BitVector` and
`operator=(const Vector&)`), and with `operator=(Vector&)` also the size. -/
theorem C17_self_refuted :
    readAfter [.construct 0 2, .write 0 0 (some 5)] 0 0 = .ok (some 5) ∧
    readAfter [.construct 0 2, .write 0 0 (some 5), .assign 0 0] 0 0 = .ok none ∧
    readAfter [.construct 0 2, .write 0 0 (some 5), .assignConst 0 0] 0 0 = .ok none ∧
    sizeAfter [.construct 0 2, .write 0 0 (some 5), .assignShift 0 0] 0 = .ok 0 := by decide

/-- C17 (negation): `v = v.segment(...)` leaves `v` pointing to freed memory (or copies from freed memory). -/
theorem C17_own_segment_refuted :
    readAfter [.construct 0 3, .write 0 0 (some 5), .segment 1 0 0 2, .assign 0 1] 0 0 = .ub ∧
    sizeAfter [.construct 0 3, .write 0 0 (some 5), .segment 1 0 0 2, .assign 0 1] 0 = .ok 2 ∧
    sizeAfter [.construct 0 3, .write 0 0 (some 5), .segment 1 0 0 2, .assignConst 0 1] 0 = .ub := by decide

example : readAfter [.construct 0 2, .write 0 1 (some 5), .construct 1 7, .assign 1 0, .destroy 0] 1 1 = .ok (some 5) := by decide

/-! ### C18 -/

/-- C18: the concatenation of two vectors has the elements of the first followed by those of the second; the operands are unchanged. -/
theorem C18_concat (s : St) (hs : Reachable s) (k a b : Nat) (hk : s.vecs k = none) (la lb : List Val) (ha : HasElems s a la)
    (hb : HasElems s b lb) (hl : la.length + lb.length ≤ 2 ^ 62) :
    ∃ s', concat s k a b = .ok s' ∧ HasElems s' k (la ++ lb) ∧ HasElems s' a la ∧ HasElems s' b lb := by
  obtain ⟨H, hga⟩ := hs.inv
  obtain ⟨va, hva, Ea⟩ := ha
  obtain ⟨vb, hvb, Eb⟩ := hb
  have hak : a ≠ k := fun h => by subst h; rw [hk] at hva; cases hva
  have hbk : b ≠ k := fun h => by subst h; rw [hk] at hvb; cases hvb
  have hva0 : (s.set k {}).vecs a = some va := by rw [set_vecs_other _ _ _ _ hak]; exact hva
  have hvb0 : (s.set k {}).vecs b = some vb := by rw [set_vecs_other _ _ _ _ hbk]; exact hvb
  have H0 : Inv (s.set k {}) := new_inv hk rfl H
  obtain ⟨h, w, hr, hF, hE, hmb, hblk, hst, hnx, hfr⟩ := resize_spec (s := s.set k {}) (set_vecs_same _ _ _) hl hga H0
  have hw : ({ s.set k {} with heap := h }.set k w) = { s with heap := h }.set k w := by
    unfold St.set; congr 1; funext j
    show upd (upd s.vecs k (some {})) k (some w) j = upd s.vecs k (some w) j
    by_cases hj : j = k
    · subst hj; rw [upd_same, upd_same]
    · rw [upd_other _ _ _ _ hj, upd_other _ _ _ _ hj, upd_other _ _ _ _ hj]
  rw [hw] at hr
  have hnone : ∀ v : Vec, v.blk ≠ ({} : Vec).mData ∨ v.blk = none := fun v => by
    cases v.blk with
    | none => exact .inr rfl
    | some c => exact .inl (by simp)
  have Ea1 := hF.elems Ea (hnone va)
  have Eb1 := hF.elems Eb (hnone vb)
  have hlen : (List.replicate (la.length + lb.length) (none : Val)).length = la.length + lb.length := by simp
  obtain ⟨e1, e2, e3, e4⟩ := hE
  rw [hlen] at e2 e4
  -- the operands are not in the new block
  have hsep : ∀ (v : Vec) (l : List Val), Elems s.heap v l → l.length ≠ 0 → la.length + lb.length ≠ 0 → w.blk ≠ v.blk := by
    intro v l E hz hz'
    rw [hblk hz']
    obtain ⟨c, hc, hc1, -⟩ := readN_ok E.2.2.2 hz
    rw [hc]; intro hcc; injection hcc with hcc
    have : (s.set k {}).heap.next = s.heap.next := rfl
    omega
  have r1 := readN_sub e4 0 la.length (by omega)
  rw [Nat.add_zero] at r1
  obtain ⟨h1, m1, w1⟩ := memcpy_ok Ea1.2.2.2 r1 (by
    by_cases hz : la.length = 0
    · omega
    · left; exact hsep va la Ea hz (by omega))
  have hd : ∀ (v : Vec) (l : List Val) (h h' : Heap) (p : Nat) (x : List Val), writeN h w.blk p x = .ok h' → x.length ≤ la.length + lb.length →
      Elems s.heap v l → Elems h v l → Elems h' v l := by
    intro v l h h' p x hw hx hs E
    obtain ⟨q1, q2, q3, q4⟩ := E
    refine ⟨by rw [dataAddr_congr (writeN_frame hw).2.2]; exact q1, q2, q3, ?_⟩
    by_cases hz : l.length = 0
    · rw [hz] at q4 ⊢; rw [readN_zero] at q4 ⊢; exact q4
    · by_cases hx0 : x.length = 0
      · rw [writeN_zero hx0] at hw; injection hw with hw; subst hw; exact q4
      · exact readN_write_disj hw q4 (.inl (Ne.symm (hsep v l hs hz (by omega))))
  have Ea2 := hd va la _ _ _ _ w1 (by omega) Ea Ea1
  have Eb2 := hd vb lb _ _ _ _ w1 (by omega) Eb Eb1
  have f1 := readN_write_in w1 e4 (Nat.le_refl _) (by omega)
  rw [Nat.sub_self] at f1
  have r2 := readN_sub f1 la.length lb.length (by omega)
  have hwadd : wadd w.mStart la.length = w.mStart + la.length := wadd_eq (by omega)
  obtain ⟨h2, m2, w2⟩ := memcpy_ok Eb2.2.2.2 r2 (by
    by_cases hz : lb.length = 0
    · omega
    · left; exact hsep vb lb Eb hz (by omega))
  have Ea3 := hd va la _ _ _ _ w2 (by omega) Ea Ea2
  have Eb3 := hd vb lb _ _ _ _ w2 (by omega) Eb Eb2
  have f2 := readN_write_in w2 f1 (by omega) (by omega)
  refine ⟨{ s with heap := h2 }.set k w, ?_, ⟨w, set_vecs_same _ _ _, ?_⟩,
    ⟨va, by rw [set_vecs_other _ _ _ _ hak]; exact hva, Ea3⟩, ⟨vb, by rw [set_vecs_other _ _ _ _ hbk]; exact hvb, Eb3⟩⟩
  · unfold concat
    have hf : fresh s k = .ok () := by unfold fresh; rw [hk]; rfl
    have hza : size (s.set k {}) a = .ok la.length := size_ok hva0 Ea
    have hzb : size (s.set k {}) b = .ok lb.length := size_ok hvb0 Eb
    have hgw : ({ s with heap := h }.set k w).get k = .ok w := get_ok.mpr (set_vecs_same _ _ _)
    have hva1 : ({ s with heap := h }.set k w).vecs a = some va := by rw [set_vecs_other _ _ _ _ hak]; exact hva
    have hza1 : size ({ s with heap := h }.set k w) a = .ok la.length := size_ok hva1 Ea1
    have hva2 : ({ s with heap := h1 }.set k w).vecs a = some va := by rw [set_vecs_other _ _ _ _ hak]; exact hva
    have hza2 : size ({ s with heap := h1 }.set k w) a = .ok la.length := size_ok hva2 Ea2
    have hvb2 : ({ s with heap := h1 }.set k w).vecs b = some vb := by rw [set_vecs_other _ _ _ _ hbk]; exact hvb
    have hzb2 : size ({ s with heap := h1 }.set k w) b = .ok lb.length := size_ok hvb2 Eb2
    rw [hf, Outcome.bind_ok]
    unfold vConcat
    rw [hza, Outcome.bind_ok, hzb, Outcome.bind_ok, hr, Outcome.bind_ok, hgw, Outcome.bind_ok, get_ok.mpr hva1, Outcome.bind_ok,
      hza1, Outcome.bind_ok]
    show (memcpy h w.blk w.mStart va.blk va.mStart la.length >>= _) = _
    rw [m1, Outcome.bind_ok]
    show ((({ s with heap := h1 }.set k w).get b) >>= fun vb => size ({ s with heap := h1 }.set k w) a >>= fun ba =>
      size ({ s with heap := h1 }.set k w) b >>= fun bb => memcpy h1 w.blk (wadd w.mStart ba) vb.blk vb.mStart bb >>= fun h' =>
        Outcome.ok ({ s with heap := h' }.set k w)) = _
    rw [get_ok.mpr hvb2, Outcome.bind_ok, hza2, Outcome.bind_ok, hzb2, Outcome.bind_ok, hwadd, m2, Outcome.bind_ok]
  · refine ⟨by show h2.dataAddr w ≤ _; rw [dataAddr_congr (writeN_frame w2).2.2, dataAddr_congr (writeN_frame w1).2.2]; exact e1,
      by rw [List.length_append]; exact e2, e3, ?_⟩
    rw [List.length_append]
    show readN h2 w.blk w.mStart _ = _
    rw [f2]
    congr 1
    rw [show w.mStart + la.length - w.mStart = la.length by omega]
    simp [splice]

/-- C18: `segment(start,span)` inside the vector shows exactly the elements `start .. start+span-1`. -/
theorem C18_segment (s : St) (k j start span : Nat) (hk : s.vecs k = none) (l : List Val) (hj : HasElems s j l) (hr : start + span ≤ l.length) :
    ∃ s', segment s k j start span = .ok s' ∧ HasElems s' k ((l.drop start).take span) ∧ HasElems s' j l := by
  obtain ⟨v, hv, E⟩ := hj
  have hjk : j ≠ k := fun h => by subst h; rw [hk] at hv; cases hv
  obtain ⟨e1, e2, e3, e4⟩ := E
  have hf : fresh s k = .ok () := by unfold fresh; rw [hk]; rfl
  have w1 : wadd v.mStart start = v.mStart + start := wadd_eq (by omega)
  have w2 : wadd (v.mStart + start) span = v.mStart + start + span := wadd_eq (by omega)
  have hlen : ((l.drop start).take span).length = span := by simp; omega
  refine ⟨s.set k { mData := none, blk := v.blk, mStart := v.mStart + start, mEnd := v.mStart + start + span }, ?_,
    ⟨_, set_vecs_same _ _ _, ?_⟩, ⟨v, by rw [set_vecs_other _ _ _ _ hjk]; exact hv, e1, e2, e3, e4⟩⟩
  · unfold segment
    rw [hf, Outcome.bind_ok, get_ok.mpr hv, Outcome.bind_ok]
    simp only [w1, w2]
    rw [if_neg (by omega)]
  · refine ⟨by simp [Heap.dataAddr], by rw [hlen], by show v.mStart + start + span ≤ 2 ^ 63; omega, ?_⟩
    rw [hlen]
    exact readN_sub e4 start span hr

/-- C18: `head(n)` and `tail(n)` in range. -/
theorem C18_head_tail (s : St) (k j n : Nat) (hk : s.vecs k = none) (l : List Val) (hj : HasElems s j l) (hr : n ≤ l.length) :
    (∃ s', head s k j n = .ok s' ∧ HasElems s' k (l.take n) ∧ HasElems s' j l) ∧
    (∃ s', tail s k j n = .ok s' ∧ HasElems s' k (l.drop n) ∧ HasElems s' j l) := by
  constructor
  · have := C18_segment s k j 0 n hk l hj (by omega)
    rw [List.drop_zero] at this
    exact this
  · obtain ⟨v, hv, E⟩ := hj
    have h64 : l.length < 2 ^ 64 := by have := E.2.1; have := E.2.2.1; omega
    have hsp : (l.length + W - n) % W = l.length - n := by
      show (l.length + 2 ^ 64 - n) % 2 ^ 64 = _
      rw [show l.length + 2 ^ 64 - n = (l.length - n) + 2 ^ 64 by omega, Nat.add_mod_right, Nat.mod_eq_of_lt (by omega)]
    have := C18_segment s k j n (l.length - n) hk l ⟨v, hv, E⟩ (by omega)
    unfold tail
    rw [size_ok hv E, Outcome.bind_ok, hsp]
    rwa [List.take_of_length_le (by simp)] at this

/-- C18, partial: a request beyond the end stops on the assertion, provided the numbers are no larger than 2^62.  Missing: larger
numbers (`C18_segment_wrap_refuted`) and `tail` (`C18_tail_refuted`). -/
theorem C18_out_of_range_partial (s : St) (k j start span : Nat) (hk : s.vecs k = none) (l : List Val) (hj : HasElems s j l)
    (hr : l.length < start + span) (h62 : start + span ≤ 2 ^ 62) : segment s k j start span = .assertFail := by
  obtain ⟨v, hv, e1, e2, e3, e4⟩ := hj
  have hf : fresh s k = .ok () := by unfold fresh; rw [hk]; rfl
  have w1 : wadd v.mStart start = v.mStart + start := wadd_eq (by omega)
  have w2 : wadd (v.mStart + start) span = v.mStart + start + span := wadd_eq (by omega)
  unfold segment
  rw [hf, Outcome.bind_ok, get_ok.mpr hv, Outcome.bind_ok]
  simp only [w1, w2]
  rw [if_pos (by omega)]

/-- C18 (negation): `tail(5)` of a vector with 3 elements passes the assertion and yields a vector that starts after its end. -/
theorem C18_tail_refuted : ∃ s, run (init sampleAddr) [.construct 0 3, .tail 1 0 5] = .ok s ∧
    s.vecs 1 = some { mData := none, blk := some 0, mStart := 1005, mEnd := 1003 } := by
  refine ⟨_, rfl, ?_⟩
  decide

/-- C18 (negation): `segment(2^64-1,1)` passes the assertion and shows the element before the vector; reading it is undefined. -/
theorem C18_segment_wrap_refuted :
    sizeAfter [.construct 0 3, .segment 1 0 (2 ^ 64 - 1) 1] 1 = .ok 1 ∧
    readAfter [.construct 0 3, .segment 1 0 (2 ^ 64 - 1) 1] 1 0 = .ub := by decide

/-- Two ranges of `n` elements in memory are the same or have no element in common. -/
def NoOverlap (b1 b2 : Option Nat) (a1 a2 n : Nat) : Prop := b1 ≠ b2 ∨ a1 + n ≤ a2 ∨ a2 + n ≤ a1 ∨ a1 = a2

theorem NoOverlap.memcpy {b1 b2 : Option Nat} {a1 a2 n : Nat} (h : NoOverlap b1 b2 a1 a2 n) : b2 ≠ b1 ∨ a2 = a1 ∨ a1 + n ≤ a2 ∨ a2 + n ≤ a1 := by
  rcases h with h | h | h | h
  · exact .inl (Ne.symm h)
  · exact .inr (.inr (.inl h))
  · exact .inr (.inr (.inr h))
  · exact .inr (.inl h.symm)

/-- After a copy without overlap the elements that were copied are still there. -/
theorem readN_copy {h h' : Heap} {sb db : Option Nat} {sa da n : Nat} {x : List Val} (e : writeN h db da x = .ok h') (r : readN h sb sa n = .ok x)
    (hn : NoOverlap sb db sa da n) : readN h' sb sa n = .ok x := by
  have hx := readN_length r
  rcases hn with h1 | h1 | h1 | h1
  · exact readN_write_disj e r (.inl h1)
  · exact readN_write_disj e r (.inr (.inl h1))
  · exact readN_write_disj e r (.inr (.inr (by omega)))
  · by_cases hb : sb = db
    · subst hb; subst h1
      rw [readN_write_in e r (Nat.le_refl _) (by omega), Nat.sub_self]
      congr 1
      simp [splice, hx]
    · exact readN_write_disj e r (.inl hb)

/-- C18, partial: `copyToSegment` overwrites exactly `start .. start+span-1` of the target with the first `span` elements of the source, which
the source still has; vectors in other blocks keep their elements.  Missing: ranges that overlap (`C18_copyToSegment_overlap_refuted`). -/
theorem C18_copyToSegment_partial (s : St) (i o start span : Nat) (l m : List Val) (vi vo : Vec) (hi : s.vecs i = some vi)
    (ho : s.vecs o = some vo) (hl : Elems s.heap vi l) (hm : Elems s.heap vo m) (hr : start + span ≤ m.length) (hs : span ≤ l.length)
    (hn : NoOverlap vi.blk vo.blk vi.mStart (vo.mStart + start) span) :
    ∃ s', copyToSegment s i o start span = .ok s' ∧ HasElems s' o (m.take start ++ l.take span ++ m.drop (start + span)) ∧
      (∀ k, ∀ hk : k < span, read s' i k = .ok l[k]) ∧ ∀ u vu lu, s.vecs u = some vu → vu.blk ≠ vo.blk → Elems s.heap vu lu → HasElems s' u lu := by
  obtain ⟨e1, e2, e3, e4⟩ := hl
  obtain ⟨f1, f2, f3, f4⟩ := hm
  have r := readN_sub e4 0 span (by omega)
  have w := readN_sub f4 start span hr
  rw [Nat.add_zero] at r
  obtain ⟨h, m1, m2⟩ := memcpy_ok r w hn.memcpy
  have w1 : wadd vo.mStart start = vo.mStart + start := wadd_eq (by omega)
  have w2 : wadd (vo.mStart + start) span = vo.mStart + start + span := wadd_eq (by omega)
  have w3 : wadd vi.mStart span = vi.mStart + span := wadd_eq (by omega)
  have hlen : (l.take span).length = span := by simp; omega
  refine ⟨{ s with heap := h }, ?_, ⟨vo, ho, ?_⟩, ?_, ?_⟩
  · unfold copyToSegment
    rw [get_ok.mpr hi, Outcome.bind_ok, get_ok.mpr ho, Outcome.bind_ok]
    simp only [w1, w2, w3]
    rw [if_neg (by omega), if_neg (by omega), m1, Outcome.bind_ok]
  · have hl2 : (m.take start ++ l.take span ++ m.drop (start + span)).length = m.length := by simp; omega
    have rd := readN_write_in m2 f4 (by omega) (by simp; omega)
    refine ⟨by rw [dataAddr_congr (writeN_frame m2).2.2]; exact f1, by rw [hl2]; exact f2, f3, ?_⟩
    rw [hl2]
    show readN h vo.blk vo.mStart _ = _
    rw [rd]
    congr 1
    rw [show vo.mStart + start - vo.mStart = start by omega]
    simp only [splice, List.drop_zero, hlen]
  · intro k hk
    have w4 : wadd vi.mStart k = vi.mStart + k := wadd_eq (by omega)
    have := readN_sub (readN_copy m2 r hn) k 1 (by omega)
    unfold read
    rw [get_ok.mpr (show ({ s with heap := h } : St).vecs i = some vi from hi), Outcome.bind_ok, w4, if_neg (by omega)]
    show (readN h vi.blk (vi.mStart + k) 1 >>= _) = _
    rw [this, Outcome.bind_ok]
    congr 1
    rw [List.drop_zero, List.headD_eq_head?_getD, List.head?_eq_getElem?]
    simp [hk, show k < l.length by omega]
  · intro u vu lu hu hne E
    obtain ⟨q1, q2, q3, q4⟩ := E
    exact ⟨vu, hu, by rw [dataAddr_congr (writeN_frame m2).2.2]; exact q1, q2, q3, readN_write_disj m2 q4 (.inl hne)⟩

/-- C18, partial: `segmentCopyTo` overwrites exactly the first `span` elements of the target with the elements from `start` of the source, which
the source still has; vectors in other blocks keep their elements.  Missing: ranges that overlap (`C18_segmentCopyTo_overlap_refuted`). -/
theorem C18_segmentCopyTo_partial (s : St) (i o start span : Nat) (l m : List Val) (vi vo : Vec) (hi : s.vecs i = some vi)
    (ho : s.vecs o = some vo) (hl : Elems s.heap vi l) (hm : Elems s.heap vo m) (hr : start + span ≤ l.length) (hs : span ≤ m.length)
    (hn : NoOverlap vi.blk vo.blk (vi.mStart + start) vo.mStart span) :
    ∃ s', segmentCopyTo s i o start span = .ok s' ∧ HasElems s' o ((l.drop start).take span ++ m.drop span) ∧
      (∀ k, ∀ hk : k < span, read s' i (start + k) = .ok l[start + k]) ∧
      ∀ u vu lu, s.vecs u = some vu → vu.blk ≠ vo.blk → Elems s.heap vu lu → HasElems s' u lu := by
  obtain ⟨e1, e2, e3, e4⟩ := hl
  obtain ⟨f1, f2, f3, f4⟩ := hm
  have r := readN_sub e4 start span hr
  have w := readN_sub f4 0 span (by omega)
  rw [Nat.add_zero] at w
  obtain ⟨h, m1, m2⟩ := memcpy_ok r w hn.memcpy
  have w1 : wadd vi.mStart start = vi.mStart + start := wadd_eq (by omega)
  have w2 : wadd (vi.mStart + start) span = vi.mStart + start + span := wadd_eq (by omega)
  have w3 : wadd vo.mStart span = vo.mStart + span := wadd_eq (by omega)
  have hlen : ((l.drop start).take span).length = span := by simp; omega
  refine ⟨{ s with heap := h }, ?_, ⟨vo, ho, ?_⟩, ?_, ?_⟩
  · unfold segmentCopyTo
    rw [get_ok.mpr hi, Outcome.bind_ok, get_ok.mpr ho, Outcome.bind_ok]
    simp only [w1, w2, w3]
    rw [if_neg (by omega), if_neg (by omega), m1, Outcome.bind_ok]
  · have hl2 : ((l.drop start).take span ++ m.drop span).length = m.length := by
      rw [List.length_append, hlen]; simp; omega
    have rd := readN_write_in m2 f4 (by omega) (by rw [hlen]; omega)
    refine ⟨by rw [dataAddr_congr (writeN_frame m2).2.2]; exact f1, by rw [hl2]; exact f2, f3, ?_⟩
    rw [hl2]
    show readN h vo.blk vo.mStart _ = _
    rw [rd, Nat.sub_self]
    congr 1
    simp only [splice, List.take_zero, List.nil_append, Nat.zero_add, hlen]
  · intro k hk
    have w4 : wadd vi.mStart (start + k) = vi.mStart + start + k := by rw [wadd_eq (by omega)]; omega
    have := readN_sub (readN_copy m2 r hn) k 1 (by omega)
    unfold read
    rw [get_ok.mpr (show ({ s with heap := h } : St).vecs i = some vi from hi), Outcome.bind_ok, w4, if_neg (by omega)]
    show (readN h vi.blk (vi.mStart + start + k) 1 >>= _) = _
    rw [this, Outcome.bind_ok]
    congr 1
    rw [List.headD_eq_head?_getD, List.head?_eq_getElem?]
    simp [hk, show start + k < l.length by omega]
  · intro u vu lu hu hne E
    obtain ⟨q1, q2, q3, q4⟩ := E
    exact ⟨vu, hu, by rw [dataAddr_congr (writeN_frame m2).2.2]; exact q1, q2, q3, readN_write_disj m2 q4 (.inl hne)⟩

/-- C18 (negation, for all vectors): copying between overlapping ranges is undefined (`memcpy`). -/
theorem C18_copyToSegment_overlap_refuted (s : St) (i o start span : Nat) (l m : List Val) (vi vo : Vec) (hi : s.vecs i = some vi)
    (ho : s.vecs o = some vo) (hl : Elems s.heap vi l) (hm : Elems s.heap vo m) (hr : start + span ≤ m.length) (hs : span ≤ l.length)
    (hn : ¬ NoOverlap vi.blk vo.blk vi.mStart (vo.mStart + start) span) : copyToSegment s i o start span = .ub := by
  obtain ⟨e1, e2, e3, e4⟩ := hl
  obtain ⟨f1, f2, f3, f4⟩ := hm
  have r := readN_sub e4 0 span (by omega)
  rw [Nat.add_zero] at r
  unfold NoOverlap at hn
  simp only [not_or] at hn
  obtain ⟨h1, h2, h3, h4⟩ := hn
  have h1 := Decidable.not_not.mp h1
  have w1 : wadd vo.mStart start = vo.mStart + start := wadd_eq (by omega)
  have w2 : wadd (vo.mStart + start) span = vo.mStart + start + span := wadd_eq (by omega)
  have w3 : wadd vi.mStart span = vi.mStart + span := wadd_eq (by omega)
  unfold copyToSegment memcpy
  rw [get_ok.mpr hi, Outcome.bind_ok, get_ok.mpr ho, Outcome.bind_ok]
  simp only [w1, w2, w3]
  rw [if_neg (by omega), if_neg (by omega), r, Outcome.bind_ok, if_pos ⟨h1.symm, fun h => h4 h.symm, by omega, by omega⟩]
  rfl

/-- C18 (negation, for all vectors): the same for `segmentCopyTo`. -/
theorem C18_segmentCopyTo_overlap_refuted (s : St) (i o start span : Nat) (l m : List Val) (vi vo : Vec) (hi : s.vecs i = some vi)
    (ho : s.vecs o = some vo) (hl : Elems s.heap vi l) (hm : Elems s.heap vo m) (hr : start + span ≤ l.length) (hs : span ≤ m.length)
    (hn : ¬ NoOverlap vi.blk vo.blk (vi.mStart + start) vo.mStart span) : segmentCopyTo s i o start span = .ub := by
  obtain ⟨e1, e2, e3, e4⟩ := hl
  obtain ⟨f1, f2, f3, f4⟩ := hm
  have r := readN_sub e4 start span hr
  unfold NoOverlap at hn
  simp only [not_or] at hn
  obtain ⟨h1, h2, h3, h4⟩ := hn
  have h1 := Decidable.not_not.mp h1
  have w1 : wadd vi.mStart start = vi.mStart + start := wadd_eq (by omega)
  have w2 : wadd (vi.mStart + start) span = vi.mStart + start + span := wadd_eq (by omega)
  have w3 : wadd vo.mStart span = vo.mStart + span := wadd_eq (by omega)
  unfold segmentCopyTo memcpy
  rw [get_ok.mpr hi, Outcome.bind_ok, get_ok.mpr ho, Outcome.bind_ok]
  simp only [w1, w2, w3]
  rw [if_neg (by omega), if_neg (by omega), r, Outcome.bind_ok, if_pos ⟨h1.symm, fun h => h4 h.symm, by omega, by omega⟩]
  rfl

/-- A vector with the overlap, and one copied within itself without overlap. -/
example : sizeAfter [.construct 0 3, .copyToSegment 0 0 1 2] 0 = .ub ∧
    readAfter [.construct 0 4, .write 0 1 (some 5), .segment 1 0 0 2, .copyToSegment 1 0 2 2] 0 3 = .ok (some 5) := by decide

example : readAfter [.construct 0 2, .write 0 0 (some 1), .write 0 1 (some 2), .construct 1 1, .write 1 0 (some 3), .concat 2 0 1] 2 2 = .ok (some 3) := by decide

/-! ### C15 -/

/-- One write in range. -/
theorem write_spec {s : St} {i k : Nat} {v : Vec} {l : List Val} (x : Val) (hv : s.vecs i = some v) (E : Elems s.heap v l) (hk : k < l.length) :
    ∃ h, write s i k x = .ok { s with heap := h } ∧ writeN s.heap v.blk (v.mStart + k) [x] = .ok h ∧ Elems h v (l.set k x) := by
  obtain ⟨e1, e2, e3, e4⟩ := E
  have w1 : wadd v.mStart k = v.mStart + k := wadd_eq (by omega)
  obtain ⟨h, hw⟩ := writeN_of_readN (x := [x]) (readN_sub e4 k 1 (by omega))
  refine ⟨h, ?_, hw, by rw [dataAddr_congr (writeN_frame hw).2.2]; exact e1, by simpa using e2, e3, ?_⟩
  · unfold write
    rw [get_ok.mpr hv, Outcome.bind_ok, w1, if_neg (by omega), hw, Outcome.bind_ok]
  · rw [List.length_set, readN_write_in hw e4 (by omega) (by simp; omega), show v.mStart + k - v.mStart = k by omega,
      splice_one _ _ _ hk]

/-- A list of writes, each through the object named in it. -/
def writes (s : St) : List (Nat × Nat × Val) → Outcome St
  | [] => .ok s
  | (i, k, x) :: ws => do writes (← write s i k x) ws

/-- Specification: the vector itself (named `j`) and its segment (named `k`, starting at `start`) are windows on one array. -/
def applyShared (j start : Nat) (l : List Val) : List (Nat × Nat × Val) → List Val
  | [] => l
  | (i, p, x) :: ws => applyShared j start (if i = j then l.set p x else l.set (start + p) x) ws

/-- Writes through a vector `j` and an object `k` that shows `span` elements of it from `start`. -/
theorem writes_window {j k start span : Nat} {v : Vec} : ∀ (ws : List (Nat × Nat × Val)) (t : St) (l : List Val),
      (∀ w ∈ ws, (w.1 = j ∧ w.2.1 < l.length) ∨ (w.1 = k ∧ w.2.1 < span)) → j ≠ k → start + span ≤ l.length →
      t.vecs j = some v → t.vecs k = some { mData := none, blk := v.blk, mStart := v.mStart + start, mEnd := v.mStart + start + span } →
      Elems t.heap v l →
      ∃ t', writes t ws = .ok t' ∧ t'.vecs = t.vecs ∧ Elems t'.heap v (applyShared j start l ws) ∧
        (applyShared j start l ws).length = l.length ∧
        ∀ (vu : Vec) lu, vu.blk ≠ v.blk → Elems t.heap vu lu → Elems t'.heap vu lu := by
  intro ws
  induction ws with
  | nil => intro t l _ _ _ _ _ E; exact ⟨t, rfl, rfl, E, rfl, fun _ _ _ h => h⟩
  | cons w ws ih =>
    intro t l hws hjk hr hvj hvk E
    obtain ⟨i, p, x⟩ := w
    -- either way the write goes to index `q` of the vector
    have hq : ∃ (h : Heap), write t i p x = .ok { t with heap := h } ∧
        Elems h v (if i = j then l.set p x else l.set (start + p) x) ∧
        ∀ (vu : Vec) lu, vu.blk ≠ v.blk → Elems t.heap vu lu → Elems h vu lu := by
      have fr : ∀ (a : Nat) (h : Heap), writeN t.heap v.blk a [x] = .ok h → ∀ (vu : Vec) lu, vu.blk ≠ v.blk → Elems t.heap vu lu → Elems h vu lu := by
        intro a h hw vu lu hne E
        obtain ⟨q1, q2, q3, q4⟩ := E
        exact ⟨by rw [dataAddr_congr (writeN_frame hw).2.2]; exact q1, q2, q3, readN_write_disj hw q4 (.inl hne)⟩
      rcases hws _ List.mem_cons_self with ⟨hi, hp⟩ | ⟨hi, hp⟩
      · dsimp only at hi hp
        subst hi
        obtain ⟨h, a1, a2, a3⟩ := write_spec x hvj E hp
        exact ⟨h, a1, by rw [if_pos rfl]; exact a3, fr _ _ a2⟩
      · dsimp only at hi hp
        subst hi
        -- the segment shows a window
        have Es : Elems t.heap { mData := none, blk := v.blk, mStart := v.mStart + start, mEnd := v.mStart + start + span } ((l.drop start).take span) := by
          obtain ⟨e1, e2, e3, e4⟩ := E
          have hlen : ((l.drop start).take span).length = span := by simp; omega
          refine ⟨by simp [Heap.dataAddr], by rw [hlen], by show v.mStart + start + span ≤ 2 ^ 63; omega, ?_⟩
          rw [hlen]; exact readN_sub e4 start span hr
        obtain ⟨h, a1, a2, a3⟩ := write_spec (k := p) x hvk Es (by simp; omega)
        dsimp only at a2
        obtain ⟨h', b1, b2, b3⟩ := write_spec (k := start + p) x hvj E (by omega)
        rw [Nat.add_assoc] at a2
        rw [a2] at b2; injection b2 with b2; subst b2
        exact ⟨h, a1, by rw [if_neg (by omega)]; exact b3, fr _ _ a2⟩
    obtain ⟨h, a1, a2, a3⟩ := hq
    have hlen : (if i = j then l.set p x else l.set (start + p) x).length = l.length := by split <;> simp
    obtain ⟨t', b1, b2, b3, b4, b5⟩ := ih { t with heap := h } _ (fun w hw => by rw [hlen]; exact hws w (List.mem_cons_of_mem _ hw))
      hjk (by rw [hlen]; exact hr) hvj hvk a2
    refine ⟨t', by rw [writes, a1]; exact b1, b2, b3, by rw [applyShared, b4, hlen], ?_⟩
    intro vu lu hne E
    exact b5 vu lu hne (a3 vu lu hne E)

/-- C15: a segment and the vector it came from are two windows on the same elements: after every sequence of writes through
either of them, the vector shows every write made (those through the segment at the shifted index) and nothing else, and the segment shows the
corresponding part.  Vectors in other blocks do not change. -/
theorem C15_segment_aliases (s : St) (j k start span : Nat) (l : List Val) (hk : s.vecs k = none) (v : Vec) (hv : s.vecs j = some v)
    (hE : Elems s.heap v l) (hr : start + span ≤ l.length) (ws : List (Nat × Nat × Val))
    (hws : ∀ w ∈ ws, (w.1 = j ∧ w.2.1 < l.length) ∨ (w.1 = k ∧ w.2.1 < span)) :
    ∃ s1 s2, segment s k j start span = .ok s1 ∧ writes s1 ws = .ok s2 ∧
      HasElems s2 j (applyShared j start l ws) ∧ HasElems s2 k (((applyShared j start l ws).drop start).take span) ∧
      ∀ u vu lu, s.vecs u = some vu → vu.blk ≠ v.blk → Elems s.heap vu lu → HasElems s2 u lu := by
  have hjk : j ≠ k := fun h => by subst h; rw [hk] at hv; cases hv
  obtain ⟨s1, h1, -, -⟩ := C18_segment s k j start span hk l ⟨v, hv, hE⟩ hr
  -- what the segment call leaves
  have hs1 : s1 = s.set k { mData := none, blk := v.blk, mStart := v.mStart + start, mEnd := v.mStart + start + span } := by
    obtain ⟨e1, e2, e3, e4⟩ := hE
    have hf : fresh s k = .ok () := by unfold fresh; rw [hk]; rfl
    have w1 : wadd v.mStart start = v.mStart + start := wadd_eq (by omega)
    have w2 : wadd (v.mStart + start) span = v.mStart + start + span := wadd_eq (by omega)
    unfold segment at h1
    rw [hf, Outcome.bind_ok, get_ok.mpr hv, Outcome.bind_ok] at h1
    simp only [w1, w2] at h1
    rw [if_neg (by omega)] at h1
    injection h1 with h1; exact h1.symm
  subst hs1
  obtain ⟨s2, c1, c2, c3, c4, c5⟩ := writes_window ws _ l hws hjk hr (by rw [set_vecs_other _ _ _ _ hjk]; exact hv) (set_vecs_same _ _ _) hE
  have hlen : (((applyShared j start l ws).drop start).take span).length = span := by simp [c4]; omega
  refine ⟨_, s2, h1, c1, ⟨v, by rw [c2, set_vecs_other _ _ _ _ hjk]; exact hv, c3⟩,
    ⟨_, by rw [c2]; exact set_vecs_same _ _ _, ?_⟩, ?_⟩
  · obtain ⟨e1, e2, e3, e4⟩ := c3
    rw [c4] at e2
    refine ⟨by simp [Heap.dataAddr], by rw [hlen], by show v.mStart + start + span ≤ 2 ^ 63; omega, ?_⟩
    rw [hlen]; exact readN_sub e4 start span (by omega)
  · intro u vu lu hu hne E
    have huk : u ≠ k := fun h => by subst h; rw [hk] at hu; cases hu
    exact ⟨vu, by rw [c2, set_vecs_other _ _ _ _ huk]; exact hu, c5 vu lu hne E⟩

/-- Specification: the writes made through object `i` only. -/
def applyOwn (i : Nat) (l : List Val) : List (Nat × Nat × Val) → List Val
  | [] => l
  | (n, p, x) :: ws => applyOwn i (if n = i then l.set p x else l) ws

/-- A write leaves the elements of vectors in other blocks. -/
theorem elems_write {h h' : Heap} {b : Option Nat} {a : Nat} {x : List Val} {v : Vec} {l : List Val} (e : writeN h b a x = .ok h')
    (hd : v.blk ≠ b ∨ l.length = 0) (E : Elems h v l) : Elems h' v l := by
  obtain ⟨q1, q2, q3, q4⟩ := E
  refine ⟨by rw [dataAddr_congr (writeN_frame e).2.2]; exact q1, q2, q3, ?_⟩
  rcases hd with hd | hd
  · exact readN_write_disj e q4 (.inl hd)
  · rw [hd, readN_zero]; rw [hd, readN_zero] at q4; exact q4

/-- Writes through two objects that show memory of different blocks (or nothing). -/
theorem writes_apart {i j : Nat} {w vj : Vec} (hne : i ≠ j) :
    ∀ (ws : List (Nat × Nat × Val)) (t : St) (li lj : List Val), (li.length ≠ 0 → lj.length ≠ 0 → w.blk ≠ vj.blk) →
      (∀ w ∈ ws, (w.1 = i ∧ w.2.1 < li.length) ∨ (w.1 = j ∧ w.2.1 < lj.length)) → t.vecs i = some w → t.vecs j = some vj →
      Elems t.heap w li → Elems t.heap vj lj →
      ∃ t', writes t ws = .ok t' ∧ t'.vecs = t.vecs ∧ Elems t'.heap w (applyOwn i li ws) ∧ Elems t'.heap vj (applyOwn j lj ws) := by
  intro ws
  induction ws with
  | nil => intro t li lj _ _ h1 h2 h3 h4; exact ⟨t, rfl, rfl, h3, h4⟩
  | cons o ws ih =>
    intro t li lj hblk hws h1 h2 h3 h4
    obtain ⟨q, p, x⟩ := o
    have hrest := fun w hw => hws w (List.mem_cons_of_mem _ hw)
    rcases hws _ List.mem_cons_self with ⟨hn, hp⟩ | ⟨hn, hp⟩ <;> dsimp only at hn hp <;> subst hn
    · obtain ⟨h', a1, a2, a3⟩ := write_spec x h1 h3 hp
      have a4 := elems_write (v := vj) (l := lj) a2
        (by by_cases hz : lj.length = 0
            · exact .inr hz
            · exact .inl (Ne.symm (hblk (by omega) hz))) h4
      obtain ⟨t', b1, b2, b3, b4⟩ := ih { t with heap := h' } (li.set p x) lj (by simpa using hblk) (by simpa using hrest) h1 h2 a3 a4
      refine ⟨t', by rw [writes, a1]; exact b1, b2, by rw [applyOwn, if_pos rfl]; exact b3, by rw [applyOwn, if_neg hne]; exact b4⟩
    · obtain ⟨h', a1, a2, a3⟩ := write_spec x h2 h4 hp
      have a4 := elems_write (v := w) (l := li) a2
        (by by_cases hz : li.length = 0
            · exact .inr hz
            · exact .inl (hblk hz (by omega))) h3
      obtain ⟨t', b1, b2, b3, b4⟩ := ih { t with heap := h' } li (lj.set p x) (by simpa using hblk) (by simpa using hrest) h1 h2 a4 a3
      refine ⟨t', by rw [writes, a1]; exact b1, b2, by rw [applyOwn, if_neg (Ne.symm hne)]; exact b3, by rw [applyOwn, if_pos rfl]; exact b4⟩

/-- C15: a clone (`clone`, the copying constructors, and through them `cloneSegment`) starts with equal contents; after every sequence of
writes through original and clone, each shows exactly its own writes. -/
theorem C15_clone_independent (s : St) (hs : Reachable s) (i j : Nat) (l : List Val) (hl : l.length ≤ 2 ^ 62) (hj : HasElems s j l)
    (ha : Apart s i j) (ws : List (Nat × Nat × Val)) (hws : ∀ w ∈ ws, (w.1 = i ∨ w.1 = j) ∧ w.2.1 < l.length) :
    ∃ s1 s2, clone s i j = .ok s1 ∧ HasElems s1 i l ∧ HasElems s1 j l ∧ writes s1 ws = .ok s2 ∧
      HasElems s2 i (applyOwn i l ws) ∧ HasElems s2 j (applyOwn j l ws) := by
  obtain ⟨H, hga⟩ := hs.inv
  obtain ⟨hne, vi, vj, hvi, hvj, hsep⟩ := ha
  obtain ⟨vj', hvj', E⟩ := hj
  rw [hvj] at hvj'; injection hvj' with hvj'; subst hvj'
  obtain ⟨h, w, hc, hF, hE, hb⟩ := clone_spec hvi hvj hne E hl hsep hga H
  have Ej := hF.elems E hsep
  have hvi1 : ({ s with heap := h }.set i w).vecs i = some w := set_vecs_same _ _ _
  have hvj1 : ({ s with heap := h }.set i w).vecs j = some vj := by rw [set_vecs_other _ _ _ _ (Ne.symm hne)]; exact hvj
  -- different blocks, unless there are no elements at all
  have hblk : l ≠ [] → w.blk ≠ vj.blk := by
    intro hnil
    have hz : l.length ≠ 0 := fun hz => hnil (List.eq_nil_of_length_eq_zero hz)
    rw [(hb hnil).1]
    obtain ⟨c, hc, hc1, -⟩ := readN_ok E.2.2.2 hz
    rw [hc]; intro hcc; injection hcc with hcc; omega
  obtain ⟨t', c1, c2, c3, c4⟩ := writes_apart hne ws ({ s with heap := h }.set i w) l l
    (fun hz _ => hblk (fun hh => hz (by rw [hh]; rfl))) (fun w hw => (hws w hw).1.elim (fun a => .inl ⟨a, (hws w hw).2⟩) (fun a => .inr ⟨a, (hws w hw).2⟩))
    hvi1 hvj1 hE Ej
  exact ⟨_, t', hc, ⟨w, hvi1, hE⟩, ⟨vj, hvj1, Ej⟩, c1, ⟨w, by rw [c2]; exact hvi1, c3⟩, ⟨vj, by rw [c2]; exact hvj1, c4⟩⟩

/-- C15: the copy constructor of `BitVector` clones an owner but aliases an alias (a test of both). -/
example : readAfter [.construct 0 2, .copyBit 1 0, .write 0 0 (some 9)] 1 0 = .ok none ∧
    readAfter [.construct 0 2, .segment 1 0 0 2, .copyBit 2 1, .write 0 0 (some 9)] 2 0 = .ok (some 9) := by decide

/-- A state meeting the hypotheses of the theorems above. -/
example : ∃ s, Reachable s ∧ HasElems s 0 [some 5, some 7] ∧ Apart s 1 0 := by
  refine ⟨_, ⟨sampleAddr, [.construct 0 2, .write 0 0 (some 5), .write 0 1 (some 7), .construct 1 4], sampleAddr_good, rfl⟩,
    ⟨_, rfl, by unfold Elems; decide⟩, by decide, _, _, rfl, rfl, by unfold Separate; decide⟩

end Verif.VectorHeap
