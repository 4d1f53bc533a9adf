import Verif.VectorHeap.Props

/-
Property C128: what `SoftVector` adds to `Vector` (casts by value, segments of a constant vector), and `dup` of `BitVector`.
All of it is put together from the functions of `Model.lean`; which copies a compiler leaves out is a parameter.
-/

namespace Verif.VectorHeap
open Verif

/-! ### Model -/

/-- `SoftVector(Vector<float> source)`, BitVector.h:358-360, from a vector `j` that is not constant: the parameter `t` is made by
`Vector(Vector&)`, Vector.h:330, which takes over the block, and the base class by the same constructor from `t`; then `t` is destroyed. -/
def castShift (s : St) (k t j : Nat) : Outcome St := do
  let s ← copyShift s t j
  let s ← copyShift s k t
  destroy s t

/-- The same constructor, BitVector.h:358-360, from a constant vector `j`: the parameter is made by `Vector(const Vector&)`, Vector.h:333. -/
def castConst (s : St) (k t j : Nat) : Outcome St := do
  let s ← copyConst s t j
  let s ← copyShift s k t
  destroy s t

/-- `segment` of a constant `SoftVector`, BitVector.h:376-377: the vector `Vector::segment` returns (`u`) is cast.  Compilers may construct the
parameter of the cast in place of `u` (`elide`); otherwise it is made by `Vector(const Vector&)`. -/
def constSegment (elide : Bool) (s : St) (k t u j start span : Nat) : Outcome St :=
  if elide then do
    let s ← segment s t j start span
    let s ← copyShift s k t
    destroy s t
  else do
    let s ← segment s u j start span
    let s ← castConst s k t u
    destroy s u

/-- `head` of a constant `SoftVector`, BitVector.h:380. -/
def constHead (elide : Bool) (s : St) (k t u j span : Nat) : Outcome St := constSegment elide s k t u j 0 span

/-- `tail` of a constant `SoftVector`, BitVector.h:382: `size()-start` is unsigned. -/
def constTail (elide : Bool) (s : St) (k t u j start : Nat) : Outcome St := do
  let n ← size s j
  constSegment elide s k t u j start ((n + W - start) % W)

/-- `dup(BitVector other)`, BitVector.h:264, called as `i.dup(j)` with a constant or temporary `j` (for other arguments the call is
ambiguous with the overload of line 265 and does not compile).  `t` is the parameter.  The assertion after `makeAlias` compares what it has
just copied. -/
def dup (s : St) (i t j : Nat) : Outcome St := do
  let s ← copyBit s t j
  let v ← s.get i
  if v.mData.isSome then .assertFail
  else
    let s ← makeAlias s i t
    let v ← s.get i
    let w ← s.get t
    if v.mStart ≠ w.mStart then .assertFail else destroy s t

/-! ### Lemmas -/

theorem fresh_new {s : St} {k : Nat} (h : s.vecs k = none) : fresh s k = .ok () := by unfold fresh; rw [h]; rfl

/-- The state without the object `k`. -/
def St.drop (s : St) (k : Nat) : St := { s with vecs := upd s.vecs k none }

theorem drop_other (s : St) {k j : Nat} (h : j ≠ k) : (s.drop k).vecs j = s.vecs j := by simp [St.drop, upd, h]

theorem destroy_alias {s : St} {k : Nat} {v : Vec} (hv : s.vecs k = some v) (hd : v.mData = none) : destroy s k = .ok (s.drop k) := by
  unfold destroy clear resize
  rw [get_ok.mpr hv, Outcome.bind_ok]
  have : delData s.heap v = s.heap := by unfold delData; rw [hd]
  rw [this]
  simp only [vInit, if_true, Outcome.bind_ok, St.set, St.drop]
  congr 2
  funext x
  unfold upd
  split <;> rfl

theorem destroy_owner {s : St} {k b : Nat} {v : Vec} (hv : s.vecs k = some v) (hd : v.mData = some b) :
    destroy s k = .ok ({ s with heap := free s.heap b }.drop k) := by
  unfold destroy clear resize
  rw [get_ok.mpr hv, Outcome.bind_ok]
  have : delData s.heap v = free s.heap b := by unfold delData; rw [hd]
  rw [this]
  simp only [vInit, if_true, Outcome.bind_ok, St.set, St.drop]
  congr 2
  funext x
  unfold upd
  split <;> rfl

theorem copyShift_spec {s : St} {k j : Nat} {v : Vec} (hk : s.vecs k = none) (hj : s.vecs j = some v) :
    copyShift s k j = .ok ((s.set k v).set j { v with mData := none }) := by
  unfold copyShift
  rw [fresh_new hk, Outcome.bind_ok, get_ok.mpr hj, Outcome.bind_ok]

/-- Taking over the block of a temporary and destroying the temporary. -/
theorem shift_drop {s : St} {k t : Nat} {v : Vec} (hk : s.vecs k = none) (ht : s.vecs t = some v) :
    (do let s ← copyShift s k t; destroy s t) = .ok ((s.set k v).drop t) := by
  rw [copyShift_spec hk ht, Outcome.bind_ok, destroy_alias (set_vecs_same _ _ _) rfl]
  congr 1
  simp only [St.drop, St.set]
  congr 1
  funext x
  unfold upd
  split <;> rfl

theorem elems_mono {h : Heap} {v : Vec} {l : List Val} (E : Elems h v l) : Elems h { v with mData := none } l :=
  ⟨Nat.zero_le _, E.2.1, E.2.2.1, E.2.2.2⟩

/-- What a cast of a vector that is not constant leaves. -/
theorem castShift_spec {s : St} {k t j : Nat} {v : Vec} (hk : s.vecs k = none) (ht : s.vecs t = none) (hkt : k ≠ t) (hj : s.vecs j = some v) :
    ∃ s', castShift s k t j = .ok s' ∧ s'.heap = s.heap ∧ s'.vecs k = some v ∧ s'.vecs j = some { v with mData := none } ∧
      ∀ u, u ≠ k → u ≠ j → s'.vecs u = s.vecs u := by
  have hjk : j ≠ k := fun h => by subst h; rw [hk] at hj; cases hj
  have hjt : j ≠ t := fun h => by subst h; rw [ht] at hj; cases hj
  unfold castShift
  rw [copyShift_spec ht hj, Outcome.bind_ok, shift_drop (v := v) _ _]
  · refine ⟨_, rfl, rfl, ?_, ?_, ?_⟩
    · rw [drop_other _ hkt, set_vecs_same]
    · rw [drop_other _ hjt, set_vecs_other _ _ _ _ hjk, set_vecs_same]
    · intro u h1 h2
      by_cases hu : u = t
      · subst hu; simp [St.drop, upd, ht]
      · rw [drop_other _ hu, set_vecs_other _ _ _ _ h1, set_vecs_other _ _ _ _ h2, set_vecs_other _ _ _ _ hu]
  · rw [set_vecs_other _ _ _ _ (Ne.symm hjk), set_vecs_other _ _ _ _ hkt]; exact hk
  · rw [set_vecs_other _ _ _ _ (Ne.symm hjt)]; exact set_vecs_same _ _ _

/-- A clone of a vector without elements owns nothing. -/
theorem clone_empty {s s' : St} {i j : Nat} {v w : Vec} (hj : s.vecs j = some v) (E : Elems s.heap v []) (e : clone s i j = .ok s')
    (hw : s'.vecs i = some w) : w.mData = none := by
  unfold clone at e
  rw [size_ok hj E, Outcome.bind_ok] at e
  obtain ⟨s1, hr, e⟩ := Outcome.bind_eq_ok.mp e
  obtain ⟨vi, -, e⟩ := Outcome.bind_eq_ok.mp e
  obtain ⟨vj, -, e⟩ := Outcome.bind_eq_ok.mp e
  obtain ⟨b, -, e⟩ := Outcome.bind_eq_ok.mp e
  obtain ⟨h, -, e⟩ := Outcome.bind_eq_ok.mp e
  injection e with e
  subst e
  obtain ⟨w', hw', h0⟩ := resize_get hr
  have hw : s1.vecs i = some w := hw
  rw [hw] at hw'; injection hw' with hw'
  rw [hw', h0 rfl]

/-- What a cast of a constant vector leaves. -/
theorem castConst_frame {s : St} (H : Inv s) (hga : GoodAddr s.heap.addr) {k t j : Nat} {v : Vec} {l : List Val} (hl : l.length ≤ 2 ^ 62)
    (hk : s.vecs k = none) (ht : s.vecs t = none) (hkt : k ≠ t) (hj : s.vecs j = some v) (E : Elems s.heap v l) :
    ∃ s' w, castConst s k t j = .ok s' ∧ s'.vecs k = some w ∧ (∀ u, u ≠ k → s'.vecs u = s.vecs u) ∧ Elems s'.heap w l ∧
      (∀ x m, Elems s.heap x m → Elems s'.heap x m) ∧ (l.length ≠ 0 → w.blk ≠ v.blk ∧ w.mData = w.blk) ∧ (l.length = 0 → w.mData = none) := by
  have hjk : j ≠ k := fun h => by subst h; rw [hk] at hj; cases hj
  have hjt : j ≠ t := fun h => by subst h; rw [ht] at hj; cases hj
  have H' : Inv (s.set t {}) := new_inv ht rfl H
  obtain ⟨h, w, hc, hF, hE, hb⟩ := clone_spec (s := s.set t {}) (i := t) (j := j) (vi := {}) (vj := v) (set_vecs_same _ _ _)
    (by rw [set_vecs_other _ _ _ _ hjt]; exact hj) (Ne.symm hjt) E hl (by unfold Separate; cases v.blk <;> simp) hga H'
  have e1 : copyConst s t j = .ok ({ s with heap := h }.set t w) := by
    unfold copyConst
    rw [fresh_new ht, Outcome.bind_ok, hc]
    congr 1
    simp only [St.set]
    congr 1
    funext x
    unfold upd
    split <;> rfl
  unfold castConst
  rw [e1, Outcome.bind_ok, shift_drop (v := w) _ (set_vecs_same _ _ _)]
  · refine ⟨_, w, rfl, by rw [drop_other _ hkt, set_vecs_same], ?_, hE, fun x m Ex => hF.elems Ex (by cases x.blk <;> simp), ?_, ?_⟩
    · intro u h1
      by_cases hu : u = t
      · subst hu; simp [St.drop, upd, ht]
      · rw [drop_other _ hu, set_vecs_other _ _ _ _ h1, set_vecs_other _ _ _ _ hu]
    · intro hz
      obtain ⟨b1, b2⟩ := hb (fun hh => hz (by rw [hh]; rfl))
      refine ⟨?_, by rw [b1, b2]⟩
      rw [b1]
      obtain ⟨c, hc, hc1, -⟩ := readN_ok E.2.2.2 hz
      rw [hc]; intro hcc; injection hcc with hcc
      have : c < s.heap.next := hc1
      have : s.heap.next = c := hcc
      omega
    · intro hz
      have hz' := List.eq_nil_of_length_eq_zero hz
      subst hz'
      exact clone_empty (s := s.set t {}) (i := t) (by rw [set_vecs_other _ _ _ _ hjt]; exact hj) E hc (set_vecs_same _ _ _)
  · rw [set_vecs_other _ _ _ _ hkt]; exact hk

/-- The vector `segment` leaves. -/
theorem segment_spec {s : St} {k j start span : Nat} {v : Vec} {l : List Val} (hk : s.vecs k = none) (hj : s.vecs j = some v)
    (E : Elems s.heap v l) (hr : start + span ≤ l.length) :
    segment s k j start span = .ok (s.set k { mData := none, blk := v.blk, mStart := v.mStart + start, mEnd := v.mStart + start + span }) := by
  obtain ⟨e1, e2, e3, e4⟩ := E
  have w1 : wadd v.mStart start = v.mStart + start := wadd_eq (by omega)
  have w2 : wadd (v.mStart + start) span = v.mStart + start + span := wadd_eq (by omega)
  unfold segment
  rw [fresh_new hk, Outcome.bind_ok, get_ok.mpr hj, Outcome.bind_ok]
  simp only [w1, w2]
  rw [if_neg (by omega)]

/-- The elements a part of a vector shows. -/
theorem elems_window {h : Heap} {v : Vec} {l : List Val} {start span : Nat} (E : Elems h v l) (hr : start + span ≤ l.length) :
    Elems h { mData := none, blk := v.blk, mStart := v.mStart + start, mEnd := v.mStart + start + span } ((l.drop start).take span) := by
  obtain ⟨e1, e2, e3, e4⟩ := E
  have hlen : ((l.drop start).take span).length = span := by simp; omega
  refine ⟨Nat.zero_le _, by rw [hlen], by show v.mStart + start + span ≤ 2 ^ 63; omega, ?_⟩
  rw [hlen]; exact readN_sub e4 start span hr

/-- A constant segment, the parameter constructed in place. -/
theorem constSegment_elided {s : St} {k t u j start span : Nat} {v : Vec} {l : List Val} (hk : s.vecs k = none) (ht : s.vecs t = none) (hkt : k ≠ t)
    (hj : s.vecs j = some v) (E : Elems s.heap v l) (hr : start + span ≤ l.length) :
    ∃ s', constSegment true s k t u j start span = .ok s' ∧ s'.heap = s.heap ∧
      s'.vecs k = some { mData := none, blk := v.blk, mStart := v.mStart + start, mEnd := v.mStart + start + span } ∧
      ∀ x, x ≠ k → s'.vecs x = s.vecs x := by
  unfold constSegment
  rw [if_pos rfl, segment_spec ht hj E hr, Outcome.bind_ok, shift_drop _ (set_vecs_same _ _ _)]
  · refine ⟨_, rfl, rfl, by rw [drop_other _ hkt, set_vecs_same], ?_⟩
    intro x hx
    by_cases hu : x = t
    · subst hu; simp [St.drop, upd, ht]
    · rw [drop_other _ hu, set_vecs_other _ _ _ _ hx, set_vecs_other _ _ _ _ hu]
  · rw [set_vecs_other _ _ _ _ hkt]; exact hk

/-- A constant segment, the parameter copied. -/
theorem constSegment_copied {s : St} (H : Inv s) (hga : GoodAddr s.heap.addr) {k t u j start span : Nat} {v : Vec} {l : List Val}
    (hl : l.length ≤ 2 ^ 62) (hk : s.vecs k = none) (ht : s.vecs t = none) (hu : s.vecs u = none) (hkt : k ≠ t) (hku : k ≠ u) (htu : t ≠ u)
    (hj : s.vecs j = some v) (E : Elems s.heap v l) (hr : start + span ≤ l.length) :
    ∃ s' w, constSegment false s k t u j start span = .ok s' ∧ s'.vecs k = some w ∧ (∀ x, x ≠ k → s'.vecs x = s.vecs x) ∧
      Elems s'.heap w ((l.drop start).take span) ∧ Elems s'.heap v l ∧ (span ≠ 0 → w.blk ≠ v.blk ∧ w.mData = w.blk) ∧ (span = 0 → w.mData = none) := by
  have hju : j ≠ u := fun h => by subst h; rw [hu] at hj; cases hj
  have hlen : ((l.drop start).take span).length = span := by simp; omega
  unfold constSegment
  rw [if_neg (by decide), segment_spec hu hj E hr, Outcome.bind_ok]
  generalize hs1 : s.set u { mData := none, blk := v.blk, mStart := v.mStart + start, mEnd := v.mStart + start + span } = s1
  have hk1 : s1.vecs k = none := by rw [← hs1, set_vecs_other _ _ _ _ hku]; exact hk
  have ht1 : s1.vecs t = none := by rw [← hs1, set_vecs_other _ _ _ _ htu]; exact ht
  have hu1 : s1.vecs u = some { mData := none, blk := v.blk, mStart := v.mStart + start, mEnd := v.mStart + start + span } := by
    rw [← hs1]; exact set_vecs_same _ _ _
  have H1 : Inv s1 := by rw [← hs1]; exact new_inv hu rfl H
  have hh : s1.heap = s.heap := by rw [← hs1]; rfl
  have E1 := elems_window E hr
  rw [← hh] at E1
  obtain ⟨s2, w, c1, c2, c3, c4, c5, c6⟩ := castConst_frame H1 (by rw [hh]; exact hga) (by omega) hk1 ht1 hkt hu1 E1
  have hu2 : s2.vecs u = some { mData := none, blk := v.blk, mStart := v.mStart + start, mEnd := v.mStart + start + span } := by
    rw [c3 u (Ne.symm hku)]; exact hu1
  rw [c1, Outcome.bind_ok, destroy_alias hu2 rfl]
  refine ⟨_, w, rfl, by rw [drop_other _ hku]; exact c2, ?_, c4, c5 v l (by rw [hh]; exact E), ?_, ?_⟩
  · intro x hx
    by_cases hxu : x = u
    · subst hxu; simp [St.drop, upd, hu]
    · rw [drop_other _ hxu, c3 x hx, ← hs1, set_vecs_other _ _ _ _ hxu]
  · intro hz; exact c6.1 (by rw [hlen]; exact hz)
  · intro hz; exact c6.2 (by rw [hlen]; exact hz)

/-- Destroying an object that does not own the memory another one shows leaves the other's elements. -/
theorem destroy_keeps {s : St} {k j : Nat} {w v : Vec} {l : List Val} (hk : s.vecs k = some w) (hj : s.vecs j = some v) (hkj : j ≠ k)
    (E : Elems s.heap v l) (hb : v.blk ≠ w.mData ∨ v.blk = none) : ∃ s', destroy s k = .ok s' ∧ HasElems s' j l := by
  cases hd : w.mData with
  | none => exact ⟨_, destroy_alias hk hd, v, by rw [drop_other _ hkj]; exact hj, E⟩
  | some b =>
    have F := frame_free s.heap w
    have : delData s.heap w = free s.heap b := by unfold delData; rw [hd]
    rw [this] at F
    exact ⟨_, destroy_owner hk hd, v, by rw [drop_other _ hkj]; exact hj, F.elems E hb⟩

/-! ### C128: casts -/

/-- C128: a `SoftVector` cast from a constant vector starts with the same elements.  After every sequence of writes through vector and cast each
shows exactly its own writes, and the vector still does when the cast is gone. -/
theorem C128_cast_const (s : St) (hs : Reachable s) (k t j : Nat) (l : List Val) (hl : l.length ≤ 2 ^ 62) (hk : s.vecs k = none)
    (ht : s.vecs t = none) (hkt : k ≠ t) (hj : HasElems s j l) (ws : List (Nat × Nat × Val))
    (hws : ∀ w ∈ ws, (w.1 = k ∨ w.1 = j) ∧ w.2.1 < l.length) :
    ∃ s1 s2 s3, castConst s k t j = .ok s1 ∧ HasElems s1 k l ∧ HasElems s1 j l ∧ writes s1 ws = .ok s2 ∧
      HasElems s2 k (applyOwn k l ws) ∧ HasElems s2 j (applyOwn j l ws) ∧ destroy s2 k = .ok s3 ∧ HasElems s3 j (applyOwn j l ws) := by
  obtain ⟨H, hga⟩ := hs.inv
  obtain ⟨v, hv, E⟩ := hj
  have hjk : j ≠ k := fun h => by subst h; rw [hk] at hv; cases hv
  obtain ⟨s1, w, c1, c2, c3, c4, c5, c6, c7⟩ := castConst_frame H hga hl hk ht hkt hv E
  have hj1 : s1.vecs j = some v := by rw [c3 j hjk]; exact hv
  obtain ⟨s2, d1, d2, d3, d4⟩ := writes_apart (Ne.symm hjk) ws s1 l l (fun hz _ => (c6 hz).1)
    (fun w hw => (hws w hw).1.elim (fun a => .inl ⟨a, (hws w hw).2⟩) (fun a => .inr ⟨a, (hws w hw).2⟩)) c2 hj1 c4 (c5 v l E)
  have hk2 : s2.vecs k = some w := by rw [d2]; exact c2
  have hj2 : s2.vecs j = some v := by rw [d2]; exact hj1
  obtain ⟨s3, e1, e2⟩ := destroy_keeps hk2 hj2 hjk d4 (by
    by_cases hz : l.length = 0
    · rw [c7 hz]; cases v.blk <;> simp
    · rw [(c6 hz).2]; exact .inl (Ne.symm (c6 hz).1))
  exact ⟨s1, s2, s3, c1, ⟨w, c2, c4⟩, ⟨v, hj1, c5 v l E⟩, d1, ⟨w, hk2, d3⟩, ⟨v, hj2, d4⟩, e1, e2⟩

/-- C128 (negation of "the cast is a copy", for every vector): a `SoftVector` cast from a vector that is not constant shares its elements, so after any
writes through either both show all of them; -/
theorem C128_cast_shared_refuted (s : St) (k t j : Nat) (l : List Val) (hk : s.vecs k = none) (ht : s.vecs t = none) (hkt : k ≠ t)
    (hj : HasElems s j l) (ws : List (Nat × Nat × Val)) (hws : ∀ w ∈ ws, (w.1 = k ∨ w.1 = j) ∧ w.2.1 < l.length) :
    ∃ s1 s2, castShift s k t j = .ok s1 ∧ writes s1 ws = .ok s2 ∧ HasElems s2 k (ws.foldl (fun m w => m.set w.2.1 w.2.2) l) ∧
      HasElems s2 j (ws.foldl (fun m w => m.set w.2.1 w.2.2) l) := by
  obtain ⟨v, hv, E⟩ := hj
  have hjk : j ≠ k := fun h => by subst h; rw [hk] at hv; cases hv
  obtain ⟨s1, c1, c2, c3, c4, c5⟩ := castShift_spec hk ht hkt hv
  have hE1 : Elems s1.heap v l := by rw [c2]; exact E
  obtain ⟨s2, d1, d2, d3, d4, -⟩ := writes_window (j := k) (k := j) (start := 0) (span := l.length) ws s1 l
    (fun w hw => (hws w hw).1.elim (fun a => .inl ⟨a, (hws w hw).2⟩) (fun a => .inr ⟨a, (hws w hw).2⟩)) (Ne.symm hjk) (by omega) c3
    (by rw [c4, E.2.1]; simp) hE1
  have hall : ∀ (ws : List (Nat × Nat × Val)) (l : List Val), applyShared k 0 l ws = ws.foldl (fun m w => m.set w.2.1 w.2.2) l := by
    intro ws
    induction ws with
    | nil => intro l; rfl
    | cons w ws ih =>
      intro l
      obtain ⟨i, p, x⟩ := w
      rw [applyShared, List.foldl_cons, ih, Nat.zero_add, ite_self]
  rw [hall] at d3
  exact ⟨s1, s2, c1, d1, ⟨v, by rw [d2]; exact c3, d3⟩, ⟨{ v with mData := none }, by rw [d2]; exact c4, elems_mono d3⟩⟩

/-- C128 (negation, for every vector that owns its elements): when such a cast is gone, the vector it was cast from shows freed memory; reading any of its
elements is undefined. -/
theorem C128_cast_end_refuted (s : St) (k t j : Nat) (l : List Val) (v : Vec) (hk : s.vecs k = none) (ht : s.vecs t = none) (hkt : k ≠ t)
    (hv : s.vecs j = some v) (E : Elems s.heap v l) (ho : v.mData.isSome) (hb : v.blk = v.mData) :
    ∃ s1 s2, castShift s k t j = .ok s1 ∧ destroy s1 k = .ok s2 ∧ size s2 j = .ok l.length ∧ ∀ p, p < l.length → read s2 j p = .ub := by
  have hjk : j ≠ k := fun h => by subst h; rw [hk] at hv; cases hv
  obtain ⟨s1, c1, c2, c3, c4, c5⟩ := castShift_spec hk ht hkt hv
  obtain ⟨b, hd⟩ := Option.isSome_iff_exists.mp ho
  refine ⟨s1, _, c1, destroy_owner c3 hd, ?_, ?_⟩
  · unfold size
    rw [get_ok.mpr (show St.vecs (St.drop _ k) j = _ by rw [drop_other _ hjk]; exact c4), Outcome.bind_ok]
    have := E.2.1
    rw [if_neg (by simp [Heap.dataAddr]), if_neg (by dsimp only; omega)]
    congr 1; dsimp only; omega
  · intro p hp
    obtain ⟨e1, e2, e3, e4⟩ := E
    have w1 : wadd v.mStart p = v.mStart + p := wadd_eq (by omega)
    unfold read
    rw [get_ok.mpr (show St.vecs (St.drop _ k) j = _ by rw [drop_other _ hjk]; exact c4), Outcome.bind_ok]
    dsimp only
    rw [w1, if_neg (by omega)]
    unfold readN
    rw [hb, hd]
    simp [St.drop, free, upd]

/-- The claim on a concrete vector: cast, end of the cast, read. -/
example : (do
    let s ← run (init sampleAddr) [.construct 0 2, .write 0 0 (some 7)]
    let s ← castShift s 1 2 0
    let s ← write s 1 0 (some 8)
    let a ← read s 0 0
    let s ← destroy s 1
    match read s 0 0 with
      | .ub => .ok a
      | _ => .assertFail : Outcome Val) = .ok (some 8) := by decide

/-! ### C128: segments of a constant vector -/

/-- C128: a segment of a constant `SoftVector` inside it shows exactly the elements asked for, the vector keeps its elements, and still has them
when the segment is gone; whether the compiler copies or not. -/
theorem C128_segment (elide : Bool) (s : St) (hs : Reachable s) (k t u j start span : Nat) (l : List Val) (hl : l.length ≤ 2 ^ 62)
    (hk : s.vecs k = none) (ht : s.vecs t = none) (hu : s.vecs u = none) (hkt : k ≠ t) (hku : k ≠ u) (htu : t ≠ u) (hj : HasElems s j l)
    (hr : start + span ≤ l.length) :
    ∃ s1 s2, constSegment elide s k t u j start span = .ok s1 ∧ HasElems s1 k ((l.drop start).take span) ∧ HasElems s1 j l ∧
      destroy s1 k = .ok s2 ∧ HasElems s2 j l := by
  obtain ⟨H, hga⟩ := hs.inv
  obtain ⟨v, hv, E⟩ := hj
  have hjk : j ≠ k := fun h => by subst h; rw [hk] at hv; cases hv
  cases elide with
  | true =>
    obtain ⟨s1, c1, c2, c3, c4⟩ := constSegment_elided (u := u) hk ht hkt hv E hr
    have hj1 : s1.vecs j = some v := by rw [c4 j hjk]; exact hv
    have E1 : Elems s1.heap v l := by rw [c2]; exact E
    obtain ⟨s2, d1, d2⟩ := destroy_keeps c3 hj1 hjk E1 (by cases v.blk <;> simp)
    exact ⟨s1, s2, c1, ⟨_, c3, elems_window E1 hr⟩, ⟨v, hj1, E1⟩, d1, d2⟩
  | false =>
    obtain ⟨s1, w, c1, c2, c3, c4, c5, c6, c7⟩ := constSegment_copied H hga hl hk ht hu hkt hku htu hv E hr
    have hj1 : s1.vecs j = some v := by rw [c3 j hjk]; exact hv
    obtain ⟨s2, d1, d2⟩ := destroy_keeps c2 hj1 hjk c5 (by
      by_cases hz : span = 0
      · rw [c7 hz]; cases v.blk <;> simp
      · rw [(c6 hz).2]; exact .inl (Ne.symm (c6 hz).1))
    exact ⟨s1, s2, c1, ⟨w, c2, c4⟩, ⟨v, hj1, c5⟩, d1, d2⟩

/-- C128, partial: where the compiler copies, writes through the segment and through the vector do not show in the other.  Missing: compilers that do
not copy (`C128_segment_refuted`). -/
theorem C128_segment_partial (s : St) (hs : Reachable s) (k t u j start span : Nat) (l : List Val) (hl : l.length ≤ 2 ^ 62)
    (hk : s.vecs k = none) (ht : s.vecs t = none) (hu : s.vecs u = none) (hkt : k ≠ t) (hku : k ≠ u) (htu : t ≠ u) (hj : HasElems s j l)
    (hr : start + span ≤ l.length) (ws : List (Nat × Nat × Val))
    (hws : ∀ w ∈ ws, (w.1 = k ∧ w.2.1 < span) ∨ (w.1 = j ∧ w.2.1 < l.length)) :
    ∃ s1 s2, constSegment false s k t u j start span = .ok s1 ∧ writes s1 ws = .ok s2 ∧
      HasElems s2 k (applyOwn k ((l.drop start).take span) ws) ∧ HasElems s2 j (applyOwn j l ws) := by
  obtain ⟨H, hga⟩ := hs.inv
  obtain ⟨v, hv, E⟩ := hj
  have hjk : j ≠ k := fun h => by subst h; rw [hk] at hv; cases hv
  have hlen : ((l.drop start).take span).length = span := by simp; omega
  obtain ⟨s1, w, c1, c2, c3, c4, c5, c6, c7⟩ := constSegment_copied H hga hl hk ht hu hkt hku htu hv E hr
  have hj1 : s1.vecs j = some v := by rw [c3 j hjk]; exact hv
  obtain ⟨s2, d1, d2, d3, d4⟩ := writes_apart (Ne.symm hjk) ws s1 ((l.drop start).take span) l
    (fun hz _ => (c6 (by rw [hlen] at hz; exact hz)).1) (by rw [hlen]; exact hws) c2 hj1 c4 c5
  exact ⟨s1, s2, c1, d1, ⟨w, by rw [d2]; exact c2, d3⟩, ⟨v, by rw [d2]; exact hj1, d4⟩⟩

/-- C128 (negation of "a constant vector is not changed", for every vector): where the compiler constructs in place, what is written through the
segment of a constant vector is written into the vector. -/
theorem C128_segment_refuted (s : St) (k t u j start span : Nat) (l : List Val) (hk : s.vecs k = none) (ht : s.vecs t = none) (hkt : k ≠ t)
    (hj : HasElems s j l) (hr : start + span ≤ l.length) (p : Nat) (hp : p < span) (x : Val) :
    ∃ s1 s2, constSegment true s k t u j start span = .ok s1 ∧ write s1 k p x = .ok s2 ∧ HasElems s2 j (l.set (start + p) x) := by
  obtain ⟨v, hv, E⟩ := hj
  have hjk : j ≠ k := fun h => by subst h; rw [hk] at hv; cases hv
  obtain ⟨s1, c1, c2, c3, c4⟩ := constSegment_elided (u := u) hk ht hkt hv E hr
  have hj1 : s1.vecs j = some v := by rw [c4 j hjk]; exact hv
  have E1 : Elems s1.heap v l := by rw [c2]; exact E
  obtain ⟨s2, d1, d2, d3, -, -⟩ := writes_window (j := j) (k := k) [(k, p, x)] s1 l (by intro w hw; rw [List.mem_singleton] at hw; subst hw; exact .inr ⟨rfl, hp⟩)
    hjk hr hj1 c3 E1
  rw [writes] at d1
  obtain ⟨s3, e1, e2⟩ := Outcome.bind_eq_ok.mp d1
  injection e2 with e2
  subst e2
  refine ⟨s1, s3, c1, e1, v, by rw [d2]; exact hj1, ?_⟩
  rw [applyShared, applyShared, if_neg (Ne.symm hjk)] at d3
  exact d3

/-- C128: asking a constant vector for elements beyond its end stops on the assertion (numbers up to 2^62). -/
theorem C128_segment_outside_partial (elide : Bool) (s : St) (k t u j start span : Nat) (l : List Val) (ht : s.vecs t = none) (hu : s.vecs u = none)
    (hj : HasElems s j l) (hout : l.length < start + span) (h62 : start + span ≤ 2 ^ 62) :
    constSegment elide s k t u j start span = .assertFail := by
  unfold constSegment
  cases elide with
  | true => rw [if_pos rfl, C18_out_of_range_partial s t j start span ht l hj hout h62]; rfl
  | false => rw [if_neg (by decide), C18_out_of_range_partial s u j start span hu l hj hout h62]; rfl

/-- C128: `head(n)` and `tail(n)` of a constant vector. -/
theorem C128_head_tail (elide : Bool) (s : St) (hs : Reachable s) (k t u j n : Nat) (l : List Val) (hl : l.length ≤ 2 ^ 62)
    (hk : s.vecs k = none) (ht : s.vecs t = none) (hu : s.vecs u = none) (hkt : k ≠ t) (hku : k ≠ u) (htu : t ≠ u) (hj : HasElems s j l)
    (hn : n ≤ l.length) :
    (∃ s1, constHead elide s k t u j n = .ok s1 ∧ HasElems s1 k (l.take n) ∧ HasElems s1 j l) ∧
    (∃ s1, constTail elide s k t u j n = .ok s1 ∧ HasElems s1 k (l.drop n) ∧ HasElems s1 j l) := by
  constructor
  · obtain ⟨s1, s2, c1, c2, c3, -⟩ := C128_segment elide s hs k t u j 0 n l hl hk ht hu hkt hku htu hj (by omega)
    exact ⟨s1, c1, c2, c3⟩
  · obtain ⟨s1, s2, c1, c2, c3, -⟩ := C128_segment elide s hs k t u j n (l.length - n) l hl hk ht hu hkt hku htu hj (by omega)
    refine ⟨s1, ?_, ?_, c3⟩
    · unfold constTail
      rw [hj.shows.1, Outcome.bind_ok]
      have : (l.length + W - n) % W = l.length - n := by unfold W; omega
      rw [this]; exact c1
    · rw [List.take_of_length_le (by simp)] at c2; exact c2

/-- Both ways of a concrete segment. -/
example : (do
    let s ← run (init sampleAddr) [.construct 0 3, .write 0 1 (some 7)]
    let s ← constSegment true s 1 2 3 0 1 2
    let s ← write s 1 0 (some 8)
    read s 0 1 : Outcome Val) = .ok (some 8) ∧
  (do
    let s ← run (init sampleAddr) [.construct 0 3, .write 0 1 (some 7)]
    let s ← constSegment false s 1 2 3 0 1 2
    let s ← write s 1 0 (some 8)
    read s 0 1 : Outcome Val) = .ok (some 7) := by decide

/-! ### C128: `dup` -/

/-- Copying an alias. -/
theorem copyBit_alias {s : St} {t j : Nat} {v : Vec} (ht : s.vecs t = none) (hj : s.vecs j = some v) (hv : v.mData = none) :
    copyBit s t j = .ok (s.set t v) := by
  have hjt : j ≠ t := fun h => by subst h; rw [ht] at hj; cases hj
  unfold copyBit assign makeAlias
  have g1 : (s.set t {}).get j = .ok v := get_ok.mpr (by rw [set_vecs_other _ _ _ _ hjt]; exact hj)
  have g2 : (s.set t {}).get t = .ok {} := get_ok.mpr (set_vecs_same _ _ _)
  rw [fresh_new ht, Outcome.bind_ok, g1, Outcome.bind_ok, hv]
  simp only [Option.isSome_none, Bool.false_eq_true, if_false, g2, g1, Outcome.bind_ok]
  congr 1
  obtain ⟨md, bk, ms, me⟩ := v
  dsimp only at hv
  subst hv
  simp only [St.set]
  congr 1
  funext x
  unfold upd
  split <;> rfl

/-- Copying leaves all other objects. -/
theorem copyBit_frame {s : St} (hs : Reachable s) {t j : Nat} {l : List Val} (hl : l.length ≤ 2 ^ 62) (ht : s.vecs t = none) (hj : HasElems s j l) :
    ∃ s1, copyBit s t j = .ok s1 ∧ ∀ u, u ≠ t → s1.vecs u = s.vecs u := by
  obtain ⟨H, hga⟩ := hs.inv
  obtain ⟨v, hv, E⟩ := hj
  have hjt : j ≠ t := fun h => by subst h; rw [ht] at hv; cases hv
  cases hd : v.mData with
  | none => exact ⟨_, copyBit_alias ht hv hd, fun u hu => set_vecs_other _ _ _ _ hu⟩
  | some b =>
    have g1 : (s.set t {}).vecs j = some v := by rw [set_vecs_other _ _ _ _ hjt]; exact hv
    obtain ⟨h, w, hc, -⟩ := clone_spec (s := s.set t {}) (i := t) (j := j) (vi := {}) (vj := v) (set_vecs_same _ _ _) g1 (Ne.symm hjt) E hl
      (by unfold Separate; cases v.blk <;> simp) hga (new_inv ht rfl H)
    refine ⟨_, Eq.trans ?_ hc, ?_⟩
    · unfold copyBit assign
      rw [fresh_new ht, Outcome.bind_ok, get_ok.mpr g1, Outcome.bind_ok, hd, Option.isSome_some, if_pos rfl]
    · intro u hu
      rw [set_vecs_other _ _ _ _ hu]
      show (s.set t {}).vecs u = _
      rw [set_vecs_other _ _ _ _ hu]

/-- C128, partial: `i.dup(j)` with a target that owns nothing and a `j` that owns nothing makes `i` show the elements of `j`, and leaves `j`.  Missing:
a `j` that owns its elements (`C128_dup_refuted`). -/
theorem C128_dup_partial (s : St) (i t j : Nat) (l : List Val) (v w : Vec) (ht : s.vecs t = none) (hj : s.vecs j = some v) (E : Elems s.heap v l)
    (hv : v.mData = none) (hi : s.vecs i = some w) (hw : w.mData = none) :
    ∃ s', dup s i t j = .ok s' ∧ HasElems s' i l ∧ HasElems s' j l := by
  have hjt : j ≠ t := fun h => by subst h; rw [ht] at hj; cases hj
  have hit : i ≠ t := fun h => by subst h; rw [ht] at hi; cases hi
  have e1 := copyBit_alias ht hj hv
  have hi1 : (s.set t v).vecs i = some w := by rw [set_vecs_other _ _ _ _ hit]; exact hi
  have e2 : makeAlias (s.set t v) i t = .ok ((s.set t v).set i { w with blk := v.blk, mStart := v.mStart, mEnd := v.mEnd }) := by
    unfold makeAlias
    rw [get_ok.mpr hi1, Outcome.bind_ok, get_ok.mpr (set_vecs_same _ _ _), Outcome.bind_ok, hw]
    simp only [Option.isSome_none, Bool.false_eq_true, if_false, Outcome.bind_ok]
    rw [get_ok.mpr hi1, Outcome.bind_ok, get_ok.mpr (set_vecs_same _ _ _), Outcome.bind_ok, hw]
  have e3 : ((s.set t v).set i { w with blk := v.blk, mStart := v.mStart, mEnd := v.mEnd }).vecs t = some v := by
    rw [set_vecs_other _ _ _ _ (Ne.symm hit), set_vecs_same]
  unfold dup
  rw [e1, Outcome.bind_ok, get_ok.mpr hi1, Outcome.bind_ok, hw]
  simp only [Option.isSome_none, Bool.false_eq_true, if_false]
  rw [e2, Outcome.bind_ok, get_ok.mpr (set_vecs_same _ _ _), Outcome.bind_ok, get_ok.mpr e3, Outcome.bind_ok, if_neg (by simp),
    destroy_alias e3 hv]
  have E' : ∀ x : Option Nat, Elems s.heap { mData := none, blk := v.blk, mStart := v.mStart, mEnd := v.mEnd } l :=
    fun _ => ⟨Nat.zero_le _, E.2.1, E.2.2.1, E.2.2.2⟩
  refine ⟨_, rfl, ⟨{ w with blk := v.blk, mStart := v.mStart, mEnd := v.mEnd }, by rw [drop_other _ hit, set_vecs_same], ?_⟩, ?_⟩
  · rw [show ({ w with blk := v.blk, mStart := v.mStart, mEnd := v.mEnd } : Vec) = { mData := none, blk := v.blk, mStart := v.mStart, mEnd := v.mEnd } by
      rw [← hw]]
    exact E' none
  · by_cases hji : j = i
    · subst hji
      refine ⟨{ w with blk := v.blk, mStart := v.mStart, mEnd := v.mEnd }, by rw [drop_other _ hit, set_vecs_same], ?_⟩
      rw [show ({ w with blk := v.blk, mStart := v.mStart, mEnd := v.mEnd } : Vec) = { mData := none, blk := v.blk, mStart := v.mStart, mEnd := v.mEnd } by
        rw [← hw]]
      exact E' none
    · exact ⟨v, by rw [drop_other _ hjt, set_vecs_other _ _ _ _ hji, set_vecs_other _ _ _ _ hjt]; exact hj, E⟩

/-- C128: `dup` on a vector that owns elements stops on the assertion, whatever it is given. -/
theorem C128_dup_owner (s : St) (hs : Reachable s) (i t j : Nat) (l : List Val) (hl : l.length ≤ 2 ^ 62) (ht : s.vecs t = none) (hj : HasElems s j l)
    (w : Vec) (hi : s.vecs i = some w) (hw : w.mData.isSome) : dup s i t j = .assertFail := by
  have hit : i ≠ t := fun h => by subst h; rw [ht] at hi; cases hi
  obtain ⟨s1, c1, c2⟩ := copyBit_frame hs hl ht hj
  unfold dup
  rw [c1, Outcome.bind_ok, get_ok.mpr ((c2 i hit).trans hi), Outcome.bind_ok, if_pos hw]

/-- C128 (negation): after `i.dup(j)` with a `j` that owns its elements `i` has the right size but shows freed memory. -/
theorem C128_dup_refuted : ∃ s1 s2, run (init sampleAddr) [.construct 0 2, .write 0 0 (some 7), .construct 1 0] = .ok s1 ∧
    dup s1 1 2 0 = .ok s2 ∧ size s2 1 = .ok 2 ∧ read s2 1 0 = .ub ∧ read s2 0 0 = .ok (some 7) := by
  refine ⟨_, _, rfl, rfl, ?_⟩
  decide

example : (do
    let s ← run (init sampleAddr) [.construct 0 3, .write 0 1 (some 7), .segment 1 0 1 2, .construct 2 0]
    let s ← dup s 2 3 1
    read s 2 0 : Outcome Val) = .ok (some 7) := by decide

end Verif.VectorHeap
