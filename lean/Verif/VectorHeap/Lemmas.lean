import Verif.VectorHeap.Ownership

/-
Contents of vectors: what the memory operations do to what each vector shows.
-/

namespace Verif.VectorHeap
open Verif

/-- The vector `v` has exactly the elements `l`: its bounds are in order, in the lower half of the address space, and the memory
between them is readable and holds `l`. -/
def Elems (h : Heap) (v : Vec) (l : List Val) : Prop :=
  h.dataAddr v ≤ v.mStart ∧ v.mEnd = v.mStart + l.length ∧ v.mEnd ≤ 2 ^ 63 ∧ readN h v.blk v.mStart l.length = .ok l

/-- The object named `i` exists and has exactly the elements `l`. -/
def HasElems (s : St) (i : Nat) (l : List Val) : Prop := ∃ v, s.vecs i = some v ∧ Elems s.heap v l

/-! ### Reading and writing -/

theorem wadd_eq {a b : Nat} (h : a + b < 2 ^ 64) : wadd a b = a + b := Nat.mod_eq_of_lt h

theorem readN_zero (h : Heap) (b : Option Nat) (a : Nat) : readN h b a 0 = .ok [] := by
  unfold readN; cases b <;> simp

theorem readN_ok {h : Heap} {blk : Option Nat} {a n : Nat} {l : List Val} (e : readN h blk a n = .ok l) (hn : n ≠ 0) :
    ∃ b, blk = some b ∧ b < h.next ∧ h.frees b = 0 ∧ h.addr b ≤ a ∧ a + n ≤ h.addr b + (h.data b).length ∧
      l = ((h.data b).drop (a - h.addr b)).take n := by
  unfold readN at e
  cases blk with
  | none => simp [hn] at e
  | some b =>
    simp only [hn, if_false] at e
    split at e
    · next hc =>
      injection e with e
      exact ⟨b, rfl, hc.1, hc.2.1, hc.2.2.1, hc.2.2.2, e.symm⟩
    · cases e

theorem readN_some {h : Heap} {b a n : Nat} (h1 : b < h.next) (h2 : h.frees b = 0) (h3 : h.addr b ≤ a)
    (h4 : a + n ≤ h.addr b + (h.data b).length) : readN h (some b) a n = .ok (((h.data b).drop (a - h.addr b)).take n) := by
  unfold readN
  by_cases hn : n = 0
  · subst hn; simp
  · simp only [hn, if_false]
    rw [if_pos ⟨h1, h2, h3, h4⟩]

theorem readN_length {h : Heap} {blk : Option Nat} {a n : Nat} {l : List Val} (e : readN h blk a n = .ok l) : l.length = n := by
  by_cases hn : n = 0
  · subst hn; rw [readN_zero] at e; injection e with e; subst e; rfl
  · obtain ⟨b, -, -, -, h3, h4, rfl⟩ := readN_ok e hn
    simp; omega

/-- Part of a readable range is readable. -/
theorem readN_sub {h : Heap} {blk : Option Nat} {a n : Nat} {l : List Val} (e : readN h blk a n = .ok l) (st sp : Nat)
    (hs : st + sp ≤ n) : readN h blk (a + st) sp = .ok ((l.drop st).take sp) := by
  by_cases hn : sp = 0
  · subst hn; rw [readN_zero]; simp
  · obtain ⟨b, rfl, h1, h2, h3, h4, rfl⟩ := readN_ok e (by omega)
    rw [readN_some h1 h2 (by omega) (by omega)]
    congr 1
    rw [List.drop_take, List.drop_drop, List.take_take, show a - h.addr b + st = a + st - h.addr b by omega,
      show min sp (n - st) = sp by omega]

theorem splice_getElem? (d : List Val) (k : Nat) (x : List Val) (hk : k + x.length ≤ d.length) (j : Nat) :
    (splice d k x)[j]? = if k ≤ j ∧ j < k + x.length then x[j - k]? else d[j]? := by
  unfold splice
  have hl : (d.take k).length = k := by simp; omega
  rw [List.append_assoc]
  by_cases h1 : j < k
  · rw [List.getElem?_append_left (by omega), if_neg (by omega), List.getElem?_take_of_lt h1]
  · rw [List.getElem?_append_right (by omega), hl]
    by_cases h2 : j < k + x.length
    · rw [if_pos ⟨by omega, h2⟩, List.getElem?_append_left (by omega)]
    · rw [if_neg (by omega), List.getElem?_append_right (by omega), List.getElem?_drop]
      congr 1; omega

theorem splice_length (d : List Val) (k : Nat) (x : List Val) (hk : k + x.length ≤ d.length) : (splice d k x).length = d.length := by
  simp [splice]; omega

theorem splice_nil (d : List Val) (k : Nat) : splice d k [] = d := by simp [splice]

theorem splice_one (d : List Val) (k : Nat) (x : Val) (hk : k < d.length) : splice d k [x] = d.set k x := by
  apply List.ext_getElem?
  intro j
  rw [splice_getElem? _ _ _ (by simp; omega), List.getElem?_set]
  by_cases h : k = j
  · subst h; rw [if_pos (by simp), if_pos rfl]; simp [hk]
  · rw [if_neg (by simp; omega), if_neg h]

theorem writeN_some {h : Heap} {blk : Option Nat} {a : Nat} {x : List Val} (hx : x.length ≠ 0) {h' : Heap} :
    writeN h blk a x = .ok h' ↔ ∃ b, blk = some b ∧ b < h.next ∧ h.frees b = 0 ∧ h.addr b ≤ a ∧
      a + x.length ≤ h.addr b + (h.data b).length ∧ h' = { h with data := upd h.data b (splice (h.data b) (a - h.addr b) x) } := by
  unfold writeN
  cases blk with
  | none => simp [hx]
  | some b =>
    simp only [hx, if_false]
    constructor
    · intro e
      split at e
      · next hc => injection e with e; exact ⟨b, rfl, hc.1, hc.2.1, hc.2.2.1, hc.2.2.2, e.symm⟩
      · cases e
    · rintro ⟨b', hb, h1, h2, h3, h4, rfl⟩
      injection hb with hb; subst hb
      rw [if_pos ⟨h1, h2, h3, h4⟩]

theorem writeN_zero {h : Heap} {blk : Option Nat} {a : Nat} {x : List Val} (hx : x.length = 0) : writeN h blk a x = .ok h := by
  unfold writeN; cases blk <;> simp [hx]

/-- Where one can read one can write. -/
theorem writeN_of_readN {h : Heap} {blk : Option Nat} {a : Nat} {x l : List Val} (e : readN h blk a x.length = .ok l) :
    ∃ h', writeN h blk a x = .ok h' := by
  by_cases hx : x.length = 0
  · exact ⟨h, writeN_zero hx⟩
  · obtain ⟨b, rfl, h1, h2, h3, h4, -⟩ := readN_ok e hx
    exact ⟨_, (writeN_some hx).mpr ⟨b, rfl, h1, h2, h3, h4, rfl⟩⟩

/-- A write inside a range changes exactly the written elements of it. -/
theorem readN_write_in {h h' : Heap} {blk : Option Nat} {a a' n : Nat} {x l : List Val} (e : writeN h blk a x = .ok h')
    (r : readN h blk a' n = .ok l) (h1 : a' ≤ a) (h2 : a + x.length ≤ a' + n) : readN h' blk a' n = .ok (splice l (a - a') x) := by
  by_cases hx : x.length = 0
  · rw [writeN_zero hx] at e; injection e with e; subst e
    rw [List.eq_nil_of_length_eq_zero hx, splice_nil]; exact r
  · obtain ⟨b, rfl, w1, w2, w3, w4, rfl⟩ := (writeN_some hx).mp e
    obtain ⟨b', hb, r1, r2, r3, r4, rfl⟩ := readN_ok r (by omega)
    injection hb with hb; subst hb
    have hlen : (upd h.data b (splice (h.data b) (a - h.addr b) x) b).length = (h.data b).length := by
      rw [upd_same]; exact splice_length _ _ _ (by omega)
    rw [readN_some (by exact r1) (by exact r2) (by exact r3) (by show a' + n ≤ h.addr b + _; rw [hlen]; exact r4)]
    congr 1
    show ((upd h.data b (splice (h.data b) (a - h.addr b) x) b).drop (a' - h.addr b)).take n = _
    rw [upd_same]
    apply List.ext_getElem?
    intro j
    rw [splice_getElem? _ _ _ (by simp; omega)]
    by_cases hj : j < n
    · rw [List.getElem?_take_of_lt hj, List.getElem?_take_of_lt hj, List.getElem?_drop, List.getElem?_drop,
        splice_getElem? _ _ _ (by omega)]
      by_cases hc : a - a' ≤ j ∧ j < a - a' + x.length
      · rw [if_pos hc, if_pos (by omega)]; congr 1; omega
      · rw [if_neg hc, if_neg (by omega)]
    · rw [List.getElem?_eq_none (by simp; omega), if_neg (by omega), List.getElem?_eq_none (by simp; omega)]

/-- A write elsewhere does not change a range. -/
theorem readN_write_disj {h h' : Heap} {blk blk' : Option Nat} {a a' n : Nat} {x l : List Val} (e : writeN h blk a x = .ok h')
    (r : readN h blk' a' n = .ok l) (hd : blk' ≠ blk ∨ a' + n ≤ a ∨ a + x.length ≤ a') : readN h' blk' a' n = .ok l := by
  by_cases hx : x.length = 0
  · rw [writeN_zero hx] at e; injection e with e; subst e; exact r
  by_cases hn : n = 0
  · subst hn; rw [readN_zero] at r ⊢; exact r
  obtain ⟨b, rfl, w1, w2, w3, w4, rfl⟩ := (writeN_some hx).mp e
  obtain ⟨b', rfl, r1, r2, r3, r4, rfl⟩ := readN_ok r hn
  by_cases hb : b' = b
  · subst hb
    have hd : a' + n ≤ a ∨ a + x.length ≤ a' := by
      rcases hd with hd | hd
      · exact absurd rfl hd
      · exact hd
    have hlen : (upd h.data b' (splice (h.data b') (a - h.addr b') x) b').length = (h.data b').length := by
      rw [upd_same]; exact splice_length _ _ _ (by omega)
    rw [readN_some (by exact r1) (by exact r2) (by exact r3) (by show a' + n ≤ h.addr b' + _; rw [hlen]; exact r4)]
    congr 1
    show ((upd h.data b' (splice (h.data b') (a - h.addr b') x) b').drop (a' - h.addr b')).take n = _
    rw [upd_same]
    apply List.ext_getElem?
    intro j
    by_cases hj : j < n
    · rw [List.getElem?_take_of_lt hj, List.getElem?_take_of_lt hj, List.getElem?_drop, List.getElem?_drop,
        splice_getElem? _ _ _ (by omega), if_neg (by omega)]
    · rw [List.getElem?_eq_none (by simp; omega), List.getElem?_eq_none (by simp; omega)]
  · have hdat : upd h.data b (splice (h.data b) (a - h.addr b) x) b' = h.data b' := upd_other _ _ _ _ hb
    rw [readN_some (by exact r1) (by exact r2) (by exact r3) (by show a' + n ≤ h.addr b' + (upd h.data b _ b').length; rw [hdat]; exact r4)]
    show Outcome.ok (((upd h.data b _ b').drop (a' - h.addr b')).take n) = _
    rw [hdat]

/-- `memcpy` between readable ranges that are not overlapping. -/
theorem memcpy_ok {h : Heap} {db sb : Option Nat} {da sa n : Nat} {l x : List Val} (r : readN h sb sa n = .ok x)
    (w : readN h db da n = .ok l) (hd : db ≠ sb ∨ da = sa ∨ sa + n ≤ da ∨ da + n ≤ sa) :
    ∃ h', memcpy h db da sb sa n = .ok h' ∧ writeN h db da x = .ok h' := by
  have hx := readN_length r
  obtain ⟨h', he⟩ := writeN_of_readN (x := x) (by rw [hx]; exact w)
  refine ⟨h', ?_, he⟩
  unfold memcpy
  rw [r, Outcome.bind_ok, if_neg (by rintro ⟨h1, h2, h3, h4⟩; rcases hd with hd | hd | hd | hd <;> first | exact hd h1 | omega)]
  exact he

/-! ### Allocation -/

/-- Everything readable before, except in block `ex`, is readable after with the same contents. -/
def Frame (h h' : Heap) (ex : Option Nat) : Prop :=
  h'.addr = h.addr ∧ ∀ blk a n x, (blk ≠ ex ∨ blk = none) → readN h blk a n = .ok x → readN h' blk a n = .ok x

theorem dataAddr_congr {h h' : Heap} (e : h'.addr = h.addr) (v : Vec) : h'.dataAddr v = h.dataAddr v := by
  unfold Heap.dataAddr; rw [e]

theorem Frame.elems {h h' : Heap} {ex : Option Nat} (F : Frame h h' ex) {v : Vec} {l : List Val} (E : Elems h v l)
    (hv : v.blk ≠ ex ∨ v.blk = none) : Elems h' v l := by
  obtain ⟨e1, e2, e3, e4⟩ := E
  exact ⟨by rw [dataAddr_congr F.1]; exact e1, e2, e3, F.2 _ _ _ _ hv e4⟩

/-- Writing into a new block, or into a block nobody else uses. -/
theorem Frame.write {h h' h'' : Heap} {ex : Option Nat} (F : Frame h h' ex) {blk : Option Nat} {a : Nat} {x : List Val}
    (e : writeN h' blk a x = .ok h'') (hb : ∀ b a n y, blk = some b → n ≠ 0 → readN h (some b) a n ≠ .ok y) : Frame h h'' ex := by
  refine ⟨(writeN_frame e).2.2.trans F.1, ?_⟩
  intro blk' a' n y hne hr
  have r1 := F.2 _ _ _ _ hne hr
  by_cases hn : n = 0
  · subst hn; rw [readN_zero] at r1 ⊢; exact r1
  · refine readN_write_disj e r1 (.inl ?_)
    intro hbb
    obtain ⟨b, rfl, -⟩ := readN_ok hr hn
    exact hb b a' n y hbb.symm hn hr

theorem frame_free (h : Heap) (v : Vec) : Frame h (delData h v) v.mData := by
  unfold delData
  cases hd : v.mData with
  | none => exact ⟨rfl, fun _ _ _ _ _ hr => hr⟩
  | some b =>
    refine ⟨rfl, ?_⟩
    intro blk a n x hne hr
    by_cases hn : n = 0
    · subst hn; rw [readN_zero] at hr ⊢; exact hr
    · obtain ⟨c, rfl, h1, h2, h3, h4, rfl⟩ := readN_ok hr hn
      have hcb : c ≠ b := by
        rcases hne with hne | hne
        · exact fun e => hne (by rw [e])
        · cases hne
      exact readN_some h1 (by show upd h.frees b _ c = 0; rw [upd_other _ _ _ _ hcb]; exact h2) h3 h4

/-- `resize`: other memory is kept; the vector gets `n` uninitialised elements in a new block. -/
theorem resize_spec {s : St} {i n : Nat} {v : Vec} (hv : s.vecs i = some v) (hn : n ≤ 2 ^ 62) (hga : GoodAddr s.heap.addr)
    (H : Inv s) :
    ∃ h w, resize s i n = .ok ({ s with heap := h }.set i w) ∧ Frame s.heap h v.mData ∧
      Elems h w (List.replicate n none) ∧ w.mData = w.blk ∧ (n ≠ 0 → w.blk = some s.heap.next) ∧ w.mStart = h.dataAddr w ∧
      s.heap.next ≤ h.next ∧ (∀ b, s.heap.next ≤ b → h.frees b = 0) := by
  have hF := frame_free s.heap v
  have hnext : (delData s.heap v).next = s.heap.next := by unfold delData; split <;> rfl
  have haddr : (delData s.heap v).addr = s.heap.addr := hF.1
  have hfr : ∀ b, s.heap.next ≤ b → (delData s.heap v).frees b = 0 := by
    intro b hb
    unfold delData
    cases hd : v.mData with
    | none => exact H.future b hb
    | some c =>
      have hc := (H.alive i c (by rw [own_of_get hv, hd])).1
      show upd s.heap.frees c _ b = 0
      rw [upd_other _ _ _ _ (by omega)]
      exact H.future b hb
  unfold resize
  rw [get_ok.mpr hv, Outcome.bind_ok]
  generalize hg : delData s.heap v = h0 at hF hnext haddr hfr
  by_cases h0n : n = 0
  · subst h0n
    refine ⟨h0, {}, by simp [vInit], hF, ⟨by simp [Heap.dataAddr], rfl, by simp, by simp [readN]⟩, rfl,
      fun hc => absurd rfl hc, by simp [Heap.dataAddr], by omega, hfr⟩
  · refine ⟨{ h0 with next := h0.next + 1, data := upd h0.data h0.next (List.replicate n none) },
      { mData := some h0.next, blk := some h0.next, mStart := h0.addr h0.next, mEnd := h0.addr h0.next + n },
      by simp only [vInit, h0n, if_false]; rw [if_neg (by omega)]; rfl, ?_, ?_, rfl, fun _ => by rw [← hnext], rfl,
      by show s.heap.next ≤ h0.next + 1; omega, hfr⟩
    · refine ⟨hF.1, ?_⟩
      intro blk a m x hne hr
      have r1 := hF.2 _ _ _ _ hne hr
      by_cases hm : m = 0
      · subst hm; rw [readN_zero] at r1 ⊢; exact r1
      · obtain ⟨c, rfl, h1, h2, h3, h4, rfl⟩ := readN_ok r1 hm
        have hdat : upd h0.data h0.next (List.replicate n none) c = h0.data c := upd_other _ _ _ _ (by omega)
        rw [readN_some (h := { h0 with next := h0.next + 1, data := upd h0.data h0.next (List.replicate n none) }) (by show c < h0.next + 1; omega) h2 h3 (by show a + m ≤ h0.addr c + (upd h0.data h0.next _ c).length; rw [hdat]; exact h4)]
        show Outcome.ok (((upd h0.data h0.next _ c).drop (a - h0.addr c)).take m) = _
        rw [hdat]
    · have hg' := hga h0.next
      refine ⟨Nat.le_refl _, by simp, ?_, ?_⟩
      · show h0.addr h0.next + n ≤ 2 ^ 63
        rw [haddr]; omega
      · have hdat : upd h0.data h0.next (List.replicate n none) h0.next = List.replicate n (none : Val) := upd_same _ _ _
        rw [readN_some (h := { h0 with next := h0.next + 1, data := upd h0.data h0.next (List.replicate n none) }) (b := h0.next) (by show h0.next < h0.next + 1; omega) (hfr _ (by omega)) (Nat.le_refl _)
          (by show h0.addr h0.next + _ ≤ h0.addr h0.next + (upd h0.data h0.next _ h0.next).length; rw [hdat]; simp)]
        show Outcome.ok (((upd h0.data h0.next _ h0.next).drop (h0.addr h0.next - h0.addr h0.next)).take _) = _
        rw [hdat]
        simp

theorem size_ok {s : St} {i : Nat} {v : Vec} {l : List Val} (hv : s.vecs i = some v) (E : Elems s.heap v l) : size s i = .ok l.length := by
  obtain ⟨e1, e2, -, -⟩ := E
  unfold size
  rw [get_ok.mpr hv, Outcome.bind_ok, if_neg (by omega), if_neg (by omega)]
  congr 1; omega

/-- Every element in range can be read, and shows what `Elems` says. -/
theorem HasElems.shows {s : St} {i : Nat} {l : List Val} (h : HasElems s i l) :
    size s i = .ok l.length ∧ ∀ k (hk : k < l.length), read s i k = .ok l[k] := by
  obtain ⟨v, hv, E⟩ := h
  refine ⟨size_ok hv E, ?_⟩
  intro k hk
  obtain ⟨e1, e2, e3, e4⟩ := E
  unfold read
  have hw : wadd v.mStart k = v.mStart + k := wadd_eq (by omega)
  rw [get_ok.mpr hv, Outcome.bind_ok, hw, if_neg (by omega), readN_sub e4 k 1 (by omega), Outcome.bind_ok]
  congr 1
  rw [List.drop_eq_getElem_cons hk]; rfl

theorem set_vecs_same (s : St) (i : Nat) (v : Vec) : (s.set i v).vecs i = some v := by simp [St.set, upd]
theorem set_vecs_other (s : St) (i j : Nat) (v : Vec) (h : j ≠ i) : (s.set i v).vecs j = s.vecs j := by simp [St.set, upd, h]

/-- The source does not live in the block the target owns (and is another object). -/
def Separate (vi vj : Vec) : Prop := vj.blk ≠ vi.mData ∨ vj.blk = none

/-- `clone` from another object that does not live in the target's own block. -/
theorem clone_spec {s : St} {i j : Nat} {vi vj : Vec} {l : List Val} (hi : s.vecs i = some vi) (hj : s.vecs j = some vj) (hij : i ≠ j)
    (E : Elems s.heap vj l) (hl : l.length ≤ 2 ^ 62) (hsep : Separate vi vj) (hga : GoodAddr s.heap.addr) (H : Inv s) :
    ∃ h w, clone s i j = .ok ({ s with heap := h }.set i w) ∧ Frame s.heap h vi.mData ∧ Elems h w l ∧
      (l ≠ [] → w.blk = some s.heap.next ∧ w.mData = some s.heap.next) := by
  obtain ⟨h, w, hr, hF, hE, hmb, hblk, hst, hnx, hfr⟩ := resize_spec hi hl hga H
  have Ej := hF.elems E hsep
  have hvi' : ({ s with heap := h }.set i w).vecs i = some w := set_vecs_same _ _ _
  have hvj' : ({ s with heap := h }.set i w).vecs j = some vj := by rw [set_vecs_other _ _ _ _ (by omega)]; exact hj
  have hlen : (List.replicate l.length (none : Val)).length = l.length := by simp
  -- the new block is not readable before
  have hnew : ∀ b a n y, w.blk = some b → n ≠ 0 → readN s.heap (some b) a n ≠ .ok y := by
    intro b a n y hb hn hr'
    obtain ⟨c, hc, h1, -⟩ := readN_ok hr' hn
    injection hc with hc; subst hc
    by_cases hz : l.length = 0
    · -- empty vector has no block
      have : w.blk = none := by
        rw [hz] at hr
        unfold resize at hr
        rw [get_ok.mpr hi, Outcome.bind_ok] at hr
        simp only [vInit, if_true, Outcome.bind_ok] at hr
        injection hr with hr
        have := congrArg (fun s : St => s.vecs i) hr
        simp only [set_vecs_same] at this
        injection this with this
        rw [← this]
      rw [this] at hb; cases hb
    · rw [hblk hz] at hb; injection hb with hb; omega
  have hcopy : ∃ h', memcpy h w.mData (h.dataAddr w) vj.blk vj.mStart l.length = .ok h' ∧ writeN h w.blk w.mStart l = .ok h' := by
    rw [hmb, ← hst]
    obtain ⟨e1, e2, e3, e4⟩ := hE
    rw [hlen] at e4
    obtain ⟨h', m1, m2⟩ := memcpy_ok Ej.2.2.2 e4 (by
      by_cases hz : l.length = 0
      · omega
      · left
        rw [hblk hz]
        obtain ⟨c, hc, hc1, -⟩ := readN_ok E.2.2.2 hz
        rw [hc]
        intro hcc; injection hcc with hcc; omega)
    exact ⟨h', m1, m2⟩
  obtain ⟨h', m1, m2⟩ := hcopy
  have hsz : size ({ s with heap := h }.set i w) j = .ok l.length := size_ok hvj' Ej
  refine ⟨h', w, ?_, hF.write m2 hnew, ?_, ?_⟩
  · unfold clone
    rw [size_ok hj E, Outcome.bind_ok, hr, Outcome.bind_ok, get_ok.mpr hvi', Outcome.bind_ok, get_ok.mpr hvj', Outcome.bind_ok,
      hsz, Outcome.bind_ok]
    show (memcpy h w.mData (h.dataAddr w) vj.blk vj.mStart l.length >>= _) = _
    rw [m1, Outcome.bind_ok]
    rfl
  · obtain ⟨e1, e2, e3, e4⟩ := hE
    rw [hlen] at e2 e4
    refine ⟨by rw [dataAddr_congr (writeN_frame m2).2.2]; exact e1, e2, e3, ?_⟩
    rw [readN_write_in m2 e4 (Nat.le_refl _) (by omega), Nat.sub_self]
    congr 1
    simp [splice]
  · intro hne
    have hz : l.length ≠ 0 := fun hz => hne (List.eq_nil_of_length_eq_zero hz)
    exact ⟨hblk hz, by rw [hmb]; exact hblk hz⟩

end Verif.VectorHeap
