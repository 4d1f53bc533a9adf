import Verif.Lists.Model

/-
Properties C19, C20, C21.
-/

namespace Verif.Lists
open Verif

/-! ### Specification: an ideal double-ended queue -/

/-- Contents after the calls, results of the `get` calls, and the largest length seen (starting with `m`). -/
def ideal (q : List Val) (m : Nat) : List Op → List Val × List Val × Nat
  | [] => (q, [], m)
  | .put v :: ops => ideal (q ++ [v]) (max m (q.length + 1)) ops
  | .pushFront v :: ops => ideal (v :: q) (max m (q.length + 1)) ops
  | .get :: ops =>
    match q with
    | [] => let (q', out, m') := ideal [] m ops; (q', none :: out, m')
    | v :: q => let (q', out, m') := ideal q m ops; (q', v :: out, m')

/-! ### Chains -/

/-- Following the `next` pointers from `p` visits exactly the nodes of the list and ends with NULL. -/
def Chain (nxt : Nat → Ptr) : Ptr → List Nat → Prop
  | p, [] => p = none
  | p, a :: as => p = some a ∧ Chain nxt (nxt a) as

theorem upd_same {α : Type} (f : Nat → α) (i : Nat) (a : α) : upd f i a i = a := by simp [upd]
theorem upd_other {α : Type} (f : Nat → α) (i j : Nat) (a : α) (h : j ≠ i) : upd f i a j = f j := by simp [upd, h]

theorem Chain.upd {nxt : Nat → Ptr} {as : List Nat} {p : Ptr} (h : Chain nxt p as) (n : Nat) (x : Ptr) (hn : n ∉ as) : Chain (upd nxt n x) p as := by
  induction as generalizing p with
  | nil => exact h
  | cons a as ih =>
    obtain ⟨h1, h2⟩ := h
    have ha : a ≠ n := fun e => hn (by simp [e])
    refine ⟨h1, ?_⟩
    rw [upd_other _ _ _ _ ha]
    exact ih h2 (fun hm => hn (List.mem_cons_of_mem _ hm))

/-- Appending a node at the end of a chain. -/
theorem Chain.append {nxt : Nat → Ptr} {as : List Nat} {p : Ptr} {t n : Nat} (h : Chain nxt p as) (ht : as.getLast? = some t) (hn : n ∉ as)
    (hd : as.Nodup) (hnn : nxt n = none) : Chain (Lists.upd nxt t (some n)) p (as ++ [n]) := by
  induction as generalizing p with
  | nil => simp at ht
  | cons a as ih =>
    obtain ⟨h1, h2⟩ := h
    have hna : n ≠ a := fun e => hn (by simp [e])
    have hnas : n ∉ as := fun e => hn (List.mem_cons_of_mem _ e)
    have hda := List.nodup_cons.mp hd
    cases as with
    | nil =>
      simp at ht; subst ht
      refine ⟨h1, ?_⟩
      rw [upd_same]
      refine ⟨rfl, ?_⟩
      rw [upd_other _ _ _ _ hna]; exact hnn
    | cons b bs =>
      have ht' : (b :: bs).getLast? = some t := by simpa [List.getLast?_cons_cons] using ht
      have hta : a ≠ t := fun e => by
        have : t ∈ b :: bs := List.mem_of_getLast? ht'
        exact hda.1 (e ▸ this)
      refine ⟨h1, ?_⟩
      rw [upd_other _ _ _ _ hta]
      exact ih h2 ht' hnas hda.2

theorem Chain.nil_of_none {nxt : Nat → Ptr} {as : List Nat} (h : Chain nxt none as) : as = [] := by
  cases as with
  | nil => rfl
  | cons a as => cases h.1

/-! ### The representation invariant -/

/-- The nodes `qn` form the queue, `fn` the free list; together they are all allocated nodes, each once. -/
structure Rep (f : Fifo) (q : List Val) (qn fn : List Nat) : Prop where
  head : Chain f.nxt f.mHead qn
  free : Chain f.nxt f.mFreeList fn
  nodup : (qn ++ fn).Nodup
  all : ∀ n, n < f.count ↔ n ∈ qn ++ fn
  len : (qn ++ fn).length = f.count
  tail : f.mTail = qn.getLast?
  vals : qn.map f.dat = q
  size : f.mSize = q.length % 2 ^ 32

theorem map_upd_of_notMem {as : List Nat} (d : Nat → Val) (n : Nat) (v : Val) (h : n ∉ as) : as.map (upd d n v) = as.map d := by
  apply List.map_congr_left
  intro a ha
  exact upd_other _ _ _ _ (fun e => h (e ▸ ha))

/-- `allocate` yields a node outside the queue, recycling before allocating. -/
theorem allocate_spec {f : Fifo} {q : List Val} {qn fn : List Nat} (R : Rep f q qn fn) :
    ∃ f' n fn', f.allocate = .ok (f', n) ∧ n < f'.count ∧ n ∉ qn ∧ n ∉ fn' ∧ Chain f'.nxt f'.mFreeList fn' ∧ (qn ++ fn').Nodup ∧
      (∀ k, k < f'.count ↔ k = n ∨ k ∈ qn ++ fn') ∧ (qn ++ fn').length + 1 = f'.count ∧ f'.nxt = f.nxt ∧ f'.dat = f.dat ∧
      f'.mHead = f.mHead ∧ f'.mTail = f.mTail ∧ f'.mSize = f.mSize ∧ f'.count = max f.count (qn.length + 1) := by
  have hlen := R.len
  rw [List.length_append] at hlen
  unfold Fifo.allocate
  cases fn with
  | nil =>
    have hf : f.mFreeList = none := R.free
    rw [hf]
    have hnot : f.count ∉ qn := fun h => by
      have := (R.all f.count).mpr (by simp [h]); omega
    refine ⟨_, f.count, [], rfl, by show f.count < f.count + 1; omega, hnot, by simp, rfl, R.nodup, ?_, ?_, rfl, rfl, rfl, rfl, rfl, ?_⟩
    · intro k
      show k < f.count + 1 ↔ _
      rw [← R.all]; omega
    · show _ = f.count + 1
      rw [R.len]
    · show f.count + 1 = _
      simp at hlen; omega
  | cons n fn =>
    obtain ⟨h1, h2⟩ := R.free
    rw [h1]
    have hn : n < f.count := (R.all n).mpr (by simp)
    have hnd := R.nodup
    rw [List.nodup_append] at hnd
    obtain ⟨d1, d2, d3⟩ := hnd
    have hd2 := List.nodup_cons.mp d2
    refine ⟨{ f with mFreeList := f.nxt n }, n, fn, by simp [Fifo.next, hn], hn, fun h => d3 n h n (by simp) rfl, hd2.1, h2, ?_, ?_, ?_, rfl, rfl, rfl, rfl, rfl, ?_⟩
    · rw [List.nodup_append]
      exact ⟨d1, hd2.2, fun a ha b hb => d3 a ha b (List.mem_cons_of_mem _ hb)⟩
    · intro k
      show k < f.count ↔ _
      rw [R.all]
      simp only [List.mem_append, List.mem_cons]
      constructor
      · rintro (h | h | h)
        · exact .inr (.inl h)
        · exact .inl h
        · exact .inr (.inr h)
      · rintro (h | h | h)
        · exact .inr (.inl h)
        · exact .inl h
        · exact .inr (.inr h)
    · show _ = f.count
      simp at hlen ⊢; omega
    · show f.count = _
      simp at hlen; omega

theorem pushFront_spec {f : Fifo} {q : List Val} {qn fn : List Nat} (R : Rep f q qn fn) (v : Val) :
    ∃ f' qn' fn', f.pushFront v = .ok f' ∧ Rep f' (v :: q) qn' fn' ∧ f'.count = max f.count (q.length + 1) := by
  obtain ⟨f1, n, fn', ha, hn, hq, hfn, hch, hnd, hall, hlen, e1, e2, e3, e4, e5, hcnt⟩ := allocate_spec R
  have hql : qn.length = q.length := by rw [← R.vals]; simp
  unfold Fifo.pushFront
  rw [ha, Outcome.bind_ok]
  simp only [Fifo.setData, hn, if_true, Outcome.bind_ok, Fifo.setNext, e1, e2, e3, e4, e5]
  refine ⟨_, n :: qn, fn', rfl, ?_, ?_⟩
  · have htail : f.mTail = none → qn = [] := fun h => by
      have := R.tail; rw [h] at this; exact List.getLast?_eq_none_iff.mp this.symm
    have hc1 : Chain (upd f.nxt n f.mHead) (some n) (n :: qn) := ⟨rfl, by rw [upd_same]; exact R.head.upd n f.mHead hq⟩
    rw [e1] at hch
    have hc2 := hch.upd n f.mHead hfn
    have hnd' : ((n :: qn) ++ fn').Nodup := by
      rw [List.cons_append, List.nodup_cons]
      exact ⟨by simp [hq, hfn], hnd⟩
    by_cases ht : f.mTail = none
    · have hqn := htail ht
      subst hqn
      simp only [ht, if_true]
      refine ⟨hc1, hc2, hnd', ?_, by simpa using hlen, rfl, ?_, ?_⟩
      · intro k; show k < f1.count ↔ _; rw [hall]; simp
      · have hq0 : q = [] := by rw [← R.vals]; rfl
        subst hq0; simp [upd_same]
      · show (f.mSize + 1) % 2 ^ 32 = _
        rw [R.size, List.length_cons]; omega
    · simp only [ht, if_false]
      refine ⟨hc1, hc2, hnd', ?_, by show _ = f1.count; simp at hlen ⊢; omega, ?_, ?_, ?_⟩
      · intro k; show k < f1.count ↔ _; rw [hall]; simp
      · show f.mTail = (n :: qn).getLast?
        rw [R.tail]
        cases hqn : qn with
        | nil => rw [R.tail, hqn] at ht; exact absurd rfl ht
        | cons a as => rw [List.getLast?_cons_cons]
      · show (n :: qn).map (upd f.dat n v) = _
        rw [List.map_cons, upd_same, map_upd_of_notMem _ _ _ hq, R.vals]
      · show (f.mSize + 1) % 2 ^ 32 = _
        rw [R.size, List.length_cons]; omega
  · show (if f.mTail = none then _ else _ : Fifo).count = _
    split
    · show f1.count = _; rw [hcnt, hql]
    · show f1.count = _; rw [hcnt, hql]

theorem put_spec {f : Fifo} {q : List Val} {qn fn : List Nat} (R : Rep f q qn fn) (v : Val) :
    ∃ f' qn' fn', f.put v = .ok f' ∧ Rep f' (q ++ [v]) qn' fn' ∧ f'.count = max f.count (q.length + 1) := by
  obtain ⟨f1, n, fn', ha, hn, hq, hfn, hch, hnd, hall, hlen, e1, e2, e3, e4, e5, hcnt⟩ := allocate_spec R
  have hql : qn.length = q.length := by rw [← R.vals]; simp
  rw [e1] at hch
  have hnd' : ((qn ++ [n]) ++ fn').Nodup := by
    rw [List.nodup_append] at hnd ⊢
    obtain ⟨d1, d2, d3⟩ := hnd
    refine ⟨?_, d2, ?_⟩
    · rw [List.nodup_append]
      refine ⟨d1, by simp, ?_⟩
      intro a ham b hb
      have hb : b = n := by simpa using hb
      rw [hb]
      exact fun e => hq (e ▸ ham)
    · intro a ham b hb
      rcases List.mem_append.mp ham with ham | ham
      · exact d3 a ham b hb
      · have ham : a = n := by simpa using ham
        rw [ham]; exact fun e => hfn (e ▸ hb)
  have hall' : ∀ k, k < f1.count ↔ k ∈ (qn ++ [n]) ++ fn' := by
    intro k; rw [hall]; simp only [List.mem_append, List.mem_singleton]
    constructor
    · rintro (h | h | h)
      · exact .inl (.inr h)
      · exact .inl (.inl h)
      · exact .inr h
    · rintro ((h | h) | h)
      · exact .inr (.inl h)
      · exact .inl h
      · exact .inr (.inr h)
  have hlen' : ((qn ++ [n]) ++ fn').length = f1.count := by simp at hlen ⊢; omega
  have hvals : (qn ++ [n]).map (upd f.dat n v) = q ++ [v] := by
    rw [List.map_append, map_upd_of_notMem _ _ _ hq, R.vals]; simp [upd_same]
  have hsize : (f.mSize + 1) % 2 ^ 32 = (q ++ [v]).length % 2 ^ 32 := by
    rw [R.size, List.length_append, List.length_singleton]; omega
  have hlast : (qn ++ [n]).getLast? = some n := by simp
  unfold Fifo.put
  rw [ha, Outcome.bind_ok]
  simp only [Fifo.setData, hn, if_true, Outcome.bind_ok, Fifo.setNext, e1, e2, e4]
  cases ht : f.mTail with
  | none =>
    have hqn : qn = [] := by
      have := R.tail; rw [ht] at this; exact List.getLast?_eq_none_iff.mp this.symm
    subst hqn
    have hh : f.mHead = none := R.head
    simp only [Outcome.bind_ok, e3, hh, if_true, e5]
    refine ⟨_, [n], fn', rfl, ?_, by show f1.count = _; rw [hcnt, hql]⟩
    exact ⟨⟨rfl, by show upd f.nxt n none n = none; rw [upd_same]⟩, hch.upd n none hfn, hnd', hall', hlen', rfl, hvals, hsize⟩
  | some t =>
    have hlt : qn.getLast? = some t := by rw [← R.tail, ht]
    have htq : t ∈ qn := List.mem_of_getLast? hlt
    have htc : t < f1.count := (hall t).mpr (.inr (by simp [htq]))
    have hnd1 := (List.nodup_append.mp hnd).1
    have htf : t ∉ fn' := fun h => (List.nodup_append.mp hnd).2.2 t htq t h rfl
    simp only [htc, if_true, Outcome.bind_ok, e3]
    have hh : f.mHead ≠ none := by
      cases hqn : qn with
      | nil => rw [hqn] at hlt; cases hlt
      | cons a as => have := R.head; rw [hqn] at this; rw [this.1]; simp
    rw [if_neg hh]
    refine ⟨_, qn ++ [n], fn', rfl, ?_, by show f1.count = _; rw [hcnt, hql]⟩
    refine ⟨?_, ?_, hnd', hall', hlen', hlast.symm, hvals, by show (f1.mSize + 1) % 2 ^ 32 = _; rw [e5]; exact hsize⟩
    · show Chain (upd (upd f.nxt n none) t (some n)) f.mHead _
      exact (R.head.upd n none hq).append hlt hq hnd1 (upd_same _ _ _)
    · exact (hch.upd n none hfn).upd t (some n) htf

theorem get_spec {f : Fifo} {q : List Val} {qn fn : List Nat} (R : Rep f q qn fn) :
    ∃ f' qn' fn', f.get = .ok (f', q.head?.getD none) ∧ Rep f' q.tail qn' fn' ∧ f'.count = f.count := by
  unfold Fifo.get
  cases qn with
  | nil =>
    have hh : f.mHead = none := R.head
    have hq : q = [] := by rw [← R.vals]; rfl
    subst hq
    rw [hh]
    exact ⟨f, [], fn, rfl, R, rfl⟩
  | cons h qn =>
    obtain ⟨h1, h2⟩ := R.head
    have hc : h < f.count := (R.all h).mpr (by simp)
    have hq : q = f.dat h :: qn.map f.dat := by rw [← R.vals]; rfl
    have hnd := R.nodup
    rw [List.cons_append, List.nodup_cons] at hnd
    obtain ⟨d0, d1⟩ := hnd
    have hhq : h ∉ qn := fun e => d0 (List.mem_append_left _ e)
    have hhf : h ∉ fn := fun e => d0 (List.mem_append_right _ e)
    rw [h1]
    simp only [Fifo.next, hc, if_true, Outcome.bind_ok, Fifo.data, Fifo.release, Fifo.setNext]
    have hnd2 : (qn ++ h :: fn).Nodup := by
      rw [List.nodup_append] at d1 ⊢
      refine ⟨d1.1, List.nodup_cons.mpr ⟨hhf, d1.2.1⟩, ?_⟩
      intro a ha b hb
      rcases List.mem_cons.mp hb with rfl | hb
      · exact fun e => hhq (e ▸ ha)
      · exact d1.2.2 a ha b hb
    have hall2 : ∀ k, k < f.count ↔ k ∈ qn ++ h :: fn := by
      intro k; rw [R.all]
      simp only [List.cons_append, List.mem_cons, List.mem_append]
      constructor
      · rintro (h | h | h)
        · exact .inr (.inl h)
        · exact .inl h
        · exact .inr (.inr h)
      · rintro (h | h | h)
        · exact .inr (.inl h)
        · exact .inl h
        · exact .inr (.inr h)
    have hlen2 : (qn ++ h :: fn).length = f.count := by
      have := R.len; simp at this ⊢; omega
    have hfree : Chain (upd f.nxt h f.mFreeList) (some h) (h :: fn) := ⟨rfl, by rw [upd_same]; exact R.free.upd h _ hhf⟩
    have hsz : (f.mSize + 2 ^ 32 - 1) % 2 ^ 32 = q.tail.length % 2 ^ 32 := by
      rw [R.size, hq]; simp only [List.tail_cons, List.length_cons]; omega
    have hhead := h2.upd h f.mFreeList hhq
    have hv : q.head?.getD none = f.dat h := by rw [hq]; rfl
    rw [hv]
    by_cases hn : f.nxt h = none
    · have hqn : qn = [] := by rw [hn] at h2; exact h2.nil_of_none
      subst hqn
      rw [if_pos hn]
      refine ⟨_, [], h :: fn, rfl, ⟨hhead, hfree, hnd2, hall2, hlen2, rfl, by rw [hq]; rfl, hsz⟩, rfl⟩
    · rw [if_neg hn]
      refine ⟨_, qn, h :: fn, rfl, ⟨hhead, hfree, hnd2, hall2, hlen2, ?_, by rw [hq]; rfl, hsz⟩, rfl⟩
      show f.mTail = _
      rw [R.tail]
      cases hqn : qn with
      | nil => rw [hqn] at h2; exact absurd h2 hn
      | cons a as => rw [List.getLast?_cons_cons]

theorem run_spec (ops : List Op) : ∀ {f : Fifo} {q : List Val} {qn fn : List Nat}, Rep f q qn fn →
    ∃ f' qn' fn', f.run ops = .ok (f', (ideal q f.count ops).2.1) ∧ Rep f' (ideal q f.count ops).1 qn' fn' ∧
      f'.count = (ideal q f.count ops).2.2 := by
  induction ops with
  | nil => intro f q qn fn R; exact ⟨f, qn, fn, rfl, R, rfl⟩
  | cons o ops ih =>
    intro f q qn fn R
    cases o with
    | put v =>
      obtain ⟨f1, qn1, fn1, h1, R1, hc⟩ := put_spec R v
      obtain ⟨f2, qn2, fn2, h2, R2, hc2⟩ := ih R1
      rw [hc] at h2 R2 hc2
      exact ⟨f2, qn2, fn2, by rw [Fifo.run, h1]; exact h2, R2, hc2⟩
    | pushFront v =>
      obtain ⟨f1, qn1, fn1, h1, R1, hc⟩ := pushFront_spec R v
      obtain ⟨f2, qn2, fn2, h2, R2, hc2⟩ := ih R1
      rw [hc] at h2 R2 hc2
      exact ⟨f2, qn2, fn2, by rw [Fifo.run, h1]; exact h2, R2, hc2⟩
    | get =>
      obtain ⟨f1, qn1, fn1, h1, R1, hc⟩ := get_spec R
      obtain ⟨f2, qn2, fn2, h2, R2, hc2⟩ := ih R1
      rw [hc] at h2 R2 hc2
      cases q with
      | nil =>
        refine ⟨f2, qn2, fn2, ?_, R2, hc2⟩
        rw [Fifo.run, h1, Outcome.bind_ok]; dsimp only; rw [h2, Outcome.bind_ok]; rfl
      | cons v q =>
        refine ⟨f2, qn2, fn2, ?_, R2, hc2⟩
        rw [Fifo.run, h1, Outcome.bind_ok]; dsimp only; rw [h2, Outcome.bind_ok]; rfl

theorem init_rep (nxt : Nat → Ptr) (dat : Nat → Val) : Rep (Fifo.init nxt dat) [] [] [] :=
  ⟨rfl, rfl, by simp, by simp [Fifo.init], rfl, rfl, rfl, rfl⟩

/-! ### C19 -/

/-- C19: whatever the history of `put`, `push_front` and `get` calls, no undefined behaviour occurs, every `get` returns what the
ideal double-ended queue returns (NULL when it is empty), and `size()` is its length modulo 2^32. -/
theorem C19_ideal_deque (nxt : Nat → Ptr) (dat : Nat → Val) (ops : List Op) :
    ∃ f, (Fifo.init nxt dat).run ops = .ok (f, (ideal [] 0 ops).2.1) ∧ f.mSize = (ideal [] 0 ops).1.length % 2 ^ 32 ∧
      f.front = .ok ((ideal [] 0 ops).1.head?.getD none) := by
  obtain ⟨f, qn, fn, h1, R, -⟩ := run_spec ops (init_rep nxt dat)
  refine ⟨f, h1, R.size, ?_⟩
  have hv : (ideal [] 0 ops).1 = qn.map f.dat := R.vals.symm
  unfold Fifo.front
  cases qn with
  | nil => rw [show f.mHead = none from R.head, hv]; rfl
  | cons a qn =>
    rw [R.head.1, hv]
    simp [Fifo.data, (R.all a).mpr (by simp)]

/-- C19, partial: `size()` is exact as long as fewer than 2^32 elements are held.  Missing: more (`C19_size_refuted`). -/
theorem C19_size_partial (nxt : Nat → Ptr) (dat : Nat → Val) (ops : List Op) (h : (ideal [] 0 ops).1.length < 2 ^ 32) :
    ∃ f vs, (Fifo.init nxt dat).run ops = .ok (f, vs) ∧ f.mSize = (ideal [] 0 ops).1.length := by
  obtain ⟨f, h1, h2, -⟩ := C19_ideal_deque nxt dat ops
  exact ⟨f, _, h1, by rw [h2, Nat.mod_eq_of_lt h]⟩

theorem ideal_puts (n : Nat) (q : List Val) (m : Nat) : (ideal q m (List.replicate n (.put (some 1)))).1.length = q.length + n := by
  induction n generalizing q m with
  | zero => rfl
  | succ n ih => rw [List.replicate_succ, ideal, ih]; simp; omega

/-- C19 (negation): with 2^32 elements `size()` is 0. -/
theorem C19_size_refuted : ∃ ops, ∀ nxt dat, ∃ f vs, (Fifo.init nxt dat).run ops = .ok (f, vs) ∧ f.mSize = 0 ∧
    (ideal [] 0 ops).1.length = 2 ^ 32 := by
  obtain ⟨n, hn⟩ : ∃ n : Nat, n = 2 ^ 32 := ⟨_, rfl⟩
  refine ⟨List.replicate n (.put (some 1)), fun nxt dat => ?_⟩
  obtain ⟨f, h1, h2, -⟩ := C19_ideal_deque nxt dat (List.replicate n (.put (some 1)))
  have hl := ideal_puts n [] 0
  refine ⟨f, _, h1, ?_, by rw [hl, hn]; rfl⟩
  rw [h2, hl, hn]; rfl

/-- C19: if no NULL was stored, `get` returns NULL exactly when the queue is empty. -/
theorem C19_null_iff_empty {f : Fifo} {q : List Val} {qn fn : List Nat} (R : Rep f q qn fn) (hq : ∀ v ∈ q, v ≠ none) :
    ∃ f' v, f.get = .ok (f', v) ∧ (v = none ↔ q = []) := by
  obtain ⟨f', -, -, h, -, -⟩ := get_spec R
  refine ⟨f', _, h, ?_⟩
  cases q with
  | nil => simp
  | cons v q => simp [hq v List.mem_cons_self]

example : ((Fifo.init (fun _ => none) (fun _ => none)).run [.put (some 1), .put (some 2), .get, .pushFront (some 3), .get, .get, .get]).bind
    (fun r => .ok (r.2, r.1.count)) = .ok ([some 1, some 3, some 2, none], 2) := by decide

/-! ### C20 -/

/-- C20: in every reachable state the queue nodes and the free nodes are two disjoint, finite, acyclic chains that together contain every
allocated node exactly once; no unallocated node is ever touched (the run has no undefined behaviour); and the number of nodes allocated is the largest
number of elements ever held at one time. -/
theorem C20_recycling (nxt : Nat → Ptr) (dat : Nat → Val) (ops : List Op) :
    ∃ f vs qn fn, (Fifo.init nxt dat).run ops = .ok (f, vs) ∧ Chain f.nxt f.mHead qn ∧ Chain f.nxt f.mFreeList fn ∧
      (qn ++ fn).Nodup ∧ (∀ n, n < f.count ↔ n ∈ qn ++ fn) ∧ f.mTail = qn.getLast? ∧ qn.length = (ideal [] 0 ops).1.length ∧
      f.count = (ideal [] 0 ops).2.2 := by
  obtain ⟨f, qn, fn, h1, R, hc⟩ := run_spec ops (init_rep nxt dat)
  exact ⟨f, _, qn, fn, h1, R.head, R.free, R.nodup, R.all, R.tail, by have := congrArg List.length R.vals; rw [List.length_map] at this; exact this, hc⟩

/-- The third component of `ideal` is the largest length over all prefixes of the history. -/
theorem ideal_max (ops : List Op) (q : List Val) (m : Nat) (h : q.length ≤ m) :
    (∀ pre, pre <+: ops → (ideal q m pre).1.length ≤ (ideal q m ops).2.2) ∧
    ((ideal q m ops).2.2 = m ∨ ∃ pre, pre <+: ops ∧ (ideal q m pre).1.length = (ideal q m ops).2.2) := by
  have base : ∀ (ops : List Op) (q : List Val) (m : Nat), m ≤ (ideal q m ops).2.2 := by
    intro ops
    induction ops with
    | nil => intro q m; exact Nat.le_refl _
    | cons o ops ih =>
      intro q m
      cases o with
      | put v => have := ih (q ++ [v]) (max m (q.length + 1)); rw [ideal]; omega
      | pushFront v => have := ih (v :: q) (max m (q.length + 1)); rw [ideal]; omega
      | get => cases q with
        | nil => exact ih [] m
        | cons v q => exact ih q m
  have mirr : ∀ (pre : List Op) (q : List Val) (m m' : Nat), (ideal q m pre).1 = (ideal q m' pre).1 := by
    intro pre
    induction pre with
    | nil => intro q m m'; rfl
    | cons o pre ih =>
      intro q m m'
      cases o with
      | put v => exact ih _ _ _
      | pushFront v => exact ih _ _ _
      | get => cases q with
        | nil => exact ih _ _ _
        | cons v q => exact ih _ _ _
  induction ops generalizing q m with
  | nil =>
    refine ⟨?_, .inl rfl⟩
    intro pre hp
    rw [List.prefix_nil.mp hp]; exact h
  | cons o ops ih =>
    have step : ∀ (q' : List Val) (m' : Nat), q'.length ≤ m' → m ≤ m' → (m' = m ∨ m' = q'.length) →
        (∀ pre, (ideal q m (o :: pre)).1 = (ideal q' m' pre).1) → (ideal q m (o :: ops)).2.2 = (ideal q' m' ops).2.2 →
        (∀ pre, pre <+: o :: ops → (ideal q m pre).1.length ≤ (ideal q m (o :: ops)).2.2) ∧
        ((ideal q m (o :: ops)).2.2 = m ∨ ∃ pre, pre <+: o :: ops ∧ (ideal q m pre).1.length = (ideal q m (o :: ops)).2.2) := by
      intro q' m' h1 h2 h3 h4 h5
      obtain ⟨i1, i2⟩ := ih q' m' h1
      have hb := base ops q' m'
      rw [h5]
      constructor
      · intro pre hp
        cases pre with
        | nil => show q.length ≤ _; omega
        | cons o' pre =>
          rw [List.cons_prefix_cons] at hp
          rw [hp.1, h4]; exact i1 pre hp.2
      · rcases i2 with i2 | ⟨pre, i2, i3⟩
        · rcases h3 with h3 | h3
          · left; omega
          · right
            refine ⟨[o], by simp, ?_⟩
            rw [h4 []]; show q'.length = _; omega
        · right
          exact ⟨o :: pre, by rw [List.cons_prefix_cons]; exact ⟨rfl, i2⟩, by rw [h4]; exact i3⟩
    cases o with
    | put v =>
      refine step (q ++ [v]) (max m (q.length + 1)) (by simp; omega) (by omega) (by simp; omega) (fun _ => rfl) rfl
    | pushFront v =>
      refine step (v :: q) (max m (q.length + 1)) (by simp; omega) (by omega) (by simp; omega) (fun _ => rfl) rfl
    | get =>
      cases q with
      | nil => exact step [] m h (Nat.le_refl _) (.inl rfl) (fun _ => rfl) rfl
      | cons v q => exact step q m (by simp at h; omega) (Nat.le_refl _) (.inl rfl) (fun _ => rfl) rfl

/-- C20: memory use is exactly the high-water mark: the number of nodes allocated is reached by the length of the queue after
some prefix of the history, and no prefix exceeds it. -/
theorem C20_high_water (nxt : Nat → Ptr) (dat : Nat → Val) (ops : List Op) :
    ∃ f vs, (Fifo.init nxt dat).run ops = .ok (f, vs) ∧
      (∀ pre, pre <+: ops → (ideal [] 0 pre).1.length ≤ f.count) ∧ (∃ pre, pre <+: ops ∧ (ideal [] 0 pre).1.length = f.count) := by
  obtain ⟨f, qn, fn, h1, R, hc⟩ := run_spec ops (init_rep nxt dat)
  have hc : f.count = (ideal [] 0 ops).2.2 := hc
  obtain ⟨a, b⟩ := ideal_max ops [] 0 (Nat.le_refl _)
  refine ⟨f, _, h1, by rw [hc]; exact a, ?_⟩
  rw [hc]
  rcases b with b | b
  · exact ⟨[], by simp, by rw [b]; rfl⟩
  · exact b

/-! ### C21 -/

/-- Ideal contents after the calls and the results of `pop_front`. -/
def idealS (q : List Nat) : List SOp → List Nat × List Ptr
  | [] => (q, [])
  | .pushBack i :: ops => idealS (q ++ [i]) ops
  | .pushFront i :: ops => idealS (i :: q) ops
  | .popFront :: ops => let (q', out) := idealS q.tail ops; (q', q.head? :: out)

/-- The callers' obligation: an element is not pushed while it is in the list. -/
def Fresh (q : List Nat) : List SOp → Prop
  | [] => True
  | .pushBack i :: ops => i ∉ q ∧ Fresh (q ++ [i]) ops
  | .pushFront i :: ops => i ∉ q ∧ Fresh (i :: q) ops
  | .popFront :: ops => Fresh q.tail ops

/-- Representation of the ideal list. -/
structure SRep (size : Nat → Nat) (l : SList) (q : List Nat) : Prop where
  head : Chain l.nxt l.mHead q
  nodup : q.Nodup
  tail : l.mTail = q.getLast?
  cnt : l.mSize = q.length % 2 ^ 32
  total : l.mTotalSize = (q.map size).sum % 2 ^ 32

theorem pushBack_spec {size : Nat → Nat} {l : SList} {q : List Nat} (R : SRep size l q) (i : Nat) (h : i ∉ q) :
    SRep size (l.pushBack size i) (q ++ [i]) := by
  have hsz : (l.mSize + 1) % 2 ^ 32 = (q ++ [i]).length % 2 ^ 32 := by rw [R.cnt, List.length_append, List.length_singleton]; omega
  have htot : (l.mTotalSize + size i) % 2 ^ 32 = ((q ++ [i]).map size).sum % 2 ^ 32 := by
    rw [R.total]; simp only [List.map_append, List.sum_append, List.map_cons, List.map_nil, List.sum_cons, List.sum_nil]; omega
  have hnd : (q ++ [i]).Nodup := by
    rw [List.nodup_append]
    refine ⟨R.nodup, by simp, ?_⟩
    intro a ha b hb; simp at hb; subst hb; exact fun e => h (e ▸ ha)
  unfold SList.pushBack
  cases ht : l.mTail with
  | none =>
    have hq : q = [] := by have := R.tail; rw [ht] at this; exact List.getLast?_eq_none_iff.mp this.symm
    subst hq
    have hh : l.mHead = none := R.head
    simp only [hh, if_true]
    exact ⟨⟨rfl, by show upd l.nxt i none i = none; rw [upd_same]⟩, hnd, rfl, hsz, htot⟩
  | some t =>
    have hlt : q.getLast? = some t := by rw [← R.tail, ht]
    have hh : l.mHead ≠ none := by
      cases hq : q with
      | nil => rw [hq] at hlt; cases hlt
      | cons a as => have := R.head; rw [hq] at this; rw [this.1]; simp
    simp only []
    rw [if_neg hh]
    refine ⟨?_, hnd, by simp, hsz, htot⟩
    exact (R.head.upd i none h).append hlt h R.nodup (upd_same _ _ _)

theorem pushFront_specS {size : Nat → Nat} {l : SList} {q : List Nat} (R : SRep size l q) (i : Nat) (h : i ∉ q) :
    SRep size (l.pushFront size i) (i :: q) := by
  have hsz : (l.mSize + 1) % 2 ^ 32 = (i :: q).length % 2 ^ 32 := by rw [R.cnt, List.length_cons]; omega
  have htot : (l.mTotalSize + size i) % 2 ^ 32 = ((i :: q).map size).sum % 2 ^ 32 := by
    rw [R.total]; simp only [List.map_cons, List.sum_cons]; omega
  have hc : Chain (upd l.nxt i l.mHead) (some i) (i :: q) := ⟨rfl, by rw [upd_same]; exact R.head.upd i _ h⟩
  have hnd : (i :: q).Nodup := List.nodup_cons.mpr ⟨h, R.nodup⟩
  unfold SList.pushFront
  by_cases ht : l.mTail = none
  · have hq : q = [] := by have := R.tail; rw [ht] at this; exact List.getLast?_eq_none_iff.mp this.symm
    subst hq
    simp only [ht, if_true]
    exact ⟨hc, hnd, rfl, hsz, htot⟩
  · simp only [ht, if_false]
    refine ⟨hc, hnd, ?_, hsz, htot⟩
    show l.mTail = _
    rw [R.tail]
    cases hq : q with
    | nil => rw [R.tail, hq] at ht; exact absurd rfl ht
    | cons a as => rw [List.getLast?_cons_cons]

theorem popFront_spec {size : Nat → Nat} {l : SList} {q : List Nat} (R : SRep size l q) :
    ∃ l', l.popFront size = .ok (l', q.head?) ∧ SRep size l' q.tail := by
  unfold SList.popFront
  cases q with
  | nil =>
    have hh : l.mHead = none := R.head
    rw [hh]; exact ⟨l, rfl, R⟩
  | cons r q =>
    obtain ⟨h1, h2⟩ := R.head
    have hnd := List.nodup_cons.mp R.nodup
    rw [h1]
    have hsz : (l.mSize + 2 ^ 32 - 1) % 2 ^ 32 = q.length % 2 ^ 32 := by rw [R.cnt, List.length_cons]; omega
    have htot : (l.mTotalSize + 2 ^ 32 - size r % 2 ^ 32) % 2 ^ 32 = (q.map size).sum % 2 ^ 32 := by
      rw [R.total]; simp only [List.map_cons, List.sum_cons]; omega
    have hc := h2.upd r none hnd.1
    simp only []
    cases q with
    | nil =>
      have hn : l.nxt r = none := h2
      have ht : l.mTail = some r := R.tail
      rw [if_neg (by simp [hn]), if_pos ht]
      exact ⟨_, rfl, hc, hnd.2, rfl, hsz, htot⟩
    | cons a as =>
      have ht : l.mTail ≠ some r := by
        rw [R.tail, List.getLast?_cons_cons]
        intro e
        exact hnd.1 (List.mem_of_getLast? e)
      rw [if_neg (by simp [ht]), if_neg ht]
      refine ⟨_, rfl, hc, hnd.2, ?_, hsz, htot⟩
      show l.mTail = _
      rw [R.tail, List.getLast?_cons_cons]; rfl

/-- C21: in every history in which elements are not pushed while they are in the list, elements come out in ideal order, the assertion never fails, `size()`
is the number of elements and `totalSize()` the sum of their sizes (both modulo 2^32, so exact below that). -/
theorem C21_list (size : Nat → Nat) (nxt : Nat → Ptr) (ops : List SOp) (h : Fresh [] ops) :
    ∃ l, (SList.init nxt).run size ops = .ok (l, (idealS [] ops).2) ∧ l.mSize = (idealS [] ops).1.length % 2 ^ 32 ∧
      l.mTotalSize = ((idealS [] ops).1.map size).sum % 2 ^ 32 ∧ Chain l.nxt l.mHead (idealS [] ops).1 := by
  have main : ∀ (ops : List SOp) (l : SList) (q : List Nat), SRep size l q → Fresh q ops →
      ∃ l', l.run size ops = .ok (l', (idealS q ops).2) ∧ SRep size l' (idealS q ops).1 := by
    intro ops
    induction ops with
    | nil => intro l q R _; exact ⟨l, rfl, R⟩
    | cons o ops ih =>
      intro l q R hf
      cases o with
      | pushBack i => exact ih _ _ (pushBack_spec R i hf.1) hf.2
      | pushFront i => exact ih _ _ (pushFront_specS R i hf.1) hf.2
      | popFront =>
        obtain ⟨l1, e1, R1⟩ := popFront_spec R
        obtain ⟨l2, e2, R2⟩ := ih _ _ R1 hf
        exact ⟨l2, by rw [SList.run, e1, Outcome.bind_ok]; dsimp only; rw [e2, Outcome.bind_ok]; rfl, R2⟩
  obtain ⟨l, h1, R⟩ := main ops (SList.init nxt) [] ⟨rfl, by simp, rfl, rfl, rfl⟩ h
  exact ⟨l, h1, R.cnt, R.total, R.head⟩

/-- C21: why the condition is needed: pushing an element that is in the list loses the others. -/
example : ((SList.init fun _ => none).run (fun _ => 1) [.pushBack 1, .pushBack 2, .pushBack 1, .popFront, .popFront, .popFront]).bind
    (fun r => .ok r.2) = .ok [some 1, none, none] := by decide

example : Fresh [] [.pushBack 1, .pushFront 2, .popFront, .pushBack 2] ∧
    ((SList.init fun _ => none).run (fun n => n * 10) [.pushBack 1, .pushFront 2, .popFront, .pushBack 2]).bind
    (fun r => .ok (r.2, r.1.mSize, r.1.mTotalSize)) = .ok ([some 2], 2, 30) := by
  constructor
  · simp [Fresh]
  · decide

end Verif.Lists
