import Verif.VectorHeap.Model

/-
Property C16: every block is owned by at most one vector and freed at most once; nothing leaks.
-/

namespace Verif.VectorHeap
open Verif

/-- Block owned by the object named `i`. -/
def St.own (s : St) (i : Nat) : Option Nat := (s.vecs i).bind (·.mData)

/-- Ownership discipline: `next` blocks were allocated, `frees` counts deletions, `own` says who owns what. -/
structure OInv (next : Nat) (frees : Nat → Nat) (own : Nat → Option Nat) : Prop where
  once : ∀ b, frees b ≤ 1
  future : ∀ b, next ≤ b → frees b = 0
  alive : ∀ i b, own i = some b → b < next ∧ frees b = 0
  unique : ∀ i j b, own i = some b → own j = some b → i = j
  noLeak : ∀ b, b < next → frees b = 0 → ∃ i, own i = some b

/-- The invariant of a state. -/
def Inv (s : St) : Prop := OInv s.heap.next s.heap.frees s.own

theorem upd_same {α : Type} (f : Nat → α) (i : Nat) (a : α) : upd f i a i = a := by simp [upd]
theorem upd_other {α : Type} (f : Nat → α) (i j : Nat) (a : α) (h : j ≠ i) : upd f i a j = f j := by simp [upd, h]

theorem OInv.release {n f own} (H : OInv n f own) (i b : Nat) (h : own i = some b) :
    OInv n (upd f b (f b + 1)) (upd own i none) := by
  obtain ⟨hb, hf⟩ := H.alive i b h
  refine ⟨?_, ?_, ?_, ?_, ?_⟩
  · intro c
    by_cases hc : c = b
    · subst hc; rw [upd_same, hf]; exact Nat.le_refl _
    · rw [upd_other _ _ _ _ hc]; exact H.once c
  · intro c hc
    rw [upd_other _ _ _ _ (by omega)]; exact H.future c hc
  · intro j c hj
    by_cases hji : j = i
    · subst hji; rw [upd_same] at hj; cases hj
    · rw [upd_other _ _ _ _ hji] at hj
      have hc : c ≠ b := fun e => hji (H.unique j i b (e ▸ hj) h)
      rw [upd_other _ _ _ _ hc]
      exact H.alive j c hj
  · intro j k c hj hk
    by_cases hji : j = i
    · subst hji; rw [upd_same] at hj; cases hj
    by_cases hki : k = i
    · subst hki; rw [upd_same] at hk; cases hk
    rw [upd_other _ _ _ _ hji] at hj
    rw [upd_other _ _ _ _ hki] at hk
    exact H.unique j k c hj hk
  · intro c hc hfc
    by_cases hcb : c = b
    · subst hcb; rw [upd_same] at hfc; omega
    · rw [upd_other _ _ _ _ hcb] at hfc
      obtain ⟨j, hj⟩ := H.noLeak c hc hfc
      refine ⟨j, ?_⟩
      have : j ≠ i := fun e => by subst e; rw [h] at hj; injection hj with hj; exact hcb hj.symm
      rw [upd_other _ _ _ _ this]; exact hj

theorem OInv.alloc {n f own} (H : OInv n f own) (i : Nat) (h : own i = none) :
    OInv (n + 1) f (upd own i (some n)) := by
  refine ⟨H.once, fun b hb => H.future b (by omega), ?_, ?_, ?_⟩
  · intro j c hj
    by_cases hji : j = i
    · subst hji; rw [upd_same] at hj; injection hj with hj
      subst hj; exact ⟨by omega, H.future _ (Nat.le_refl _)⟩
    · rw [upd_other _ _ _ _ hji] at hj
      have := H.alive j c hj
      exact ⟨by omega, this.2⟩
  · intro j k c hj hk
    have aux : ∀ j, upd own i (some n) j = some c → (j = i ∧ c = n) ∨ (j ≠ i ∧ own j = some c ∧ c < n) := by
      intro j hj
      by_cases hji : j = i
      · subst hji; rw [upd_same] at hj; injection hj with hj; exact .inl ⟨rfl, hj.symm⟩
      · rw [upd_other _ _ _ _ hji] at hj; exact .inr ⟨hji, hj, (H.alive j c hj).1⟩
    rcases aux j hj with ⟨h1, h2⟩ | ⟨h1, h2, h3⟩ <;> rcases aux k hk with ⟨k1, k2⟩ | ⟨k1, k2, k3⟩
    · omega
    · omega
    · omega
    · exact H.unique j k c h2 k2
  · intro c hc hf
    by_cases hcn : c = n
    · subst hcn; exact ⟨i, upd_same _ _ _⟩
    · obtain ⟨j, hj⟩ := H.noLeak c (by omega) hf
      refine ⟨j, ?_⟩
      have : j ≠ i := fun e => by subst e; rw [h] at hj; cases hj
      rw [upd_other _ _ _ _ this]; exact hj

theorem OInv.move {n f own} (H : OInv n f own) (i j : Nat) (h : own i = none) :
    OInv n f (upd (upd own i (own j)) j none) := by
  by_cases hij : i = j
  · subst hij
    have : upd (upd own i (own i)) i none = own := by
      funext k; by_cases hk : k = i
      · subst hk; rw [upd_same, h]
      · rw [upd_other _ _ _ _ hk, upd_other _ _ _ _ hk]
    rw [this]; exact H
  have aux : ∀ k c, upd (upd own i (own j)) j none k = some c → (k = i ∧ own j = some c) ∨ (k ≠ i ∧ k ≠ j ∧ own k = some c) := by
    intro k c hk
    by_cases hkj : k = j
    · subst hkj; rw [upd_same] at hk; cases hk
    · rw [upd_other _ _ _ _ hkj] at hk
      by_cases hki : k = i
      · subst hki; rw [upd_same] at hk; exact .inl ⟨rfl, hk⟩
      · rw [upd_other _ _ _ _ hki] at hk; exact .inr ⟨hki, hkj, hk⟩
  refine ⟨H.once, H.future, ?_, ?_, ?_⟩
  · intro k c hk
    rcases aux k c hk with ⟨_, h2⟩ | ⟨_, _, h2⟩ <;> exact H.alive _ c h2
  · intro k l c hk hl
    rcases aux k c hk with ⟨h1, h2⟩ | ⟨h0, h1, h2⟩ <;> rcases aux l c hl with ⟨k1, k2⟩ | ⟨k0, k1, k2⟩
    · omega
    · exact absurd (H.unique _ _ c k2 h2) k1
    · exact absurd (H.unique _ _ c h2 k2) h1
    · exact H.unique _ _ c h2 k2
  · intro c hc hf
    obtain ⟨k, hk⟩ := H.noLeak c hc hf
    by_cases hkj : k = j
    · subst hkj
      refine ⟨i, ?_⟩
      rw [upd_other _ _ _ _ hij, upd_same]; exact hk
    · refine ⟨k, ?_⟩
      have : k ≠ i := fun e => by subst e; rw [h] at hk; cases hk
      rw [upd_other _ _ _ _ hkj, upd_other _ _ _ _ this]; exact hk

/-! ### Ownership through the model's functions -/

theorem own_set (s : St) (i : Nat) (v : Vec) : (s.set i v).own = upd s.own i v.mData := by
  funext j
  unfold St.own St.set upd
  by_cases h : j = i <;> simp [h]

theorem get_ok {s : St} {i : Nat} {v : Vec} : s.get i = .ok v ↔ s.vecs i = some v := by
  unfold St.get
  cases s.vecs i <;> simp

theorem own_of_get {s : St} {i : Nat} {v : Vec} (h : s.vecs i = some v) : s.own i = v.mData := by
  simp [St.own, h]

theorem upd_eq_self {α : Type} (f : Nat → α) (i : Nat) : upd f i (f i) = f := by
  funext j; by_cases h : j = i
  · subst h; exact upd_same _ _ _
  · exact upd_other _ _ _ _ h

theorem set_inv {s : St} {i : Nat} {v w : Vec} (hv : s.vecs i = some v) (hw : w.mData = v.mData) (H : Inv s) : Inv (s.set i w) := by
  unfold Inv
  rw [own_set, hw, ← own_of_get hv, upd_eq_self]
  exact H

theorem writeN_frame {h h' : Heap} {b a x} (e : writeN h b a x = .ok h') :
    h'.next = h.next ∧ h'.frees = h.frees ∧ h'.addr = h.addr := by
  unfold writeN at e
  split at e
  · split at e
    · injection e with e; subst e; exact ⟨rfl, rfl, rfl⟩
    · cases e
  · split at e
    · injection e with e; subst e; exact ⟨rfl, rfl, rfl⟩
    · split at e
      · injection e with e; subst e; exact ⟨rfl, rfl, rfl⟩
      · cases e

theorem memcpy_frame {h h' : Heap} {db da sb sa n} (e : memcpy h db da sb sa n = .ok h') :
    h'.next = h.next ∧ h'.frees = h.frees ∧ h'.addr = h.addr := by
  unfold memcpy at e
  obtain ⟨x, -, e⟩ := Outcome.bind_eq_ok.mp e
  split at e
  · cases e
  · exact writeN_frame e

theorem heap_inv {s : St} {h : Heap} (e : h.next = s.heap.next ∧ h.frees = s.heap.frees ∧ h.addr = s.heap.addr) (H : Inv s) :
    Inv { s with heap := h } := by
  unfold Inv at *
  show OInv h.next h.frees s.own
  rw [e.1, e.2.1]; exact H

theorem resize_inv {s s' : St} {i n : Nat} (e : resize s i n = .ok s') (H : Inv s) : Inv s' := by
  unfold resize at e
  obtain ⟨v, hv, e⟩ := Outcome.bind_eq_ok.mp e
  rw [get_ok] at hv
  obtain ⟨⟨h, w⟩, hi, e⟩ := Outcome.bind_eq_ok.mp e
  injection e with e
  subst e
  have hown := own_of_get hv
  -- after the deletion
  have key : OInv (delData s.heap v).next (delData s.heap v).frees (upd s.own i none) := by
    unfold delData
    cases hd : v.mData with
    | none =>
      have : upd s.own i none = s.own := by rw [hd] at hown; rw [← hown, upd_eq_self]
      rw [this]; exact H
    | some b => rw [hd] at hown; exact OInv.release H i b hown
  revert hi key
  generalize delData s.heap v = h0
  intro hi key
  unfold vInit at hi
  unfold Inv
  rw [own_set]
  split at hi
  · injection hi with hi
    injection hi with h1 h2
    subst h1 h2
    exact key
  · split at hi
    · cases hi
    · injection hi with hi
      injection hi with h1 h2
      subst h1 h2
      have := OInv.alloc key i (upd_same _ _ _)
      have e : upd (upd s.own i none) i (some h0.next) = upd s.own i (some h0.next) := by
        funext k; by_cases hk : k = i
        · subst hk; rw [upd_same, upd_same]
        · rw [upd_other _ _ _ _ hk, upd_other _ _ _ _ hk, upd_other _ _ _ _ hk]
      rw [e] at this
      exact this

theorem resize_get {s s' : St} {i n : Nat} (e : resize s i n = .ok s') : ∃ v, s'.vecs i = some v ∧ (n = 0 → v = {}) := by
  unfold resize at e
  obtain ⟨v, hv, e⟩ := Outcome.bind_eq_ok.mp e
  obtain ⟨⟨h, w⟩, hi, e⟩ := Outcome.bind_eq_ok.mp e
  injection e with e
  subst e
  refine ⟨w, by simp [St.set, upd], ?_⟩
  rintro rfl
  simp only [vInit, if_true] at hi
  injection hi with hi
  injection hi with h1 h2
  exact h2.symm

theorem clone_inv {s s' : St} {i j : Nat} (e : clone s i j = .ok s') (H : Inv s) : Inv s' := by
  unfold clone at e
  obtain ⟨n, -, e⟩ := Outcome.bind_eq_ok.mp e
  obtain ⟨s1, hr, e⟩ := Outcome.bind_eq_ok.mp e
  obtain ⟨vi, -, e⟩ := Outcome.bind_eq_ok.mp e
  obtain ⟨vj, -, e⟩ := Outcome.bind_eq_ok.mp e
  obtain ⟨b, -, e⟩ := Outcome.bind_eq_ok.mp e
  obtain ⟨h, hm, e⟩ := Outcome.bind_eq_ok.mp e
  injection e with e
  subst e
  exact heap_inv (memcpy_frame hm) (resize_inv hr H)

theorem vConcat_inv {s s' : St} {i a b : Nat} (e : vConcat s i a b = .ok s') (H : Inv s) : Inv s' := by
  unfold vConcat at e
  obtain ⟨na, -, e⟩ := Outcome.bind_eq_ok.mp e
  obtain ⟨nb, -, e⟩ := Outcome.bind_eq_ok.mp e
  obtain ⟨s1, hr, e⟩ := Outcome.bind_eq_ok.mp e
  obtain ⟨vi, -, e⟩ := Outcome.bind_eq_ok.mp e
  obtain ⟨va, -, e⟩ := Outcome.bind_eq_ok.mp e
  obtain ⟨ba, -, e⟩ := Outcome.bind_eq_ok.mp e
  obtain ⟨h, hm, e⟩ := Outcome.bind_eq_ok.mp e
  obtain ⟨vb, -, e⟩ := Outcome.bind_eq_ok.mp e
  obtain ⟨ba', -, e⟩ := Outcome.bind_eq_ok.mp e
  obtain ⟨bb, -, e⟩ := Outcome.bind_eq_ok.mp e
  obtain ⟨h2, hm2, e⟩ := Outcome.bind_eq_ok.mp e
  injection e with e
  subst e
  have i1 := heap_inv (memcpy_frame hm) (resize_inv hr H)
  exact heap_inv (s := { s1 with heap := h }) (memcpy_frame hm2) i1

theorem move_inv {s : St} {i j : Nat} {vj : Vec} (hj : s.vecs j = some vj) (hi : s.own i = none) (H : Inv s)
    (v2 : Vec) : Inv ((s.set i vj).set j { v2 with mData := none }) := by
  unfold Inv
  rw [own_set, own_set, ← own_of_get hj]
  exact OInv.move H i j hi

theorem shiftMem_inv {s s' : St} {i j : Nat} (e : shiftMem s i j = .ok s') (H : Inv s) : Inv s' := by
  unfold shiftMem at e
  obtain ⟨s1, hc, e⟩ := Outcome.bind_eq_ok.mp e
  obtain ⟨vj, hj, e⟩ := Outcome.bind_eq_ok.mp e
  obtain ⟨v2, hj2, e⟩ := Outcome.bind_eq_ok.mp e
  injection e with e
  subst e
  obtain ⟨w, hw, hw0⟩ := resize_get hc
  exact move_inv (get_ok.mp hj) (by rw [own_of_get hw, hw0 rfl]) (resize_inv hc H) v2

theorem makeAlias_inv {s s' : St} {i j : Nat} (e : makeAlias s i j = .ok s') (H : Inv s) : Inv s' := by
  unfold makeAlias at e
  obtain ⟨vi, hi, e⟩ := Outcome.bind_eq_ok.mp e
  obtain ⟨vj, hj, e⟩ := Outcome.bind_eq_ok.mp e
  obtain ⟨s1, hs, e⟩ := Outcome.bind_eq_ok.mp e
  obtain ⟨vi', hi', e⟩ := Outcome.bind_eq_ok.mp e
  obtain ⟨vj', hj', e⟩ := Outcome.bind_eq_ok.mp e
  injection e with e
  subst e
  have H1 : Inv s1 := by
    split at hs
    · split at hs
      · cases hs
      · exact resize_inv hs H
    · injection hs with hs; subst hs; exact H
  exact set_inv (get_ok.mp hi') rfl H1

theorem assign_inv {s s' : St} {i j : Nat} (e : assign s i j = .ok s') (H : Inv s) : Inv s' := by
  unfold assign at e
  obtain ⟨vj, -, e⟩ := Outcome.bind_eq_ok.mp e
  split at e
  · exact clone_inv e H
  · exact makeAlias_inv e H

theorem fresh_ok {s : St} {k : Nat} {u : Unit} (h : fresh s k = .ok u) : s.vecs k = none := by
  unfold fresh at h
  cases hk : s.vecs k with
  | none => rfl
  | some v => rw [hk] at h; cases h

theorem new_inv {s : St} {k : Nat} {v : Vec} (hk : s.vecs k = none) (hv : v.mData = none) (H : Inv s) : Inv (s.set k v) := by
  unfold Inv
  have : s.own k = none := by simp [St.own, hk]
  rw [own_set, hv, ← this, upd_eq_self]
  exact H

theorem construct_inv {s s' : St} {k n : Nat} (e : construct s k n = .ok s') (H : Inv s) : Inv s' := by
  unfold construct at e
  obtain ⟨u, hf, e⟩ := Outcome.bind_eq_ok.mp e
  exact resize_inv e (new_inv (fresh_ok hf) rfl H)

theorem segment_inv {s s' : St} {k j st sp : Nat} (e : segment s k j st sp = .ok s') (H : Inv s) : Inv s' := by
  unfold segment at e
  obtain ⟨u, hf, e⟩ := Outcome.bind_eq_ok.mp e
  obtain ⟨v, -, e⟩ := Outcome.bind_eq_ok.mp e
  dsimp only at e
  split at e
  · cases e
  · injection e with e; subst e
    exact new_inv (fresh_ok hf) rfl H

theorem destroy_inv {s s' : St} {k : Nat} (e : destroy s k = .ok s') (H : Inv s) : Inv s' := by
  unfold destroy at e
  obtain ⟨s1, hc, e⟩ := Outcome.bind_eq_ok.mp e
  injection e with e
  subst e
  obtain ⟨w, hw, hw0⟩ := resize_get hc
  have H1 := resize_inv hc H
  have ho : s1.own k = none := by rw [own_of_get hw, hw0 rfl]
  have : ({ s1 with vecs := upd s1.vecs k none } : St).own = s1.own := by
    funext j
    by_cases hj : j = k
    · subst hj; rw [ho]; simp [St.own, upd]
    · simp [St.own, upd, hj]
  unfold Inv
  rw [this]
  exact H1

/-- One operation keeps the discipline. -/
theorem step_inv {s s' : St} {o : Op} (e : step s o = .ok s') (H : Inv s) : Inv s' := by
  cases o with
  | construct k n => exact construct_inv e H
  | copyShift k j =>
    simp only [step, copyShift] at e
    obtain ⟨u, hf, e⟩ := Outcome.bind_eq_ok.mp e
    obtain ⟨vj, hj, e⟩ := Outcome.bind_eq_ok.mp e
    injection e with e
    subst e
    rw [get_ok] at hj
    have hk := fresh_ok hf
    exact move_inv hj (by simp [St.own, hk]) H vj
  | copyConst k j =>
    simp only [step, copyConst] at e
    obtain ⟨u, hf, e⟩ := Outcome.bind_eq_ok.mp e
    exact clone_inv e (new_inv (fresh_ok hf) rfl H)
  | copyBit k j =>
    simp only [step, copyBit] at e
    obtain ⟨u, hf, e⟩ := Outcome.bind_eq_ok.mp e
    exact assign_inv e (new_inv (fresh_ok hf) rfl H)
  | concat k a b =>
    simp only [step, concat] at e
    obtain ⟨u, hf, e⟩ := Outcome.bind_eq_ok.mp e
    exact vConcat_inv e (new_inv (fresh_ok hf) rfl H)
  | vConcat i a b => exact vConcat_inv e H
  | segment k j st sp => exact segment_inv e H
  | tail k j st =>
    simp only [step, tail] at e
    obtain ⟨n, -, e⟩ := Outcome.bind_eq_ok.mp e
    exact segment_inv e H
  | cloneSegment k t j st sp =>
    simp only [step, cloneSegment] at e
    obtain ⟨s1, e1, e⟩ := Outcome.bind_eq_ok.mp e
    obtain ⟨s2, e2, e⟩ := Outcome.bind_eq_ok.mp e
    obtain ⟨s3, e3, e⟩ := Outcome.bind_eq_ok.mp e
    exact destroy_inv e (clone_inv e3 (construct_inv e2 (segment_inv e1 H)))
  | assign i j => exact assign_inv e H
  | assignConst i j => exact clone_inv e H
  | assignShift i j => exact shiftMem_inv e H
  | makeAlias i j => exact makeAlias_inv e H
  | resize i n => exact resize_inv e H
  | clear i => exact resize_inv e H
  | destroy i => exact destroy_inv e H
  | write i idx x =>
    simp only [step, write] at e
    obtain ⟨v, -, e⟩ := Outcome.bind_eq_ok.mp e
    split at e
    · cases e
    · obtain ⟨h, hh, e⟩ := Outcome.bind_eq_ok.mp e
      injection e with e; subst e
      exact heap_inv (writeN_frame hh) H
  | copyToSegment i o st sp =>
    simp only [step, copyToSegment] at e
    obtain ⟨v, -, e⟩ := Outcome.bind_eq_ok.mp e
    obtain ⟨w, -, e⟩ := Outcome.bind_eq_ok.mp e
    split at e
    · cases e
    · split at e
      · cases e
      · obtain ⟨h, hh, e⟩ := Outcome.bind_eq_ok.mp e
        injection e with e; subst e
        exact heap_inv (memcpy_frame hh) H
  | segmentCopyTo i o st sp =>
    simp only [step, segmentCopyTo] at e
    obtain ⟨v, -, e⟩ := Outcome.bind_eq_ok.mp e
    obtain ⟨w, -, e⟩ := Outcome.bind_eq_ok.mp e
    split at e
    · cases e
    · split at e
      · cases e
      · obtain ⟨h, hh, e⟩ := Outcome.bind_eq_ok.mp e
        injection e with e; subst e
        exact heap_inv (memcpy_frame hh) H
  | fill i x st len =>
    simp only [step, fill] at e
    obtain ⟨v, -, e⟩ := Outcome.bind_eq_ok.mp e
    split at e
    · cases e
    · obtain ⟨h, hh, e⟩ := Outcome.bind_eq_ok.mp e
      injection e with e; subst e
      exact heap_inv (writeN_frame hh) H

theorem init_inv (addr : Nat → Nat) : Inv (init addr) :=
  ⟨by simp [init], by simp [init], by simp [init, St.own], by simp [init, St.own], by simp [init]⟩

theorem run_inv (ops : List Op) {s s' : St} (e : run s ops = .ok s') (H : Inv s) : Inv s' := by
  induction ops generalizing s with
  | nil => injection e with e; subst e; exact H
  | cons o ops ih =>
    obtain ⟨s1, h1, h2⟩ := Outcome.bind_eq_ok.mp e
    exact ih h2 (step_inv h1 H)

/-- C16: in every history of operations (including self-assignment and assignment from own segments), each block is
owned by at most one vector object, no owned block has been freed, and no block was freed twice. -/
theorem C16_owned_once (addr : Nat → Nat) (ops : List Op) (s : St) (h : run (init addr) ops = .ok s) :
    (∀ b, s.heap.frees b ≤ 1) ∧
    (∀ i j v w b, s.vecs i = some v → s.vecs j = some w → v.mData = some b → w.mData = some b → i = j) ∧
    (∀ i v b, s.vecs i = some v → v.mData = some b → s.heap.frees b = 0) := by
  have H := run_inv ops h (init_inv addr)
  refine ⟨H.once, ?_, ?_⟩
  · intro i j v w b hi hj hv hw
    exact H.unique i j b (by rw [own_of_get hi, hv]) (by rw [own_of_get hj, hw])
  · intro i v b hi hv
    exact (H.alive i b (by rw [own_of_get hi, hv])).2

/-- C16: no leak: when all vector objects are gone, every block ever allocated has been freed, exactly once. -/
theorem C16_no_leak (addr : Nat → Nat) (ops : List Op) (s : St) (h : run (init addr) ops = .ok s)
    (hnone : ∀ i, s.vecs i = none) : ∀ b, b < s.heap.next → s.heap.frees b = 1 := by
  have H := run_inv ops h (init_inv addr)
  intro b hb
  have h1 := H.once b
  by_cases h0 : s.heap.frees b = 0
  · obtain ⟨i, hi⟩ := H.noLeak b hb h0
    simp [St.own, hnone i] at hi
  · omega

/-- C16: destroying an object never reports an error, whatever state the object is in. -/
theorem C16_destroy_total (s : St) (i : Nat) (v : Vec) (h : s.vecs i = some v) : ∃ s', destroy s i = .ok s' ∧ s'.vecs i = none := by
  unfold destroy clear resize
  rw [get_ok.mpr h]
  simp only [Outcome.bind_ok, vInit, if_true]
  exact ⟨_, rfl, by simp [upd]⟩

/-- A history with a copy, a segment, an assignment and destruction in "wrong" order. -/
example : (match run (init fun i => 1000 * i + 1000) [.construct 0 3, .write 0 1 (some 5), .segment 1 0 1 2, .copyConst 2 1, .assign 2 0,
    .destroy 0, .destroy 1, .destroy 2] with
  | .ok s => (s.heap.next, s.heap.frees 0, s.heap.frees 1, s.heap.frees 2)
  | _ => (0, 0, 0, 0)) = (3, 1, 1, 1) := by decide

end Verif.VectorHeap
