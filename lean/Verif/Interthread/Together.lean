import Verif.Threads.Ownership
import Verif.Interthread.HandOver

/-
Property C179: programs that use all means of `/repo/Threads.h` and `/repo/Interthread.h` together: threads are started and joined (`Start.lean`), `Mutex`es are locked and unlocked (`Mutex.lean`), and
things are handed over through queues, maps, priority queues and semaphores (`Verif.Interthread.HandOver`).  The right to use data moves with all of these.
-/

namespace Verif.Together
open Verif Verif.Threads Verif.Threads.Start Verif.Threads.Own

variable {I J : Type} {n : Nat} {B : J → Monitor.Box Nat}

/-- The threads, `Thread` objects and mutexes of the program with who may use what (`OSt`), and the objects of the classes of `Interthread.h`.  The lock inside of object `j` is `.inr j`, the mutexes
of the program are `.inl i`.  Simplification: the record that a lock keeps (`Threads.h:80-86`) is followed for the mutexes of the program only. -/
structure WSt (n : Nat) (I : Type) {J : Type} (B : J → Monitor.Box Nat) where
  g : OSt n (I ⊕ J)
  box : (j : J) → Monitor.St n (B j).σ (B j).C (B j).Op (B j).R

/-- Thread `a` is not inside of a call on any of these objects. -/
def Outside (box : (j : J) → Monitor.St n (B j).σ (B j).C (B j).Op (B j).R) (a : Nat) : Prop := ∀ j (t : Fin n), t.val = a → (box j).th t = .idle

/-- The program itself does not touch the locks inside of the objects. -/
def Ordinary : OEv (I ⊕ J) → Prop
  | .acq _ (.inr _) => False
  | .rel _ (.inr _) => False
  | _ => True

/-- Who locks the lock inside of object `j` has all that is left with it. -/
def enter [DecidableEq I] [DecidableEq J] (who : Loc (I ⊕ J) → Nat → Holder (I ⊕ J)) (t : Nat) (j : J) : Loc (I ⊕ J) → Nat → Holder (I ⊕ J)
  | .user y, k => if who (.user y) k = .mutex (.inr j) then .thread t else who (.user y) k
  | x, k => who x k

/-- Who unlocks it leaves the things there that the object now contains, with all their parts. -/
def leave [DecidableEq I] [DecidableEq J] (item : Nat → Nat) (holds : Multiset Nat) (who : Loc (I ⊕ J) → Nat → Holder (I ⊕ J)) (t : Nat) (j : J) : Loc (I ⊕ J) → Nat → Holder (I ⊕ J)
  | .user y, k => if who (.user y) k = .thread t ∧ item y ∈ holds then .mutex (.inr j) else who (.user y) k
  | x, k => who x k

/-- The same, by the owner of the lock before and after a step inside of the object. -/
def boxMove [DecidableEq I] [DecidableEq J] (item : Nat → Nat) (holds : Multiset Nat) (who : Loc (I ⊕ J) → Nat → Holder (I ⊕ J)) (j : J) :
    Option (Fin n) → Option (Fin n) → Loc (I ⊕ J) → Nat → Holder (I ⊕ J)
  | none, some t => enter who t.val j
  | some t, none => leave item holds who t.val j
  | _, _ => who

/-- What of this step counts for the order of uses. -/
def boxEvent (I : Type) (j : J) : Option (Fin n) → Option (Fin n) → List (OEv (I ⊕ J))
  | none, some t => [.acq t.val (.inr j)]
  | some t, none => [.rel t.val (.inr j)]
  | _, _ => []

/-- Steps of programs.  Variable `y` is part of thing `item y`.  Outside of calls on the objects, threads do what `OStep` says; they make calls, and hand over only things of which they may write all parts;
steps inside of the objects are those of `Verif.Monitor.Step`; with the lock inside of an object a thread uses the things in the object and those it brought or has got (the comparisons and destructors
that the classes call, `Interthread.h:192, 614, 626-633, 669`). -/
inductive WStep [DecidableEq I] [DecidableEq J] (own : (Loc (I ⊕ J) → Nat → Holder (I ⊕ J)) → Nat → Loc (I ⊕ J) → Bool → Prop) (item : Nat → Nat) : WSt n I B → WSt n I B → Prop where
  | plain (w : WSt n I B) (g' es) : OStep own w.g g' → g'.tr = w.g.tr ++ es → (∀ e ∈ es, Ordinary e ∧ Outside w.box e.agent) → WStep own item w ⟨g', w.box⟩
  | call (w : WSt n I B) (t : Fin n) (j op s') : Outside w.box t.val → Active w.g.sys t.val → w.g.sys.caller t.val = .idle → ((B j).gives op).Nodup →
      (∀ y, item y ∈ (B j).gives op → own w.g.who t.val (.user y) true) → Monitor.Step (B j).M (w.box j) (.start t op) s' → WStep own item w ⟨w.g, Function.update w.box j s'⟩
  | inner (w : WSt n I B) (j lb s') : Monitor.Step (B j).M (w.box j) lb s' → (∀ t op, lb ≠ .start t op) → (∀ t, lb ≠ .ret t) →
      WStep own item w ⟨⟨w.g.sys, w.g.mtx, boxMove item ((B j).holds s'.data) w.g.who j (w.box j).owner s'.owner, w.g.tr ++ boxEvent I j (w.box j).owner s'.owner⟩, Function.update w.box j s'⟩
  | useIn (w : WSt n I B) (t : Fin n) (j y wr) : (w.box j).owner = some t → item y ∈ (B j).holds (w.box j).data + (B j).inside (Monitor.view ((w.box j).th t)) →
      WStep own item w ⟨⟨w.g.sys, w.g.mtx, w.g.who, w.g.tr ++ [.use t.val (.user y) wr]⟩, w.box⟩
  | ret (w : WSt n I B) (t : Fin n) (j s') : Monitor.Step (B j).M (w.box j) (.ret t) s' → WStep own item w ⟨w.g, Function.update w.box j s'⟩

/-- Where things can be: in an object, or in a call on it. -/
def places (box : (j : J) → Monitor.St n (B j).σ (B j).C (B j).Op (B j).R) : Monitor.Place n J → Multiset Nat := (⟨box, fun _ => 0, []⟩ : Monitor.HState B n).at_

/-- The beginning: nothing is started, all locks are free, no calls are under way; what an object contains is left with its lock, and nothing is in two objects or twice in one. -/
structure WStart (item : Nat → Nat) (w : WSt n I B) : Prop where
  sys : w.g.sys = init
  mtx : w.g.mtx = fun _ => minit n
  tr : w.g.tr = []
  record : ∀ i k, w.g.who (.record i) k = .mutex i
  idle : ∀ j t, (w.box j).th t = .idle
  free : ∀ j, (w.box j).owner = none
  content : ∀ j y, item y ∈ (B j).holds (w.box j).data → ∀ k, w.g.who (.user y) k = .mutex (.inr j)
  single : ∀ j, ((B j).holds (w.box j).data).Nodup

inductive WReach [DecidableEq I] [DecidableEq J] (own : (Loc (I ⊕ J) → Nat → Holder (I ⊕ J)) → Nat → Loc (I ⊕ J) → Bool → Prop) (item : Nat → Nat) : WSt n I B → Prop where
  | init (w) : WStart item w → WReach own item w
  | step {w w'} : WReach own item w → WStep own item w w' → WReach own item w'

/-! ### The invariant -/

structure WInv (item : Nat → Nat) (w : WSt n I B) : Prop where
  o : OInv w.g
  act : ∀ j t, (w.box j).th t ≠ .idle → Active w.g.sys t.val ∧ w.g.sys.caller t.val = .idle
  excl : ∀ j, Monitor.Excl (w.box j)
  single : Monitor.Single (places w.box)
  inCall : ∀ j t y k, item y ∈ (B j).inside (Monitor.view ((w.box j).th t)) → w.g.who (.user y) k = .thread t.val
  boxFree : ∀ j y k, (w.box j).owner = none → item y ∈ (B j).holds (w.box j).data → w.g.who (.user y) k = .mutex (.inr j)
  boxBusy : ∀ j t y k, (w.box j).owner = some t → item y ∈ (B j).holds (w.box j).data → w.g.who (.user y) k = .thread t.val

theorem WInv.holder {item : Nat → Nat} {w : WSt n I B} (hi : WInv item w) (j : J) (t : Fin n) (h : (w.box j).owner = some t) : (w.box j).th t ≠ .idle := by
  intro e
  have := (hi.excl j t).mpr h
  rw [e] at this
  simp [Monitor.TS.holds] at this

theorem inside_idle (b : Monitor.Box Nat) {s : Monitor.TS b.C b.Op b.R} (h : s = .idle) : b.inside (Monitor.view s) = 0 := by subst h; rfl

theorem not_idle {b : Monitor.Box Nat} {s : Monitor.TS b.C b.Op b.R} {x : Nat} (h : x ∈ b.inside (Monitor.view s)) : s ≠ .idle := by
  intro e
  rw [inside_idle b e] at h
  exact absurd h (Multiset.notMem_zero x)

theorem winv_start {item : Nat → Nat} (hitem : Function.Surjective item) {w : WSt n I B} (h : WStart item w) : WInv item w := by
  have ho : OInv w.g := by
    have := oinv_init (n := n) w.g.who h.record
    have e : w.g = ⟨init, fun _ => minit n, w.g.who, []⟩ := by
      rw [← h.sys, ← h.mtx, ← h.tr]
    rw [e]
    exact this
  refine ⟨ho, fun j t hn => absurd (h.idle j t) hn, fun j t => by rw [h.idle j t, h.free j]; simp [Monitor.TS.holds], ⟨fun p => ?_, fun p q x hp hq => ?_⟩, fun j t y k hy => absurd (h.idle j t) (not_idle hy),
    fun j y k _ hy => h.content j y hy k, fun j t y k hn _ => by rw [h.free j] at hn; simp at hn⟩
  · cases p with
    | mine t => exact Multiset.nodup_zero
    | call j t => simp only [places, Monitor.HState.at_, inside_idle _ (h.idle j t)]; exact Multiset.nodup_zero
    | box j => exact h.single j
  · have key : ∀ p, x ∈ places w.box p → ∃ j, p = .box j ∧ x ∈ (B j).holds (w.box j).data := by
      intro p hp
      cases p with
      | mine t => exact absurd hp (Multiset.notMem_zero x)
      | call j t => exact absurd (h.idle j t) (not_idle hp)
      | box j => exact ⟨j, rfl, hp⟩
    obtain ⟨j, rfl, hj⟩ := key p hp
    obtain ⟨j', rfl, hj'⟩ := key q hq
    obtain ⟨y, rfl⟩ := hitem x
    have := (h.content j y hj 0).symm.trans (h.content j' y hj' 0)
    simp only [Holder.mutex.injEq, Sum.inr.injEq] at this
    rw [this]

section
variable [DecidableEq I] [DecidableEq J]

/-- What threads do outside of the objects leaves alone what is in the objects. -/
theorem plain_lock {own} {g g' : OSt n (I ⊕ J)} (h : OStep own g g') {es} (he : g'.tr = g.tr ++ es) (ho : ∀ e ∈ es, Ordinary e) {y k : Nat} {j : J} (hw : g.who (.user y) k = .mutex (.inr j)) :
    g'.who (.user y) k = .mutex (.inr j) := by
  cases h with
  | alloc c s' _ _ => simpa [Function.update_of_ne] using hw
  | create c o jb p s' gift _ _ _ => simp [give, hw]
  | joinEnd c o tid s' _ _ _ => simp [takeBack, hw]
  | lock i l s' _ _ _ _ _ _ =>
    have := ho (.acq (actor l).val i) (by rw [← List.append_cancel_left he]; simp)
    cases i with
    | inl i => simp [onLock, hw]
    | inr i => exact absurd this (by simp [Ordinary])
  | unlock i l s' gift _ _ _ _ _ _ => simp [onUnlock, hw]
  | _ => exact hw

/-- And what threads inside of calls have. -/
theorem plain_thread {own} {g g' : OSt n (I ⊕ J)} (h : OStep own g g') {es} (he : g'.tr = g.tr ++ es) {u : Nat} (ha : Active g.sys u) (ho : ∀ e ∈ es, e.agent ≠ u) {y k : Nat}
    (hw : g.who (.user y) k = .thread u) : g'.who (.user y) k = .thread u := by
  cases h with
  | alloc c s' _ _ => simpa [Function.update_of_ne] using hw
  | create c o jb p s' gift _ _ _ =>
    have : c ≠ u := ho (.fork c (g.sys.nth + 1)) (by rw [List.append_assoc] at he; rw [← List.append_cancel_left he]; simp)
    simp [give, hw, this.symm]
  | joinEnd c o tid s' _ hc hs =>
    have hne : u ≠ tid + 1 := by
      rintro rfl
      simp only [step, hc] at hs
      rw [show g.sys.th tid = some .running from ha] at hs
      simp at hs
    simp [takeBack, hw, hne]
  | lock i l s' _ _ _ _ _ _ => simp [onLock, hw]
  | unlock i l s' gift _ _ _ _ _ _ =>
    have : (actor l).val ≠ u := ho (.rel (actor l).val i) (by rw [← List.append_cancel_left he]; simp)
    simp [onUnlock, hw, this.symm]
  | _ => exact hw

/-- The thread that makes a step of `Start.lean`, where this matters. -/
def mover : Lbl → Option Nat
  | .start c _ _ _ => some c
  | .alloc c => some c
  | .create c _ => some c
  | .join c _ => some c
  | .joinEnd c => some c
  | .finish tid => some (tid + 1)
  | _ => none

theorem sys_keep {s s' : Sys} {l : Lbl} (hi : Inv s) (hs : step s l = some (.ok s')) {u : Nat} (hl : mover l ≠ some u) (ha : Active s u) (hc : s.caller u = .idle) :
    Active s' u ∧ s'.caller u = .idle := by
  have run : ∀ tid (x : Option Th), s.th tid ≠ some .running → ∀ s2 : Sys, s2.th = Function.update s.th tid x → Active s2 u := by
    intro tid x hx s2 h2
    cases u with
    | zero => trivial
    | succ v =>
      show s2.th v = some .running
      have : v ≠ tid := by rintro rfl; exact hx ha
      rw [h2, Function.update_of_ne this]
      exact ha
  have same : ∀ s2 : Sys, s2.th = s.th → Active s2 u := by
    intro s2 h2
    cases u with
    | zero => trivial
    | succ v => show s2.th v = some .running; rw [h2]; exact ha
  cases l with
  | start c o j b =>
    simp only [step] at hs
    split at hs
    · split at hs
      · simp only [Option.some.injEq, Outcome.ok.injEq] at hs
        subst hs
        have : u ≠ c := by rintro rfl; exact hl rfl
        exact ⟨same _ rfl, by dsimp only; rw [Function.update_of_ne this]; exact hc⟩
      · simp at hs
    · simp at hs
  | alloc c =>
    simp only [step] at hs
    split at hs
    · simp only [Option.some.injEq, Outcome.ok.injEq] at hs
      subst hs
      have : u ≠ c := by rintro rfl; exact hl rfl
      exact ⟨same _ rfl, by dsimp only; rw [Function.update_of_ne this]; exact hc⟩
    · simp at hs
  | create c b =>
    simp only [step] at hs
    split at hs
    · split at hs
      · simp only [Option.some.injEq, Outcome.ok.injEq] at hs
        subst hs
        have : u ≠ c := by rintro rfl; exact hl rfl
        exact ⟨run s.nth _ (by rw [hi.bound _ (Nat.le_refl _)]; simp) _ rfl, by dsimp only; rw [Function.update_of_ne this]; exact hc⟩
      · simp at hs
    · simp at hs
  | load tid =>
    simp only [step] at hs
    split at hs
    · rename_i ht
      split at hs
      · simp only [Option.some.injEq, Outcome.ok.injEq] at hs
        subst hs
        exact ⟨run tid _ (by rw [ht]; simp) _ rfl, hc⟩
      · simp at hs
    · simp at hs
  | free tid =>
    simp only [step] at hs
    split at hs
    · rename_i ht
      split at hs
      · simp only [Option.some.injEq, Outcome.ok.injEq] at hs
        subst hs
        exact ⟨run tid _ (by rw [ht]; simp) _ rfl, hc⟩
      · simp at hs
    · simp at hs
  | begin tid =>
    simp only [step] at hs
    split at hs
    · rename_i ht
      simp only [Option.some.injEq, Outcome.ok.injEq] at hs
      subst hs
      exact ⟨run tid _ (by rw [ht]; simp) _ rfl, hc⟩
    · simp at hs
  | finish tid =>
    simp only [step] at hs
    split at hs
    · simp only [Option.some.injEq, Outcome.ok.injEq] at hs
      subst hs
      refine ⟨?_, hc⟩
      cases u with
      | zero => trivial
      | succ v =>
        have : v ≠ tid := by rintro rfl; exact hl rfl
        show Function.update s.th tid _ v = _
        rw [Function.update_of_ne this]
        exact ha
    · simp at hs
  | join c o =>
    simp only [step] at hs
    split at hs
    · split at hs
      · simp only [Option.some.injEq, Outcome.ok.injEq] at hs
        subst hs
        have : u ≠ c := by rintro rfl; exact hl rfl
        exact ⟨same _ rfl, by dsimp only; rw [Function.update_of_ne this]; exact hc⟩
      · simp at hs
    · simp at hs
  | joinEnd c =>
    simp only [step] at hs
    split at hs
    · split at hs
      · rename_i ht
        simp only [Option.some.injEq, Outcome.ok.injEq] at hs
        subst hs
        have : u ≠ c := by rintro rfl; exact hl rfl
        exact ⟨run _ _ (by rw [ht]; simp) _ rfl, by dsimp only; rw [Function.update_of_ne this]; exact hc⟩
      · simp at hs
      · simp at hs
    · simp at hs

/-- Threads inside of calls stay there. -/
theorem plain_act {own} {g g' : OSt n (I ⊕ J)} (hi : Inv g.sys) (h : OStep own g g') {es} (he : g'.tr = g.tr ++ es) {u : Nat} (ha : Active g.sys u) (hc : g.sys.caller u = .idle)
    (ho : ∀ e ∈ es, e.agent ≠ u) : Active g'.sys u ∧ g'.sys.caller u = .idle := by
  cases h with
  | start c o j b s' _ _ hs => exact sys_keep hi hs (by simpa [mover, OEv.agent] using ho (.use c (.obj o) false) (by rw [← List.append_cancel_left he]; simp)) ha hc
  | alloc c s' _ hs => exact sys_keep hi hs (by simpa [mover, OEv.agent] using ho (.use c (.block g.sys.nblk) true) (by rw [← List.append_cancel_left he]; simp)) ha hc
  | create c o jb p s' gift _ _ hs =>
    exact sys_keep hi hs (by simpa [mover, OEv.agent] using ho (.fork c (g.sys.nth + 1)) (by rw [List.append_assoc] at he; rw [← List.append_cancel_left he]; simp)) ha hc
  | load tid p s' _ hs => exact sys_keep hi hs (by simp [mover]) ha hc
  | free tid p j s' _ hs => exact sys_keep hi hs (by simp [mover]) ha hc
  | begin tid s' hs => exact sys_keep hi hs (by simp [mover]) ha hc
  | finish tid s' _ hs => exact sys_keep hi hs (by simpa [mover, OEv.agent] using ho (.fin (tid + 1)) (by rw [← List.append_cancel_left he]; simp)) ha hc
  | join c o s' _ _ hs => exact sys_keep hi hs (by simpa [mover, OEv.agent] using ho (.use c (.obj o) false) (by rw [← List.append_cancel_left he]; simp)) ha hc
  | joinEnd c o tid s' _ _ hs =>
    exact sys_keep hi hs (by simpa [mover, OEv.agent] using ho (.join c (tid + 1)) (by rw [List.append_assoc] at he; rw [← List.append_cancel_left he]; simp)) ha hc
  | use a x w _ _ _ => exact ⟨ha, hc⟩
  | lock i l s' _ _ _ _ _ _ => exact ⟨ha, hc⟩
  | unlock i l s' gift _ _ _ _ _ _ => exact ⟨ha, hc⟩
  | within i l s' _ _ _ _ _ => exact ⟨ha, hc⟩

omit [DecidableEq I] [DecidableEq J] in
/-- What happens at the lock inside of an object, for the order of uses. -/
theorem oinv_event {g : OSt n (I ⊕ J)} (hi : OInv g) {who' : Loc (I ⊕ J) → Nat → Holder (I ⊕ J)} {e : OEv (I ⊕ J)} (hs : SInv who' (g.tr ++ [e]))
    (hw : ∀ x k, (∀ y, x ≠ .user y) → who' x k = g.who x k) (he : ∀ a p w, e ≠ .use a (.block p) w) (ha : Active g.sys e.agent) (hf : ∀ a b, e ≠ .fork a b) :
    OInv (⟨g.sys, g.mtx, who', g.tr ++ [e]⟩ : OSt n (I ⊕ J)) := by
  refine ⟨hi.sys, hi.mtx, hs, fun c p h k => ?_, fun t p h k => ?_, fun c o h k => ?_, fun i t h k => ?_, fun i h k => ?_, hi.active, ?_, fun t ht => ?_⟩
  · exact (hw (.block p) k (by simp)).trans (hi.cblock c p h k)
  · exact (hw (.block p) k (by simp)).trans (hi.tblock t p h k)
  · exact (hw (.obj o) k (by simp)).trans (hi.busy c o h k)
  · exact (hw (.record i) k (by simp)).trans (hi.locked i t h k)
  · exact (hw (.record i) k (by simp)).trans (hi.unlocked i h k)
  · exact unused_app hi.unused (Nat.le_refl _) fun p _ a w => he a p w
  · refine (hi.ended t ht).app ?_
    rintro (h | ⟨a, h⟩)
    · have ht : g.sys.th t = some .ended := ht
      exact active_ended ha (by rw [ht]; simp) h
    · exact hf a _ h

theorem enter_other (who : Loc (I ⊕ J) → Nat → Holder (I ⊕ J)) (t : Nat) (j : J) (x : Loc (I ⊕ J)) (k : Nat) (h : ∀ y, x ≠ .user y) : enter who t j x k = who x k := by
  cases x with
  | user y => exact absurd rfl (h y)
  | _ => rfl

theorem leave_other (item : Nat → Nat) (m : Multiset Nat) (who : Loc (I ⊕ J) → Nat → Holder (I ⊕ J)) (t : Nat) (j : J) (x : Loc (I ⊕ J)) (k : Nat) (h : ∀ y, x ≠ .user y) :
    leave item m who t j x k = who x k := by
  cases x with
  | user y => exact absurd rfl (h y)
  | _ => rfl

theorem sinv_enter {who : Loc (I ⊕ J) → Nat → Holder (I ⊕ J)} {tr : List (OEv (I ⊕ J))} (h : SInv who tr) (t : Nat) (j : J) : SInv (enter who t j) (tr ++ [.acq t (.inr j)]) := by
  refine h.move (fun _ _ _ h => nomatch h) fun x k i hp => ?_
  cases x with
  | user y =>
    simp only [enter]
    split
    · rename_i e
      rw [e] at hp
      exact hp.lock
    · exact hp.app _
  | _ => exact hp.app _

theorem sinv_leave {item : Nat → Nat} {m : Multiset Nat} {who : Loc (I ⊕ J) → Nat → Holder (I ⊕ J)} {tr : List (OEv (I ⊕ J))} (h : SInv who tr) (t : Nat) (j : J) :
    SInv (leave item m who t j) (tr ++ [.rel t (.inr j)]) := by
  refine h.move (fun _ _ _ h => nomatch h) fun x k i hp => ?_
  cases x with
  | user y =>
    simp only [leave]
    split
    · rename_i e
      rw [e.1] at hp
      exact hp.unlock
    · exact hp.app _
  | _ => exact hp.app _

end

theorem single_mono {P : Type} {f g : P → Multiset Nat} (hf : Monitor.Single f) (h : ∀ p, g p ≤ f p) : Monitor.Single g :=
  ⟨fun p => Multiset.nodup_of_le (h p) (hf.1 p), fun p q x hp hq => hf.2 p q x (Multiset.mem_of_le (h p) hp) (Multiset.mem_of_le (h q) hq)⟩

theorem single_add {P : Type} {f g : P → Multiset Nat} (hf : Monitor.Single f) (p : P) (hn : (g p).Nodup) (hd : ∀ q x, x ∈ g p → x ∉ f q) (hr : ∀ q, q ≠ p → g q = f q) : Monitor.Single g := by
  refine ⟨fun q => ?_, fun q r x hq hx => ?_⟩
  · by_cases e : q = p
    · exact e ▸ hn
    · rw [hr q e]; exact hf.1 q
  · by_cases e : q = p
    · by_cases e' : r = p
      · rw [e, e']
      · rw [hr r e'] at hx
        exact absurd hx (hd r x (e ▸ hq))
    · rw [hr q e] at hq
      by_cases e' : r = p
      · exact absurd hq (hd q x (e' ▸ hx))
      · rw [hr r e'] at hx
        exact hf.2 q r x hq hx

theorem view_none {C Op R : Type} {x : Monitor.TS C Op R} : Monitor.view x = none ↔ x = .idle := by cases x <;> simp [Monitor.view]

/-- Steps inside of an object begin and end no calls. -/
theorem inner_idle {b : Monitor.Box Nat} {s s' : Monitor.St n b.σ b.C b.Op b.R} {lb} (st : Monitor.Step b.M s lb s') (h1 : ∀ t op, lb ≠ .start t op) (h2 : ∀ t, lb ≠ .ret t) (u : Fin n) :
    s'.th u = .idle ↔ s.th u = .idle := by
  rw [← view_none, ← view_none]
  rcases Monitor.step_view st with ⟨-, e, -, -⟩ | ⟨t, op, t0, -, -, e, -⟩ | ⟨t, op, e, -⟩ | ⟨t, op, r, -, e1, e2, e3, -⟩ | ⟨t, op, r, e, -⟩
  · rw [e]
  · rw [e]
  · exact absurd e (h1 t op)
  · by_cases q : u = t
    · subst q; rw [e1, e2]; simp
    · rw [e3 u q]
  · exact absurd e (h2 t)

theorem enter_idle {b : Monitor.Box Nat} {s s' : Monitor.St n b.σ b.C b.Op b.R} {lb} (st : Monitor.Step b.M s lb s') {t : Fin n} (h1 : s.owner = none) (h2 : s'.owner = some t) : s.th t ≠ .idle := by
  cases st with
  | lock u op t0 h3 h4 =>
    simp only [Option.some.injEq] at h2
    subst h2; rw [h3]; simp
  | relock u op t0 h3 h4 =>
    simp only [Option.some.injEq] at h2
    subst h2; rw [h3]; simp
  | bodyWait u op t0 d c h3 h4 h5 => simp at h2
  | unlock u op r o h3 h4 => simp at h2
  | _ => exact absurd (h1.symm.trans h2) (by simp)

theorem places_call (box : (j : J) → Monitor.St n (B j).σ (B j).C (B j).Op (B j).R) (j : J) (t : Fin n) : places box (.call j t) = (B j).inside (Monitor.view ((box j).th t)) := rfl

theorem places_box (box : (j : J) → Monitor.St n (B j).σ (B j).C (B j).Op (B j).R) (j : J) : places box (.box j) = (B j).holds (box j).data := rfl

theorem may_all {who : Loc (I ⊕ J) → Nat → Holder (I ⊕ J)} {a : Nat} {x : Loc (I ⊕ J)} (h : ∀ k, who x k = .thread a) (w : Bool) : May who a x w := by
  cases w
  · exact ⟨0, h 0⟩
  · exact h

section
variable [DecidableEq I] [DecidableEq J]

omit [DecidableEq I] in
theorem excl_update {item : Nat → Nat} {w : WSt n I B} (hi : WInv item w) {j : J} {s' : Monitor.St n (B j).σ (B j).C (B j).Op (B j).R} (h : Monitor.Excl s') (j' : J) :
    Monitor.Excl (Function.update w.box j s' j') := by
  by_cases e : j' = j
  · subst e; rw [Function.update_self]; exact h
  · rw [Function.update_of_ne e]; exact hi.excl j'

theorem winv_inner (hB : ∀ j, (B j).Fair) {item : Nat → Nat} {w : WSt n I B} (hi : WInv item w) {j : J} {lb} {s' : Monitor.St n (B j).σ (B j).C (B j).Op (B j).R}
    (st : Monitor.Step (B j).M (w.box j) lb s') (h1 : ∀ t op, lb ≠ .start t op) (h2 : ∀ t, lb ≠ .ret t) :
    WInv item (⟨⟨w.g.sys, w.g.mtx, boxMove item ((B j).holds s'.data) w.g.who j (w.box j).owner s'.owner, w.g.tr ++ boxEvent I j (w.box j).owner s'.owner⟩, Function.update w.box j s'⟩ : WSt n I B) := by
  have hs : Monitor.Single (places (Function.update w.box j s')) :=
    (Monitor.hinv_step hB (h := ⟨w.box, fun _ => 0, []⟩) ⟨hi.single, fun k _ _ _ hk _ => by simp at hk, fun j _ _ _ _ _ hj _ => by simp at hj⟩ (.inner _ j lb s' st h1 h2)).single
  have idle : ∀ j' u, (Function.update w.box j s' j').th u ≠ .idle → (w.box j').th u ≠ .idle := by
    intro j' u hu
    by_cases e : j' = j
    · subst e
      rw [Function.update_self] at hu
      exact fun h => hu ((inner_idle st h1 h2 u).mpr h)
    · rwa [Function.update_of_ne e] at hu
  have src := Monitor.box_step (hB j) st h1 h2
  /- before the right moves -/
  have midCall : ∀ j' t y k, item y ∈ places (Function.update w.box j s') (.call j' t) → w.g.who (.user y) k = .thread t.val := by
    intro j' t y k hy
    rw [places_call] at hy
    by_cases e : j' = j
    · subst e
      rw [Function.update_self] at hy
      rcases src with ⟨-, e2⟩ | ⟨u, ho, e1, e2⟩
      · rw [e2] at hy
        exact hi.inCall _ t y k hy
      · by_cases eu : t = u
        · subst eu
          rcases Multiset.mem_add.mp (Multiset.mem_of_le e1 (Multiset.mem_add.mpr (.inr hy))) with h | h
          · exact hi.boxBusy _ t y k ho h
          · exact hi.inCall _ t y k h
        · rw [e2 t eu] at hy
          exact hi.inCall _ t y k hy
    · rw [Function.update_of_ne e] at hy
      exact hi.inCall _ t y k hy
  have midBusy : ∀ t y k, (w.box j).owner = some t → item y ∈ (B j).holds s'.data → w.g.who (.user y) k = .thread t.val := by
    intro t y k ho hy
    rcases src with ⟨e1, -⟩ | ⟨u, hu, e1, -⟩
    · rw [e1] at hy
      exact hi.boxBusy _ t y k ho hy
    · rw [ho] at hu
      cases hu
      rcases Multiset.mem_add.mp (Multiset.mem_of_le e1 (Multiset.mem_add.mpr (.inl hy))) with h | h
      · exact hi.boxBusy _ t y k ho h
      · exact hi.inCall _ t y k h
  have midFree : ∀ y k, (w.box j).owner = none → item y ∈ (B j).holds s'.data → w.g.who (.user y) k = .mutex (.inr j) := by
    intro y k ho hy
    rcases src with ⟨e1, -⟩ | ⟨u, hu, -⟩
    · rw [e1] at hy
      exact hi.boxFree _ y k ho hy
    · rw [ho] at hu; cases hu
  have excl := excl_update hi (Monitor.step_excl (hi.excl j) st)
  have act : ∀ j' t, (Function.update w.box j s' j').th t ≠ .idle → Active w.g.sys t.val ∧ w.g.sys.caller t.val = .idle := fun j' t h => hi.act j' t (idle j' t h)
  rcases Monitor.step_owner st with ho | ⟨t, ho, ho'⟩ | ⟨t, ho, ho'⟩
  · /- the lock stays as it is -/
    have em : boxMove item ((B j).holds s'.data) w.g.who j (w.box j).owner s'.owner = w.g.who := by rw [ho]; cases (w.box j).owner <;> rfl
    have ee : boxEvent I j (w.box j).owner s'.owner = [] := by rw [ho]; cases (w.box j).owner <;> rfl
    rw [em, ee, List.append_nil]
    refine ⟨hi.o, act, excl, hs, fun j' t y k hy => midCall j' t y k hy, fun j' y k hn hy => ?_, fun j' t y k hn hy => ?_⟩
    · by_cases e : j' = j
      · subst e
        dsimp only at hn hy ⊢
        rw [Function.update_self] at hn hy
        rw [ho] at hn
        exact midFree y k hn hy
      · dsimp only at hn hy ⊢
        rw [Function.update_of_ne e] at hn hy
        exact hi.boxFree j' y k hn hy
    · by_cases e : j' = j
      · subst e
        dsimp only at hn hy ⊢
        rw [Function.update_self] at hn hy
        rw [ho] at hn
        exact midBusy t y k hn hy
      · dsimp only at hn hy ⊢
        rw [Function.update_of_ne e] at hn hy
        exact hi.boxBusy j' t y k hn hy
  · /- a thread locks -/
    have ht := enter_idle st ho ho'
    rw [ho, ho']
    show WInv item (⟨⟨w.g.sys, w.g.mtx, enter w.g.who t.val j, w.g.tr ++ [.acq t.val (.inr j)]⟩, Function.update w.box j s'⟩ : WSt n I B)
    have keep : ∀ y k (u : Nat), w.g.who (.user y) k = .thread u → enter w.g.who t.val j (.user y) k = .thread u := by
      intro y k u h
      simp [enter, h]
    refine ⟨oinv_event hi.o (sinv_enter hi.o.shares _ _) (enter_other _ _ _) (fun _ _ _ h => nomatch h) (hi.act j t ht).1 (fun _ _ h => nomatch h), act, excl, hs,
      fun j' u y k hy => keep y k _ (midCall j' u y k hy), fun j' y k hn hy => ?_, fun j' u y k hn hy => ?_⟩
    · by_cases e : j' = j
      · subst e
        dsimp only at hn
        rw [Function.update_self, ho'] at hn
        cases hn
      · dsimp only at hn hy ⊢
        rw [Function.update_of_ne e] at hn hy
        simp [enter, hi.boxFree j' y k hn hy, e]
    · by_cases e : j' = j
      · subst e
        dsimp only at hn hy ⊢
        rw [Function.update_self] at hn hy
        rw [ho'] at hn
        cases hn
        simp [enter, midFree y k ho hy]
      · dsimp only at hn hy ⊢
        rw [Function.update_of_ne e] at hn hy
        exact keep y k _ (hi.boxBusy j' u y k hn hy)
  · /- a thread unlocks -/
    have ht := hi.holder j t ho
    rw [ho, ho']
    show WInv item (⟨⟨w.g.sys, w.g.mtx, leave item ((B j).holds s'.data) w.g.who t.val j, w.g.tr ++ [.rel t.val (.inr j)]⟩, Function.update w.box j s'⟩ : WSt n I B)
    have keep : ∀ y k (h : Holder (I ⊕ J)), w.g.who (.user y) k = h → item y ∉ (B j).holds s'.data → leave item ((B j).holds s'.data) w.g.who t.val j (.user y) k = h := by
      intro y k h e hn
      simp [leave, e, hn]
    have elsewhere : ∀ p y, p ≠ .box j → item y ∈ places (Function.update w.box j s') p → item y ∉ (B j).holds s'.data := by
      intro p y hp hy h
      refine hp (hs.2 p (.box j) (item y) hy ?_)
      rw [places_box, Function.update_self]
      exact h
    refine ⟨oinv_event hi.o (sinv_leave hi.o.shares _ _) (leave_other _ _ _ _ _) (fun _ _ _ h => nomatch h) (hi.act j t ht).1 (fun _ _ h => nomatch h), act, excl, hs,
      fun j' u y k hy => keep y k _ (midCall j' u y k hy) (elsewhere (.call j' u) y (fun h => nomatch h) hy), fun j' y k hn hy => ?_, fun j' u y k hn hy => ?_⟩
    · by_cases e : j' = j
      · subst e
        dsimp only at hn hy ⊢
        rw [Function.update_self] at hn hy
        simp [leave, midBusy t y k ho hy, hy]
      · have hne := elsewhere (.box j') y (fun h => e (by cases h; rfl)) hy
        dsimp only at hn hy ⊢
        rw [Function.update_of_ne e] at hn hy
        exact keep y k _ (hi.boxFree j' y k hn hy) hne
    · by_cases e : j' = j
      · subst e
        dsimp only at hn
        rw [Function.update_self, ho'] at hn
        cases hn
      · have hne := elsewhere (.box j') y (fun h => e (by cases h; rfl)) hy
        dsimp only at hn hy ⊢
        rw [Function.update_of_ne e] at hn hy
        exact keep y k _ (hi.boxBusy j' u y k hn hy) hne

theorem winv_step (hB : ∀ j, (B j).Fair) {item : Nat → Nat} (hitem : Function.Surjective item) {w w' : WSt n I B} (hi : WInv item w) (st : WStep May item w w') : WInv item w' := by
  cases st with
  | inner j lb s' h1 h2 h3 => exact winv_inner hB hi h1 h2 h3
  | plain g' es h1 h2 h3 =>
    have out : ∀ j (t : Fin n), (w.box j).th t ≠ .idle → ∀ e ∈ es, e.agent ≠ t.val := fun j t ht e he h => ht ((h3 e he).2 j t h.symm)
    have thread : ∀ j (t : Fin n) y k, (w.box j).th t ≠ .idle → w.g.who (.user y) k = .thread t.val → g'.who (.user y) k = .thread t.val :=
      fun j t y k ht hw => plain_thread h1 h2 (hi.act j t ht).1 (out j t ht) hw
    exact ⟨oinv_step hi.o h1, fun j t ht => plain_act hi.o.sys h1 h2 (hi.act j t ht).1 (hi.act j t ht).2 (out j t ht), hi.excl, hi.single,
      fun j t y k hy => thread j t y k (not_idle hy) (hi.inCall j t y k hy), fun j y k hn hy => plain_lock h1 h2 (fun e he => (h3 e he).1) (hi.boxFree j y k hn hy),
      fun j t y k hn hy => thread j t y k (hi.holder j t hn) (hi.boxBusy j t y k hn hy)⟩
  | useIn t j y wr h1 h2 =>
    have hw : ∀ k, w.g.who (.user y) k = .thread t.val := by
      intro k
      rcases Multiset.mem_add.mp h2 with h | h
      · exact hi.boxBusy j t y k h1 h
      · exact hi.inCall j t y k h
    exact ⟨oinv_event hi.o (hi.o.shares.use (may_all hw wr)) (fun _ _ _ => rfl) (fun _ _ _ h => nomatch h) (hi.act j t (hi.holder j t h1)).1 (fun _ _ h => nomatch h), hi.act, hi.excl, hi.single,
      hi.inCall, hi.boxFree, hi.boxBusy⟩
  | ret t j s' h1 =>
    have he := excl_update hi (Monitor.step_excl (hi.excl j) h1)
    cases h1 with
    | ret _ op r h2 =>
      /- only the call that returns is different -/
      have same : ∀ j', (Function.update w.box j { w.box j with th := Function.update (w.box j).th t .idle, tr := (w.box j).tr ++ [.ret t op r] } j').data = (w.box j').data ∧
          (Function.update w.box j { w.box j with th := Function.update (w.box j).th t .idle, tr := (w.box j).tr ++ [.ret t op r] } j').owner = (w.box j').owner ∧
          ∀ u, (Function.update w.box j { w.box j with th := Function.update (w.box j).th t .idle, tr := (w.box j).tr ++ [.ret t op r] } j').th u = (w.box j').th u ∨
            (Function.update w.box j { w.box j with th := Function.update (w.box j).th t .idle, tr := (w.box j).tr ++ [.ret t op r] } j').th u = .idle := by
        intro j'
        by_cases e : j' = j
        · subst e
          rw [Function.update_self]
          refine ⟨rfl, rfl, fun u => ?_⟩
          by_cases q : u = t
          · subst q; exact .inr (Function.update_self ..)
          · exact .inl (Function.update_of_ne q ..)
        · rw [Function.update_of_ne e]
          exact ⟨rfl, rfl, fun u => .inl rfl⟩
      generalize Function.update w.box j { w.box j with th := Function.update (w.box j).th t .idle, tr := (w.box j).tr ++ [.ret t op r] } = box' at same he ⊢
      refine ⟨hi.o, fun j' u hn => hi.act j' u ?_, he, single_mono hi.single fun p => ?_, fun j' u y k hy => hi.inCall j' u y k ?_,
        fun j' y k hn hy => hi.boxFree j' y k ((same j').2.1 ▸ hn) ((same j').1 ▸ hy), fun j' u y k hn hy => hi.boxBusy j' u y k ((same j').2.1 ▸ hn) ((same j').1 ▸ hy)⟩
      · rcases (same j').2.2 u with h | h
        · rw [← h]; exact hn
        · exact absurd h hn
      · cases p with
        | mine u => exact le_refl _
        | box j' => rw [places_box, places_box, (same j').1]
        | call j' u =>
          rw [places_call, places_call]
          rcases (same j').2.2 u with h | h
          · rw [h]
          · rw [inside_idle _ h]; exact Multiset.zero_le _
      · rcases (same j').2.2 u with h | h
        · rw [← h]; exact hy
        · exact absurd h (not_idle hy)
  | call t j op s' h1 h2 h3 h4 h5 h6 =>
    have he := excl_update hi (Monitor.step_excl (hi.excl j) h6)
    /- what is handed over is nowhere else -/
    have new : ∀ q x, x ∈ (B j).gives op → x ∉ places w.box q := by
      intro q x hx hq
      obtain ⟨y, rfl⟩ := hitem x
      have hy : w.g.who (.user y) 0 = .thread t.val := by have := h5 y hx; simp only [May, if_true] at this; exact this 0
      cases q with
      | mine u => exact absurd hq (Multiset.notMem_zero _)
      | call j' u =>
        have := hy.symm.trans (hi.inCall j' u y 0 hq)
        simp only [Holder.thread.injEq] at this
        exact not_idle hq (h1 j' u this.symm)
      | box j' =>
        cases ho : (w.box j').owner with
        | none => exact absurd (hy.symm.trans (hi.boxFree j' y 0 ho hq)) (by simp)
        | some u =>
          have := hy.symm.trans (hi.boxBusy j' u y 0 ho hq)
          simp only [Holder.thread.injEq] at this
          exact hi.holder j' u ho (h1 j' u this.symm)
    cases h6 with
    | start _ _ h7 =>
      have here : (Function.update w.box j { w.box j with th := Function.update (w.box j).th t (.entering op ⟨(w.box j).now, (w.box j).now⟩), tr := (w.box j).tr ++ [.call t op (w.box j).now] } j).th t =
          .entering op ⟨(w.box j).now, (w.box j).now⟩ := by rw [Function.update_self]; exact Function.update_self ..
      have same : ∀ j', (Function.update w.box j { w.box j with th := Function.update (w.box j).th t (.entering op ⟨(w.box j).now, (w.box j).now⟩), tr := (w.box j).tr ++ [.call t op (w.box j).now] } j').data = (w.box j').data ∧
          (Function.update w.box j { w.box j with th := Function.update (w.box j).th t (.entering op ⟨(w.box j).now, (w.box j).now⟩), tr := (w.box j).tr ++ [.call t op (w.box j).now] } j').owner = (w.box j').owner ∧
          ∀ u, ¬ (j' = j ∧ u = t) →
            (Function.update w.box j { w.box j with th := Function.update (w.box j).th t (.entering op ⟨(w.box j).now, (w.box j).now⟩), tr := (w.box j).tr ++ [.call t op (w.box j).now] } j').th u = (w.box j').th u := by
        intro j'
        by_cases e : j' = j
        · subst e
          rw [Function.update_self]
          refine ⟨rfl, rfl, fun u hu => ?_⟩
          exact Function.update_of_ne (fun q => hu ⟨rfl, q⟩) ..
        · rw [Function.update_of_ne e]
          exact ⟨rfl, rfl, fun u _ => rfl⟩
      generalize Function.update w.box j { w.box j with th := Function.update (w.box j).th t (.entering op ⟨(w.box j).now, (w.box j).now⟩), tr := (w.box j).tr ++ [.call t op (w.box j).now] } = box'
        at here same he ⊢
      have ins : places box' (.call j t) = (B j).gives op := by rw [places_call, here]; rfl
      refine ⟨hi.o, fun j' u hn => ?_, he, single_add hi.single (.call j t) (by rw [ins]; exact h4) (fun q x hx => new q x (ins ▸ hx)) (fun q hq => ?_), fun j' u y k hy => ?_,
        fun j' y k hn hy => hi.boxFree j' y k ((same j').2.1 ▸ hn) ((same j').1 ▸ hy), fun j' u y k hn hy => hi.boxBusy j' u y k ((same j').2.1 ▸ hn) ((same j').1 ▸ hy)⟩
      · by_cases e : j' = j ∧ u = t
        · rw [e.2]; exact ⟨h2, h3⟩
        · dsimp only at hn
          rw [(same j').2.2 u e] at hn
          exact hi.act j' u hn
      · cases q with
        | mine u => rfl
        | box j' => rw [places_box, places_box, (same j').1]
        | call j' u => rw [places_call, places_call, (same j').2.2 u (fun e => hq (by obtain ⟨rfl, rfl⟩ := e; rfl))]
      · by_cases e : j' = j ∧ u = t
        · obtain ⟨rfl, rfl⟩ := e
          have hy : item y ∈ places box' (.call j' u) := hy
          rw [ins] at hy
          have := h5 y hy
          simp only [May, if_true] at this
          exact this k
        · dsimp only at hy
          rw [(same j').2.2 u e] at hy
          exact hi.inCall j' u y k hy

theorem winv_reach (hB : ∀ j, (B j).Fair) {item : Nat → Nat} (hitem : Function.Surjective item) {w : WSt n I B} (h : WReach May item w) : WInv item w := by
  induction h with
  | init w hs => exact winv_start hitem hs
  | step _ st ih => exact winv_step hB hitem ih st

end

/-! ### The property -/

open Verif.Interthread.HandOver

/-- **C179** Programs that start and join threads, lock mutexes and hand things over through queues, maps, priority queues and semaphores, all at once, have no data races on variables, `Thread` objects
and the blocks passed to threads, if every thread uses outside of calls only what it has, where the right to use data moves only with starts, joins, locks and unlocks (as in C178), and things handed over move with
all their parts: from the thread into the object when it is put there, and from there to the thread that gets it. -/
theorem C179_no_race [DecidableEq I] [DecidableEq J] {kind : J → Kind} {item : Nat → Nat} (hitem : Function.Surjective item) {w : WSt n I (fun j => (kind j).box)} (h : WReach May item w)
    (x : Loc (I ⊕ J)) (hx : ∀ i, x ≠ .record i) : NoRace w.g.tr x := by
  have hr := (winv_reach (fun j => (kind j).fair) hitem h).o.shares.race
  have key : ∀ (j : Nat) e wr, w.g.tr[j]? = some e → e.touches = some (x, wr) → ∃ a, e = .use a x wr := by
    intro j e wr hj he
    cases e with
    | use a y v =>
      simp only [OEv.touches, Option.some.injEq, Prod.mk.injEq] at he
      obtain ⟨rfl, rfl⟩ := he
      exact ⟨a, rfl⟩
    | peek a i =>
      simp only [OEv.touches, Option.some.injEq, Prod.mk.injEq] at he
      exact absurd he.1.symm (hx i)
    | _ => simp [OEv.touches] at he
  intro j k e e' w1 w2 hjk hj hk he he' hw
  obtain ⟨a, rfl⟩ := key j e w1 hj he
  obtain ⟨b, rfl⟩ := key k e' w2 hk he'
  exact hr j k a b x w1 w2 hjk hj hk hw

/-- **C179** (what arrives) When a call returns, the caller may use all parts of the things it got. -/
theorem C179_arrives [DecidableEq I] [DecidableEq J] {kind : J → Kind} {item : Nat → Nat} (hitem : Function.Surjective item) {w : WSt n I (fun j => (kind j).box)} (h : WReach May item w)
    {j : J} {t : Fin n} {op r} (hr : (w.box j).th t = .after op r []) {y : Nat} (hy : item y ∈ (kind j).box.takes op r) (wr : Bool) : May w.g.who t.val (.user y) wr :=
  may_all (fun k => (winv_reach (fun j => (kind j).fair) hitem h).inCall j t y k (by rw [hr]; exact hy)) wr

/-- **C179** (what is away) As long as a thing is in an object, no thread outside of calls may use any part of it; so it cannot be handed over twice either. -/
theorem C179_away [DecidableEq I] [DecidableEq J] {kind : J → Kind} {item : Nat → Nat} (hitem : Function.Surjective item) {w : WSt n I (fun j => (kind j).box)} (h : WReach May item w)
    {j : J} {y : Nat} (hy : item y ∈ (kind j).box.holds (w.box j).data) {a : Nat} (ha : Outside w.box a) (wr : Bool) : ¬ May w.g.who a (.user y) wr := by
  have hi := winv_reach (fun j => (kind j).fair) hitem h
  intro hm
  obtain ⟨k, hk⟩ := may_read hm
  cases ho : (w.box j).owner with
  | none => exact absurd (hk.symm.trans (hi.boxFree j y k ho hy)) (by simp)
  | some u =>
    have := hk.symm.trans (hi.boxBusy j u y k ho hy)
    simp only [Holder.thread.injEq] at this
    exact hi.holder j u ho (ha j u this.symm)

/-! ### Examples of executions -/

open Verif.Interthread (Val WS QOp QRes qbody)

/-- One queue. -/
abbrev Q1 : Unit → Monitor.Box Nat := fun _ => Kind.queue.box

abbrev QSt := Monitor.St 2 (List Val) WS QOp QRes

/-- Thread 0 has everything, the queue is empty. -/
def w0 : WSt 2 Unit Q1 := ⟨⟨init, fun _ => minit 2, fun x _ => match x with | .record i => .mutex i | _ => .thread 0, []⟩, fun _ => (Monitor.init 2 ⟨5, 0⟩ [] : QSt)⟩

theorem w0_start : WStart id w0 :=
  ⟨rfl, rfl, rfl, fun _ _ => rfl, fun _ _ => rfl, fun _ => rfl, fun _ _ h => absurd h (Multiset.notMem_zero _), fun _ => Multiset.nodup_zero⟩

/-- States after steps: on threads and `Thread` objects; a use of a variable; the beginning and the end of a call; the steps inside of the queue. -/
def wsys (w : WSt 2 Unit Q1) (l : Lbl) (who : Loc (Unit ⊕ Unit) → Nat → Holder (Unit ⊕ Unit)) (es : List (OEv (Unit ⊕ Unit))) : WSt 2 Unit Q1 := ⟨onext w.g l who es, w.box⟩

def wuse (w : WSt 2 Unit Q1) (a x : Nat) : WSt 2 Unit Q1 := ⟨ouse w.g a x true, w.box⟩

def wset (w : WSt 2 Unit Q1) (f : QSt → QSt) : WSt 2 Unit Q1 := ⟨w.g, Function.update w.box () (f (w.box ()))⟩

def winner (w : WSt 2 Unit Q1) (f : QSt → QSt) : WSt 2 Unit Q1 :=
  ⟨⟨w.g.sys, w.g.mtx, boxMove id (items (f (w.box ())).data) w.g.who () (w.box ()).owner (f (w.box ())).owner, w.g.tr ++ boxEvent Unit () (w.box ()).owner (f (w.box ())).owner⟩,
    Function.update w.box () (f (w.box ()))⟩

section
variable {own : (Loc (Unit ⊕ Unit) → Nat → Holder (Unit ⊕ Unit)) → Nat → Loc (Unit ⊕ Unit) → Bool → Prop} {w : WSt 2 Unit Q1}

theorem WReach.sys (h : WReach own id w) {l who es} (hs : OStep own w.g (onext w.g l who es)) (he : ∀ e ∈ es, Ordinary e) (ho : ∀ t, (w.box ()).th t = .idle) : WReach own id (wsys w l who es) :=
  h.step (.plain w _ es hs rfl fun e m => ⟨he e m, fun _ t _ => ho t⟩)

theorem WReach.start (h : WReach own id w) (c o : Nat) (j : Job) (ho : ∀ t, (w.box ()).th t = .idle) (ha : Active w.g.sys c) (hm : own w.g.who c (.obj o) true)
    (hs : stepOk w.g.sys (.start c o j true) = true) : WReach own id (wsys w (.start c o j true) w.g.who [.use c (.obj o) false]) :=
  h.sys (.start w.g c o j true _ ha hm (step_next hs)) (by simp [Ordinary]) ho

theorem WReach.alloc (h : WReach own id w) (c p : Nat) (ho : ∀ t, (w.box ()).th t = .idle) (ha : Active w.g.sys c) (hp : w.g.sys.nblk = p) (hs : stepOk w.g.sys (.alloc c) = true) :
    WReach own id (wsys w (.alloc c) (Function.update w.g.who (.block p) fun _ => .thread c) [.use c (.block p) true]) := by
  subst hp; exact h.sys (.alloc w.g c _ ha (step_next hs)) (by simp [Ordinary]) ho

theorem WReach.create (h : WReach own id w) (c b o p : Nat) {j} (gift : Loc (Unit ⊕ Unit) → Nat → Bool) (ho : ∀ t, (w.box ()).th t = .idle) (ha : Active w.g.sys c) (hb : w.g.sys.nth + 1 = b)
    (hc : w.g.sys.caller c = .holds o j p) (hs : stepOk w.g.sys (.create c true) = true) : WReach own id (wsys w (.create c true) (give w.g.who gift c b o p) [.fork c b, .use c (.obj o) true]) := by
  subst hb
  refine h.sys ?_ (by simp [Ordinary]) ho
  have := OStep.create (own := own) w.g c o j p _ gift ha hc (step_next hs)
  rwa [List.append_assoc] at this

theorem WReach.load (h : WReach own id w) (tid p : Nat) (ho : ∀ t, (w.box ()).th t = .idle) (ht : w.g.sys.th tid = some (.fresh p)) (hs : stepOk w.g.sys (.load tid) = true) :
    WReach own id (wsys w (.load tid) w.g.who [.use (tid + 1) (.block p) false]) := h.sys (.load w.g tid p _ ht (step_next hs)) (by simp [Ordinary]) ho

theorem WReach.free (h : WReach own id w) (tid p : Nat) {j} (ho : ∀ t, (w.box ()).th t = .idle) (ht : w.g.sys.th tid = some (.loaded p j)) (hs : stepOk w.g.sys (.free tid) = true) :
    WReach own id (wsys w (.free tid) w.g.who [.use (tid + 1) (.block p) true]) := h.sys (.free w.g tid p j _ ht (step_next hs)) (by simp [Ordinary]) ho

theorem WReach.begin (h : WReach own id w) (tid : Nat) (ho : ∀ t, (w.box ()).th t = .idle) (hs : stepOk w.g.sys (.begin tid) = true) : WReach own id (wsys w (.begin tid) w.g.who []) := by
  refine h.sys ?_ (by simp) ho
  have := OStep.begin (own := own) w.g tid _ (step_next hs)
  simpa [onext] using this

theorem WReach.finish (h : WReach own id w) (tid : Nat) (ho : ∀ t, (w.box ()).th t = .idle) (hc : w.g.sys.caller (tid + 1) = .idle) (hs : stepOk w.g.sys (.finish tid) = true) :
    WReach own id (wsys w (.finish tid) w.g.who [.fin (tid + 1)]) := h.sys (.finish w.g tid _ hc (step_next hs)) (by simp [Ordinary]) ho

theorem WReach.join (h : WReach own id w) (c o : Nat) (ho : ∀ t, (w.box ()).th t = .idle) (ha : Active w.g.sys c) (hm : own w.g.who c (.obj o) true) (hs : stepOk w.g.sys (.join c o) = true) :
    WReach own id (wsys w (.join c o) w.g.who [.use c (.obj o) false]) := h.sys (.join w.g c o _ ha hm (step_next hs)) (by simp [Ordinary]) ho

theorem WReach.joinEnd (h : WReach own id w) (c o tid : Nat) (ho : ∀ t, (w.box ()).th t = .idle) (ha : Active w.g.sys c) (hc : w.g.sys.caller c = .joining o tid)
    (hs : stepOk w.g.sys (.joinEnd c) = true) : WReach own id (wsys w (.joinEnd c) (takeBack w.g.who c (tid + 1)) [.join c (tid + 1), .use c (.obj o) true]) := by
  refine h.sys ?_ (by simp [Ordinary]) ho
  have := OStep.joinEnd (own := own) w.g c o tid _ ha hc (step_next hs)
  rwa [List.append_assoc] at this

theorem WReach.use (h : WReach own id w) (a x : Nat) (ho : ∀ t, (w.box ()).th t = .idle) (ha : Active w.g.sys a) (hc : w.g.sys.caller a = .idle) (hm : own w.g.who a (.user x) true) :
    WReach own id (wuse w a x) := h.step (.plain w _ [.use a (.user x) true] (.use w.g a x true ha hc hm) rfl (by intro e he; rw [List.mem_singleton] at he; subst he; exact ⟨trivial, fun _ t _ => ho t⟩))

theorem WReach.call (h : WReach own id w) (t : Fin 2) (op : QOp) (f : QSt → QSt) (ho : ∀ t, (w.box ()).th t = .idle) (ha : Active w.g.sys t.val) (hc : w.g.sys.caller t.val = .idle)
    (hn : (qGives op).Nodup) (hm : ∀ y, y ∈ qGives op → own w.g.who t.val (.user y) true) (hs : Monitor.Step Interthread.queue (w.box () : QSt) (.start t op) (f (w.box ()))) : WReach own id (wset w f) :=
  h.step (.call w t () op _ (fun _ t _ => ho t) ha hc hn hm hs)

theorem WReach.inner (h : WReach own id w) (f : QSt → QSt) {lb} (hs : Monitor.Step Interthread.queue (w.box () : QSt) lb (f (w.box ()))) (h1 : ∀ t op, lb ≠ .start t op) (h2 : ∀ t, lb ≠ .ret t) :
    WReach own id (winner w f) := h.step (.inner w () lb _ hs h1 h2)

theorem WReach.ret (h : WReach own id w) (t : Fin 2) (f : QSt → QSt) (hs : Monitor.Step Interthread.queue (w.box () : QSt) (.ret t) (f (w.box ()))) : WReach own id (wset w f) :=
  h.step (.ret w t () _ hs)
end

/-- The first thread writes item 7, starts a thread, and sends it item 7 through the queue; the other thread uses it. -/
def sent : List (OEv (Unit ⊕ Unit)) :=
  [.use 0 (.user 7) true, .use 0 (.obj 5) false, .use 0 (.block 0) true, .fork 0 1, .use 0 (.obj 5) true, .use 1 (.block 0) false, .use 1 (.block 0) true,
    .acq 0 (.inr ()), .rel 0 (.inr ()), .acq 1 (.inr ()), .rel 1 (.inr ()), .use 1 (.user 7) true]

def stamp : Monitor.Stamp := ⟨⟨5, 0⟩, ⟨5, 0⟩⟩

/-- It ends, the first thread joins it and uses item 7 again. -/
def back : List (OEv (Unit ⊕ Unit)) := sent ++ [.fin 1, .use 0 (.obj 5) false, .join 0 1, .use 0 (.obj 5) true, .use 0 (.user 7) true]

theorem sent_reach (own : (Loc (Unit ⊕ Unit) → Nat → Holder (Unit ⊕ Unit)) → Nat → Loc (Unit ⊕ Unit) → Bool → Prop) (ho : ∀ who a x w, May who a x w → own who a x w) :
    (∃ w : WSt 2 Unit Q1, WReach own id w ∧ w.g.tr = sent ∧ (∀ t, (w.box ()).th t = .idle) ∧ w.g.sys.caller 0 = .idle) ∧ (∃ w : WSt 2 Unit Q1, WReach own id w ∧ w.g.tr = back) ∧
    (∃ w : WSt 2 Unit Q1, WReach own id w ∧ (w.box () : QSt).data = [some 7] ∧ ∀ t, (w.box ()).th t = .idle) ∧
    ∃ w : WSt 2 Unit Q1, WReach own id w ∧ (w.box () : QSt).th 1 = .after .read (.ptr (some 7)) [] ∧ w.g.tr = sent.dropLast := by
  have h := WReach.init (own := own) w0 w0_start
  replace h := h.use 0 7 (fun _ => rfl) trivial rfl (ho _ _ _ _ (by intro k; rfl))
  replace h := h.start 0 5 ⟨1, 2⟩ (fun _ => rfl) trivial (ho _ _ _ _ (by intro k; rfl)) rfl
  replace h := h.alloc 0 0 (fun _ => rfl) trivial rfl rfl
  replace h := h.create 0 1 5 0 (fun _ _ => false) (fun _ => rfl) trivial rfl rfl rfl
  replace h := h.load 0 0 (fun _ => rfl) rfl rfl
  replace h := h.free 0 0 (fun _ => rfl) rfl rfl
  replace h := h.begin 0 (fun _ => rfl) rfl
  replace h := h.call 0 (.write (some 7)) (fun s => { s with th := Function.update s.th 0 (.entering (.write (some 7)) ⟨s.now, s.now⟩), tr := s.tr ++ [.call 0 (.write (some 7)) s.now] })
    (fun _ => rfl) trivial rfl (Multiset.nodup_singleton 7) (fun y hy => by rw [Multiset.mem_singleton.mp hy]; exact ho _ _ _ _ (by intro k; rfl)) (.start _ 0 _ rfl)
  replace h := h.inner (fun s => { s with th := Function.update s.th 0 (.holding (.write (some 7)) ⟨⟨5, 0⟩, s.now⟩), owner := some 0 }) (Monitor.Step.lock _ 0 (QOp.write (some 7)) stamp rfl rfl)
    (fun _ _ e => nomatch e) (fun _ e => nomatch e)
  replace h := h.inner (fun s => { s with th := Function.update s.th 0 (.inLock (.write (some 7)) .unit [] [.one ()]), data := [some 7], tr := s.tr ++ [.lin 0 (.write (some 7)) stamp s.now s.data .unit] })
    (Monitor.Step.bodyDone _ 0 (QOp.write (some 7)) stamp [some 7] QRes.unit [] [.one ()] rfl rfl (show qbody _ _ _ _ = _ from rfl)) (fun _ _ e => nomatch e) (fun _ e => nomatch e)
  replace h := h.inner (fun s => { s with th := Function.update s.th 0 (.after (.write (some 7)) .unit [.one ()]), owner := none }) (Monitor.Step.unlock _ 0 (QOp.write (some 7)) QRes.unit [.one ()] rfl rfl)
    (fun _ _ e => nomatch e) (fun _ e => nomatch e)
  replace h := h.inner (fun s => { s with th := Function.update s.th 0 (.after (.write (some 7)) .unit []) })
    (Monitor.Step.signalOutNone _ 0 (QOp.write (some 7)) QRes.unit () [] rfl (by intro u op' t0 e; match u with | 0 => exact nomatch e | 1 => exact nomatch e)) (fun _ _ e => nomatch e) (fun _ e => nomatch e)
  replace h := h.ret 0 (fun s => { s with th := Function.update s.th 0 .idle, tr := s.tr ++ [.ret 0 (.write (some 7)) .unit] }) (Monitor.Step.ret _ 0 (QOp.write (some 7)) QRes.unit rfl)
  have h1 := h
  replace h := h.call 1 .read (fun s => { s with th := Function.update s.th 1 (.entering .read ⟨s.now, s.now⟩), tr := s.tr ++ [.call 1 .read s.now] })
    (fun t => match t with | 0 => rfl | 1 => rfl) rfl rfl Multiset.nodup_zero (fun y hy => absurd hy (Multiset.notMem_zero y)) (.start _ 1 _ rfl)
  replace h := h.inner (fun s => { s with th := Function.update s.th 1 (.holding .read ⟨⟨5, 0⟩, s.now⟩), owner := some 1 }) (Monitor.Step.lock _ 1 QOp.read stamp rfl rfl)
    (fun _ _ e => nomatch e) (fun _ e => nomatch e)
  replace h := h.inner (fun s => { s with th := Function.update s.th 1 (.inLock .read (.ptr (some 7)) [] []), data := [], tr := s.tr ++ [.lin 1 .read stamp s.now s.data (.ptr (some 7))] })
    (Monitor.Step.bodyDone _ 1 QOp.read stamp [] (QRes.ptr (some 7)) [] [] rfl rfl (show qbody _ _ _ _ = _ from rfl)) (fun _ _ e => nomatch e) (fun _ e => nomatch e)
  replace h := h.inner (fun s => { s with th := Function.update s.th 1 (.after .read (.ptr (some 7)) []), owner := none }) (Monitor.Step.unlock _ 1 QOp.read (QRes.ptr (some 7)) [] rfl rfl)
    (fun _ _ e => nomatch e) (fun _ e => nomatch e)
  have h2 := h
  replace h := h.ret 1 (fun s => { s with th := Function.update s.th 1 .idle, tr := s.tr ++ [.ret 1 .read (.ptr (some 7))] }) (Monitor.Step.ret _ 1 QOp.read (QRes.ptr (some 7)) rfl)
  replace h := h.use 1 7 (fun t => match t with | 0 => rfl | 1 => rfl) rfl rfl (ho _ _ _ _ (by intro k; rfl))
  refine ⟨⟨_, h, rfl, fun t => match t with | 0 => rfl | 1 => rfl, rfl⟩, ?_, ⟨_, h1, rfl, fun t => match t with | 0 => rfl | 1 => rfl⟩, ⟨_, h2, rfl, rfl⟩⟩
  replace h := h.finish 0 (fun t => match t with | 0 => rfl | 1 => rfl) rfl rfl
  replace h := h.join 0 5 (fun t => match t with | 0 => rfl | 1 => rfl) trivial (ho _ _ _ _ (by intro k; rfl)) rfl
  replace h := h.joinEnd 0 5 0 (fun t => match t with | 0 => rfl | 1 => rfl) trivial rfl rfl
  replace h := h.use 0 7 (fun t => match t with | 0 => rfl | 1 => rfl) trivial rfl (ho _ _ _ _ (by intro k; rfl))
  exact ⟨_, h, rfl⟩

example : ∃ w : WSt 2 Unit Q1, WReach May id w ∧ w.g.tr = back := (sent_reach May fun _ _ _ _ h => h).2.1

/- In between item 7 is away from the first thread, and then it has arrived at the other. -/
example : ∃ w : WSt 2 Unit Q1, WReach May id w ∧ ¬ May w.g.who 0 (.user 7) false := by
  obtain ⟨w, h, hd, ho⟩ := (sent_reach May fun _ _ _ _ h => h).2.2.1
  refine ⟨w, h, C179_away (kind := fun _ => .queue) (item := id) Function.surjective_id h (j := ()) ?_ (fun _ t _ => ho t) false⟩
  show 7 ∈ items (w.box () : QSt).data
  rw [hd]
  simp [items, one]

example : ∃ w : WSt 2 Unit Q1, WReach May id w ∧ May w.g.who 1 (.user 7) true := by
  obtain ⟨w, h, hr, -⟩ := (sent_reach May fun _ _ _ _ h => h).2.2.2
  exact ⟨w, h, C179_arrives (kind := fun _ => .queue) (item := id) Function.surjective_id h (j := ()) hr (Multiset.mem_singleton_self 7) true⟩

/-- **C179** (the rule is needed) Threads that go on using what they have handed over have data races: the first thread uses item 7 after the other thread has got it from the queue. -/
theorem C179_after_races : ∃ w : WSt 2 Unit Q1, WReach (fun _ _ _ _ => True) id w ∧ ¬ NoRace w.g.tr (.user 7) := by
  obtain ⟨w, h, ht, hi, hc⟩ := (sent_reach (fun _ _ _ _ => True) fun _ _ _ _ _ => trivial).1
  replace h := h.use 0 7 hi trivial hc trivial
  refine ⟨_, h, fun hr => ?_⟩
  have e : (wuse w 0 7).g.tr = sent ++ [.use 0 (.user 7) true] := by rw [← ht]; rfl
  rw [e] at hr
  have hb := hr 11 12 (.use 1 (.user 7) true) (.use 0 (.user 7) true) true true (by decide) rfl rfl rfl rfl (.inl rfl)
  refine absurd (HB.closed (P := fun k => k = 11) ?_ ?_ ?_ hb rfl) (by decide)
  · rintro j k e e' hjk hj hk hR rfl
    have hk9 : k < 13 := get_lt hk
    obtain rfl : k = 12 := by omega
    obtain rfl : OEv.use 1 (.user 7) true = e := Option.some.inj hj
    obtain rfl : OEv.use 0 (.user 7) true = e' := Option.some.inj hk
    rcases hR with hR | ⟨a, hR⟩
    · exact absurd hR (by decide)
    · simp at hR
  · rintro j k a b hjk hj hk rfl
    exact absurd (Option.some.inj hj) (by simp)
  · rintro j k a b i hjk hj hk rfl
    exact absurd (Option.some.inj hj) (by simp)

end Verif.Together
