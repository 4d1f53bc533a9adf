import Verif.Threads.Mutex
import Verif.Interthread.HandOver
import Mathlib.Logic.Relation
import Mathlib.Data.Fintype.Basic
import Mathlib.Order.Fin.Basic

/-
Property C182: programs that use several `Mutex`es (`/repo/Threads.h:74-115`, model `Verif.Threads.Mutex`) and objects of the classes of `/repo/Interthread.h` (models as in C173) do not deadlock
if mutexes are locked in a fixed order and no thread waits for an element with a mutex locked.
-/

namespace Verif.LockOrder
open Verif Verif.Threads Verif.Interthread Verif.Interthread.HandOver

variable {n : Nat} {I J : Type} {kind : J → Kind}

/-- The calls that wait until another thread does something: blocking reads and gets, also with a time limit, and `wait` (`Interthread.h:215-283, 365-412, 424-435, 504-539, 694-714, 759-764`). -/
def Waiting : (k : Kind) → k.box.Op → Prop
  | .queue => fun op : QOp => op = .read ∨ ∃ ms, op = .readT ms
  | .pair => fun op : POp => (∃ b, op = .on b .read) ∨ (∃ b ms, op = .on b (.readT ms)) ∨ ∃ ms, op = .waitEither ms
  | .queueW => fun op : WOp => op = .read ∨ (∃ ms, op = .readT ms) ∨ ∃ sz, op = .waitLow sz
  | .map => fun op : MOp => (∃ k rm, op = .get k rm) ∨ ∃ k ms rm, op = .getT k ms rm
  | .prio _ => fun op : PQOp => op = .read ∨ ∃ ms, op = .readT ms
  | .sem _ => fun op : SOp => op = .get

/-- The mutexes of the program and the objects. -/
structure DSt (n : Nat) (I : Type) {J : Type} (kind : J → Kind) where
  mtx : I → MSt n
  box : (j : J) → Monitor.St n (kind j).box.σ (kind j).box.C (kind j).box.Op (kind j).box.R

/-- Thread `t` is not inside of any call. -/
def Free (s : DSt n I kind) (t : Fin n) : Prop := (∀ i, (s.mtx i).pc t = .idle) ∧ ∀ j, (s.box j).th t = .idle

/-- All mutexes that the thread has locked come before mutex `i`, or are this one (which can be locked again). -/
def InOrder (rank : I → Nat) (s : DSt n I kind) (t : Fin n) (i : I) : Prop := ∀ i', 0 < (s.mtx i').held t → i' = i ∨ rank i' < rank i

/-- The rules: a thread makes one call at a time, and `lock` in the order of the mutexes; for `trylock` and `timedlock` the order does not matter. -/
def Rule (rank : I → Nat) (s : DSt n I kind) (i : I) : ML n → Prop
  | .lock t => Free s t ∧ InOrder rank s t i
  | .lockFile t _ => Free s t ∧ InOrder rank s t i
  | .trylock t => Free s t
  | .timedlock t _ _ => Free s t
  | .unlock t => Free s t
  | _ => True

/-- Steps of such programs: steps of calls on mutexes, calls on objects (which wait only if the caller has no mutex locked) and steps inside of the objects. -/
inductive DStep [DecidableEq I] [DecidableEq J] (rule : DSt n I kind → I → ML n → Prop) (rule' : DSt n I kind → Fin n → (j : J) → (kind j).box.Op → Prop) : DSt n I kind → DSt n I kind → Prop where
  | mutex (s : DSt n I kind) (i l s') : rule s i l → mstep (s.mtx i) l = some s' → DStep rule rule' s ⟨Function.update s.mtx i s', s.box⟩
  | call (s : DSt n I kind) (t : Fin n) (j op s') : Free s t → rule' s t j op → Monitor.Step (kind j).box.M (s.box j) (.start t op) s' → DStep rule rule' s ⟨s.mtx, Function.update s.box j s'⟩
  | inner (s : DSt n I kind) (j lb s') : (∀ t op, lb ≠ .start t op) → Monitor.Step (kind j).box.M (s.box j) lb s' → DStep rule rule' s ⟨s.mtx, Function.update s.box j s'⟩

/-- Waiting calls are made without mutexes. -/
def NoneLocked (s : DSt n I kind) (t : Fin n) (j : J) (op : (kind j).box.Op) : Prop := Waiting (kind j) op → ∀ i, (s.mtx i).held t = 0

inductive DReach [DecidableEq I] [DecidableEq J] (rule : DSt n I kind → I → ML n → Prop) (rule' : DSt n I kind → Fin n → (j : J) → (kind j).box.Op → Prop) : DSt n I kind → Prop where
  | init (now : J → Monitor.Clock) (d : (j : J) → (kind j).box.σ) : DReach rule rule' ⟨fun _ => minit n, fun j => Monitor.init n (now j) (d j)⟩
  | step {s s'} : DReach rule rule' s → DStep rule rule' s s' → DReach rule rule' s'

/-! ### What must not happen -/

/-- Thread `t` waits, without time limit, for mutex `i`. -/
def Blocked (s : DSt n I kind) (t : Fin n) (i : I) : Prop := (s.mtx i).pc t = .lockPlain ∧ (s.mtx i).free t = false

/-- It waits for thread `u`, which has this mutex. -/
def WaitsFor (s : DSt n I kind) (t u : Fin n) : Prop := ∃ i, Blocked s t i ∧ (s.mtx i).owner = some u

/-- Thread `u` is outside of calls, or its call on a mutex can go on, or it is inside of a call on an object and some call on this object can go on. -/
def GoesOn (s : DSt n I kind) (u : Fin n) : Prop :=
  Free s u ∨ (∃ i, (s.mtx i).pc u ≠ .idle ∧ ((mstep (s.mtx i) (.go u)).isSome ∨ (mstep (s.mtx i) (.timeout u)).isSome)) ∨
    ∃ j, (s.box j).th u ≠ .idle ∧ ∃ lb s', Monitor.Step (kind j).box.M (s.box j) lb s' ∧ lb.internal

/-! ### One mutex -/

/-- The mutex is about to be counted, or about to be given back. -/
def extra : PC → Nat
  | .got => 1
  | .unlocking => 1
  | _ => 0

/-- The owner is in `lock`, `trylock` or `unlock`, or has been told that it has the mutex. -/
def Own (m : MSt n) : Prop := (m.owner = none → m.depth = 0) ∧ ∀ u, m.owner = some u → 1 ≤ m.depth ∧ m.depth ≤ m.held u + extra (m.pc u)

/-- The thread that makes the step. -/
def doer : ML n → Fin n
  | .lock t => t
  | .lockFile t _ => t
  | .trylock t => t
  | .timedlock t _ _ => t
  | .unlock t => t
  | .go t => t
  | .timeout t => t

/-- What a step does to the thread that makes it, and nothing to others. -/
theorem mstep_local {m m' : MSt n} {l : ML n} (h : mstep m l = some m') :
    (∀ u, u ≠ doer l → m'.pc u = m.pc u ∧ m'.held u = m.held u) ∧
    (∀ t, l = .go t → m.pc t ≠ .idle) ∧ (∀ t, l = .timeout t → ∃ ts, m.pc t = .lockTimed ts ∨ m.pc t = .timed ts) ∧
    (m'.pc (doer l) = .lockPlain → m'.held (doer l) = m.held (doer l) ∧ (l = .lock (doer l) ∨ l = .timeout (doer l) ∧ ∃ ts, m.pc (doer l) = .lockTimed ts)) ∧
    (∀ ts, m'.pc (doer l) = .lockTimed ts → m'.held (doer l) = m.held (doer l) ∧ ∃ now, l = .lockFile (doer l) now) := by
  have other : ∀ (p : Fin n → PC) (t : Fin n) x u, u ≠ t → Function.update p t x u = p u := fun p t x u hu => Function.update_of_ne hu x p
  have other' : ∀ (p : Fin n → Nat) (t : Fin n) x u, u ≠ t → Function.update p t x u = p u := fun p t x u hu => Function.update_of_ne hu x p
  cases l with
  | lock t =>
    simp only [mstep] at h
    split at h
    · cases h
      refine ⟨fun u hu => ⟨other _ _ _ _ hu, rfl⟩, nofun, nofun, fun _ => ⟨rfl, .inl rfl⟩, fun ts e => ?_⟩
      simp [doer, MSt.goto] at e
    · cases h
  | lockFile t now =>
    simp only [mstep] at h
    split at h
    · cases h
      refine ⟨fun u hu => ⟨other _ _ _ _ hu, rfl⟩, nofun, nofun, fun e => ?_, fun ts e => ⟨rfl, now, rfl⟩⟩
      simp [doer, MSt.goto] at e
    · cases h
  | trylock t =>
    simp only [mstep] at h
    split at h
    · rename_i hp
      split at h
      · cases h
        refine ⟨fun u hu => ⟨other _ _ _ _ hu, rfl⟩, nofun, nofun, fun e => ?_, fun ts e => ?_⟩ <;> simp [doer, MSt.goto] at e
      · cases h
        refine ⟨fun u hu => ⟨rfl, rfl⟩, nofun, nofun, fun e => ?_, fun ts e => ?_⟩ <;> simp [doer, hp] at e
    · cases h
  | timedlock t ms now =>
    simp only [mstep] at h
    split at h
    · cases h
      refine ⟨fun u hu => ⟨other _ _ _ _ hu, rfl⟩, nofun, nofun, fun e => ?_, fun ts e => ?_⟩ <;> simp [doer, MSt.goto] at e
    · cases h
  | unlock t =>
    simp only [mstep] at h
    split at h
    · cases h
      refine ⟨fun u hu => ⟨other _ _ _ _ hu, other' _ _ _ _ hu⟩, nofun, nofun, fun e => ?_, fun ts e => ?_⟩ <;> simp [doer] at e
    · cases h
  | go t =>
    simp only [mstep] at h
    split at h
    · cases h
    · rename_i ts hp
      have hg : ∀ t', (ML.go t : ML n) = .go t' → m.pc t' ≠ .idle := fun t' e => by cases e; rw [hp]; simp
      split at h
      · cases h
        refine ⟨fun u hu => ⟨other _ _ _ _ hu, rfl⟩, hg, nofun, fun e => ?_, fun ts e => ?_⟩ <;> simp [doer, MSt.goto] at e
      · split at h
        · cases h
        · cases h
          refine ⟨fun u hu => ⟨other _ _ _ _ hu, rfl⟩, hg, nofun, fun e => ?_, fun ts e => ?_⟩ <;> simp [doer, MSt.goto] at e
    · rename_i hp
      have hg : ∀ t', (ML.go t : ML n) = .go t' → m.pc t' ≠ .idle := fun t' e => by cases e; rw [hp]; simp
      split at h
      · cases h
        refine ⟨fun u hu => ⟨other _ _ _ _ hu, rfl⟩, hg, nofun, fun e => ?_, fun ts e => ?_⟩ <;> simp [doer, MSt.goto] at e
      · cases h
    · rename_i hp
      cases h
      refine ⟨fun u hu => ⟨other _ _ _ _ hu, other' _ _ _ _ hu⟩, fun t' e => by cases e; rw [hp]; simp, nofun, fun e => ?_, fun ts e => ?_⟩ <;> simp [doer, MSt.success] at e
    · rename_i ts hp
      have hg : ∀ t', (ML.go t : ML n) = .go t' → m.pc t' ≠ .idle := fun t' e => by cases e; rw [hp]; simp
      split at h
      · cases h
        refine ⟨fun u hu => ⟨other _ _ _ _ hu, other' _ _ _ _ hu⟩, hg, nofun, fun e => ?_, fun ts e => ?_⟩ <;> simp [doer, MSt.success] at e
      · split at h
        · cases h
        · cases h
          refine ⟨fun u hu => ⟨other _ _ _ _ hu, other' _ _ _ _ hu⟩, hg, nofun, fun e => ?_, fun ts e => ?_⟩ <;> simp [doer, MSt.success] at e
    · rename_i hp
      cases h
      have hpc : (m.release t).pc = m.pc ∧ (m.release t).held = m.held := by simp only [MSt.release]; split <;> exact ⟨rfl, rfl⟩
      refine ⟨fun u hu => ⟨?_, ?_⟩, fun t' e => by cases e; rw [hp]; simp, nofun, fun e => ?_, fun ts e => ?_⟩
      · show Function.update (m.release t).pc t .idle u = m.pc u
        rw [hpc.1]; exact other _ _ _ _ hu
      · show (m.release t).held u = m.held u
        rw [hpc.2]
      · simp [doer, MSt.goto] at e
      · simp [doer, MSt.goto] at e
  | timeout t =>
    simp only [mstep] at h
    split at h
    · rename_i ts hp
      split at h
      · cases h
        refine ⟨fun u hu => ⟨other _ _ _ _ hu, rfl⟩, nofun, fun t' e => by cases e; exact ⟨ts, .inl hp⟩, fun e => ⟨rfl, .inr ⟨rfl, ts, hp⟩⟩, fun ts e => ?_⟩
        simp [doer, MSt.goto] at e
      · cases h
    · rename_i ts hp
      split at h
      · cases h
        refine ⟨fun u hu => ⟨other _ _ _ _ hu, rfl⟩, nofun, fun t' e => by cases e; exact ⟨ts, .inr hp⟩, fun e => ?_, fun ts e => ?_⟩ <;> simp [doer, MSt.goto] at e
      · cases h
    · cases h

theorem own_step {m m' : MSt n} {l : ML n} (ho : Own m) (h : mstep m l = some m') : Own m' := by
  obtain ⟨h0, h1⟩ := ho
  -- a change of place that keeps what is owed
  have move : ∀ (t : Fin n) (p : PC), extra p = extra (m.pc t) → Own (m.goto t p) := by
    intro t p hp
    refine ⟨h0, fun u hu => ?_⟩
    have := h1 u hu
    by_cases q : u = t
    · subst q; simpa [MSt.goto, hp] using this
    · simpa [MSt.goto, Function.update_of_ne q] using this
  -- taking it
  have take : ∀ (t : Fin n), m.free t = true → ∀ (hd : Fin n → Nat) (p : PC) (c : Int), m.held t + extra (m.pc t) + 1 ≤ hd t + extra p →
      Own (⟨some t, m.depth + 1, c, Function.update m.pc t p, hd⟩ : MSt n) := by
    intro t hf hd p c hle
    refine ⟨nofun, fun u hu => ?_⟩
    obtain rfl : t = u := Option.some.inj hu
    simp only [Function.update_self]
    simp only [MSt.free, decide_eq_true_eq] at hf
    rcases hf with hf | hf
    · rw [h0 hf]; omega
    · have := h1 t hf; omega
  cases l with
  | lock t =>
    simp only [mstep] at h
    split at h
    · rename_i hp; cases h; exact move t _ (by rw [hp]; rfl)
    · cases h
  | lockFile t now =>
    simp only [mstep] at h
    split at h
    · rename_i hp; cases h; exact move t _ (by rw [hp]; rfl)
    · cases h
  | trylock t =>
    simp only [mstep] at h
    split at h
    · rename_i hp
      split at h
      · rename_i hf; cases h; exact take t hf m.held .got m.lockCnt (by rw [hp]; simp [extra])
      · cases h; exact ⟨h0, h1⟩
    · cases h
  | timedlock t ms now =>
    simp only [mstep] at h
    split at h
    · rename_i hp; cases h; exact move t _ (by rw [hp]; rfl)
    · cases h
  | unlock t =>
    simp only [mstep] at h
    split at h
    · rename_i hp
      cases h
      refine ⟨h0, fun u hu => ?_⟩
      have := h1 u hu
      by_cases q : u = t
      · subst q
        simp only [hp.1, extra] at this
        simp only [Function.update_self, extra]
        omega
      · simpa [Function.update_of_ne q] using this
    · cases h
  | go t =>
    simp only [mstep] at h
    split at h
    · cases h
    · rename_i ts hp
      split at h
      · rename_i hf; cases h; exact take t hf m.held .got m.lockCnt (by rw [hp]; simp [extra])
      · rename_i hf
        split at h
        · cases h
        · cases h
          refine ⟨h0, fun u hu => ?_⟩
          have q : u ≠ t := by rintro rfl; exact hf (by simp [MSt.free]; exact .inr hu)
          simpa [MSt.goto, Function.update_of_ne q] using h1 u hu
    · rename_i hp
      split at h
      · rename_i hf; cases h; exact take t hf m.held .got m.lockCnt (by rw [hp]; simp [extra])
      · cases h
    · rename_i hp
      cases h
      refine ⟨h0, fun u hu => ?_⟩
      have := h1 u hu
      by_cases q : u = t
      · subst q
        simp only [hp, extra] at this
        simp only [MSt.success, Function.update_self, extra]
        omega
      · simpa [MSt.success, Function.update_of_ne q] using this
    · rename_i ts hp
      split at h
      · rename_i hf; cases h; exact take t hf (Function.update m.held t (m.held t + 1)) .idle m.lockCnt (by rw [hp]; simp [extra])
      · rename_i hf
        split at h
        · cases h
        · cases h
          refine ⟨h0, fun u hu => ?_⟩
          have q : u ≠ t := by rintro rfl; exact hf (by simp [MSt.free]; exact .inr hu)
          simpa [MSt.success, Function.update_of_ne q] using h1 u hu
    · rename_i hp
      cases h
      by_cases ho : m.owner = some t
      · have hd := h1 t ho
        simp only [hp, extra] at hd
        have e : m.release t = { m with owner := if m.depth ≤ 1 then none else some t, depth := m.depth - 1 } := by simp only [MSt.release, ho, if_true]
        rw [e]
        refine ⟨fun hn => ?_, fun u hu => ?_⟩
        · simp only [MSt.goto] at hn ⊢
          split at hn
          · omega
          · cases hn
        · simp only [MSt.goto] at hu ⊢
          split at hu
          · cases hu
          · obtain rfl : t = u := Option.some.inj hu
            simp only [Function.update_self, extra]
            omega
      · have e : m.release t = m := by simp only [MSt.release, ho, if_false]
        rw [e]
        refine ⟨h0, fun u hu => ?_⟩
        have q : u ≠ t := by rintro rfl; exact ho hu
        simpa [MSt.goto, Function.update_of_ne q] using h1 u hu
  | timeout t =>
    simp only [mstep] at h
    split at h
    · rename_i ts hp
      split at h
      · cases h; exact move t _ (by rw [hp]; rfl)
      · cases h
    · rename_i ts hp
      split at h
      · cases h; exact move t _ (by rw [hp]; rfl)
      · cases h
    · cases h

/-! ### The objects -/

theorem q_wait {op : QOp} {t0 : Monitor.Stamp} {now : Monitor.Clock} {d d' : List Val} {c : Unit} (h : qbody op t0 now d = some (.wait d' c)) : op = .read ∨ ∃ ms, op = .readT ms := by
  cases op <;> first | exact .inl rfl | exact .inr ⟨_, rfl⟩ | (simp [qbody] at h)

theorem p_wait {op : POp} {t0 now d d' c} (h : pbody op t0 now d = some (.wait d' c)) : (∃ b, op = .on b .read) ∨ (∃ b ms, op = .on b (.readT ms)) ∨ ∃ ms, op = .waitEither ms := by
  cases op with
  | waitEither ms => exact .inr (.inr ⟨_, rfl⟩)
  | on b op => cases op <;> first | exact .inl ⟨_, rfl⟩ | exact .inr (.inl ⟨_, _, rfl⟩) | (simp [pbody, qbody] at h)

theorem w_wait {op : WOp} {t0 now d d' c} (h : wbody op t0 now d = some (.wait d' c)) : op = .read ∨ (∃ ms, op = .readT ms) ∨ ∃ sz, op = .waitLow sz := by
  cases op <;> first | exact .inl rfl | exact .inr (.inl ⟨_, rfl⟩) | exact .inr (.inr ⟨_, rfl⟩) | (simp [wbody, takeW] at h)

theorem m_wait {op : MOp} {t0 now d d' c} (h : mbody op t0 now d = some (.wait d' c)) : (∃ k rm, op = .get k rm) ∨ ∃ k ms rm, op = .getT k ms rm := by
  cases op <;> first | exact .inl ⟨_, _, rfl⟩ | exact .inr ⟨_, _, _, rfl⟩ | (simp only [mbody] at h; first | (split at h <;> cases h) | cases h)

theorem pq_wait {gt : Nat → Nat → Prop} {op : PQOp} {t0 now d d' c} (h : pqbody gt op t0 now d (.wait d' c)) : op = .read ∨ ∃ ms, op = .readT ms := by
  cases op <;> first | exact .inl rfl | exact .inr ⟨_, rfl⟩ | (simp [pqbody] at h)

theorem s_wait {op : SOp} {t0 now d d' c} (h : sbody op t0 now d = some (.wait d' c)) : op = .get := by
  cases op <;> first | rfl | (simp [sbody] at h)

/-- Only the calls listed as waiting wait. -/
theorem waiting_only (k : Kind) {op : k.box.Op} {t0 : Monitor.Stamp} {now : Monitor.Clock} {d d' : k.box.σ} {c : k.box.C} (h : k.box.M.body op t0 now d (.wait d' c)) : Waiting k op := by
  cases k with
  | queue => exact q_wait h
  | pair => exact p_wait h
  | queueW => exact w_wait h
  | map => exact m_wait h
  | prio gt => exact pq_wait h
  | sem P => exact s_wait h

/-- In one step of an object every thread keeps its call, returns from it or begins one; and it comes to wait only in a pass that ends so. -/
theorem step_threads {σ C Op R : Type} [DecidableEq C] {M : Monitor.Mon σ C Op R} {s s' : Monitor.St n σ C Op R} {lb} (h1 : ∀ t op, lb ≠ .start t op) (st : Monitor.Step M s lb s') (u : Fin n) :
    ((s.th u = .idle → s'.th u = .idle) ∧ ∀ op, (s'.th u).op? = some op → (s.th u).op? = some op) ∧
    ∀ op t0 c, s'.th u = .waiting op t0 c → s.th u = .waiting op t0 c ∨ ∃ d', M.body op t0 s.now s.data (.wait d' c) := by
  have one : ∀ (t : Fin n) (x : Monitor.TS C Op R), s.th t ≠ .idle → (∀ op, x.op? = some op → (s.th t).op? = some op) →
      (∀ op t0 c, x = .waiting op t0 c → ∃ d', M.body op t0 s.now s.data (.wait d' c)) →
      ((s.th u = .idle → Function.update s.th t x u = .idle) ∧ ∀ op, (Function.update s.th t x u).op? = some op → (s.th u).op? = some op) ∧
      ∀ op t0 c, Function.update s.th t x u = .waiting op t0 c → s.th u = .waiting op t0 c ∨ ∃ d', M.body op t0 s.now s.data (.wait d' c) := by
    intro t x hn hx hw
    by_cases q : u = t
    · subst q
      simp only [Function.update_self]
      exact ⟨⟨fun e => absurd e hn, hx⟩, fun op t0 c e => .inr (hw op t0 c e)⟩
    · simp only [Function.update_of_ne q]
      exact ⟨⟨id, fun _ => id⟩, fun _ _ _ => .inl⟩
  have two : ∀ (t v : Fin n) (x y : Monitor.TS C Op R), s.th t ≠ .idle → s.th v ≠ .idle → (∀ op, x.op? = some op → (s.th t).op? = some op) → (∀ op, y.op? = some op → (s.th v).op? = some op) →
      (∀ op t0 c, x ≠ .waiting op t0 c) → (∀ op t0 c, y ≠ .waiting op t0 c) →
      ((s.th u = .idle → Function.update (Function.update s.th t x) v y u = .idle) ∧ ∀ op, (Function.update (Function.update s.th t x) v y u).op? = some op → (s.th u).op? = some op) ∧
      ∀ op t0 c, Function.update (Function.update s.th t x) v y u = .waiting op t0 c → s.th u = .waiting op t0 c ∨ ∃ d', M.body op t0 s.now s.data (.wait d' c) := by
    intro t v x y hn hn' hx hy hw hw'
    by_cases q : u = v
    · subst q
      simp only [Function.update_self]
      exact ⟨⟨fun e => absurd e hn', hy⟩, fun op t0 c e => absurd e (hw' _ _ _)⟩
    · simp only [Function.update_of_ne q]
      exact one t x hn hx fun op t0 c e => absurd e (hw _ _ _)
  have all : ∀ (t : Fin n) (x : Monitor.TS C Op R) (c' : C), s.th t ≠ .idle → (∀ op, x.op? = some op → (s.th t).op? = some op) → (∀ op t0 c, x ≠ .waiting op t0 c) →
      ((s.th u = .idle → Function.update (fun u => (s.th u).wake c') t x u = .idle) ∧ ∀ op, (Function.update (fun u => (s.th u).wake c') t x u).op? = some op → (s.th u).op? = some op) ∧
      ∀ op t0 c, Function.update (fun u => (s.th u).wake c') t x u = .waiting op t0 c → s.th u = .waiting op t0 c ∨ ∃ d', M.body op t0 s.now s.data (.wait d' c) := by
    intro t x c' hn hx hw
    by_cases q : u = t
    · subst q
      simp only [Function.update_self]
      exact ⟨⟨fun e => absurd e hn, hx⟩, fun op t0 c e => absurd e (hw _ _ _)⟩
    · simp only [Function.update_of_ne q]
      refine ⟨⟨fun e => by rw [e]; rfl, fun op e => by rwa [Monitor.wake_op] at e⟩, fun op t0 c e => .inl ?_⟩
      cases e' : s.th u <;> rw [e'] at e <;> simp only [Monitor.TS.wake] at e <;> (try split at e) <;> first | exact e | cases e
  cases st with
  | start t op e => exact absurd rfl (h1 t op)
  | lock t op t0 e ho => exact one t _ (by rw [e]; nofun) (fun op' h => by rw [e]; exact h) nofun
  | bodyDone t op t0 d r inner outer e ho hb => exact one t _ (by rw [e]; nofun) (fun op' h => by rw [e]; exact h) nofun
  | bodyWait t op t0 d c e ho hb => exact one t _ (by rw [e]; nofun) (fun op' h => by rw [e]; exact h) (fun _ _ _ e' => by cases e'; exact ⟨d, hb⟩)
  | bodySpin t op t0 d e ho hb => exact ⟨⟨id, fun _ => id⟩, fun _ _ _ => .inl⟩
  | spurious t op t0 c e => exact one t _ (by rw [e]; nofun) (fun op' h => by rw [e]; exact h) nofun
  | relock t op t0 e ho => exact one t _ (by rw [e]; nofun) (fun op' h => by rw [e]; exact h) nofun
  | signalIn t op r c inner outer v op' t0 e ev => exact two t v _ _ (by rw [e]; nofun) (by rw [ev]; nofun) (fun _ h => by rw [e]; exact h) (fun _ h => by rw [ev]; exact h) nofun nofun
  | signalInNone t op r c inner outer e ev => exact one t _ (by rw [e]; nofun) (fun op' h => by rw [e]; exact h) nofun
  | bcastIn t op r c inner outer e => exact all t _ c (by rw [e]; nofun) (fun op' h => by rw [e]; exact h) nofun
  | unlock t op r outer e ho => exact one t _ (by rw [e]; nofun) (fun op' h => by rw [e]; exact h) nofun
  | signalOut t op r c outer v op' t0 e ev => exact two t v _ _ (by rw [e]; nofun) (by rw [ev]; nofun) (fun _ h => by rw [e]; exact h) (fun _ h => by rw [ev]; exact h) nofun nofun
  | signalOutNone t op r c outer e ev => exact one t _ (by rw [e]; nofun) (fun op' h => by rw [e]; exact h) nofun
  | bcastOut t op r c outer e => exact all t _ c (by rw [e]; nofun) (fun op' h => by rw [e]; exact h) nofun
  | ret t op r e => exact one t _ (by rw [e]; nofun) (fun op' h => by cases h) nofun
  | tick now => exact ⟨⟨id, fun _ => id⟩, fun _ _ _ => .inl⟩

/-! ### The invariant -/

structure Inv (rank : I → Nat) (s : DSt n I kind) : Prop where
  own : ∀ i, Own (s.mtx i)
  one : ∀ i t, (s.mtx i).pc t ≠ .idle → (∀ i', i' ≠ i → (s.mtx i').pc t = .idle) ∧ ∀ j, (s.box j).th t = .idle
  order : ∀ i t, ((s.mtx i).pc t = .lockPlain ∨ ∃ ts, (s.mtx i).pc t = .lockTimed ts) → InOrder rank s t i
  quick : ∀ j t op, ((s.box j).th t).op? = some op → Waiting (kind j) op → ∀ i, (s.mtx i).held t = 0
  noWait : ∀ j t op t0 c, (s.box j).th t = .waiting op t0 c → Waiting (kind j) op
  excl : ∀ j, Monitor.Excl (s.box j)

variable [DecidableEq I] [DecidableEq J]

theorem inv_reach {rank : I → Nat} {s : DSt n I kind} (h : DReach (Rule rank) NoneLocked s) : Inv rank s := by
  induction h with
  | init now d =>
    refine ⟨fun i => ⟨fun _ => rfl, nofun⟩, fun i t e => absurd rfl e, fun i t e i' hi => ?_, fun j t op e => (by cases e), fun j t op t0 c e => (by cases e), fun j t => ⟨nofun, nofun⟩⟩
    exact absurd hi (Nat.lt_irrefl 0)
  | @step s s' hr hstep ih =>
    cases hstep with
    | mutex i l m' hrule hm =>
      obtain ⟨hother, hgo, hto, hplain, htimed⟩ := mstep_local hm
      have alone : (∀ i', i' ≠ i → (s.mtx i').pc (doer l) = .idle) ∧ ∀ j, (s.box j).th (doer l) = .idle := by
        cases l with
        | lock t => exact ⟨fun i' _ => hrule.1.1 i', hrule.1.2⟩
        | lockFile t now => exact ⟨fun i' _ => hrule.1.1 i', hrule.1.2⟩
        | trylock t => exact ⟨fun i' _ => hrule.1 i', hrule.2⟩
        | timedlock t ms now => exact ⟨fun i' _ => hrule.1 i', hrule.2⟩
        | unlock t => exact ⟨fun i' _ => hrule.1 i', hrule.2⟩
        | go t => exact ih.one i t (hgo t rfl)
        | timeout t =>
          obtain ⟨ts, e⟩ := hto t rfl
          exact ih.one i t (by rcases e with e | e <;> rw [e] <;> simp)
      have same : ∀ u, u ≠ doer l → ∀ i', (Function.update s.mtx i m' i').pc u = (s.mtx i').pc u ∧ (Function.update s.mtx i m' i').held u = (s.mtx i').held u := by
        intro u hu i'
        by_cases q : i' = i
        · subst q; rw [Function.update_self]; exact hother u hu
        · rw [Function.update_of_ne q]; exact ⟨rfl, rfl⟩
      refine ⟨fun i' => ?_, fun i' t e => ?_, fun i' t e => ?_, fun j t op e hw => ?_, ih.noWait, ih.excl⟩
      · by_cases q : i' = i
        · subst q; simpa using own_step (ih.own i') hm
        · simpa [Function.update_of_ne q] using ih.own i'
      · by_cases ht : t = doer l
        · subst ht
          have q : i' = i := by
            by_contra q
            dsimp only at e
            rw [Function.update_of_ne q] at e
            exact e (alone.1 i' q)
          subst q
          refine ⟨fun k hk => ?_, alone.2⟩
          dsimp only
          rw [Function.update_of_ne hk]; exact alone.1 k hk
        · dsimp only at e
          rw [(same t ht i').1] at e
          refine ⟨fun k hk => ?_, (ih.one i' t e).2⟩
          dsimp only
          rw [(same t ht k).1]; exact (ih.one i' t e).1 k hk
      · by_cases ht : t = doer l
        · subst ht
          have q : i' = i := by
            by_contra q
            dsimp only at e
            rw [Function.update_of_ne q, alone.1 i' q] at e
            rcases e with e | ⟨ts, e⟩ <;> cases e
          subst q
          dsimp only at e
          rw [Function.update_self] at e
          have key : m'.held (doer l) = (s.mtx i').held (doer l) ∧ InOrder rank s (doer l) i' := by
            rcases e with e | ⟨ts, e⟩
            · obtain ⟨h1, h2⟩ := hplain e
              refine ⟨h1, ?_⟩
              rcases h2 with h2 | ⟨h2, ts, h3⟩
              · rw [h2] at hrule; exact hrule.2
              · exact ih.order i' _ (.inr ⟨ts, h3⟩)
            · obtain ⟨h1, now, h2⟩ := htimed ts e
              refine ⟨h1, ?_⟩
              rw [h2] at hrule; exact hrule.2
          intro k hk
          refine key.2 k ?_
          by_cases q : k = i'
          · subst q
            dsimp only at hk
            rwa [Function.update_self, key.1] at hk
          · dsimp only at hk
            rwa [Function.update_of_ne q] at hk
        · dsimp only at e
          rw [(same t ht i').1] at e
          intro k hk
          exact ih.order i' t e k (by dsimp only at hk; rwa [(same t ht k).2] at hk)
      · intro k
        have ht : t ≠ doer l := by
          rintro rfl
          have e' : ((s.box j).th (doer l)).op? = some op := e
          rw [alone.2 j] at e'
          cases e'
        show (Function.update s.mtx i m' k).held t = 0
        rw [(same t ht k).2]
        exact ih.quick j t op e hw k
    | call t j op b' hf hrule' st =>
      have hb : ∀ j' u, u ≠ t → (Function.update s.box j b' j').th u = (s.box j').th u := by
        intro j' u hu
        by_cases q : j' = j
        · subst q
          rw [Function.update_self]
          cases st
          exact Function.update_of_ne hu _ _
        · rw [Function.update_of_ne q]
      refine ⟨ih.own, fun i u e => ⟨(ih.one i u e).1, fun j' => ?_⟩, ih.order, fun j' u op' e hw i => ?_, fun j' u op' t0 c e => ?_, fun j' => ?_⟩
      · have hu : u ≠ t := by rintro rfl; exact e (hf.1 i)
        exact (hb j' u hu).trans ((ih.one i u e).2 j')
      · by_cases hu : u = t
        · subst hu
          by_cases q : j' = j
          · subst q
            dsimp only at e
            rw [Function.update_self] at e
            cases st
            simp only [Function.update_self, Monitor.TS.op?, Option.some.injEq] at e
            subst e
            exact hrule' hw i
          · dsimp only at e
            rw [Function.update_of_ne q, hf.2 j'] at e
            cases e
        · dsimp only at e
          rw [hb j' u hu] at e
          exact ih.quick j' u op' e hw i
      · by_cases hu : u = t
        · subst hu
          by_cases q : j' = j
          · subst q
            dsimp only at e
            rw [Function.update_self] at e
            cases st
            simp only [Function.update_self] at e
            cases e
          · dsimp only at e
            rw [Function.update_of_ne q, hf.2 j'] at e
            cases e
        · dsimp only at e
          rw [hb j' u hu] at e
          exact ih.noWait j' u op' t0 c e
      · by_cases q : j' = j
        · subst q; simpa using Monitor.step_excl (ih.excl j') st
        · simpa [Function.update_of_ne q] using ih.excl j'
    | inner j lb b' hl st =>
      have hb := fun u => step_threads hl st u
      refine ⟨ih.own, fun i u e => ⟨(ih.one i u e).1, fun j' => ?_⟩, ih.order, fun j' u op' e hw i => ?_, fun j' u op' t0 c e => ?_, fun j' => ?_⟩
      · by_cases q : j' = j
        · subst q; simpa using (hb u).1.1 ((ih.one i u e).2 j')
        · simpa [Function.update_of_ne q] using (ih.one i u e).2 j'
      · by_cases q : j' = j
        · subst q
          dsimp only at e
          rw [Function.update_self] at e
          exact ih.quick j' u op' ((hb u).1.2 op' e) hw i
        · dsimp only at e
          rw [Function.update_of_ne q] at e
          exact ih.quick j' u op' e hw i
      · by_cases q : j' = j
        · subst q
          dsimp only at e
          rw [Function.update_self] at e
          rcases (hb u).2 op' t0 c e with e | ⟨d', hw⟩
          · exact ih.noWait j' u op' t0 c e
          · exact waiting_only _ hw
        · dsimp only at e
          rw [Function.update_of_ne q] at e
          exact ih.noWait j' u op' t0 c e
      · by_cases q : j' = j
        · subst q; simpa using Monitor.step_excl (ih.excl j') st
        · simpa [Function.update_of_ne q] using ih.excl j'

/-! ### The theorems -/

/-- The passes that are about to run are defined: no overflow of the clock in calls with a time limit, and comparisons that order the elements. -/
def Defined (s : DSt n I kind) : Prop := ∀ j t op t0, (s.box j).th t = .holding op t0 → ∃ a, (kind j).box.M.body op t0 (s.box j).now (s.box j).data a

omit [DecidableEq I] [DecidableEq J] in
/-- A thread that waits for a mutex waits for one that comes later than the one for which the threads wait that wait for it. -/
theorem rank_lt {rank : I → Nat} {s : DSt n I kind} (h : Inv rank s) {i i2 : I} {u : Fin n} (ho : (s.mtx i).owner = some u) (hb : Blocked s u i2) : rank i < rank i2 := by
  have hne : i ≠ i2 := by
    rintro rfl
    have := hb.2
    simp [MSt.free, ho] at this
  have hp : (s.mtx i2).pc u ≠ .idle := by rw [hb.1]; simp
  have hi : (s.mtx i).pc u = .idle := (h.one i2 u hp).1 i hne
  have hd := (h.own i).2 u ho
  rw [hi] at hd
  have hh : 0 < (s.mtx i).held u := by simp only [extra] at hd; omega
  exact (h.order i2 u (.inl hb.1) i hh).resolve_left hne

omit [DecidableEq I] [DecidableEq J] in
/-- A thread that does not wait for elements goes on or waits for a mutex. -/
theorem thread_goes {rank : I → Nat} {s : DSt n I kind} (h : Inv rank s) (hd : Defined s) {u : Fin n} (hq : ∀ j op t0 c, (s.box j).th u ≠ .waiting op t0 c) : GoesOn s u ∨ ∃ i2, Blocked s u i2 := by
  by_cases hp : ∃ i2, (s.mtx i2).pc u ≠ .idle
  · obtain ⟨i2, hp⟩ := hp
    by_cases hb : Blocked s u i2
    · exact .inr ⟨i2, hb⟩
    · refine .inl (.inr (.inl ⟨i2, hp, ?_⟩))
      simp only [mstep]
      cases e : (s.mtx i2).pc u with
      | idle => exact absurd e hp
      | lockPlain =>
        have : (s.mtx i2).free u = true := by
          by_contra q
          exact hb ⟨e, by simpa using q⟩
        left; simp [this]
      | got => left; simp
      | unlocking => left; simp
      | lockTimed ts =>
        cases hf : (s.mtx i2).free u
        · cases hv : decide (validTS ts)
          · left; simp at hv; simp [hv]
          · right; simp at hv; simp [hv]
        · left; simp
      | timed ts =>
        cases hf : (s.mtx i2).free u
        · cases hv : decide (validTS ts)
          · left; simp at hv; simp [hv]
          · right; simp at hv; simp [hv]
        · left; simp
  · have hp : ∀ i2, (s.mtx i2).pc u = .idle := fun i2 => by
      by_contra q
      exact hp ⟨i2, q⟩
    left
    by_cases hj : ∃ j, (s.box j).th u ≠ .idle
    · obtain ⟨j, hj⟩ := hj
      refine .inr (.inr ⟨j, hj, Monitor.progress (h.excl j) (hd j) fun hs => ?_⟩)
      rcases hs u with e | ⟨op, t0, c, e⟩
      · exact hj e
      · exact hq j op t0 c e
    · exact .inl ⟨hp, fun j => by
        by_contra q
        exact hj ⟨j, q⟩⟩

omit [DecidableEq I] [DecidableEq J] in
/-- The thread that has a mutex goes on or waits for another mutex. -/
theorem owner_goes {rank : I → Nat} {s : DSt n I kind} (h : Inv rank s) (hd : Defined s) {i : I} {u : Fin n} (ho : (s.mtx i).owner = some u) : GoesOn s u ∨ ∃ i2, Blocked s u i2 := by
  refine thread_goes h hd fun j op t0 c e => ?_
  have h1 := h.quick j u op (by rw [e]; rfl) (h.noWait j u op t0 c e) i
  have h2 := (h.own i).2 u ho
  have h3 : (s.mtx i).pc u = .idle := by
    by_contra q
    have := (h.one i u q).2 j
    rw [e] at this
    cases this
  rw [h1, h3] at h2
  simp only [extra] at h2
  omega

omit [DecidableEq I] [DecidableEq J] in
/-- The mutexes for which threads wait have a last one. -/
theorem bounded {rank : I → Nat} {s : DSt n I kind} (h : Inv rank s) : ∃ b, ∀ t i, Blocked s t i → rank i ≤ b := by
  classical
  have hu : ∀ t, ∃ b, ∀ i, Blocked s t i → rank i ≤ b := by
    intro t
    by_cases q : ∃ i, Blocked s t i
    · obtain ⟨i, hi⟩ := q
      refine ⟨rank i, fun i' hi' => ?_⟩
      have : i' = i := by
        by_contra q
        have := (h.one i t (by rw [hi.1]; simp)).1 i' q
        rw [hi'.1] at this
        cases this
      rw [this]
    · exact ⟨0, fun i hi => absurd ⟨i, hi⟩ q⟩
  choose f hf using hu
  exact ⟨Finset.univ.sup f, fun t i hi => (hf t i hi).trans (Finset.le_sup (f := f) (Finset.mem_univ t))⟩

/-- C182: if mutexes are locked in a fixed order, and calls that wait for elements are made without a mutex, then a thread that waits for a mutex waits - perhaps through other threads that wait for mutexes - for a thread that can go on:
one that is outside of all calls of the library, or in a call on a mutex that can go on, or in a call on an object in which the calls go on. -/
theorem C182_goes_on {rank : I → Nat} {s : DSt n I kind} (h : DReach (Rule rank) NoneLocked s) (hd : Defined s) {t : Fin n} {i : I} (hb : Blocked s t i) :
    ∃ u, Relation.TransGen (WaitsFor s) t u ∧ GoesOn s u := by
  have hI := inv_reach h
  obtain ⟨b, hbd⟩ := bounded hI
  obtain ⟨k, hk⟩ : ∃ k, k = b - rank i := ⟨_, rfl⟩
  induction k using Nat.strongRecOn generalizing t i with
  | ind k ih =>
    obtain ⟨u, hu⟩ : ∃ u, (s.mtx i).owner = some u := by
      cases e : (s.mtx i).owner with
      | none => have := hb.2; simp [MSt.free, e] at this
      | some u => exact ⟨u, rfl⟩
    have hw : WaitsFor s t u := ⟨i, hb, hu⟩
    rcases owner_goes hI hd hu with hg | ⟨i2, hb2⟩
    · exact ⟨u, .single hw, hg⟩
    · have h1 := rank_lt hI hu hb2
      have h2 := hbd u i2 hb2
      obtain ⟨v, hv, hg⟩ := ih (b - rank i2) (by omega) hb2 rfl
      exact ⟨v, .head hw hv, hg⟩

/-- C182: and no thread waits for itself through others. -/
theorem C182_no_cycle {rank : I → Nat} {s : DSt n I kind} (h : DReach (Rule rank) NoneLocked s) (t : Fin n) : ¬ Relation.TransGen (WaitsFor s) t t := by
  have hI := inv_reach h
  have key : ∀ {a c}, Relation.TransGen (WaitsFor s) a c → ∀ i, Blocked s a i → ∀ i2, Blocked s c i2 → rank i < rank i2 := by
    intro a c hac
    induction hac using Relation.TransGen.head_induction_on with
    | single hw =>
      intro i hi i2 hi2
      obtain ⟨i', hb', ho⟩ := hw
      have : i' = i := by
        by_contra q
        have := (hI.one i _ (by rw [hi.1]; simp)).1 i' q
        rw [hb'.1] at this
        cases this
      subst this
      exact rank_lt hI ho hi2
    | head hw hr ih =>
      intro i hi i2 hi2
      obtain ⟨i', hb', ho⟩ := hw
      have : i' = i := by
        by_contra q
        have := (hI.one i _ (by rw [hi.1]; simp)).1 i' q
        rw [hb'.1] at this
        cases this
      subst this
      obtain ⟨i3, hi3⟩ : ∃ i3, Blocked s _ i3 := by
        rcases Relation.TransGen.head'_iff.mp hr with ⟨_, ⟨i3, hi3, _⟩, _⟩
        exact ⟨i3, hi3⟩
      exact (rank_lt hI ho hi3).trans (ih i3 hi3 i2 hi2)
  intro hc
  obtain ⟨i, hi⟩ : ∃ i, Blocked s t i := by
    rcases Relation.TransGen.head'_iff.mp hc with ⟨_, ⟨i, hi, _⟩, _⟩
    exact ⟨i, hi⟩
  exact Nat.lt_irrefl _ (key hc i hi i hi)

/-- C182: when no call can go on any more, and the threads outside of calls have unlocked all mutexes, then no thread is left in a call on a mutex, and in the objects threads are left only waiting for elements. -/
theorem C182_rest {rank : I → Nat} {s : DSt n I kind} (h : DReach (Rule rank) NoneLocked s) (hd : Defined s) (hm : ∀ t i, mstep (s.mtx i) (.go t) = none ∧ mstep (s.mtx i) (.timeout t) = none)
    (hj : ∀ j, ¬ ∃ lb s', Monitor.Step (kind j).box.M (s.box j) lb s' ∧ lb.internal) (hf : ∀ t, Free s t → ∀ i, (s.mtx i).held t = 0) (t : Fin n) :
    (∀ i, (s.mtx i).pc t = .idle) ∧ ∀ j, (s.box j).th t = .idle ∨ ∃ op t0 c, (s.box j).th t = .waiting op t0 c ∧ Waiting (kind j) op := by
  have hI := inv_reach h
  have stuck : ∀ t i, ¬ Blocked s t i := by
    intro t i hb
    obtain ⟨u, hu, hg⟩ := C182_goes_on h hd hb
    rcases hg with hg | ⟨i', _, hi⟩ | ⟨j, _, hs⟩
    · obtain ⟨v, _, ⟨i', _, ho⟩⟩ := Relation.TransGen.tail'_iff.mp hu
      have h1 := (hI.own i').2 u ho
      rw [hf u hg i', hg.1 i'] at h1
      simp only [extra] at h1
      omega
    · rw [(hm u i').1, (hm u i').2] at hi
      simp at hi
    · exact hj j hs
  constructor
  · intro i
    by_contra hp
    have hb := stuck t i
    have h1 := (hm t i).1
    have h2 := (hm t i).2
    simp only [mstep] at h1 h2
    cases e : (s.mtx i).pc t with
    | idle => exact hp e
    | lockPlain =>
      rw [e] at h1
      cases hfr : (s.mtx i).free t
      · exact hb ⟨e, hfr⟩
      · simp [hfr] at h1
    | got => rw [e] at h1; cases h1
    | unlocking => rw [e] at h1; cases h1
    | lockTimed ts =>
      rw [e] at h1 h2
      cases hfr : (s.mtx i).free t <;> simp [hfr] at h1 h2
      exact absurd h1 (by simpa using h2)
    | timed ts =>
      rw [e] at h1 h2
      cases hfr : (s.mtx i).free t <;> simp [hfr] at h1 h2
      exact absurd h1 (by simpa using h2)
  · intro j
    have hs : Monitor.Settled (s.box j) := by
      by_contra hn
      exact hj j (Monitor.progress (hI.excl j) (hd j) hn)
    rcases hs t with e | ⟨op, t0, c, e⟩
    · exact .inl e
    · exact .inr ⟨op, t0, c, e, hI.noWait j t op t0 c e⟩

/-! ### The passes are defined -/

/-- Calls without time limit, on objects other than priority queues. -/
def Plain : (k : Kind) → k.box.Op → Prop
  | .queue => fun op : QOp => ∀ ms, op ≠ .readT ms
  | .pair => fun op : POp => (∀ b ms, op ≠ .on b (.readT ms)) ∧ ∀ ms, op ≠ .waitEither ms
  | .queueW => fun op : WOp => ∀ ms, op ≠ .readT ms
  | .map => fun op : MOp => ∀ k ms rm, op ≠ .getT k ms rm
  | .prio _ => fun _ => False
  | .sem _ => fun _ => True

omit [DecidableEq I] [DecidableEq J] in
/-- For these the passes are always defined. -/
theorem defined_plain {s : DSt n I kind} (h : ∀ j t op, ((s.box j).th t).op? = some op → Plain (kind j) op) : Defined s := by
  intro j t op t0 e
  have hp := h j t op (by rw [e]; rfl)
  clear e
  generalize (s.box j).now = now
  generalize (s.box j).data = d
  revert op t0 d
  generalize kind j = k
  intro op t0 hp d
  cases k with
  | queue =>
    show ∃ a, qbody op t0 now d = some a
    change QOp at op
    cases op <;> first | exact ⟨_, rfl⟩ | exact absurd rfl (hp _) | (simp only [qbody]; split <;> exact ⟨_, rfl⟩)
  | pair =>
    show ∃ a, pbody op t0 now d = some a
    change POp at op
    cases op with
    | waitEither ms => exact absurd rfl (hp.2 _)
    | on b op => cases op <;> first | exact ⟨_, rfl⟩ | exact absurd rfl (hp.1 _ _) | (by_cases q : (getQ (d.get b)).1 = none <;> simp [pbody, qbody, q])
  | queueW =>
    show ∃ a, wbody op t0 now d = some a
    change WOp at op
    cases op <;> first | exact ⟨_, rfl⟩ | exact absurd rfl (hp _) | (simp only [wbody]; split <;> exact ⟨_, rfl⟩)
  | map =>
    show ∃ a, mbody op t0 now d = some a
    change MOp at op
    cases op <;> first | exact ⟨_, rfl⟩ | exact absurd rfl (hp _ _ _) | (simp only [mbody]; split <;> exact ⟨_, rfl⟩)
  | prio gt => exact hp.elim
  | sem P =>
    show ∃ a, sbody op t0 now d = some a
    change SOp at op
    cases op <;> first | exact ⟨_, rfl⟩ | (simp only [sbody]; split <;> exact ⟨_, rfl⟩)

/-! ### The rules are needed -/

/-- No objects. -/
def noKind : Empty → Kind := nofun

/-- Threads make one call at a time, without any order. -/
def AnyOrder (s : DSt n I kind) (_ : I) : ML n → Prop
  | .go _ => True
  | .timeout _ => True
  | l => Free s (doer l)

/-- C182: two threads that lock two mutexes in opposite orders can come to wait for each other. -/
theorem C182_order_needed : ∃ s : DSt 2 Bool noKind, DReach AnyOrder NoneLocked s ∧ WaitsFor s 0 1 ∧ WaitsFor s 1 0 := by
  have s0 := DReach.init (n := 2) (I := Bool) (kind := noKind) (rule := AnyOrder) (rule' := NoneLocked) (fun j => nomatch j) (fun j => nomatch j)
  have s1 := s0.step (.mutex _ false (.lock 0) _ ⟨by decide, nofun⟩ rfl)
  have s2 := s1.step (.mutex _ false (.go 0) _ trivial rfl)
  have s3 := s2.step (.mutex _ false (.go 0) _ trivial rfl)
  have s4 := s3.step (.mutex _ true (.lock 1) _ ⟨by decide, nofun⟩ rfl)
  have s5 := s4.step (.mutex _ true (.go 1) _ trivial rfl)
  have s6 := s5.step (.mutex _ true (.go 1) _ trivial rfl)
  have s7 := s6.step (.mutex _ true (.lock 0) _ ⟨by decide, nofun⟩ rfl)
  have s8 := s7.step (.mutex _ false (.lock 1) _ ⟨by decide, nofun⟩ rfl)
  exact ⟨_, s8, ⟨true, by constructor <;> decide, by decide⟩, ⟨false, by constructor <;> decide, by decide⟩⟩

/-- When all threads are outside of calls on an object, or wait, no call on it goes on by itself. -/
theorem settled_stuck {σ C Op R : Type} [DecidableEq C] {M : Monitor.Mon σ C Op R} {q : Monitor.St n σ C Op R} (h : Monitor.Settled q) : ¬ ∃ lb s', Monitor.Step M q lb s' ∧ lb.internal := by
  rintro ⟨lb, s', st, hi⟩
  have no : ∀ (t : Fin n) (x : Monitor.TS C Op R), q.th t = x → x = .idle ∨ ∃ op t0 c, x = .waiting op t0 c := fun t x e => e ▸ h t
  cases st with
  | start t op e => exact hi
  | lock t op t0 e ho => rcases no t _ e with h | ⟨_, _, _, h⟩ <;> cases h
  | bodyDone t op t0 d r inner outer e ho hb => rcases no t _ e with h | ⟨_, _, _, h⟩ <;> cases h
  | bodyWait t op t0 d c e ho hb => rcases no t _ e with h | ⟨_, _, _, h⟩ <;> cases h
  | bodySpin t op t0 d e ho hb => rcases no t _ e with h | ⟨_, _, _, h⟩ <;> cases h
  | spurious t op t0 c e => exact hi
  | relock t op t0 e ho => rcases no t _ e with h | ⟨_, _, _, h⟩ <;> cases h
  | signalIn t op r c inner outer v op' t0 e ev => rcases no t _ e with h | ⟨_, _, _, h⟩ <;> cases h
  | signalInNone t op r c inner outer e ev => rcases no t _ e with h | ⟨_, _, _, h⟩ <;> cases h
  | bcastIn t op r c inner outer e => rcases no t _ e with h | ⟨_, _, _, h⟩ <;> cases h
  | unlock t op r outer e ho => rcases no t _ e with h | ⟨_, _, _, h⟩ <;> cases h
  | signalOut t op r c outer v op' t0 e ev => rcases no t _ e with h | ⟨_, _, _, h⟩ <;> cases h
  | signalOutNone t op r c outer e ev => rcases no t _ e with h | ⟨_, _, _, h⟩ <;> cases h
  | bcastOut t op r c outer e => rcases no t _ e with h | ⟨_, _, _, h⟩ <;> cases h
  | ret t op r e => rcases no t _ e with h | ⟨_, _, _, h⟩ <;> cases h
  | tick now => exact hi

/-- One queue. -/
def oneQueue : Unit → Kind := fun _ => .queue

theorem fin_two : ∀ t : Fin 2, t = 0 ∨ t = 1 := by decide

/-- The thread with the mutex waits in the queue, the other one for the mutex. -/
theorem stuck_reach : ∃ s : DSt 2 Unit oneQueue, DReach (Rule fun _ => 0) (fun _ _ _ _ => True) s ∧ Blocked s 1 () ∧ (s.mtx ()).owner = some 0 ∧ (s.mtx ()).pc 0 = .idle ∧
    (∃ t0, (s.box ()).th 0 = .waiting (QOp.read : QOp) t0 ()) ∧ (s.box ()).th 1 = .idle := by
  have s0 := DReach.init (n := 2) (I := Unit) (kind := oneQueue) (rule := Rule fun _ => 0) (rule' := fun _ _ _ _ => True) (fun _ => ⟨0, 0⟩) (fun _ => ([] : List Val))
  have s1 := s0.step (.mutex _ () (.lock 0) _ ⟨⟨fun _ => rfl, fun _ => rfl⟩, fun _ _ => .inl rfl⟩ rfl)
  have s2 := s1.step (.mutex _ () (.go 0) _ trivial rfl)
  have s3 := s2.step (.mutex _ () (.go 0) _ trivial rfl)
  have s4 := s3.step (DStep.call (kind := oneQueue) _ 0 () (QOp.read : QOp) _ ⟨fun _ => rfl, fun _ => rfl⟩ trivial (Monitor.Step.start (M := queue) _ 0 (QOp.read : QOp) rfl))
  have s5 := s4.step (DStep.inner (kind := oneQueue) _ () (.lock 0) _ (by intro _ _ h; cases h) (Monitor.Step.lock (M := queue) _ 0 (QOp.read : QOp) _ rfl rfl))
  have s6 := s5.step (DStep.inner (kind := oneQueue) _ () (.body 0) _ (by intro _ _ h; cases h) (Monitor.Step.bodyWait (M := queue) _ 0 (QOp.read : QOp) _ _ _ rfl rfl rfl))
  have s7 := s6.step (.mutex _ () (.lock 1) _ ⟨⟨fun _ => rfl, fun _ => rfl⟩, fun _ _ => .inl rfl⟩ rfl)
  exact ⟨_, s7, ⟨rfl, rfl⟩, rfl, rfl, ⟨_, rfl⟩, rfl⟩

/-- C182: a thread that reads from an empty queue with a mutex locked can wait forever together with a thread that waits for this mutex - for example the one that would write. -/
theorem C182_no_lock_needed : ∃ s : DSt 2 Unit oneQueue, DReach (Rule fun _ => 0) (fun _ _ _ _ => True) s ∧ Defined s ∧ Blocked s 1 () ∧ ∀ u, Relation.TransGen (WaitsFor s) 1 u → ¬ GoesOn s u := by
  obtain ⟨s, hr, hb, ho, hp, ⟨t0, h0⟩, h1⟩ := stuck_reach
  refine ⟨s, hr, fun j t op t1 e => ?_, hb, fun u hu hg => ?_⟩
  · cases j
    rcases fin_two t with rfl | rfl
    · rw [h0] at e; cases e
    · rw [h1] at e; cases e
  · have e : u = 0 := by
      obtain ⟨v, _, ⟨i, _, hi⟩⟩ := Relation.TransGen.tail'_iff.mp hu
      cases i
      rw [ho] at hi
      exact (Option.some.inj hi).symm
    subst e
    rcases hg with hg | ⟨i, hi, _⟩ | ⟨j, _, hj⟩
    · have := hg.2 ()
      rw [h0] at this; cases this
    · cases i; exact hi hp
    · cases j
      refine settled_stuck (fun t => ?_) hj
      rcases fin_two t with rfl | rfl
      · exact .inr ⟨_, _, _, h0⟩
      · exact .inl h1

/-- Three threads and two mutexes, locked in order: thread 2 waits for thread 1, which waits for thread 0, which is outside of calls. -/
example : ∃ s : DSt 3 Bool oneQueue, DReach (Rule fun i => i.toNat) NoneLocked s ∧ Defined s ∧ Blocked s 2 false ∧ WaitsFor s 2 1 ∧ WaitsFor s 1 0 ∧ GoesOn s 0 ∧ ¬ GoesOn s 1 := by
  have s0 := DReach.init (n := 3) (I := Bool) (kind := oneQueue) (rule := Rule fun i => i.toNat) (rule' := NoneLocked) (fun _ => ⟨0, 0⟩) (fun _ => ([] : List Val))
  have s1 := s0.step (.mutex _ true (.lock 0) _ ⟨⟨by decide, fun _ => rfl⟩, fun i' => by revert i'; decide⟩ rfl)
  have s2 := s1.step (.mutex _ true (.go 0) _ trivial rfl)
  have s3 := s2.step (.mutex _ true (.go 0) _ trivial rfl)
  have s4 := s3.step (.mutex _ false (.lock 1) _ ⟨⟨by decide, fun _ => rfl⟩, fun i' => by revert i'; decide⟩ rfl)
  have s5 := s4.step (.mutex _ false (.go 1) _ trivial rfl)
  have s6 := s5.step (.mutex _ false (.go 1) _ trivial rfl)
  have s7 := s6.step (.mutex _ true (.lock 1) _ ⟨⟨by decide, fun _ => rfl⟩, fun i' => by revert i'; decide⟩ rfl)
  have s8 := s7.step (.mutex _ false (.lock 2) _ ⟨⟨by decide, fun _ => rfl⟩, fun i' => by revert i'; decide⟩ rfl)
  refine ⟨_, s8, fun j t op t1 e => (by cases e), ⟨rfl, rfl⟩, ⟨false, ⟨rfl, rfl⟩, rfl⟩, ⟨true, ⟨rfl, rfl⟩, rfl⟩, .inl ⟨by decide, fun _ => rfl⟩, ?_⟩
  rintro (hg | ⟨i, _, hi⟩ | ⟨j, hj, _⟩)
  · exact absurd (hg.1 true) (by decide)
  · revert hi; cases i <;> decide
  · exact hj rfl

/-- Such a rest: thread 0 has locked and unlocked the mutex and waits for an element, thread 1 is done. -/
example : ∃ s : DSt 2 Unit oneQueue, DReach (Rule fun _ => 0) NoneLocked s ∧ Defined s ∧ (∀ t i, mstep (s.mtx i) (.go t) = none ∧ mstep (s.mtx i) (.timeout t) = none) ∧
    (∀ j, ¬ ∃ lb s', Monitor.Step (oneQueue j).box.M (s.box j) lb s' ∧ lb.internal) ∧ (∀ t, Free s t → ∀ i, (s.mtx i).held t = 0) ∧ ∃ t0 c, (s.box ()).th 0 = .waiting (QOp.read : QOp) t0 c := by
  have s0 := DReach.init (n := 2) (I := Unit) (kind := oneQueue) (rule := Rule fun _ => 0) (rule' := NoneLocked) (fun _ => ⟨0, 0⟩) (fun _ => ([] : List Val))
  have s1 := s0.step (.mutex _ () (.lock 0) _ ⟨⟨fun _ => rfl, fun _ => rfl⟩, fun _ _ => .inl rfl⟩ rfl)
  have s2 := s1.step (.mutex _ () (.go 0) _ trivial rfl)
  have s3 := s2.step (.mutex _ () (.go 0) _ trivial rfl)
  have s4 := s3.step (.mutex _ () (.unlock 0) _ ⟨fun _ => rfl, fun _ => rfl⟩ rfl)
  have s5 := s4.step (.mutex _ () (.go 0) _ trivial rfl)
  have s6 := s5.step (DStep.call (kind := oneQueue) _ 0 () (QOp.read : QOp) _ ⟨fun _ => rfl, fun _ => rfl⟩ (fun _ _ => rfl) (Monitor.Step.start (M := queue) _ 0 (QOp.read : QOp) rfl))
  have s7 := s6.step (DStep.inner (kind := oneQueue) _ () (.lock 0) _ (by intro _ _ h; cases h) (Monitor.Step.lock (M := queue) _ 0 (QOp.read : QOp) _ rfl rfl))
  have s8 := s7.step (DStep.inner (kind := oneQueue) _ () (.body 0) _ (by intro _ _ h; cases h) (Monitor.Step.bodyWait (M := queue) _ 0 (QOp.read : QOp) _ _ _ rfl rfl rfl))
  obtain ⟨s, hs, h0, h1, k0, k1, ⟨t0, w0⟩, w1⟩ : ∃ s : DSt 2 Unit oneQueue, DReach (Rule fun _ => 0) NoneLocked s ∧ (s.mtx ()).pc 0 = .idle ∧ (s.mtx ()).pc 1 = .idle ∧ (s.mtx ()).held 0 = 0 ∧ (s.mtx ()).held 1 = 0 ∧
      (∃ t0, (s.box ()).th 0 = .waiting (QOp.read : QOp) t0 ()) ∧ (s.box ()).th 1 = .idle := ⟨_, s8, rfl, rfl, rfl, rfl, ⟨_, rfl⟩, rfl⟩
  clear s0 s1 s2 s3 s4 s5 s6 s7 s8
  refine ⟨s, hs, fun j t op t1 e => ?_, fun t i => ?_, fun j => settled_stuck fun t => ?_, fun t _ i => ?_, _, _, w0⟩
  · cases j
    rcases fin_two t with rfl | rfl
    · rw [w0] at e; cases e
    · rw [w1] at e; cases e
  · cases i
    rcases fin_two t with rfl | rfl <;> simp [mstep, h0, h1]
  · cases j
    rcases fin_two t with rfl | rfl
    · exact .inr ⟨_, _, _, w0⟩
    · exact .inl w1
  · cases i
    rcases fin_two t with rfl | rfl
    · exact k0
    · exact k1

end Verif.LockOrder
