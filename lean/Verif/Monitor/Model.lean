import Mathlib.Algebra.BigOperators.Group.Finset.Basic
import Mathlib.Data.Fintype.BigOperators
import Verif.Timeval.Model

/-
Interleaving semantics for the classes of `/repo/Interthread.h`: one mutex (`Mutex`, `/repo/Threads.h:72-115`), condition variables (`Signal`,
`/repo/Threads.h:228-258`, `/repo/Threads.cpp:268-277`), `n` threads each making any sequence of calls.

Every method of these classes has the form: create a `ScopedLock` (`/repo/Threads.h:167-175`), look at the data, perhaps wait on a condition
variable and look again, leave; some notify a condition variable before and some after the unlock.  A call is therefore modelled as the steps

  start, lock, body (possibly wait/wake/relock/body again), notifications under the lock, unlock, notifications after the unlock, return

interleaved arbitrarily with the steps of the other threads.  One pass through the code between acquiring the lock and waiting or leaving
is one step (`body`): all data it touches is only touched by threads that hold the lock (`Mutual exclusion` is a theorem, not an assumption, of the
model), and passes made of many steps between which other threads go on lead to nothing else (`Verif.Monitor.Sections`, property C171).  Condition variables have POSIX semantics: waiting releases the mutex and starts waiting atomically; a notification with waiters
wakes at least one (any one, plus others through `spurious`); a notification without waiters has no effect; a waiter may wake at any time
(spurious wakeup, or the time limit of a timed wait).  The clock may change arbitrarily (`tick`).

Simplification: the mutex is recursive in the code, but no method of these classes locks it twice.
-/

namespace Verif.Monitor
open Verif

/-- `gettimeofday`. -/
abbrev Clock := Timeval.TV

/-- When a call was begun, and when it acquired the lock for the first time. -/
structure Stamp where
  call : Clock
  locked : Clock
  deriving DecidableEq

/-- A notification: `signal()` or `broadcast()`, Threads.h:254,256. -/
inductive Sig (C : Type) where
  | one (c : C)
  | all (c : C)
  deriving DecidableEq

/-- How a pass through the critical section ends. -/
inductive Act (σ C R : Type) where
  /-- leave with result `r`; notifications sent before and after the unlock -/
  | done (s : σ) (r : R) (inner outer : List (Sig C))
  /-- wait on condition variable `c`, releasing the lock -/
  | wait (s : σ) (c : C)
  /-- look again without releasing the lock -/
  | spin (s : σ)

/-- A class protected by one mutex: its data `σ`, condition variables `C`, calls `Op`, results `R`, and what a pass through the critical section of
a call with time stamps `t0` may do at time `now`. -/
structure Mon (σ C Op R : Type) where
  body : Op → (t0 : Stamp) → (now : Clock) → σ → Act σ C R → Prop

/-- Where a thread is. -/
inductive TS (C Op R : Type) where
  /-- not inside a call -/
  | idle
  /-- about to lock (or blocked doing so) -/
  | entering (op : Op) (t0 : Stamp)
  /-- has the lock and is about to look at the data -/
  | holding (op : Op) (t0 : Stamp)
  /-- in `pthread_cond_wait`, not yet notified -/
  | waiting (op : Op) (t0 : Stamp) (c : C)
  /-- notified (or spuriously woken), about to take the lock again -/
  | waking (op : Op) (t0 : Stamp)
  /-- has the lock, finished with the data -/
  | inLock (op : Op) (r : R) (inner outer : List (Sig C))
  /-- lock released -/
  | after (op : Op) (r : R) (outer : List (Sig C))

/-- Events: thread `t` begins a call at time `t0`; the call with time stamps `t0` takes effect at time `now` on data `d` with result `r`; the call returns. -/
inductive Ev (n : Nat) (σ Op R : Type) where
  | call (t : Fin n) (op : Op) (t0 : Clock)
  | lin (t : Fin n) (op : Op) (t0 : Stamp) (now : Clock) (d : σ) (r : R)
  | ret (t : Fin n) (op : Op) (r : R)

/-- Global state. -/
structure St (n : Nat) (σ C Op R : Type) where
  now : Clock
  data : σ
  owner : Option (Fin n)
  th : Fin n → TS C Op R
  /-- events so far, oldest first (ghost) -/
  tr : List (Ev n σ Op R)

/-- Kinds of steps. -/
inductive Lbl (n : Nat) (Op : Type) where
  | start (t : Fin n) (op : Op)
  | lock (t : Fin n)
  | body (t : Fin n)
  | spurious (t : Fin n)
  | relock (t : Fin n)
  | notify (t : Fin n)
  | unlock (t : Fin n)
  | ret (t : Fin n)
  | tick

variable {n : Nat} {σ C Op R : Type}

/-- A thread waiting on `c` becomes a waking one. -/
def TS.wake [DecidableEq C] (c : C) : TS C Op R → TS C Op R
  | .waiting op t0 c' => if c' = c then .waking op t0 else .waiting op t0 c'
  | x => x

/-- The steps. -/
inductive Step [DecidableEq C] (M : Mon σ C Op R) : St n σ C Op R → Lbl n Op → St n σ C Op R → Prop where
  | start (s : St n σ C Op R) (t op) : s.th t = .idle →
      Step M s (.start t op) { s with th := Function.update s.th t (.entering op ⟨s.now, s.now⟩), tr := s.tr ++ [.call t op s.now] }
  | lock (s t op t0) : s.th t = .entering op t0 → s.owner = none →
      Step M s (.lock t) { s with th := Function.update s.th t (.holding op ⟨t0.call, s.now⟩), owner := some t }
  | bodyDone (s t op t0 d r inner outer) : s.th t = .holding op t0 → s.owner = some t → M.body op t0 s.now s.data (.done d r inner outer) →
      Step M s (.body t) { s with th := Function.update s.th t (.inLock op r inner outer), data := d, tr := s.tr ++ [.lin t op t0 s.now s.data r] }
  | bodyWait (s t op t0 d c) : s.th t = .holding op t0 → s.owner = some t → M.body op t0 s.now s.data (.wait d c) →
      Step M s (.body t) { s with th := Function.update s.th t (.waiting op t0 c), data := d, owner := none }
  | bodySpin (s t op t0 d) : s.th t = .holding op t0 → s.owner = some t → M.body op t0 s.now s.data (.spin d) →
      Step M s (.body t) { s with data := d }
  | spurious (s t op t0 c) : s.th t = .waiting op t0 c →
      Step M s (.spurious t) { s with th := Function.update s.th t (.waking op t0) }
  | relock (s t op t0) : s.th t = .waking op t0 → s.owner = none →
      Step M s (.relock t) { s with th := Function.update s.th t (.holding op t0), owner := some t }
  | signalIn (s t op r c inner outer u op' t0) : s.th t = .inLock op r (.one c :: inner) outer → s.th u = .waiting op' t0 c →
      Step M s (.notify t) { s with th := Function.update (Function.update s.th t (.inLock op r inner outer)) u (.waking op' t0) }
  | signalInNone (s t op r c inner outer) : s.th t = .inLock op r (.one c :: inner) outer → (∀ u op' t0, s.th u ≠ .waiting op' t0 c) →
      Step M s (.notify t) { s with th := Function.update s.th t (.inLock op r inner outer) }
  | bcastIn (s t op r c inner outer) : s.th t = .inLock op r (.all c :: inner) outer →
      Step M s (.notify t) { s with th := Function.update (fun u => (s.th u).wake c) t (.inLock op r inner outer) }
  | unlock (s t op r outer) : s.th t = .inLock op r [] outer → s.owner = some t →
      Step M s (.unlock t) { s with th := Function.update s.th t (.after op r outer), owner := none }
  | signalOut (s t op r c outer u op' t0) : s.th t = .after op r (.one c :: outer) → s.th u = .waiting op' t0 c →
      Step M s (.notify t) { s with th := Function.update (Function.update s.th t (.after op r outer)) u (.waking op' t0) }
  | signalOutNone (s t op r c outer) : s.th t = .after op r (.one c :: outer) → (∀ u op' t0, s.th u ≠ .waiting op' t0 c) →
      Step M s (.notify t) { s with th := Function.update s.th t (.after op r outer) }
  | bcastOut (s t op r c outer) : s.th t = .after op r (.all c :: outer) →
      Step M s (.notify t) { s with th := Function.update (fun u => (s.th u).wake c) t (.after op r outer) }
  | ret (s t op r) : s.th t = .after op r [] →
      Step M s (.ret t) { s with th := Function.update s.th t .idle, tr := s.tr ++ [.ret t op r] }
  | tick (s now) : Step M s .tick { s with now := now }

/-- The start: all threads idle, lock free. -/
def init (n : Nat) (now : Clock) (d : σ) : St n σ C Op R := ⟨now, d, none, fun _ => .idle, []⟩

/-- States reachable from `s0` when calls are restricted by `ok` (the callers' obligations: which thread may make which calls). -/
inductive Reach [DecidableEq C] (M : Mon σ C Op R) (ok : Fin n → Op → Prop) (s0 : St n σ C Op R) : St n σ C Op R → Prop where
  | refl : Reach M ok s0 s0
  | step {s l s'} : Reach M ok s0 s → Step M s l s' → (∀ t op, l = .start t op → ok t op) → Reach M ok s0 s'

/-- Every thread is outside of any call or waiting on a condition variable. -/
def Settled (s : St n σ C Op R) : Prop := ∀ t, s.th t = .idle ∨ ∃ op t0 c, s.th t = .waiting op t0 c

end Verif.Monitor
