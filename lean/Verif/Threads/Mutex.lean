import Verif.Timeval.Model
import Mathlib.Logic.Function.Basic

/-
Model of `Mutex` (`/repo/Threads.h:74-115`, `/repo/Threads.cpp:89-189`): one mutex used by `n` threads, every interleaving.

The pthread layer is a recursive mutex (PTHREAD_MUTEX_RECURSIVE, Threads.cpp:96).  `pthread_mutex_timedlock` takes the mutex if it can; otherwise it fails with EINVAL when
the nanoseconds are out of range and with ETIMEDOUT at some moment (any moment: the passing of time is not modelled).
Not modelled: mLockerFile/mLockerLine and log messages; EAGAIN at 2^32 recursive locks; overflow of mLockCnt; `timedlock` with a negative argument is the
same as with the argument converted to `unsigned`.
-/

namespace Verif.Threads
open Verif

/-- What a thread is doing. -/
inductive PC where
  /-- outside, or returned from a call -/
  | idle
  /-- in `lock(file,line)`, in the `timedlock(1000)` with this deadline, Threads.cpp:165 -/
  | lockTimed (ts : Timeval.TS)
  /-- in `_lock`, Threads.h:98 -/
  | lockPlain
  /-- in `lock` or `trylock` behind the acquisition, before `mLockCnt++`, Threads.cpp:112-116,169-178 -/
  | got
  /-- in `timedlock`, Threads.cpp:124-129 -/
  | timed (ts : Timeval.TS)
  /-- in `unlock` behind `mLockCnt--`, Threads.cpp:187-188 -/
  | unlocking
  deriving DecidableEq

/-- The mutex and its users.  `held t` is a ghost: the lock operations reported as successful to thread `t`, less the `unlock` calls it has made. -/
structure MSt (n : Nat) where
  owner : Option (Fin n)
  depth : Nat
  lockCnt : Int
  pc : Fin n → PC
  held : Fin n → Nat

/-- Initially free, Threads.cpp:89-100. -/
def minit (n : Nat) : MSt n := ⟨none, 0, 0, fun _ => .idle, fun _ => 0⟩

/-- Can `t` take the mutex now? -/
def MSt.free {n : Nat} (s : MSt n) (t : Fin n) : Bool := s.owner = none ∨ s.owner = some t

/-- The mutex taken once more by `t`. -/
def MSt.take {n : Nat} (s : MSt n) (t : Fin n) : MSt n := { s with owner := some t, depth := s.depth + 1 }

/-- `pthread_mutex_unlock`: without effect (EPERM) if `t` is not the owner. -/
def MSt.release {n : Nat} (s : MSt n) (t : Fin n) : MSt n :=
  if s.owner = some t then { s with owner := if s.depth ≤ 1 then none else some t, depth := s.depth - 1 } else s

/-- Is the deadline acceptable to `pthread_mutex_timedlock`? -/
def validTS (ts : Timeval.TS) : Bool := 0 ≤ ts.nsec ∧ ts.nsec < 1000000000

/-- Events: calls, and progress of a call.  `now` is the clock at the call. -/
inductive ML (n : Nat) where
  | lock (t : Fin n)
  | lockFile (t : Fin n) (now : Timeval.TV)
  | trylock (t : Fin n)
  | timedlock (t : Fin n) (ms : Nat) (now : Timeval.TV)
  | unlock (t : Fin n)
  /-- the pthread call returns with success or EINVAL, or the counter is updated -/
  | go (t : Fin n)
  /-- the pthread call returns ETIMEDOUT -/
  | timeout (t : Fin n)

def MSt.goto {n : Nat} (s : MSt n) (t : Fin n) (p : PC) : MSt n := { s with pc := Function.update s.pc t p }

/-- The call reports success. -/
def MSt.success {n : Nat} (s : MSt n) (t : Fin n) : MSt n := { s with held := Function.update s.held t (s.held t + 1), pc := Function.update s.pc t .idle }

/-- One step. -/
def mstep {n : Nat} (s : MSt n) : ML n → Option (MSt n)
  /- Threads.cpp:159,171-173 -/
  | .lock t => if s.pc t = .idle then some (s.goto t .lockPlain) else none
  /- Threads.cpp:159-165 -/
  | .lockFile t now => if s.pc t = .idle then some (s.goto t (.lockTimed (Timeval.timespec (Timeval.future now 1000)))) else none
  /- Threads.cpp:110-112 -/
  | .trylock t =>
    if s.pc t = .idle then
      if s.free t then some ((s.take t).goto t .got) else some s
    else none
  /- Threads.cpp:124-128 -/
  | .timedlock t ms now => if s.pc t = .idle then some (s.goto t (.timed (Timeval.timespec (Timeval.future now ms)))) else none
  /- Threads.cpp:183-187; the caller has the mutex locked -/
  | .unlock t =>
    if s.pc t = .idle ∧ 0 < s.held t then
      some { s with lockCnt := s.lockCnt - 1, held := Function.update s.held t (s.held t - 1), pc := Function.update s.pc t .unlocking }
    else none
  | .go t =>
    match s.pc t with
    | .idle => none
    /- Threads.cpp:128,165: any result but ETIMEDOUT counts as acquired -/
    | .lockTimed ts => if s.free t then some ((s.take t).goto t .got) else if validTS ts then none else some (s.goto t .got)
    /- Threads.h:98 -/
    | .lockPlain => if s.free t then some ((s.take t).goto t .got) else none
    /- Threads.cpp:116,178 -/
    | .got => some ({ s with lockCnt := s.lockCnt + 1 }.success t)
    /- Threads.cpp:128 -/
    | .timed ts => if s.free t then some ((s.take t).success t) else if validTS ts then none else some (s.success t)
    /- Threads.cpp:188 -/
    | .unlocking => some ((s.release t).goto t .idle)
  | .timeout t =>
    match s.pc t with
    /- Threads.cpp:165-169 -/
    | .lockTimed ts => if s.free t = false ∧ validTS ts then some (s.goto t .lockPlain) else none
    /- Threads.cpp:128: returns false -/
    | .timed ts => if s.free t = false ∧ validTS ts then some (s.goto t .idle) else none
    | _ => none

/-- Reachable states, with events restricted to those accepted by `ok`. -/
inductive MReach {n : Nat} (ok : ML n → Prop) : MSt n → Prop where
  | init : MReach ok (minit n)
  | step {s l s'} : MReach ok s → ok l → mstep s l = some s' → MReach ok s'

end Verif.Threads
