import Verif.Interthread.Queue

/-
Two `InterthreadQueue`s connected by `iqConnect` (`/repo/Interthread.h:127-132`): they share one mutex and one condition variable.
Also `iqWaitForEither` (`/repo/Interthread.h:219-232`) and the lock pointers (`/repo/Interthread.h:117-141`).
-/

namespace Verif.Interthread
open Verif Verif.Monitor

/-- Contents of the two queues. -/
abbrev Both := List Val × List Val

/-- Calls: on the first (`false`) or second (`true`) queue, or waiting for either. -/
inductive POp where
  | on (second : Bool) (op : QOp)
  | waitEither (ms : Nat)
  deriving DecidableEq

/-- The queue a call refers to. -/
def Both.get (d : Both) (second : Bool) : List Val := if second then d.2 else d.1
def Both.set (d : Both) (second : Bool) (q : List Val) : Both := if second then (d.1, q) else (q, d.2)

/-- One pass of `iqWaitForEither`, Interthread.h:220-232; the deadline counts from the acquisition of the lock. -/
def eitherBody (ms : Nat) (t0 : Stamp) (now : Clock) (d : Both) : Option (Act Both WS QRes) :=
  if d.1.length = 0 ∧ d.2.length = 0 then
    if ms ≠ 0 then
      match Timeval.remaining (Timeval.future t0.locked ms) now with
      | .ok r => some (timedWait now r d ())
      | _ => none
    else some (.wait d ())
  else some (.done d .unit [] [])

/-- One pass through the critical section of each call. -/
def pbody : POp → Stamp → Clock → Both → Option (Act Both WS QRes)
  | .on i op, t0, now, d =>
    match qbody op t0 now (d.get i) with
    | some (.done q r inner outer) => some (.done (d.set i q) r inner outer)
    | some (.wait q c) => some (.wait (d.set i q) c)
    | some (.spin q) => some (.spin (d.set i q))
    | none => none
  | .waitEither ms, t0, now, d => eitherBody ms t0 now d

/-- The connected pair as a monitor. -/
def pair : Mon Both WS POp QRes := Mon.ofFun pbody

/-- Callers write items, not NULL. -/
def PNonNull : POp → Prop
  | .on _ op => NonNull op
  | .waitEither _ => True

/-! ### The lock pointers -/

/-- The mutexes (named by numbers) of a queue object: its own, and the one its methods lock.  Interthread.h:119-120. -/
structure Locks where
  mLock : Nat
  mLockPointer : Nat
  deriving DecidableEq

/-- Constructor, Interthread.h:125, for the object whose own mutex is `m`. -/
def Locks.new (m : Nat) : Locks := ⟨m, m⟩

/-- `iqConnect`, Interthread.h:129-132. -/
def Locks.connect (a other : Locks) : Locks := { a with mLockPointer := other.mLockPointer }

/-- The mutex `qGetLock` hands out, Interthread.h:135. -/
def Locks.qGetLock (a : Locks) : Nat := a.mLock

/-- The mutex locked by `read`, `write` and the other methods, e.g. Interthread.h:248,307. -/
def Locks.used (a : Locks) : Nat := a.mLockPointer

end Verif.Interthread
