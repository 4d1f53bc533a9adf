import Verif.Monitor.Exec

/-
Model of `InterthreadQueue` (`/repo/Interthread.h:113-322`) with the default `PtrList` (`/repo/Interthread.h:47-71`), for a queue that is not connected
to another one (connected queues: `Verif.Interthread.Pair`).  The interleaving semantics is `Verif.Monitor`.

Not modelled: iteration (`begin`/`end`), destruction while threads are inside.
-/

namespace Verif.Interthread
open Verif Verif.Monitor

/-- A pointer to an item; `none` is NULL. -/
abbrev Val := Option Nat

/-- Calls of `InterthreadQueue`. -/
inductive QOp where
  | write (v : Val)
  | writeFront (v : Val)
  | read
  | readT (ms : Nat)
  | readNoBlock
  | front
  | size
  | clear
  | flush
  deriving DecidableEq

/-- Results: nothing, a pointer, a number, or the list of items removed (deleted by `clear`, dropped by `flushNoDelete`). -/
inductive QRes where
  | unit
  | ptr (v : Val)
  | num (k : Nat)
  | removed (l : List Val)
  deriving DecidableEq

/-- `PtrList::get`, Interthread.h:54-59,70. -/
def getQ : List Val → Val × List Val
  | [] => (none, [])
  | v :: q => (v, q)

/-- The only condition variable, `mWriteSignal`. -/
abbrev WS := Unit

/-- When a wait with a limit ends, Threads.cpp:274-275.  The clock is read here once more; the model uses the reading with which the remaining time was
computed. -/
def waitLimit (now : Clock) (timeout : Int) : Timeval.TS := Timeval.timespec (Timeval.future now timeout.toNat)

/-- Waiting on a condition variable with a limit, Threads.cpp:271-277: without effect if the limit is not positive; `pthread_cond_timedwait` rejects an
invalid `timespec` (EINVAL) without releasing the mutex; otherwise waits. -/
def timedWait {σ C R : Type} (now : Clock) (timeout : Int) (d : σ) (c : C) : Act σ C R :=
  if timeout ≤ 0 then .spin d
  else
    let ts := waitLimit now timeout
    if 0 ≤ ts.nsec ∧ ts.nsec < 1000000000 then .wait d c else .spin d

/-- One pass through `read(timeout)`, Interthread.h:269-283, the deadline counts from the call; also `readNoBlock` when the timeout is 0. -/
def readTimed (ms : Nat) (t0 : Stamp) (now : Clock) (q : List Val) : Option (Act (List Val) WS QRes) :=
  if ms = 0 then some (.done (getQ q).2 (.ptr (getQ q).1) [] [])
  else if q.length = 0 then
    match Timeval.remaining (Timeval.future t0.call ms) now with
    | .ok r => if r < 2 then some (.done q (.ptr none) [] []) else some (timedWait now r q ())
    | _ => none
  else some (.done (getQ q).2 (.ptr (getQ q).1) [] [])

/-- One pass through the critical section of each call. -/
def qbody : QOp → Stamp → Clock → List Val → Option (Act (List Val) WS QRes)
  /- Interthread.h:296-311: the signal is sent after the unlock -/
  | .write v, _, _, q => some (.done (q ++ [v]) .unit [] [.one ()])
  /- Interthread.h:314-321 -/
  | .writeFront v, _, _, q => some (.done (v :: q) .unit [] [.one ()])
  /- Interthread.h:246-255 -/
  | .read, _, _, q =>
    if (getQ q).1 = none then some (.wait (getQ q).2 ()) else some (.done (getQ q).2 (.ptr (getQ q).1) [] [])
  /- Interthread.h:269-283 -/
  | .readT ms, t0, now, q => readTimed ms t0 now q
  /- Interthread.h:289-293 -/
  | .readNoBlock, _, _, q => some (.done (getQ q).2 (.ptr (getQ q).1) [] [])
  /- Interthread.h:258-262 -/
  | .front, _, _, q => some (.done q (.ptr (getQ q).1) [] [])
  /- Interthread.h:207-211 -/
  | .size, _, _, q => some (.done q (.num q.length) [] [])
  /- Interthread.h:189-193 -/
  | .clear, _, _, q => some (.done [] (.removed q) [] [])
  /- Interthread.h:196-200 -/
  | .flush, _, _, q => some (.done [] (.removed q) [] [])

/-- The queue as a monitor. -/
def queue : Mon (List Val) WS QOp QRes := Mon.ofFun qbody

/-- Callers write items, not NULL. -/
def NonNull : QOp → Prop
  | .write v => v ≠ none
  | .writeFront v => v ≠ none
  | _ => True

end Verif.Interthread
