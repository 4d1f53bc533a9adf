import Verif.Interthread.Queue

/-
Model of `InterthreadQueueWithWait` (`/repo/Interthread.h:328-435`): a queue with a low-water wait.  Interleaving semantics: `Verif.Monitor`.

Simplification: `PointerFIFO` is taken as a list (justified by properties C19, which also covers its 32-bit size counter, and C171).
-/

namespace Verif.Interthread
open Verif Verif.Monitor

/-- Condition variables: `mWriteSignal` and `mReadSignal`. -/
inductive WC where
  | writeSignal
  | readSignal
  deriving DecidableEq

/-- Calls. -/
inductive WOp where
  | write (v : Val)
  | read
  | readT (ms : Nat)
  | readNoBlock
  | size
  | clear
  | waitLow (sz : Nat)
  deriving DecidableEq

/-- `mReadSignal.signal()` inside the lock if an item was obtained, Interthread.h:398,410. -/
def readSig (v : Val) : List (Sig WC) := if v = none then [] else [.one .readSignal]

/-- `readNoBlock`, Interthread.h:406-412, and the end of `read(timeout)`, Interthread.h:397-399. -/
def takeW (q : List Val) : Act (List Val) WC QRes := .done (getQ q).2 (.ptr (getQ q).1) (readSig (getQ q).1) []

/-- One pass through `read(timeout)`, Interthread.h:382-400; the deadline counts from the call. -/
def readTimedW (ms : Nat) (t0 : Stamp) (now : Clock) (q : List Val) : Option (Act (List Val) WC QRes) :=
  if ms = 0 then some (takeW q)
  else if q.length = 0 then
    match Timeval.remaining (Timeval.future t0.call ms) now with
    | .ok r => if r < 2 then some (.done q (.ptr none) [] []) else some (timedWait now r q .writeSignal)
    | _ => none
  else some (takeW q)

/-- One pass through the critical section of each call. -/
def wbody : WOp → Stamp → Clock → List Val → Option (Act (List Val) WC QRes)
  /- Interthread.h:415-422: signal after the unlock -/
  | .write v, _, _, q => some (.done (q ++ [v]) .unit [] [.one .writeSignal])
  /- Interthread.h:365-375 -/
  | .read, _, _, q =>
    if (getQ q).1 = none then some (.wait (getQ q).2 .writeSignal) else some (.done (getQ q).2 (.ptr (getQ q).1) [.one .readSignal] [])
  | .readT ms, t0, now, q => readTimedW ms t0 now q
  | .readNoBlock, _, _, q => some (takeW q)
  /- Interthread.h:355-359 -/
  | .size, _, _, q => some (.done q (.num q.length) [] [])
  /- Interthread.h:342-347 -/
  | .clear, _, _, q => some (.done [] (.removed q) [.one .readSignal] [])
  /- Interthread.h:429-433 -/
  | .waitLow sz, _, _, q => if sz < q.length then some (.wait q .readSignal) else some (.done q .unit [] [])

/-- The queue with low-water wait as a monitor. -/
def queueW : Mon (List Val) WC WOp QRes := Mon.ofFun wbody

/-- Callers write items, not NULL. -/
def WNonNull : WOp → Prop
  | .write v => v ≠ none
  | _ => True

end Verif.Interthread
