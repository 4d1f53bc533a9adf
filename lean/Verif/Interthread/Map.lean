import Verif.Interthread.Queue

/-
Model of `InterthreadMap1` and `InterthreadMap` (`/repo/Interthread.h:440-615`).  Interleaving semantics: `Verif.Monitor`.

Simplifications: keys are natural numbers with `==`; the map is an association list with each key at most once.  The calls `readNoBlock`, `read(key,timeout)`,
`read(key)` (Interthread.h:565-595) are the corresponding `get` calls with `bRemove = false`; where they return a pointer, NULL stands for "not found".
Not modelled: `size` (Interthread.h:598: `ScopedLock(mLock);` declares an uninitialised variable instead of locking and does not compile if used), iterators.
-/

namespace Verif.Interthread
open Verif Verif.Monitor

/-- Contents of the map. -/
abbrev KV := List (Nat × Val)

/-- Calls; `rm` is `bRemove`. -/
inductive MOp where
  | write (k : Nat) (v : Val)
  | getNoBlock (k : Nat) (rm : Bool)
  | getT (k : Nat) (ms : Nat) (rm : Bool)
  | get (k : Nat) (rm : Bool)
  | remove (k : Nat)
  deriving DecidableEq

/-- Results.  `wrote old`: `old` is the element given to `vdelete`, if any; `found v`: true with the element; `notFound`: false; `deleted v`: the element was
removed and given to `vdelete` (the `vdelete` of `remove` happens after the lock is released, Interthread.h:551-552). -/
inductive MRes where
  | wrote (old : Option Val)
  | found (v : Val)
  | notFound
  | deleted (v : Val)
  deriving DecidableEq

/-- `mMap.find`. -/
def find (m : KV) (k : Nat) : Option Val := m.lookup k

/-- `mMap.erase`. -/
def erase (m : KV) (k : Nat) : KV := m.filter fun e => e.1 ≠ k

/-- `iter->second = wData` or `mMap[key] = wData`. -/
def store (m : KV) (k : Nat) (v : Val) : KV := (k, v) :: erase m k

/-- Taking the element found, Interthread.h:493-495, 512-514, 536-538. -/
def takeM (m : KV) (k : Nat) (rm : Bool) : KV := if rm then erase m k else m

/-- One pass through the critical section of each call. -/
def mbody : MOp → Stamp → Clock → KV → Option (Act KV WS MRes)
  /- Interthread.h:470-481: broadcast inside the lock -/
  | .write k v, _, _, m => some (.done (store m k v) (.wrote (find m k)) [.all ()] [])
  /- Interthread.h:488-496 -/
  | .getNoBlock k rm, _, _, m =>
    match find m k with
    | none => some (.done m .notFound [] [])
    | some v => some (.done (takeM m k rm) (.found v) [] [])
  /- Interthread.h:504-520; the deadline counts from the acquisition of the lock -/
  | .getT k ms rm, t0, now, m =>
    match find m k with
    | some v => some (.done (takeM m k rm) (.found v) [] [])
    | none =>
      if ms = 0 then some (.done m .notFound [] [])
      else match Timeval.remaining (Timeval.future t0.locked ms) now with
        | .ok r => if r < 2 then some (.done m .notFound [] []) else some (timedWait now r m ())
        | _ => none
  /- Interthread.h:528-539 -/
  | .get k rm, _, _, m =>
    match find m k with
    | none => some (.wait m ())
    | some v => some (.done (takeM m k rm) (.found v) [] [])
  /- Interthread.h:548-557 -/
  | .remove k, _, _, m =>
    match find m k with
    | none => some (.done m .notFound [] [])
    | some v => some (.done (erase m k) (.deleted v) [] [])

/-- The map as a monitor. -/
def imap : Mon KV WS MOp MRes := Mon.ofFun mbody

/-! ### Destruction -/

/-- `InterthreadMap1::vdelete`, Interthread.h:453: deletes nothing. -/
def vdeleteBase (_ : Val) : List Val := []

/-- `InterthreadMap::vdelete`, Interthread.h:614. -/
def vdeleteDerived (v : Val) : List Val := [v]

/-- What the destructor of an `InterthreadMap` deletes, Interthread.h:455-463: the loop is in the destructor of the base class, during which the virtual call goes
to the function of the base class. -/
def destroyMap (m : KV) : List Val := m.flatMap fun e => vdeleteBase e.2

end Verif.Interthread
