import Verif.Interthread.Queue

/-
Model of `InterthreadPriorityQueue` and `PointerCompare` (`/repo/Interthread.h:624-732`).  Interleaving semantics: `Verif.Monitor`.

`std::priority_queue` is taken by its contract: `top` is an element `x` such that `Cmp(x, y)` holds for no element `y`; which one, if there are several, is not
determined (so the critical section is a relation).  Pointers are natural numbers (not NULL: comparing NULL is undefined).
-/

namespace Verif.Interthread
open Verif Verif.Monitor

/-- Calls. -/
inductive PQOp where
  | write (v : Nat)
  | read
  | readT (ms : Nat)
  | readNoBlock
  | peek
  | size
  | clear
  deriving DecidableEq

/-- Results. -/
inductive PQRes where
  | unit
  | ptr (v : Option Nat)
  | num (k : Nat)
  | deleted (l : List Nat)
  deriving DecidableEq

/-- `PointerCompare::operator()`, Interthread.h:631-632; `gt a b` is `*a > *b`. -/
def pointerCompare (gt : Nat → Nat → Prop) (v1 v2 : Nat) : Prop := gt v1 v2

/-- `std::priority_queue::top`. -/
def IsTop (cmp : Nat → Nat → Prop) (q : List Nat) (x : Nat) : Prop := x ∈ q ∧ ∀ y ∈ q, ¬ cmp x y

/-- `ipqGet`, Interthread.h:652-657: the element removed and what remains. -/
def PQGet (gt : Nat → Nat → Prop) (q : List Nat) (r : Option Nat) (q' : List Nat) : Prop :=
  (q = [] ∧ r = none ∧ q' = []) ∨ ∃ x, IsTop (pointerCompare gt) q x ∧ r = some x ∧ q' = q.erase x

/-- The loop of `clear`, Interthread.h:666-670: the elements in the order in which they are removed and deleted. -/
def Drains (gt : Nat → Nat → Prop) : List Nat → List Nat → Prop
  | q, [] => q = []
  | q, x :: l => IsTop (pointerCompare gt) q x ∧ Drains gt (q.erase x) l

/-- One pass through the critical section of each call. -/
def pqbody (gt : Nat → Nat → Prop) : PQOp → Stamp → Clock → List Nat → Act (List Nat) WS PQRes → Prop
  /- Interthread.h:724-730: signal after the unlock -/
  | .write v, _, _, q, a => a = .done (v :: q) .unit [] [.one ()]
  /- Interthread.h:694-699 -/
  | .read, _, _, q, a => (q.length = 0 ∧ a = .wait q ()) ∨ (q.length ≠ 0 ∧ ∃ r q', PQGet gt q r q' ∧ a = .done q' (.ptr r) [] [])
  /- Interthread.h:701-714; the deadline counts from the call -/
  | .readT ms, t0, now, q, a =>
    if ms ≠ 0 ∧ q.length = 0 then
      ∃ r, Timeval.remaining (Timeval.future t0.call ms) now = .ok r ∧ (if r < 2 then a = .done q (.ptr none) [] [] else a = timedWait now r q ())
    else ∃ r q', PQGet gt q r q' ∧ a = .done q' (.ptr r) [] []
  /- Interthread.h:687-691 -/
  | .readNoBlock, _, _, q, a => ∃ r q', PQGet gt q r q' ∧ a = .done q' (.ptr r) [] []
  /- Interthread.h:717-721 -/
  | .peek, _, _, q, a => (q = [] ∧ a = .done q (.ptr none) [] []) ∨ ∃ x, IsTop (pointerCompare gt) q x ∧ a = .done q (.ptr (some x)) [] []
  /- Interthread.h:679-683 -/
  | .size, _, _, q, a => a = .done q (.num q.length) [] []
  /- Interthread.h:663-671 -/
  | .clear, _, _, q, a => ∃ l, Drains gt q l ∧ a = .done [] (.deleted l) [] []

/-- The priority queue as a monitor. -/
def pqueue (gt : Nat → Nat → Prop) : Mon (List Nat) WS PQOp PQRes := ⟨pqbody gt⟩

end Verif.Interthread
