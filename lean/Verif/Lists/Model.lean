import Verif.Core.Outcome

/-
Models of `PointerFIFO` (`/repo/LinkedLists.h:58-101`, `/repo/LinkedLists.cpp:33-84`) and `SingleLinkList`
(`/repo/LinkedLists.h:115-171`) on the level of nodes and `next` pointers.
-/

namespace Verif.Lists
open Verif

/-- Point update. -/
def upd {α : Type} (f : Nat → α) (i : Nat) (a : α) : Nat → α := fun j => if j = i then a else f j

/-- A pointer to a node; `none` is NULL. -/
abbrev Ptr := Option Nat
/-- A stored `void*`; `none` is NULL. -/
abbrev Val := Option Nat

/-- `PointerFIFO` and the nodes allocated for it: `0 .. count-1` (they are never deleted).  LinkedLists.h:63-66. -/
structure Fifo where
  /-- `mNext` of the nodes -/
  nxt : Nat → Ptr
  /-- `mData` of the nodes -/
  dat : Nat → Val
  /-- nodes allocated with `new` so far -/
  count : Nat
  mHead : Ptr
  mTail : Ptr
  mFreeList : Ptr
  /-- 32-bit unsigned -/
  mSize : Nat

/-- `PointerFIFO()`, LinkedLists.h:70-73; the contents of memory are arbitrary. -/
def Fifo.init (nxt : Nat → Ptr) (dat : Nat → Val) : Fifo := ⟨nxt, dat, 0, none, none, none, 0⟩

/-- `n->next()`: reading a node that was not allocated is undefined. -/
def Fifo.next (f : Fifo) (n : Nat) : Outcome Ptr := if n < f.count then .ok (f.nxt n) else .ub

/-- `n->next(p)`. -/
def Fifo.setNext (f : Fifo) (n : Nat) (p : Ptr) : Outcome Fifo := if n < f.count then .ok { f with nxt := upd f.nxt n p } else .ub

/-- `n->data()`. -/
def Fifo.data (f : Fifo) (n : Nat) : Outcome Val := if n < f.count then .ok (f.dat n) else .ub

/-- `n->data(v)`. -/
def Fifo.setData (f : Fifo) (n : Nat) (v : Val) : Outcome Fifo := if n < f.count then .ok { f with dat := upd f.dat n v } else .ub

/-- `allocate`, LinkedLists.cpp:72-78. -/
def Fifo.allocate (f : Fifo) : Outcome (Fifo × Nat) :=
  match f.mFreeList with
  | none => .ok ({ f with count := f.count + 1 }, f.count)
  | some n => do
    let p ← f.next n
    .ok ({ f with mFreeList := p }, n)

/-- `release`, LinkedLists.cpp:80-84. -/
def Fifo.release (f : Fifo) (n : Nat) : Outcome Fifo := do
  let f ← f.setNext n f.mFreeList
  .ok { f with mFreeList := some n }

/-- `push_front`, LinkedLists.cpp:33-43. -/
def Fifo.pushFront (f : Fifo) (v : Val) : Outcome Fifo := do
  let (f, node) ← f.allocate
  let f ← f.setData node v
  let f ← f.setNext node f.mHead
  let f := { f with mHead := some node }
  let f := if f.mTail = none then { f with mTail := some node } else f
  .ok { f with mSize := (f.mSize + 1) % 2 ^ 32 }

/-- `put`, LinkedLists.cpp:45-54. -/
def Fifo.put (f : Fifo) (v : Val) : Outcome Fifo := do
  let (f, node) ← f.allocate
  let f ← f.setData node v
  let f ← f.setNext node none
  let f ← (match f.mTail with
    | some t => f.setNext t (some node)
    | none => .ok f)
  let f := { f with mTail := some node }
  let f := if f.mHead = none then { f with mHead := some node } else f
  .ok { f with mSize := (f.mSize + 1) % 2 ^ 32 }

/-- `get`, LinkedLists.cpp:57-69. -/
def Fifo.get (f : Fifo) : Outcome (Fifo × Val) :=
  match f.mHead with
  | none => .ok (f, none)
  | some h => do
    let next ← f.next h
    let v ← f.data h
    let f ← f.release h
    let f := { f with mHead := next }
    let f := if next = none then { f with mTail := none } else f
    .ok ({ f with mSize := (f.mSize + 2 ^ 32 - 1) % 2 ^ 32 }, v)

/-- `front`, LinkedLists.h:90. -/
def Fifo.front (f : Fifo) : Outcome Val := match f.mHead with
  | none => .ok none
  | some h => f.data h

/-- Calls on a `PointerFIFO`. -/
inductive Op where
  | put (v : Val)
  | pushFront (v : Val)
  | get

/-- Performs the calls; collects the results of the `get` calls. -/
def Fifo.run (f : Fifo) : List Op → Outcome (Fifo × List Val)
  | [] => .ok (f, [])
  | .put v :: ops => do Fifo.run (← f.put v) ops
  | .pushFront v :: ops => do Fifo.run (← f.pushFront v) ops
  | .get :: ops => do
    let (f, v) ← f.get
    let (f, vs) ← Fifo.run f ops
    .ok (f, v :: vs)

/-! ### SingleLinkList -/

/-- `SingleLinkList`, LinkedLists.h:119-124; the nodes are the callers' objects, named by numbers, with their `mNext` field. -/
structure SList where
  nxt : Nat → Ptr
  mHead : Ptr
  mTail : Ptr
  /-- 32-bit unsigned -/
  mSize : Nat
  /-- 32-bit unsigned -/
  mTotalSize : Nat

/-- Constructor, LinkedLists.h:129. -/
def SList.init (nxt : Nat → Ptr) : SList := ⟨nxt, none, none, 0, 0⟩

/-- `pop_front`, LinkedLists.h:135-145; `size` gives the elements' `size()`. -/
def SList.popFront (size : Nat → Nat) (l : SList) : Outcome (SList × Ptr) :=
  match l.mHead with
  | none => .ok (l, none)
  | some r =>
    let l := { l with mHead := l.nxt r }
    if l.mTail = some r ∧ l.mHead ≠ none then .assertFail
    else
      let l := if l.mTail = some r then { l with mTail := none } else l
      .ok ({ l with nxt := upd l.nxt r none, mSize := (l.mSize + 2 ^ 32 - 1) % 2 ^ 32,
                    mTotalSize := (l.mTotalSize + 2 ^ 32 - size r % 2 ^ 32) % 2 ^ 32 }, some r)

/-- `push_front`, LinkedLists.h:147-154. -/
def SList.pushFront (size : Nat → Nat) (l : SList) (item : Nat) : SList :=
  let l := { l with nxt := upd l.nxt item l.mHead }
  let l := { l with mHead := some item }
  let l := if l.mTail = none then { l with mTail := some item } else l
  { l with mSize := (l.mSize + 1) % 2 ^ 32, mTotalSize := (l.mTotalSize + size item) % 2 ^ 32 }

/-- `push_back`, LinkedLists.h:156-164. -/
def SList.pushBack (size : Nat → Nat) (l : SList) (item : Nat) : SList :=
  let l := { l with nxt := upd l.nxt item none }
  let l := match l.mTail with
    | some t => { l with nxt := upd l.nxt t (some item) }
    | none => l
  let l := { l with mTail := some item }
  let l := if l.mHead = none then { l with mHead := some item } else l
  { l with mSize := (l.mSize + 1) % 2 ^ 32, mTotalSize := (l.mTotalSize + size item) % 2 ^ 32 }

/-- Calls on a `SingleLinkList`. -/
inductive SOp where
  | pushBack (item : Nat)
  | pushFront (item : Nat)
  | popFront

/-- Performs the calls; collects the results of the `pop_front` calls. -/
def SList.run (size : Nat → Nat) (l : SList) : List SOp → Outcome (SList × List Ptr)
  | [] => .ok (l, [])
  | .pushBack i :: ops => SList.run size (l.pushBack size i) ops
  | .pushFront i :: ops => SList.run size (l.pushFront size i) ops
  | .popFront :: ops => do
    let (l, r) ← l.popFront size
    let (l, rs) ← SList.run size l ops
    .ok (l, r :: rs)

end Verif.Lists
