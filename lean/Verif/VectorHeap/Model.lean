import Verif.Core.Outcome

/-
Model of the storage side of `VectorBase`, `Vector` (`/repo/Vector.h:126-385`) and `BitVector` (`/repo/BitVector.h:117-185`):
who owns which block, what aliases what, and what is in memory.  `BITVECTOR_REFCNTS` is 0 (Vector.h:47).

Memory is a set of blocks, one per `new T[n]`; a pointer is a 64-bit address together with the block it was derived from.
Simplifications: addresses are counted in elements (exact for `T = char`); elements are integers; `new` throws above 2^62 elements,
which ends the run like an assertion; the functions returning vectors by value construct the result in place (the code's comment at
BitVector.h:177 relies on this).  Not modelled: the constructors from raw pointers (Vector.h:335, 338, BitVector.h:127).
-/

namespace Verif.VectorHeap
open Verif

/-- An element; `none` is an uninitialised one. -/
abbrev Val := Option Int

/-- Size of the address space. -/
abbrev W : Nat := 2 ^ 64

/-- Pointer plus integer: wraps. -/
def wadd (a b : Nat) : Nat := (a + b) % W

/-- Memory. -/
structure Heap where
  /-- address at which the `i`-th allocated block is placed -/
  addr : Nat → Nat
  /-- number of allocations so far -/
  next : Nat
  /-- contents of a block -/
  data : Nat → List Val
  /-- how often `delete[]` was called on a block -/
  frees : Nat → Nat

/-- The fields of a vector, Vector.h:136-138.  `mData` names the owned block (`none` = NULL); `blk` is the block `mStart` and `mEnd`
point into (`none` for NULL pointers). -/
structure Vec where
  mData : Option Nat := none
  blk : Option Nat := none
  mStart : Nat := 0
  mEnd : Nat := 0
  deriving DecidableEq

/-- The vector objects that exist, by name, and memory. -/
structure St where
  heap : Heap
  vecs : Nat → Option Vec

/-- Point update. -/
def upd {α : Type} (f : Nat → α) (i : Nat) (a : α) : Nat → α := fun j => if j = i then a else f j

/-- Address of the owned block, 0 for NULL. -/
def Heap.dataAddr (h : Heap) (v : Vec) : Nat := match v.mData with
  | none => 0
  | some b => h.addr b

/-- Reads `n` elements at a pointer; anything but `n` elements of a live block is undefined. -/
def readN (h : Heap) (blk : Option Nat) (a n : Nat) : Outcome (List Val) :=
  match blk with
  | none => if n = 0 then .ok [] else .ub
  | some b =>
    if n = 0 then .ok []
    else if b < h.next ∧ h.frees b = 0 ∧ h.addr b ≤ a ∧ a + n ≤ h.addr b + (h.data b).length then
      .ok (((h.data b).drop (a - h.addr b)).take n)
    else .ub

/-- Overwrites part of a list. -/
def splice (l : List Val) (k : Nat) (x : List Val) : List Val := l.take k ++ x ++ l.drop (k + x.length)

/-- Writes the elements at a pointer. -/
def writeN (h : Heap) (blk : Option Nat) (a : Nat) (x : List Val) : Outcome Heap :=
  match blk with
  | none => if x.length = 0 then .ok h else .ub
  | some b =>
    if x.length = 0 then .ok h
    else if b < h.next ∧ h.frees b = 0 ∧ h.addr b ≤ a ∧ a + x.length ≤ h.addr b + (h.data b).length then
      .ok { h with data := upd h.data b (splice (h.data b) (a - h.addr b) x) }
    else .ub

/-- `memcpy`: overlapping ranges are undefined, copying a range onto itself is harmless. -/
def memcpy (h : Heap) (db : Option Nat) (da : Nat) (sb : Option Nat) (sa n : Nat) : Outcome Heap := do
  let x ← readN h sb sa n
  if db = sb ∧ da ≠ sa ∧ da < sa + n ∧ sa < da + n then .ub else writeN h db da x

/-- The object named `i`. -/
def St.get (s : St) (i : Nat) : Outcome Vec := match s.vecs i with
  | some v => .ok v
  | none => .ub

/-- Stores the object named `i`. -/
def St.set (s : St) (i : Nat) (v : Vec) : St := { s with vecs := upd s.vecs i (some v) }

/-- `delete[]`. -/
def free (h : Heap) (b : Nat) : Heap := { h with frees := upd h.frees b (h.frees b + 1) }

/-- `vInit`, Vector.h:141-146. -/
def vInit (h : Heap) (n : Nat) : Outcome (Heap × Vec) :=
  if n = 0 then .ok (h, {})
  else if n > 2 ^ 62 then .assertFail
  else .ok ({ h with next := h.next + 1, data := upd h.data h.next (List.replicate n none) },
            { mData := some h.next, blk := some h.next, mStart := h.addr h.next, mEnd := h.addr h.next + n })

/-- `size`, Vector.h:174-179. -/
def size (s : St) (i : Nat) : Outcome Nat := do
  let v ← s.get i
  if v.mStart < s.heap.dataAddr v then .assertFail
  else if v.mEnd < v.mStart then .assertFail
  else .ok (v.mEnd - v.mStart)

/-- `if (mData!=NULL) delete[] mData;`, Vector.h:188. -/
def delData (h : Heap) (v : Vec) : Heap := match v.mData with
  | some b => free h b
  | none => h

/-- `resize`, Vector.h:185-190. -/
def resize (s : St) (i n : Nat) : Outcome St := do
  let v ← s.get i
  let (h, v) ← vInit (delData s.heap v) n
  .ok ({ s with heap := h }.set i v)

/-- `clear`, Vector.h:193. -/
def clear (s : St) (i : Nat) : Outcome St := resize s i 0

/-- `clone`, Vector.h:197-200: `i.clone(j)`. -/
def clone (s : St) (i j : Nat) : Outcome St := do
  let n ← size s j
  let s ← resize s i n
  let vi ← s.get i
  let vj ← s.get j
  let bytes ← size s j
  let h ← memcpy s.heap vi.mData (s.heap.dataAddr vi) vj.blk vj.mStart bytes
  .ok { s with heap := h }

/-- `vConcat`, Vector.h:202-206: `i.vConcat(a,b)`. -/
def vConcat (s : St) (i a b : Nat) : Outcome St := do
  let na ← size s a
  let nb ← size s b
  let s ← resize s i (na + nb)
  let vi ← s.get i
  let va ← s.get a
  let ba ← size s a
  let h ← memcpy s.heap vi.blk vi.mStart va.blk va.mStart ba
  let s := { s with heap := h }
  let vb ← s.get b
  let ba ← size s a
  let bb ← size s b
  let h ← memcpy s.heap vi.blk (wadd vi.mStart ba) vb.blk vb.mStart bb
  .ok { s with heap := h }

/-- `shiftMem`, Vector.h:150-158: `i.shiftMem(j)`. -/
def shiftMem (s : St) (i j : Nat) : Outcome St := do
  let s ← clear s i
  let vj ← s.get j
  let s := s.set i vj
  let vj ← s.get j
  .ok (s.set j { vj with mData := none })

/-- `makeAlias`, Vector.h:161-169: `i.makeAlias(j)`. -/
def makeAlias (s : St) (i j : Nat) : Outcome St := do
  let vi ← s.get i
  let vj ← s.get j
  let s ← (if vi.mData.isSome then (if vi.mData = vj.mData then .assertFail else clear s i) else .ok s)
  let vi ← s.get i
  let vj ← s.get j
  .ok (s.set i { vi with blk := vj.blk, mStart := vj.mStart, mEnd := vj.mEnd })

/-- `VectorBase::operator=`, Vector.h:287-295 (the one `BitVector` has): `i = j`. -/
def assign (s : St) (i j : Nat) : Outcome St := do
  let vj ← s.get j
  if vj.mData.isSome then clone s i j else makeAlias s i j

/-- `Vector::operator=(const Vector&)`, Vector.h:353. -/
def assignConst (s : St) (i j : Nat) : Outcome St := clone s i j

/-- `Vector::operator=(Vector&)`, Vector.h:350. -/
def assignShift (s : St) (i j : Nat) : Outcome St := shiftMem s i j

/-- A name for a new object. -/
def fresh (s : St) (k : Nat) : Outcome Unit := if (s.vecs k).isSome then .ub else .ok ()

/-- `Vector(size_t)`, Vector.h:327; `BitVector(size_t)`, BitVector.h:142. -/
def construct (s : St) (k n : Nat) : Outcome St := do
  let _ ← fresh s k
  resize (s.set k {}) k n

/-- `Vector(Vector&)`, Vector.h:330: takes over the block. -/
def copyShift (s : St) (k j : Nat) : Outcome St := do
  let _ ← fresh s k
  let vj ← s.get j
  .ok ((s.set k vj).set j { vj with mData := none })

/-- `Vector(const Vector&)`, Vector.h:333: copies. -/
def copyConst (s : St) (k j : Nat) : Outcome St := do
  let _ ← fresh s k
  clone (s.set k {}) k j

/-- `BitVector(const BitVector&)`, BitVector.h:130-137: copies an owner, aliases an alias. -/
def copyBit (s : St) (k j : Nat) : Outcome St := do
  let _ ← fresh s k
  assign (s.set k {}) k j

/-- The concatenating constructors, Vector.h:342-345, BitVector.h:146-150. -/
def concat (s : St) (k a b : Nat) : Outcome St := do
  let _ ← fresh s k
  vConcat (s.set k {}) k a b

/-- `segment`, Vector.h:356-371, BitVector.h:160-170: `k` becomes an alias of part of `j`. -/
def segment (s : St) (k j start span : Nat) : Outcome St := do
  let _ ← fresh s k
  let v ← s.get j
  let wStart := wadd v.mStart start
  let wEnd := wadd wStart span
  if ¬ wEnd ≤ v.mEnd then .assertFail
  else .ok (s.set k { mData := none, blk := v.blk, mStart := wStart, mEnd := wEnd })

/-- `head`, Vector.h:373. -/
def head (s : St) (k j span : Nat) : Outcome St := segment s k j 0 span

/-- `tail`, Vector.h:375: `size()-start` is unsigned. -/
def tail (s : St) (k j start : Nat) : Outcome St := do
  let n ← size s j
  segment s k j start ((n + W - start) % W)

/-- Destructor, Vector.h:221-225. -/
def destroy (s : St) (k : Nat) : Outcome St := do
  let s ← clear s k
  .ok { s with vecs := upd s.vecs k none }

/-- `cloneSegment`, BitVector.h:174-182; `t` names the local variable `seg`. -/
def cloneSegment (s : St) (k t j start span : Nat) : Outcome St := do
  let s ← segment s t j start span
  let s ← construct s k 0
  let s ← clone s k t
  destroy s t

/-- `operator[]` read, Vector.h:304-308; `softbit`, BitVector.h:409-414. -/
def read (s : St) (i idx : Nat) : Outcome Val := do
  let v ← s.get i
  if ¬ wadd v.mStart idx < v.mEnd then .assertFail
  else
    let l ← readN s.heap v.blk (wadd v.mStart idx) 1
    .ok (l.headD none)

/-- `v[idx] = x`, Vector.h:298-302; `settfb`, BitVector.h:303-308, 417-422. -/
def write (s : St) (i idx : Nat) (x : Val) : Outcome St := do
  let v ← s.get i
  if ¬ wadd v.mStart idx < v.mEnd then .assertFail
  else
    let h ← writeN s.heap v.blk (wadd v.mStart idx) [x]
    .ok { s with heap := h }

/-- `copyToSegment(other,start,span)`, Vector.h:242-248. -/
def copyToSegment (s : St) (i o start span : Nat) : Outcome St := do
  let v ← s.get i
  let w ← s.get o
  let base := wadd w.mStart start
  if ¬ wadd base span ≤ w.mEnd then .assertFail
  else if ¬ wadd v.mStart span ≤ v.mEnd then .assertFail
  else
    let h ← memcpy s.heap w.blk base v.blk v.mStart span
    .ok { s with heap := h }

/-- `segmentCopyTo(other,start,span)`, Vector.h:262-268. -/
def segmentCopyTo (s : St) (i o start span : Nat) : Outcome St := do
  let v ← s.get i
  let w ← s.get o
  let base := wadd v.mStart start
  if ¬ wadd base span ≤ v.mEnd then .assertFail
  else if ¬ wadd w.mStart span ≤ w.mEnd then .assertFail
  else
    let h ← memcpy s.heap w.blk w.mStart v.blk base span
    .ok { s with heap := h }

/-- `fill(val,start,length)`, Vector.h:276-282. -/
def fill (s : St) (i : Nat) (x : Val) (start length : Nat) : Outcome St := do
  let v ← s.get i
  let dp := wadd v.mStart start
  let e := wadd dp length
  if ¬ e ≤ v.mEnd then .assertFail
  else
    let h ← writeN s.heap v.blk dp (List.replicate (e - dp) x)
    .ok { s with heap := h }

/-- What a program can do with vectors. -/
inductive Op where
  | construct (k n : Nat)
  | copyShift (k j : Nat)
  | copyConst (k j : Nat)
  | copyBit (k j : Nat)
  | concat (k a b : Nat)
  | vConcat (i a b : Nat)
  | segment (k j start span : Nat)
  | tail (k j start : Nat)
  | cloneSegment (k t j start span : Nat)
  | assign (i j : Nat)
  | assignConst (i j : Nat)
  | assignShift (i j : Nat)
  | makeAlias (i j : Nat)
  | resize (i n : Nat)
  | clear (i : Nat)
  | destroy (i : Nat)
  | write (i idx : Nat) (x : Val)
  | copyToSegment (i o start span : Nat)
  | segmentCopyTo (i o start span : Nat)
  | fill (i : Nat) (x : Val) (start length : Nat)

/-- One operation. -/
def step (s : St) : Op → Outcome St
  | .construct k n => VectorHeap.construct s k n
  | .copyShift k j => VectorHeap.copyShift s k j
  | .copyConst k j => VectorHeap.copyConst s k j
  | .copyBit k j => VectorHeap.copyBit s k j
  | .concat k a b => VectorHeap.concat s k a b
  | .vConcat i a b => VectorHeap.vConcat s i a b
  | .segment k j st sp => VectorHeap.segment s k j st sp
  | .tail k j st => VectorHeap.tail s k j st
  | .cloneSegment k t j st sp => VectorHeap.cloneSegment s k t j st sp
  | .assign i j => VectorHeap.assign s i j
  | .assignConst i j => VectorHeap.assignConst s i j
  | .assignShift i j => VectorHeap.assignShift s i j
  | .makeAlias i j => VectorHeap.makeAlias s i j
  | .resize i n => VectorHeap.resize s i n
  | .clear i => VectorHeap.clear s i
  | .destroy i => VectorHeap.destroy s i
  | .write i idx x => VectorHeap.write s i idx x
  | .copyToSegment i o st sp => VectorHeap.copyToSegment s i o st sp
  | .segmentCopyTo i o st sp => VectorHeap.segmentCopyTo s i o st sp
  | .fill i x st len => VectorHeap.fill s i x st len

/-- A sequence of operations. -/
def run (s : St) : List Op → Outcome St
  | [] => .ok s
  | o :: os => do run (← step s o) os

/-- Start: nothing exists; `addr` is where the allocator will place the blocks. -/
def init (addr : Nat → Nat) : St := ⟨⟨addr, 0, fun _ => [], fun _ => 0⟩, fun _ => none⟩

/-- What is assumed of the allocator: not NULL and in the lower part of the address space. -/
def GoodAddr (addr : Nat → Nat) : Prop := ∀ i, 0 < addr i ∧ addr i ≤ 2 ^ 62

end Verif.VectorHeap
