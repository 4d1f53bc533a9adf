import Verif.Core.Str
import Verif.Threads.Mutex

/-
Property C175: calls in which the memory runs out.

An allocation that fails throws `std::bad_alloc` (`new`, and the containers and strings of the standard library) or yields NULL (`malloc`, `strdup`).  What the code does
while the exception passes is the subject here: a `ScopedLock` (`/repo/Threads.h:167-175`) releases its mutex, a mutex locked with `lock()` stays locked.  One call is
run from beginning to end, with the allocations failing in any pattern; the mutex concerned is held by the calling thread during the whole of the body, so that nobody
else changes the data meanwhile.

Simplifications: the number of allocations made for one node or string depends on the library (short strings need none) and is a parameter; comparisons of keys and
destructors throw nothing.
-/

namespace Verif.Memory.Exhausted
open Verif

/-- Exceptions: `std::bad_alloc`, and `ConfigurationTableKeyNotFound` (Configuration.h:55-63). -/
inductive Exn where
  | noMemory
  | notFound
  deriving DecidableEq

/-- How a call ends. -/
inductive Res (α : Type) where
  | val (a : α)
  | thrown (e : Exn)
  deriving DecidableEq

/-- What a call acts upon: how often the calling thread has the mutex locked, the data, and how many times the condition variable was signalled. -/
structure W (σ : Type) where
  depth : Nat
  data : σ
  woken : Nat
  deriving DecidableEq

/-- Code that may throw.  The list says which of the following allocations succeed; those beyond its end succeed. -/
def X (σ α : Type) := List Bool → W σ → List Bool × W σ × Res α

variable {σ α β : Type}

instance : Monad (X σ) where
  pure a := fun o w => (o, w, .val a)
  bind f g := fun o w =>
    match f o w with
    | (o', w', .val a) => g a o' w'
    | (o', w', .thrown e) => (o', w', .thrown e)

def getData : X σ σ := fun o w => (o, w, .val w.data)
def setData (d : σ) : X σ Unit := fun o w => (o, { w with data := d }, .val ())
def throwIt (e : Exn) : X σ α := fun o w => (o, w, .thrown e)

/-- `new`: the exception is thrown if there is no memory. -/
def alloc : X σ Unit
  | [], w => ([], w, .val ())
  | true :: o, w => (o, w, .val ())
  | false :: o, w => (o, w, .thrown .noMemory)

/-- `malloc`: says whether there was memory. -/
def tryAlloc : X σ Bool
  | [], w => ([], w, .val true)
  | b :: o, w => (o, w, .val b)

/-- Several allocations, freed again by the library if a later one fails. -/
def allocs : Nat → X σ Unit
  | 0 => pure ()
  | n + 1 => do alloc; allocs n

/-- `Mutex::lock` and `Mutex::unlock`, once the mutex is there (Threads.cpp:157-189). -/
def lock : X σ Unit := fun o w => (o, { w with depth := w.depth + 1 }, .val ())
def unlock : X σ Unit := fun o w => (o, { w with depth := w.depth - 1 }, .val ())

/-- A block with a `ScopedLock` (Threads.h:167-175): its destructor unlocks also when an exception passes. -/
def withLock (body : X σ α) : X σ α := fun o w =>
  match body o { w with depth := w.depth + 1 } with
  | (o', w', r) => (o', { w' with depth := w'.depth - 1 }, r)

/-- `Signal::signal` and `broadcast`. -/
def signal : X σ Unit := fun o w => (o, { w with woken := w.woken + 1 }, .val ())

/-! ### Interthread classes -/

/-- A `PointerFIFO` (LinkedLists.h:58-72): the items, and the number of nodes in the free list. -/
structure Fifo where
  items : List Nat
  spare : Nat
  deriving DecidableEq

/-- `PointerFIFO::allocate`, LinkedLists.cpp:72-78. -/
def fifoAllocate : X Fifo Unit := do
  let d ← getData
  if d.spare = 0 then alloc else setData { d with spare := d.spare - 1 }

/-- `PointerFIFO::put`, LinkedLists.cpp:45-54. -/
def fifoPut (v : Nat) : X Fifo Unit := do
  fifoAllocate
  let d ← getData
  setData { d with items := d.items ++ [v] }

/-- `PointerFIFO::push_front`, LinkedLists.cpp:33-43. -/
def fifoFront (v : Nat) : X Fifo Unit := do
  fifoAllocate
  let d ← getData
  setData { d with items := v :: d.items }

/-- `PtrList::put` and `push_front` (Interthread.h:49-71): the node of a `std::list` is allocated before it is linked. -/
def listPut (v : Nat) : X (List Nat) Unit := do
  alloc
  let d ← getData
  setData (d ++ [v])

def listFront (v : Nat) : X (List Nat) Unit := do
  alloc
  let d ← getData
  setData (v :: d)

/-- `std::priority_queue::push` on a `std::vector` with room for `room` more elements (Interthread.h:647): a new block is allocated when there is none.  `arrange` is
what `push_heap` does to the order. -/
def heapPush (arrange : List Nat → List Nat) (v : Nat) : X (List Nat × Nat) Unit := do
  let d ← getData
  if d.2 = 0 then do
    alloc
    setData (arrange (d.1 ++ [v]), d.1.length + 1)
  else setData (arrange (d.1 ++ [v]), d.2 - 1)

/-- `write` and `write_front` of `InterthreadQueue` (Interthread.h:296-321), `InterthreadQueueWithWait::write` (Interthread.h:415-422) and
`InterthreadPriorityQueue::write` (Interthread.h:724-730), with the function of the container. -/
def queueWrite (put : Nat → X σ Unit) (v : Nat) : X σ Unit := do
  withLock (put v)
  signal

/-- The data of an `InterthreadMap1`: the entries, and the elements deleted. -/
structure MapData where
  entries : List (Nat × Nat)
  deleted : List Nat
  deriving DecidableEq

/-- `InterthreadMap1::write`, Interthread.h:470-481; `n` allocations for the node of the `std::map` and the copy of the key. -/
def mapWrite (n k v : Nat) : X MapData Unit := withLock do
  let d ← getData
  match d.entries.lookup k with
  | some x => setData ⟨d.entries.map fun p => if p.1 = k then (k, v) else p, d.deleted ++ [x]⟩
  | none => do
    allocs n
    setData { d with entries := d.entries ++ [(k, v)] }
  signal

/-! ### Code with `lock()` and `unlock()` -/

/-- `addAlarm`, Logger.cpp:198-205; `n` allocations for the entry of the list, `m` in `gConfig.getNum`, which returns `limit`. -/
def addAlarm (n m limit : Nat) (s : Str) : X (List Str) Unit := do
  lock
  allocs n
  let d ← getData
  setData (d ++ [s])
  allocs m
  let d ← getData
  setData (d.drop (d.length - limit))
  unlock

/-- Copying a list, `n` allocations for each entry. -/
def copyAll (n : Nat) : List Str → X (List Str) (List Str)
  | [] => pure []
  | s :: l => do
    allocs n
    let r ← copyAll n l
    pure (s :: r)

/-- `gGetLoggerAlarms`, Logger.cpp:185-195. -/
def getAlarms (n : Nat) : X (List Str) (List Str) := do
  lock
  let d ← getData
  let r ← copyAll n d
  unlock
  pure r

/-- `gGetLoggingLevel`, Logger.cpp:155-177, on the cache; `level` is what the configuration says.  The cache flush is left out. -/
def loggingLevel (n : Nat) (key level : Nat) : X (List (Nat × Nat)) Nat := do
  lock
  let d ← getData
  match d.lookup key with
  | some r => do
    unlock
    pure r
  | none => do
    unlock
    lock
    allocs n
    setData (d ++ [(key, level)])
    unlock
    pure level

/-- The counts waiting to be written, `mBatch` (Reporting.h:48). -/
abbrev Batch := List (Str × Nat)

/-- `mBatch[name]` set to a value, the name being there. -/
def Batch.set (b : Batch) (name : Str) (c : Nat) : Batch := b.map fun p => if p.1 = name then (name, c) else p

/-- The part of `ReportingTable::create` on the batch, Reporting.cpp:68-72. -/
def reportCreate (n : Nat) (name : Str) : X Batch Unit := do
  lock
  let b ← getData
  match b.lookup name with
  | some _ => unlock
  | none => do
    allocs n
    setData (b ++ [(name, 0)])
    unlock

/-- `ReportingTable::incr`, Reporting.cpp:86-93; `n` allocations for the name as a `std::string`, and `m` more for a new node. -/
def reportIncr (n m : Nat) (name : Str) : X Batch Unit := do
  lock
  allocs n
  let b ← getData
  match b.lookup name with
  | some c => setData (b.set name (c + 1))
  | none => do
    allocs m
    setData (b ++ [(name, 1)])
  unlock

/-- The loop of `ReportingTable::commit`, Reporting.cpp:176-184, over the entries not visited yet: answers what is to be written. -/
def takeOut (n : Nat) : Batch → X Batch Batch
  | [] => pure []
  | (name, c) :: l =>
    if 0 < c then do
      allocs n
      let b ← getData
      setData (b.set name 0)
      let r ← takeOut n l
      pure ((name, c) :: r)
    else takeOut n l

/-- `ReportingTable::commit` up to line 185: the counts taken out of the batch. -/
def commitTake (n : Nat) : X Batch Batch := do
  lock
  let b ← getData
  let r ← takeOut n b
  unlock
  pure r

/-- `UnixSignal::Register`, UnixSignal.cpp:137-140, for one signal: whether it is caught, and the callbacks. -/
def register (h : Nat) : X (Bool × List Nat) Unit := do
  lock
  let d ← getData
  setData (true, d.2)
  alloc
  setData (true, d.2 ++ [h])
  unlock

/-! ### Reading the configuration -/

/-- Cache of the configuration table: for each key visited, the value, or none if it is recorded as undefined; and the number of blocks nobody will free. -/
structure Conf where
  cache : List (Str × Option Str)
  leaked : Nat
  deriving DecidableEq

/-- `mCache[key] = ConfigurationRecord(...)`, Configuration.cpp:683,686,689.  C++ before 2017 leaves open whether the record is built first or the entry, which begins
as undefined (Configuration.h:85), is made first (`entryFirst`). -/
def store (entryFirst : Bool) (key : Str) (r : Option Str) : X Conf Unit :=
  if entryFirst then do
    alloc
    let d ← getData
    setData { d with cache := d.cache ++ [(key, none)] }
    alloc
    setData { d with cache := d.cache ++ [(key, r)] }
  else do
    alloc
    alloc
    let d ← getData
    setData { d with cache := d.cache ++ [(key, r)] }

/-- A block allocated with `malloc` is lost if the code throws (Configuration.cpp:675-693). -/
def losing (body : X Conf α) : X Conf α := fun o w =>
  match body o w with
  | (o', w', .val a) => (o', w', .val a)
  | (o', w', .thrown e) => (o', { w' with data := { w'.data with leaked := w'.data.leaked + 1 } }, .thrown e)

/-- The copy of the row made by `sqlite3_single_lookup` (sqlite3util.cpp:328-335): `strdup` yields NULL if there is no memory, which is not noticed. -/
def copyRow : Option Str → X Conf (Option Str)
  | none => pure none
  | some v => do
    let got ← tryAlloc
    pure (if got then some v else none)

/-- `ConfigurationTable::lookup`, Configuration.cpp:658-697, with the lock held and the cache not out of date; `row` is the value in the database, `dflt` the default
in the schema. -/
def confLookup (entryFirst : Bool) (row dflt : Option Str) (key : Str) : X Conf Str := do
  let d ← getData
  match d.cache.lookup key with
  | some (some v) => pure v
  | some none => throwIt .notFound
  | none => do
    let value ← copyRow row
    match value with
    | some v => do
      losing (store entryFirst key (some v))
      pure v
    | none =>
      match dflt with
      | some v => do
        store entryFirst key (some v)
        pure v
      | none => do
        store entryFirst key none
        throwIt .notFound

/-- `ConfigurationTable::getStr`, Configuration.cpp:713-724; `n` allocations for the copy returned. -/
def confGetStr (entryFirst : Bool) (row dflt : Option Str) (n : Nat) (key : Str) : X Conf Str := withLock do
  let v ← confLookup entryFirst row dflt key
  allocs n
  pure v

/-! ### Specification -/

/-- Whatever allocations fail, an exception leaves everything as it was. -/
def Strong (f : X σ α) : Prop := ∀ o w o' w' e, f o w = (o', w', .thrown e) → w' = w

/-- Whatever happens, the mutex is afterwards locked as often as before. -/
def LockFree (f : X σ α) : Prop := ∀ o w, (f o w).2.1.depth = w.depth

/-- If all allocations succeed, the call returns. -/
def Returns (f : X σ α) : Prop := ∀ o w, (∀ b ∈ o, b = true) → ∃ o' w' a, f o w = (o', w', .val a)

/-- When it returns, the effect is this one. -/
def Effect (f : X σ α) (q : W σ → W σ → α → Prop) : Prop := ∀ o w o' w' a, f o w = (o', w', .val a) → q w w' a

/-- Thrown out of, the mutex is locked once more than before; returned from, as often as before. -/
def KeepsLock (f : X σ α) : Prop :=
  ∀ o w, (∀ e, (f o w).2.2 = .thrown e → (f o w).2.1.depth = w.depth + 1) ∧ (∀ a, (f o w).2.2 = .val a → (f o w).2.1.depth = w.depth)

/-! ### Proofs -/

theorem bind_eq (f : X σ α) (g : α → X σ β) (o : List Bool) (w : W σ) :
    (f >>= g) o w = match f o w with
      | (o', w', .val a) => g a o' w'
      | (o', w', .thrown e) => (o', w', .thrown e) := rfl

theorem pure_eq (a : α) (o : List Bool) (w : W σ) : (pure a : X σ α) o w = (o, w, .val a) := rfl

theorem alloc_cases (o : List Bool) (w : W σ) : ((∀ b ∈ o, b = true) → ∃ o', alloc o w = (o', w, .val ()) ∧ ∀ b ∈ o', b = true) ∧
    ((∃ o', alloc o w = (o', w, .val ())) ∨ ∃ o', alloc o w = (o', w, .thrown .noMemory)) := by
  match o with
  | [] => exact ⟨fun h => ⟨[], rfl, h⟩, .inl ⟨[], rfl⟩⟩
  | true :: o => exact ⟨fun h => ⟨o, rfl, fun b hb => h b (.tail _ hb)⟩, .inl ⟨o, rfl⟩⟩
  | false :: o => exact ⟨fun h => absurd (h false (.head _)) (by decide), .inr ⟨o, rfl⟩⟩

theorem allocs_cases : ∀ (n : Nat) (o : List Bool) (w : W σ), ((∀ b ∈ o, b = true) → ∃ o', allocs n o w = (o', w, .val ()) ∧ ∀ b ∈ o', b = true) ∧
    ((∃ o', allocs n o w = (o', w, .val ())) ∨ ∃ o', allocs n o w = (o', w, .thrown .noMemory)) := by
  intro n
  induction n with
  | zero => exact fun o w => ⟨fun h => ⟨o, rfl, h⟩, .inl ⟨o, rfl⟩⟩
  | succ n ih =>
    intro o w
    obtain ⟨h1, h2⟩ := alloc_cases o w
    have he : allocs (n + 1) o w = match alloc o w with
      | (o', w', .val _) => allocs n o' w'
      | (o', w', .thrown e) => (o', w', .thrown e) := by
      simp only [allocs, bind_eq]
      rcases alloc o w with ⟨o', w', r⟩
      cases r <;> rfl
    refine ⟨fun h => ?_, ?_⟩
    · obtain ⟨o', e, h'⟩ := h1 h
      rw [he, e]
      exact (ih o' w).1 h'
    · rcases h2 with ⟨o', e⟩ | ⟨o', e⟩
      · rw [he, e]; exact (ih o' w).2
      · rw [he, e]; exact .inr ⟨o', rfl⟩

/-- What is shown of each container function: it throws before it changes anything, does not touch lock or condition variable, and has this effect. -/
structure Put (p : X σ Unit) (q : σ → σ → Prop) : Prop where
  cases : ∀ o w, (∃ o' d, p o w = (o', { w with data := d }, .val ()) ∧ q w.data d) ∨ ∃ o', p o w = (o', w, .thrown .noMemory)
  returns : ∀ o w, (∀ b ∈ o, b = true) → ∃ o' w', p o w = (o', w', .val ())

theorem put_write {p : Nat → X σ Unit} {v : Nat} {q : σ → σ → Prop} (h : Put (p v) q) :
    Strong (queueWrite p v) ∧ LockFree (queueWrite p v) ∧ Returns (queueWrite p v) ∧
      Effect (queueWrite p v) fun w w' _ => w'.depth = w.depth ∧ w'.woken = w.woken + 1 ∧ q w.data w'.data := by
  have he : ∀ o w, queueWrite p v o w = match p v o { w with depth := w.depth + 1 } with
      | (o', w', .val _) => (o', { w' with depth := w'.depth - 1, woken := w'.woken + 1 }, .val ())
      | (o', w', .thrown e) => (o', { w' with depth := w'.depth - 1 }, .thrown e) := by
    intro o w
    simp only [queueWrite, bind_eq, withLock, signal]
    rcases p v o { w with depth := w.depth + 1 } with ⟨o', w', r⟩
    cases r <;> rfl
  refine ⟨fun o w o' w' e h1 => ?_, fun o w => ?_, fun o w h1 => ?_, fun o w o' w' a h1 => ?_⟩
  · rw [he] at h1
    rcases h.cases o { w with depth := w.depth + 1 } with ⟨o1, d, e1, hq⟩ | ⟨o1, e1⟩
    · rw [e1] at h1; simp at h1
    · rw [e1] at h1; cases h1; rfl
  · rw [he]
    rcases h.cases o { w with depth := w.depth + 1 } with ⟨o1, d, e1, hq⟩ | ⟨o1, e1⟩ <;> rw [e1] <;> rfl
  · obtain ⟨o1, w1, e1⟩ := h.returns o { w with depth := w.depth + 1 } h1
    exact ⟨o1, _, (), by rw [he, e1]⟩
  · rw [he] at h1
    rcases h.cases o { w with depth := w.depth + 1 } with ⟨o1, d, e1, hq⟩ | ⟨o1, e1⟩
    · rw [e1] at h1; cases h1; exact ⟨rfl, rfl, hq⟩
    · rw [e1] at h1; simp at h1

theorem fifo_any (g : List Nat → List Nat) : Put (do fifoAllocate; let d ← getData; setData { d with items := g d.items } : X Fifo Unit) (fun d d' => d'.items = g d.items) := by
  constructor
  · intro o w
    by_cases hs : w.data.spare = 0
    · have he : (do fifoAllocate; let d ← getData; setData { d with items := g d.items } : X Fifo Unit) o w = match alloc o w with
          | (o', w', .val _) => (o', { w' with data := { w'.data with items := g w'.data.items } }, .val ())
          | (o', w', .thrown e) => (o', w', .thrown e) := by
        simp only [bind_eq, fifoAllocate, getData, setData, hs, if_true]
        rcases alloc o w with ⟨o', w', r⟩; cases r <;> rfl
      rcases (alloc_cases o w).2 with ⟨o', e⟩ | ⟨o', e⟩
      · exact .inl ⟨o', _, by rw [he, e], rfl⟩
      · exact .inr ⟨o', by rw [he, e]⟩
    · refine .inl ⟨o, ⟨g w.data.items, w.data.spare - 1⟩, ?_, rfl⟩
      simp only [bind_eq, fifoAllocate, getData, setData, hs, if_false]
  · intro o w ho
    by_cases hs : w.data.spare = 0
    · obtain ⟨o', e, _⟩ := (alloc_cases o w).1 ho
      refine ⟨o', { w with data := { w.data with items := g w.data.items } }, ?_⟩
      simp only [bind_eq, fifoAllocate, getData, setData, hs, if_true, e]
    · refine ⟨o, { w with data := ⟨g w.data.items, w.data.spare - 1⟩ }, ?_⟩
      simp only [bind_eq, fifoAllocate, getData, setData, hs, if_false]

theorem list_any (g : List Nat → List Nat) : Put (do alloc; let d ← getData; setData (g d) : X (List Nat) Unit) (fun d d' => d' = g d) := by
  constructor
  · intro o w
    rcases (alloc_cases o w).2 with ⟨o', e⟩ | ⟨o', e⟩
    · exact .inl ⟨o', g w.data, by simp only [bind_eq, getData, setData, e], rfl⟩
    · exact .inr ⟨o', by simp only [bind_eq, e]⟩
  · intro o w ho
    obtain ⟨o', e, _⟩ := (alloc_cases o w).1 ho
    exact ⟨o', { w with data := g w.data }, by simp only [bind_eq, getData, setData, e]⟩

theorem heap_any (arrange : List Nat → List Nat) (v : Nat) : Put (heapPush arrange v) (fun d d' => d'.1 = arrange (d.1 ++ [v])) := by
  constructor
  · intro o w
    by_cases hs : w.data.2 = 0
    · rcases (alloc_cases o w).2 with ⟨o', e⟩ | ⟨o', e⟩
      · exact .inl ⟨o', (arrange (w.data.1 ++ [v]), w.data.1.length + 1), by simp only [heapPush, bind_eq, getData, setData, hs, if_true, e], rfl⟩
      · exact .inr ⟨o', by simp only [heapPush, bind_eq, getData, hs, if_true, e]⟩
    · exact .inl ⟨o, (arrange (w.data.1 ++ [v]), w.data.2 - 1), by simp only [heapPush, bind_eq, getData, setData, hs, if_false], rfl⟩
  · intro o w ho
    by_cases hs : w.data.2 = 0
    · obtain ⟨o', e, _⟩ := (alloc_cases o w).1 ho
      exact ⟨o', { w with data := (arrange (w.data.1 ++ [v]), w.data.1.length + 1) }, by simp only [heapPush, bind_eq, getData, setData, hs, if_true, e]⟩
    · exact ⟨o, { w with data := (arrange (w.data.1 ++ [v]), w.data.2 - 1) }, by simp only [heapPush, bind_eq, getData, setData, hs, if_false]⟩

/-- **C175.** Writing to a queue: if memory runs out, the queue is as it was, the lock is free, nobody has been woken and the item still belongs to the caller;
otherwise the item is in the queue and one reader is woken.  For both kinds of list, both ends, and the priority queue. -/
theorem C175_queue_write (v : Nat) :
    (∀ p : X Fifo Unit, p = queueWrite fifoPut v → Strong p ∧ LockFree p ∧ Returns p ∧
      Effect p fun w w' _ => w'.depth = w.depth ∧ w'.woken = w.woken + 1 ∧ w'.data.items = w.data.items ++ [v]) ∧
    (∀ p : X Fifo Unit, p = queueWrite fifoFront v → Strong p ∧ LockFree p ∧ Returns p ∧
      Effect p fun w w' _ => w'.depth = w.depth ∧ w'.woken = w.woken + 1 ∧ w'.data.items = v :: w.data.items) ∧
    (∀ p : X (List Nat) Unit, p = queueWrite listPut v → Strong p ∧ LockFree p ∧ Returns p ∧
      Effect p fun w w' _ => w'.depth = w.depth ∧ w'.woken = w.woken + 1 ∧ w'.data = w.data ++ [v]) ∧
    (∀ p : X (List Nat) Unit, p = queueWrite listFront v → Strong p ∧ LockFree p ∧ Returns p ∧
      Effect p fun w w' _ => w'.depth = w.depth ∧ w'.woken = w.woken + 1 ∧ w'.data = v :: w.data) ∧
    (∀ (arrange : List Nat → List Nat), (∀ l, (arrange l).Perm l) → ∀ p : X (List Nat × Nat) Unit, p = queueWrite (heapPush arrange) v →
      Strong p ∧ LockFree p ∧ Returns p ∧ Effect p fun w w' _ => w'.depth = w.depth ∧ w'.woken = w.woken + 1 ∧ w'.data.1.Perm (v :: w.data.1)) := by
  refine ⟨?_, ?_, ?_, ?_, ?_⟩
  · rintro _ rfl; exact put_write (p := fifoPut) (fifo_any (· ++ [v]))
  · rintro _ rfl; exact put_write (p := fifoFront) (fifo_any (v :: ·))
  · rintro _ rfl; exact put_write (p := listPut) (list_any (· ++ [v]))
  · rintro _ rfl; exact put_write (p := listFront) (list_any (v :: ·))
  · rintro arrange ha _ rfl
    obtain ⟨h1, h2, h3, h4⟩ := put_write (p := heapPush arrange) (heap_any arrange v)
    refine ⟨h1, h2, h3, fun o w o' w' a h => ?_⟩
    obtain ⟨e1, e2, e3⟩ := h4 o w o' w' a h
    exact ⟨e1, e2, e3 ▸ (ha _).trans List.perm_append_comm⟩

/-- Non-trivial case: the second item needs a new node, which cannot be had; the first one is still there and the lock is free. -/
example : (do queueWrite fifoPut 1; queueWrite fifoPut 2 : X Fifo Unit) [false] ⟨0, ⟨[], 1⟩, 0⟩ = ([], ⟨0, ⟨[1], 0⟩, 1⟩, .thrown .noMemory) := rfl

/-- What `write` leaves in the map. -/
def Written (k v : Nat) (d d' : MapData) : Prop :=
  d'.entries.lookup k = some v ∧ (∀ j, j ≠ k → d'.entries.lookup j = d.entries.lookup j) ∧ d'.deleted = d.deleted ++ (d.entries.lookup k).toList

theorem lookup_map_set (k v : Nat) : ∀ (l : List (Nat × Nat)) (j : Nat), (l.map fun p => if p.1 = k then (k, v) else p).lookup j =
    if j = k then (l.lookup k).map fun _ => v else l.lookup j := by
  intro l j
  induction l with
  | nil => simp
  | cons p l ih =>
    obtain ⟨a, b⟩ := p
    simp only [List.map_cons]
    by_cases ha : a = k
    · subst ha
      simp only [if_true, List.lookup_cons, ih]
      by_cases hj : j = a
      · simp [hj]
      · have : (j == a) = false := by simpa using hj
        simp [hj, this]
    · simp only [if_neg ha, List.lookup_cons, ih]
      by_cases hj : j = k
      · subst hj
        have : (j == a) = false := by simpa using Ne.symm ha
        simp [this]
      · simp only [if_neg hj]

theorem lookup_append_new (k v j : Nat) (l : List (Nat × Nat)) (h : l.lookup k = none) : (l ++ [(k, v)]).lookup j = if j = k then some v else l.lookup j := by
  rw [List.lookup_append]
  by_cases hj : j = k
  · subst hj; simp [h]
  · simp only [if_neg hj, List.lookup_cons, List.lookup_nil]
    have : (j == k) = false := by simpa using hj
    simp [this]

/-- **C175.** The same of a map: a key already there needs no memory; if memory runs out the map is as it was, no element has been deleted, and the lock is free. -/
theorem C175_map_write (n k v : Nat) : Strong (mapWrite n k v) ∧ LockFree (mapWrite n k v) ∧ Returns (mapWrite n k v) ∧
    Effect (mapWrite n k v) (fun w w' _ => w'.depth = w.depth ∧ w'.woken = w.woken + 1 ∧ Written k v w.data w'.data) ∧
    ∀ o w, w.data.entries.lookup k ≠ none → ∃ w', mapWrite n k v o w = (o, w', .val ()) := by
  have hs : ∀ o (w : W MapData) x, w.data.entries.lookup k = some x → mapWrite n k v o w =
      (o, ⟨w.depth, ⟨w.data.entries.map fun p => if p.1 = k then (k, v) else p, w.data.deleted ++ [x]⟩, w.woken + 1⟩, .val ()) := by
    intro o w x hx
    simp only [mapWrite, withLock, bind_eq, getData, hx, setData, signal, Nat.add_sub_cancel]
  have hn : ∀ o (w : W MapData), w.data.entries.lookup k = none → mapWrite n k v o w = match allocs n o { w with depth := w.depth + 1 } with
      | (o', w', .val _) => (o', ⟨w'.depth - 1, { w.data with entries := w.data.entries ++ [(k, v)] }, w'.woken + 1⟩, .val ())
      | (o', w', .thrown e) => (o', { w' with depth := w'.depth - 1 }, .thrown e) := by
    intro o w hx
    simp only [mapWrite, withLock, bind_eq, getData, hx, setData, signal]
    rcases allocs n o { w with depth := w.depth + 1 } with ⟨o', w', r⟩
    cases r <;> rfl
  refine ⟨fun o w o' w' e h => ?_, fun o w => ?_, fun o w ho => ?_, fun o w o' w' a h => ?_, fun o w hk => ?_⟩
  · cases hx : w.data.entries.lookup k with
    | some x => rw [hs o w x hx] at h; simp at h
    | none =>
      rw [hn o w hx] at h
      rcases (allocs_cases n o { w with depth := w.depth + 1 }).2 with ⟨o1, e1⟩ | ⟨o1, e1⟩ <;> rw [e1] at h <;> cases h
      rfl
  · cases hx : w.data.entries.lookup k with
    | some x => rw [hs o w x hx]
    | none =>
      rw [hn o w hx]
      rcases (allocs_cases n o { w with depth := w.depth + 1 }).2 with ⟨o1, e1⟩ | ⟨o1, e1⟩ <;> rw [e1] <;> rfl
  · cases hx : w.data.entries.lookup k with
    | some x => exact ⟨_, _, _, hs o w x hx⟩
    | none =>
      obtain ⟨o1, e1, _⟩ := (allocs_cases n o { w with depth := w.depth + 1 }).1 ho
      exact ⟨o1, _, (), by rw [hn o w hx, e1]⟩
  · cases hx : w.data.entries.lookup k with
    | some x =>
      rw [hs o w x hx] at h
      cases h
      refine ⟨rfl, rfl, ?_, fun j hj => ?_, ?_⟩
      · rw [lookup_map_set, hx]; simp
      · rw [lookup_map_set, if_neg hj]
      · rw [hx]; rfl
    | none =>
      rw [hn o w hx] at h
      rcases (allocs_cases n o { w with depth := w.depth + 1 }).2 with ⟨o1, e1⟩ | ⟨o1, e1⟩ <;> rw [e1] at h <;> cases h
      refine ⟨rfl, rfl, ?_, fun j hj => ?_, ?_⟩
      · rw [lookup_append_new k v k _ hx, if_pos rfl]
      · rw [lookup_append_new k v j _ hx, if_neg hj]
      · rw [hx]; simp
  · obtain ⟨x, hx⟩ := Option.ne_none_iff_exists'.1 hk
    exact ⟨_, hs o w x hx⟩

/-- Non-trivial case: the node is there but not the copy of the key. -/
example : mapWrite 2 5 7 [true, false] ⟨0, ⟨[(1, 4)], []⟩, 0⟩ = ([], ⟨0, ⟨[(1, 4)], []⟩, 0⟩, .thrown .noMemory) := rfl
example : mapWrite 2 1 7 [false] ⟨0, ⟨[(1, 4)], []⟩, 0⟩ = ([false], ⟨0, ⟨[(1, 7)], [4]⟩, 1⟩, .val ()) := rfl

/-! ### `lock()` and `unlock()` -/

/-- Code that does not touch the lock. -/
def Same (f : X σ α) : Prop := ∀ o w, (f o w).2.1.depth = w.depth

theorem same_pure (a : α) : Same (pure a : X σ α) := fun _ _ => rfl
theorem same_get : Same (getData : X σ σ) := fun _ _ => rfl
theorem same_set (d : σ) : Same (setData d : X σ Unit) := fun _ _ => rfl
theorem same_throw (e : Exn) : Same (throwIt e : X σ α) := fun _ _ => rfl
theorem same_alloc : Same (alloc : X σ Unit) := by
  intro o w
  rcases (alloc_cases o w).2 with ⟨o', e⟩ | ⟨o', e⟩ <;> rw [e]
theorem same_tryAlloc : Same (tryAlloc : X σ Bool) := by
  intro o w
  cases o <;> rfl
theorem same_allocs (n : Nat) : Same (allocs n : X σ Unit) := by
  intro o w
  rcases (allocs_cases n o w).2 with ⟨o', e⟩ | ⟨o', e⟩ <;> rw [e]
theorem same_bind {f : X σ α} {g : α → X σ β} (hf : Same f) (hg : ∀ a, Same (g a)) : Same (f >>= g) := by
  intro o w
  have h := hf o w
  rw [bind_eq]
  rcases hr : f o w with ⟨o', w', r⟩
  rw [hr] at h
  cases r with
  | val a => exact (hg a o' w').trans h
  | thrown e => exact h

theorem same_copyAll (n : Nat) : ∀ l, Same (copyAll n l)
  | [] => same_pure _
  | _ :: l => same_bind (same_allocs n) fun _ => same_bind (same_copyAll n l) fun _ => same_pure _

theorem same_takeOut (n : Nat) : ∀ l, Same (takeOut n l)
  | [] => same_pure _
  | (name, c) :: l => by
    simp only [takeOut]
    split
    · exact same_bind (same_allocs n) fun _ => same_bind same_get fun _ => same_bind (same_set _) fun _ => same_bind (same_takeOut n l) fun _ => same_pure _
    · exact same_takeOut n l

/-- Begun with the mutex locked `k` times, code leaves it locked `t` times when it throws and `v` times when it does not. -/
def At (f : X σ α) (k t v : Nat) : Prop :=
  ∀ o w, w.depth = k → (∀ e, (f o w).2.2 = .thrown e → (f o w).2.1.depth = t) ∧ (∀ a, (f o w).2.2 = .val a → (f o w).2.1.depth = v)

theorem at_lock {k t : Nat} : At (lock : X σ Unit) k t (k + 1) := fun _ _ h => ⟨fun _ h' => (nomatch h'), fun _ _ => congrArg (· + 1) h⟩
theorem at_unlock {k t : Nat} : At (unlock : X σ Unit) (k + 1) t k := fun _ _ h => ⟨fun _ h' => (nomatch h'), fun _ _ => congrArg (· - 1) h⟩
theorem at_get {k t : Nat} : At (getData : X σ σ) k t k := fun _ _ h => ⟨fun _ h' => (nomatch h'), fun _ _ => h⟩
theorem at_set {k t : Nat} (d : σ) : At (setData d : X σ Unit) k t k := fun _ _ h => ⟨fun _ h' => (nomatch h'), fun _ _ => h⟩
theorem at_pure {k t : Nat} (a : α) : At (pure a : X σ α) k t k := fun _ _ h => ⟨fun _ h' => (nomatch h'), fun _ _ => h⟩
theorem at_same {k : Nat} {f : X σ α} (hf : Same f) : At f k k k := fun o w h => ⟨fun _ _ => (hf o w).trans h, fun _ _ => (hf o w).trans h⟩
theorem at_bind {k t m v : Nat} {f : X σ α} {g : α → X σ β} (hf : At f k t m) (hg : ∀ a, At (g a) m t v) : At (f >>= g) k t v := by
  intro o w h
  obtain ⟨h1, h2⟩ := hf o w h
  rw [bind_eq]
  rcases hr : f o w with ⟨o', w', r⟩
  rw [hr] at h1 h2
  cases r with
  | val a => exact hg a o' w' (h2 a rfl)
  | thrown e => exact ⟨fun _ _ => h1 e rfl, fun _ h' => (nomatch h')⟩

theorem keeps_of_at {f : X σ α} (h : ∀ k, At f k (k + 1) k) : KeepsLock f := fun o w => h w.depth o w rfl

/-- **C175**, the part that holds of code with `lock()` and `unlock()`: returned from, it has unlocked.  Missing: thrown out of, it has not; the mutex is then locked
exactly once too often, for every pattern of failing allocations. -/
theorem C175_manual_partial :
    (∀ n m limit s, KeepsLock (addAlarm n m limit s)) ∧ (∀ n, KeepsLock (getAlarms n)) ∧ (∀ n key level, KeepsLock (loggingLevel n key level)) ∧
    (∀ n name, KeepsLock (reportCreate n name)) ∧ (∀ n m name, KeepsLock (reportIncr n m name)) ∧ (∀ n, KeepsLock (commitTake n)) ∧ (∀ h, KeepsLock (register h)) := by
  refine ⟨fun n m limit s => keeps_of_at fun k => ?_, fun n => keeps_of_at fun k => ?_, fun n key level => keeps_of_at fun k => ?_,
    fun n name => keeps_of_at fun k => ?_, fun n m name => keeps_of_at fun k => ?_, fun n => keeps_of_at fun k => ?_, fun h => keeps_of_at fun k => ?_⟩
  · exact at_bind at_lock fun _ => at_bind (at_same (same_allocs n)) fun _ => at_bind at_get fun _ => at_bind (at_set _) fun _ =>
      at_bind (at_same (same_allocs m)) fun _ => at_bind at_get fun _ => at_bind (at_set _) fun _ => at_unlock
  · exact at_bind at_lock fun _ => at_bind at_get fun d => at_bind (at_same (same_copyAll n d)) fun _ => at_bind at_unlock fun _ => at_pure _
  · refine at_bind at_lock fun _ => at_bind at_get fun d => ?_
    split
    · exact at_bind at_unlock fun _ => at_pure _
    · exact at_bind at_unlock fun _ => at_bind at_lock fun _ => at_bind (at_same (same_allocs n)) fun _ => at_bind (at_set _) fun _ => at_bind at_unlock fun _ => at_pure _
  · refine at_bind at_lock fun _ => at_bind at_get fun d => ?_
    split
    · exact at_unlock
    · exact at_bind (at_same (same_allocs n)) fun _ => at_bind (at_set _) fun _ => at_unlock
  · refine at_bind at_lock fun _ => at_bind (at_same (same_allocs n)) fun _ => at_bind at_get fun d => ?_
    split
    · exact at_bind (at_set _) fun _ => at_unlock
    · exact at_bind (at_same (same_allocs m)) fun _ => at_bind (at_set _) fun _ => at_unlock
  · exact at_bind at_lock fun _ => at_bind at_get fun d => at_bind (at_same (same_takeOut n d)) fun _ => at_bind at_unlock fun _ => at_pure _
  · exact at_bind at_lock fun _ => at_bind at_get fun d => at_bind (at_set _) fun _ => at_bind (at_same same_alloc) fun _ => at_bind (at_set _) fun _ => at_unlock

/-- **C175 refuted** of code with `lock()` and `unlock()`: in each of these calls one failed allocation leaves the mutex locked.  (The cited comment, Threads.h:164-166,
warns of this.) -/
theorem C175_manual_refuted :
    (addAlarm 1 0 10 (lit "a") [false] ⟨0, [], 0⟩).2.1.depth = 1 ∧
    (getAlarms 1 [false] ⟨0, [lit "a"], 0⟩).2.1.depth = 1 ∧
    (loggingLevel 1 4 6 [false] ⟨0, [], 0⟩).2.1.depth = 1 ∧
    (reportCreate 1 (lit "n") [false] ⟨0, [], 0⟩).2.1.depth = 1 ∧
    (reportIncr 1 0 (lit "n") [false] ⟨0, [(lit "n", 3)], 0⟩).2.1.depth = 1 ∧
    (commitTake 1 [false] ⟨0, [(lit "n", 3)], 0⟩).2.1.depth = 1 ∧
    (register 8 [false] ⟨0, (false, []), 0⟩).2.1.depth = 1 := by decide

/-- With memory the same calls do their work. -/
example : addAlarm 1 0 1 (lit "b") [] ⟨0, [lit "a"], 0⟩ = ([], ⟨0, [lit "b"], 0⟩, .val ()) := by decide
example : commitTake 1 [] ⟨0, [(lit "n", 3), (lit "m", 0)], 0⟩ = ([], ⟨0, [(lit "n", 0), (lit "m", 0)], 0⟩, .val [(lit "n", 3)]) := by decide

/-- **C175 refuted**: besides, `commit` loses the counts it had taken out before the failure: three increments of `n` are in neither the batch nor the answer. -/
theorem C175_commit_refuted : commitTake 1 [true, false] ⟨0, [(lit "n", 3), (lit "m", 2)], 0⟩ =
    ([], ⟨1, [(lit "n", 0), (lit "m", 2)], 0⟩, .thrown .noMemory) := by decide

/-- **C175 refuted**: `Register` has the signal caught although no callback is there. -/
theorem C175_register_refuted : register 8 [false] ⟨0, (false, []), 0⟩ = ([], ⟨1, (true, []), 0⟩, .thrown .noMemory) := by decide

/-! ### Reading the configuration -/

theorem same_store (b : Bool) (key : Str) (r : Option Str) : Same (store b key r) := by
  unfold store
  split
  · exact same_bind same_alloc fun _ => same_bind same_get fun _ => same_bind (same_set _) fun _ => same_bind same_alloc fun _ => same_set _
  · exact same_bind same_alloc fun _ => same_bind same_alloc fun _ => same_bind same_get fun _ => same_set _

theorem same_losing {f : X Conf α} (hf : Same f) : Same (losing f) := by
  intro o w
  have h := hf o w
  simp only [losing]
  rcases hr : f o w with ⟨o', w', r⟩
  rw [hr] at h
  cases r <;> exact h

theorem same_lookup (b : Bool) (row dflt : Option Str) (key : Str) : Same (confLookup b row dflt key) := by
  refine same_bind same_get fun d => ?_
  split
  · exact same_pure _
  · exact same_throw _
  · refine same_bind ?_ fun got => ?_
    · cases row
      · exact same_pure _
      · exact same_bind same_tryAlloc fun _ => same_pure _
    · cases got
      · cases dflt
        · exact same_bind (same_store _ _ _) fun _ => same_throw _
        · exact same_bind (same_store _ _ _) fun _ => same_pure _
      · exact same_bind (same_losing (same_store _ _ _)) fun _ => same_pure _

/-- **C175.** Reading the configuration: whatever is thrown, the lock is free. -/
theorem C175_config_lock (b : Bool) (row dflt : Option Str) (n : Nat) (key : Str) : LockFree (confGetStr b row dflt n key) := by
  intro o w
  have h : Same (do let v ← confLookup b row dflt key; allocs n; pure v : X Conf Str) :=
    same_bind (same_lookup b row dflt key) fun _ => same_bind (same_allocs n) fun _ => same_pure _
  have h := h o { w with depth := w.depth + 1 }
  simp only [confGetStr, withLock]
  rcases hr : (do let v ← confLookup b row dflt key; allocs n; pure v : X Conf Str) o { w with depth := w.depth + 1 } with ⟨o', w', r⟩
  rw [hr] at h
  have h : w'.depth = w.depth + 1 := h
  show w'.depth - 1 = w.depth
  omega

/-- Every entry of the cache says what the table says: the row, else the default. -/
def Faithful (row dflt : Str → Option Str) (d : Conf) : Prop := ∀ key r, d.cache.lookup key = some r → r = (row key).or (dflt key)

/-- **C175 refuted** of the configuration: with the row `9` and the default `5` a lookup in which `strdup` fails answers `5`, and so do later ones with memory; without
a default it answers that there is no such key. -/
theorem C175_config_value_refuted :
    (do let _ ← confGetStr false (some (lit "9")) (some (lit "5")) 0 (lit "k"); confGetStr false (some (lit "9")) (some (lit "5")) 0 (lit "k")) [false] ⟨0, ⟨[], 0⟩, 0⟩ =
      ([], ⟨0, ⟨[(lit "k", some (lit "5"))], 0⟩, 0⟩, .val (lit "5")) ∧
    confGetStr false (some (lit "9")) none 0 (lit "k") [false] ⟨0, ⟨[], 0⟩, 0⟩ = ([], ⟨0, ⟨[(lit "k", none)], 0⟩, 0⟩, .thrown .notFound) := by decide

/-- **C175 refuted** of the configuration: if the entry is made before the record, an allocation failing in between leaves the key recorded as undefined; and the copy
of the row is never freed. -/
theorem C175_config_entry_refuted :
    confGetStr true (some (lit "9")) none 0 (lit "k") [true, true, false] ⟨0, ⟨[], 0⟩, 0⟩ = ([], ⟨0, ⟨[(lit "k", none)], 1⟩, 0⟩, .thrown .noMemory) ∧
    confGetStr true (some (lit "9")) none 0 (lit "k") [] ⟨0, ⟨[(lit "k", none)], 1⟩, 0⟩ = ([], ⟨0, ⟨[(lit "k", none)], 1⟩, 0⟩, .thrown .notFound) := by decide

theorem store_cases (key : Str) (r : Option Str) (o : List Bool) (w : W Conf) :
    (∃ o', store false key r o w = (o', { w with data := { w.data with cache := w.data.cache ++ [(key, r)] } }, .val ())) ∨
    ∃ o', store false key r o w = (o', w, .thrown .noMemory) := by
  simp only [store, bind_eq, getData, setData, Bool.false_eq_true, if_false]
  rcases (alloc_cases o w).2 with ⟨o1, e1⟩ | ⟨o1, e1⟩
  · rw [e1]
    rcases (alloc_cases o1 w).2 with ⟨o2, e2⟩ | ⟨o2, e2⟩
    · exact .inl ⟨o2, by simp only [e2]⟩
    · exact .inr ⟨o2, by simp only [e2]⟩
  · exact .inr ⟨o1, by rw [e1]⟩

theorem faithful_add {row dflt : Str → Option Str} {d : Conf} (hf : Faithful row dflt d) {key : Str} : Faithful row dflt { d with cache := d.cache ++ [(key, (row key).or (dflt key))] } := by
  intro j r h
  simp only [List.lookup_append] at h
  cases hj : d.cache.lookup j with
  | some x => rw [hj] at h; exact hf j r (hj.trans h)
  | none =>
    rw [hj] at h
    simp only [Option.none_or, List.lookup_cons, List.lookup_nil] at h
    split at h
    · rename_i e
      rw [eq_of_beq e]
      exact (Option.some.inj h).symm
    · cases h

theorem faithful_leak {row dflt : Str → Option Str} {d : Conf} (hf : Faithful row dflt d) (n : Nat) : Faithful row dflt { d with leaked := n } := hf

/-- What one lookup leaves. -/
def LookupOk (row dflt : Str → Option Str) (key : Str) (r : List Bool × W Conf × Res Str) : Prop :=
  Faithful row dflt r.2.1.data ∧ (∀ v, r.2.2 = .val v → (row key).or (dflt key) = some v) ∧ (r.2.2 = .thrown .notFound → (row key).or (dflt key) = none)

theorem lookup_ok {row dflt : Str → Option Str} {o : List Bool} {w : W Conf} (hf : Faithful row dflt w.data) (key : Str)
    (hs : o.head? ≠ some false ∨ row key = none ∨ w.data.cache.lookup key ≠ none) : LookupOk row dflt key (confLookup false (row key) (dflt key) key o w) := by
  simp only [confLookup, bind_eq, getData]
  cases hc : w.data.cache.lookup key with
  | some x =>
    have hx := hf key x hc
    cases x with
    | some v => exact ⟨hf, fun v' h => by cases h; exact hx.symm, fun h => (nomatch h)⟩
    | none => exact ⟨hf, fun v' h => (nomatch h), fun _ => hx.symm⟩
  | none =>
    have hcopy : ∃ o', copyRow (row key) o w = (o', w, .val (row key)) := by
      cases hr : row key with
      | none => exact ⟨o, rfl⟩
      | some v =>
        match o, hs with
        | [], _ => exact ⟨[], rfl⟩
        | true :: o, _ => exact ⟨o, rfl⟩
        | false :: o, hs =>
          rcases hs with hs | hs | hs
          · exact absurd rfl hs
          · rw [hr] at hs; cases hs
          · exact absurd hc hs
    obtain ⟨o1, e1⟩ := hcopy
    simp only [bind_eq, e1]
    have hadd := faithful_add hf (key := key)
    cases hr : row key with
    | some v =>
      rw [hr] at hadd
      simp only [bind_eq, losing]
      rcases store_cases key (some v) o1 w with ⟨o2, e2⟩ | ⟨o2, e2⟩
      · rw [e2]; exact ⟨hadd, fun v' h => by cases h; rw [hr]; rfl, fun h => (nomatch h)⟩
      · rw [e2]; exact ⟨hf, fun v' h => (nomatch h), fun h => (nomatch h)⟩
    | none =>
      rw [hr] at hadd
      cases hd : dflt key with
      | some v =>
        rw [hd] at hadd
        simp only [bind_eq]
        rcases store_cases key (some v) o1 w with ⟨o2, e2⟩ | ⟨o2, e2⟩
        · rw [e2]; exact ⟨hadd, fun v' h => by cases h; rw [hr, hd]; rfl, fun h => (nomatch h)⟩
        · rw [e2]; exact ⟨hf, fun v' h => (nomatch h), fun h => (nomatch h)⟩
      | none =>
        rw [hd] at hadd
        simp only [bind_eq]
        rcases store_cases key none o1 w with ⟨o2, e2⟩ | ⟨o2, e2⟩
        · rw [e2]; exact ⟨hadd, fun v' h => (nomatch h), fun _ => by rw [hr, hd]; rfl⟩
        · rw [e2]; exact ⟨hf, fun v' h => (nomatch h), fun h => (nomatch h)⟩

/-- **C175**, the part that holds of the configuration: if the copy of the row can be had (or none is needed) and records are built before entries, then a value
returned is that of the table, a key reported as missing is missing, and the cache keeps saying what the table says, whatever other allocations fail.  Missing: the
copy of the row failing and the other order, see `C175_config_value_refuted` and `C175_config_entry_refuted`. -/
theorem C175_config_partial {row dflt : Str → Option Str} {o : List Bool} {w : W Conf} (hf : Faithful row dflt w.data) (key : Str) (n : Nat)
    (hs : o.head? ≠ some false ∨ row key = none ∨ w.data.cache.lookup key ≠ none) : LookupOk row dflt key (confGetStr false (row key) (dflt key) n key o w) := by
  have h := lookup_ok (w := { w with depth := w.depth + 1 }) hf key hs
  simp only [confGetStr, withLock, bind_eq, pure_eq]
  rcases hr : confLookup false (row key) (dflt key) key o { w with depth := w.depth + 1 } with ⟨o', w', r⟩
  rw [hr] at h
  cases r with
  | thrown e => exact h
  | val a =>
    rcases (allocs_cases n o' w').2 with ⟨o2, e2⟩ | ⟨o2, e2⟩
    · simp only [e2]; exact h
    · simp only [e2]; exact ⟨h.1, fun v' h => (nomatch h), fun h => (nomatch h)⟩

/-- Non-trivial case: the record cannot be built; nothing is remembered, and the next lookup answers. -/
example : confGetStr false (some (lit "9")) (some (lit "5")) 0 (lit "k") [true, false] ⟨0, ⟨[], 0⟩, 0⟩ = ([], ⟨0, ⟨[], 1⟩, 0⟩, .thrown .noMemory) ∧
    (confGetStr false (some (lit "9")) (some (lit "5")) 0 (lit "k") [] ⟨0, ⟨[], 1⟩, 0⟩).2.2 = .val (lit "9") := by decide

/-! ### What a mutex left locked means -/

open Verif.Threads in
/-- The thread an event is of. -/
def who {n : Nat} : ML n → Fin n
  | .lock t => t
  | .lockFile t _ => t
  | .trylock t => t
  | .timedlock t _ _ => t
  | .unlock t => t
  | .go t => t
  | .timeout t => t

open Verif.Threads in
/-- Events one after the other. -/
def mrun {n : Nat} (s : MSt n) : List (ML n) → Option (MSt n)
  | [] => some s
  | l :: ls => (mstep s l).bind fun s' => mrun s' ls

open Verif.Threads in
theorem blocked_step {n : Nat} {s s' : MSt n} {t : Fin n} (ho : s.owner = some t) {l : ML n} (hl : who l ≠ t) (h : mstep s l = some s') :
    s'.owner = some t ∧ ∀ u, u ≠ t → s.pc u = .lockPlain → s'.pc u = .lockPlain := by
  have hfree : ∀ u, u ≠ t → s.free u = false := by
    intro u hu
    simp only [MSt.free, ho, reduceCtorEq, false_or, Option.some.injEq, decide_eq_false_iff_not]
    exact fun e => hu e.symm
  have hrel : ∀ u, u ≠ t → s.release u = s := by
    intro u hu
    simp only [MSt.release, ho, Option.some.injEq]
    exact if_neg fun e => hu e.symm
  have hup : ∀ {p q : PC} (v u : Fin n), s.pc v = q → q ≠ .lockPlain → s.pc u = .lockPlain → Function.update s.pc v p u = .lockPlain := by
    intro p q v u hv hq hu
    rw [Function.update_apply, if_neg]
    · exact hu
    · rintro rfl; exact hq (hv.symm.trans hu)
  cases l with
  | lock v => simp only [mstep] at h; split at h <;> cases h; exact ⟨ho, fun u _ hu => hup v u ‹_› (by decide) hu⟩
  | lockFile v now => simp only [mstep] at h; split at h <;> cases h; exact ⟨ho, fun u _ hu => hup v u ‹_› (by decide) hu⟩
  | timedlock v ms now => simp only [mstep] at h; split at h <;> cases h; exact ⟨ho, fun u _ hu => hup v u ‹_› (by decide) hu⟩
  | trylock v =>
    simp only [mstep, hfree v hl, Bool.false_eq_true, if_false] at h
    split at h <;> cases h
    exact ⟨ho, fun _ _ hu => hu⟩
  | unlock v => simp only [mstep] at h; split at h <;> cases h; exact ⟨ho, fun u _ hu => hup v u (‹_ ∧ _›).1 (by decide) hu⟩
  | go v =>
    simp only [mstep, hfree v hl, hrel v hl, Bool.false_eq_true, if_false] at h
    split at h
    · cases h
    · rename_i ts hp
      split at h <;> cases h
      exact ⟨ho, fun u _ hu => hup v u hp (by simp) hu⟩
    · cases h
    · rename_i hp
      cases h; exact ⟨ho, fun u _ hu => hup v u hp (by simp) hu⟩
    · rename_i ts hp
      split at h <;> cases h
      exact ⟨ho, fun u _ hu => hup v u hp (by simp) hu⟩
    · rename_i hp
      cases h; exact ⟨ho, fun u _ hu => hup v u hp (by simp) hu⟩
  | timeout v =>
    simp only [mstep] at h
    split at h
    · rename_i ts hp
      split at h <;> cases h
      refine ⟨ho, fun u _ hu => ?_⟩
      exact hup v u hp (by simp) hu
    · rename_i ts hp
      split at h <;> cases h
      exact ⟨ho, fun u _ hu => hup v u hp (by simp) hu⟩
    · cases h

open Verif.Threads in
/-- **C175.** Consequence: while the thread that left the mutex locked makes no call on it, a thread waiting in `lock` waits, through every sequence of events of all
the others. -/
theorem C175_blocked {n : Nat} {t : Fin n} : ∀ (ls : List (ML n)) (s s' : MSt n), s.owner = some t → (∀ l ∈ ls, who l ≠ t) → mrun s ls = some s' →
    s'.owner = some t ∧ ∀ u, u ≠ t → s.pc u = .lockPlain → s'.pc u = .lockPlain
  | [], s, s', ho, _, h => by cases h; exact ⟨ho, fun _ _ hu => hu⟩
  | l :: ls, s, s', ho, hl, h => by
    obtain ⟨s1, h1, h2⟩ := Option.bind_eq_some_iff.1 h
    obtain ⟨a, b⟩ := blocked_step ho (hl l (.head _)) h1
    obtain ⟨c, d⟩ := C175_blocked ls s1 s' a (fun l h => hl l (.tail _ h)) h2
    exact ⟨c, fun u hu hp => d u hu (b u hu hp)⟩

open Verif.Threads in
/-- Non-trivial case: thread 0 has the mutex, thread 1 calls `lock`, thread 2 `trylock` in vain. -/
example : ((mrun (minit 3) [.lock 0, .go 0, .go 0, .lock 1, .trylock 2]).map fun s => (s.owner, s.pc 1, s.pc 2)) = some (some 0, .lockPlain, .idle) := by decide

end Verif.Memory.Exhausted
