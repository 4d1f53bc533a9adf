import Mathlib.Logic.Function.Basic
import Mathlib.Data.Fin.VecNotation

/-
Model of `ScopedLockMultiple` (`/repo/Threads.h:177-223`, `/repo/Threads.cpp:208-265`): `n` threads, each constructing and destroying one object; every interleaving of the
lock, trylock and unlock operations; other threads (the environment) may take and release free mutexes at any time.

Simplifications: `Mutex::lock`, `trylock`, `unlock` act as on a recursive mutex (justified by property C30; the one-second warning of `lock` is left out).
Mutexes are natural numbers; the constructor with two mutexes passes the private mutex `garbage`, i.e. a number used by no other thread (Threads.h:214-216).
The assertion of `_saveState` (lockcnt 1 for each mutex said to be owned) is a hypothesis of the theorems.
-/

namespace Verif.Threads

/-- Who has a mutex. -/
inductive Owner (n : Nat) where
  | free
  | env
  | th (t : Fin n)
  deriving DecidableEq

/-- Arguments of one constructor call: the mutexes `mA` and the owner bits `ownA`, Threads.cpp:208-210. -/
structure Args where
  m : Fin 3 → Nat
  own : Fin 3 → Bool

/-- Where a thread is. -/
inductive LPC where
  /-- `_lock` at the beginning of attempt `a` -/
  | lock (a : Fin 3)
  /-- the first `_trylock` of attempt `a` -/
  | try1 (a : Fin 3)
  /-- the second -/
  | try2 (a : Fin 3)
  /-- the first `_unlock` after a failed attempt -/
  | unl1 (a : Fin 3)
  /-- the second -/
  | unl2 (a : Fin 3)
  /-- the constructor has returned -/
  | crit
  /-- in `_restoreState`, loop index `i` -/
  | rest (i : Fin 3)
  /-- the destructor has returned -/
  | fin
  deriving DecidableEq

/-- Which mutex attempt `a` waits for: 0, 1, 2 (Threads.cpp:249,254,259). -/
def firstOf (a : Fin 3) : Fin 3 := a
/-- Which it tries first: 1, 0, 0 (Threads.cpp:250,255,260). -/
def try1Of : Fin 3 → Fin 3 := ![1, 0, 0]
/-- Which it tries next: 2, 2, 1 (same lines). -/
def try2Of : Fin 3 → Fin 3 := ![2, 2, 1]
/-- Which are released after a failure: 1 0, 0 1, 0 2 (Threads.cpp:251-252,256-257,261-262). -/
def unl1Of : Fin 3 → Fin 3 := ![1, 0, 0]
def unl2Of : Fin 3 → Fin 3 := ![0, 1, 2]
/-- The next attempt. -/
def nextOf : Fin 3 → Fin 3 := ![1, 2, 0]

/-- Global state: the mutexes, and for each thread its place and the array `state`. -/
structure LSt (n : Nat) where
  owner : Nat → Owner n
  depth : Nat → Nat
  pc : Fin n → LPC
  state : Fin n → Fin 3 → Bool

/-- How many times `t` has locked `m`. -/
def LSt.hold {n : Nat} (s : LSt n) (t : Fin n) (m : Nat) : Nat := if s.owner m = .th t then s.depth m else 0

/-- Acquisition of a recursive mutex, if possible now. -/
def LSt.acquire {n : Nat} (s : LSt n) (t : Fin n) (m : Nat) : Option (LSt n) :=
  match s.owner m with
  | .free => some { s with owner := Function.update s.owner m (.th t), depth := Function.update s.depth m 1 }
  | .env => none
  | .th u => if u = t then some { s with depth := Function.update s.depth m (s.depth m + 1) } else none

/-- Release. -/
def LSt.release {n : Nat} (s : LSt n) (t : Fin n) (m : Nat) : LSt n :=
  if s.owner m = .th t then
    if s.depth m ≤ 1 then { s with owner := Function.update s.owner m .free, depth := Function.update s.depth m 0 }
    else { s with depth := Function.update s.depth m (s.depth m - 1) }
  else s

def LSt.goto {n : Nat} (s : LSt n) (t : Fin n) (p : LPC) : LSt n := { s with pc := Function.update s.pc t p }
def LSt.setState {n : Nat} (s : LSt n) (t : Fin n) (i : Fin 3) (b : Bool) : LSt n :=
  { s with state := Function.update s.state t (Function.update (s.state t) i b) }

/-- `_lock(which)`, Threads.cpp:213-217; `none`: blocked. -/
def lock1 {n : Nat} (A : Args) (s : LSt n) (t : Fin n) (i : Fin 3) : Option (LSt n) :=
  if s.state t i then some s
  else match s.acquire t (A.m i) with
    | some s' => some (s'.setState t i true)
    | none => none

/-- `_trylock(which)`, Threads.cpp:218-222. -/
def trylock1 {n : Nat} (A : Args) (s : LSt n) (t : Fin n) (i : Fin 3) : LSt n × Bool :=
  if s.state t i then (s, true)
  else match s.acquire t (A.m i) with
    | some s' => (s'.setState t i true, true)
    | none => (s.setState t i false, false)

/-- `_unlock(which)`, Threads.cpp:223-226. -/
def unlock1 {n : Nat} (A : Args) (s : LSt n) (t : Fin n) (i : Fin 3) : LSt n :=
  (if s.state t i then s.release t (A.m i) else s).setState t i false

/-- The next place in `_restoreState`. -/
def restNext : Fin 3 → LPC := ![.rest 1, .rest 2, .fin]

/-- One step of thread `t` (`none`: blocked or finished). -/
def lstep {n : Nat} (A : Args) (s : LSt n) (t : Fin n) : Option (LSt n) :=
  match s.pc t with
  /- Threads.cpp:249,254,259 -/
  | .lock a => match lock1 A s t (firstOf a) with
    | some s' => some (s'.goto t (.try1 a))
    | none => none
  /- Threads.cpp:250,255,260 -/
  | .try1 a => match trylock1 A s t (try1Of a) with
    | (s', true) => some (s'.goto t (.try2 a))
    | (s', false) => some (s'.goto t (.unl1 a))
  | .try2 a => match trylock1 A s t (try2Of a) with
    | (s', true) => some (s'.goto t .crit)
    | (s', false) => some (s'.goto t (.unl1 a))
  /- Threads.cpp:251-252,256-257,261-262 -/
  | .unl1 a => some ((unlock1 A s t (unl1Of a)).goto t (.unl2 a))
  | .unl2 a => some ((unlock1 A s t (unl2Of a)).goto t (.lock (nextOf a)))
  /- Threads.h:222 -/
  | .crit => some (s.goto t (.rest 0))
  /- Threads.cpp:237-244 -/
  | .rest i =>
    if A.own i = false ∧ s.state t i = true then some ((unlock1 A s t i).goto t (restNext i))
    else if A.own i = true ∧ s.state t i = false then
      match lock1 A s t i with
      | some s' => some (s'.goto t (restNext i))
      | none => none
    else some (s.goto t (restNext i))
  | .fin => none

/-- The environment takes a free mutex or releases one of its own. -/
def envTake {n : Nat} (s : LSt n) (m : Nat) : Option (LSt n) := if s.owner m = .free then some { s with owner := Function.update s.owner m .env } else none
def envRelease {n : Nat} (s : LSt n) (m : Nat) : Option (LSt n) := if s.owner m = .env then some { s with owner := Function.update s.owner m .free } else none

/-- Events. -/
inductive LL (n : Nat) where
  | th (t : Fin n)
  | take (m : Nat)
  | release (m : Nat)

def lnext {n : Nat} (A : Fin n → Args) (s : LSt n) : LL n → Option (LSt n)
  | .th t => lstep (A t) s t
  | .take m => envTake s m
  | .release m => envRelease s m

/-- Reachable states. -/
inductive LReach {n : Nat} (A : Fin n → Args) (s0 : LSt n) : LSt n → Prop where
  | init : LReach A s0 s0
  | step {s l s'} : LReach A s0 s → lnext A s l = some s' → LReach A s0 s'

/-- How many of the three arguments are the mutex `m` with flag `f`. -/
def Args.count (A : Args) (f : Fin 3 → Bool) (m : Nat) : Nat :=
  (if A.m 0 = m ∧ f 0 = true then 1 else 0) + (if A.m 1 = m ∧ f 1 = true then 1 else 0) + (if A.m 2 = m ∧ f 2 = true then 1 else 0)

/-- A state in which all threads are about to begin `_lockAll` (the constructor has run `_init`); every mutex said to be owned is. -/
structure LStart {n : Nat} (A : Fin n → Args) (s : LSt n) : Prop where
  pc : ∀ t, s.pc t = .lock 0
  state : ∀ t, s.state t = (A t).own
  depth : ∀ m t, s.owner m = .th t → 1 ≤ s.depth m
  owned : ∀ t m, (A t).count (A t).own m ≤ s.hold t m

end Verif.Threads
