import Verif.Core.Number
import Verif.Core.Outcome

/-
`ReportingTable` (`Reporting.cpp`).

Simplifications: the statements mean what they say, that is, names contain neither quotes nor NUL and are not names of columns; values in the database stay below 2^63; the columns CLEAREDTIME and UPDATETIME
and log output are left out.  Events are the parts of the functions between which other threads may run: each critical section and each statement.
-/

namespace Verif.Reporting

/-- `ReportBatch` (Reporting.h:36): names and counts.  The order of the entries does not matter. -/
abbrev Batch := List (Str × Nat)

/-- The batch, the rows of the database, and the counts that running calls of `commit` have taken out of the batch and not yet written (Reporting.h:44-52, Reporting.cpp:170). -/
structure State where
  batch : Batch := []
  db : Str → Option Int := fun _ => none
  flight : Batch := []

/-- `if (mBatch.find(paramName) == mBatch.end()) mBatch[paramName] = 0` (Reporting.cpp:69-71). -/
def addName (b : Batch) (n : Str) : Batch := if b.any (·.1 = n) then b else b ++ [(n, 0)]

/-- `mBatch[paramName]++` on 32-bit counters (Reporting.cpp:89). -/
def bump (n : Str) : Batch → Batch
  | [] => [(n, 1)]
  | (k, v) :: r => if k = n then (k, (v + 1) % 2 ^ 32) :: r else (k, v) :: bump n r

/-- Change a row if it exists. -/
def update (db : Str → Option Int) (n : Str) (f : Int → Int) : Str → Option Int := fun x => if x = n then (db x).map f else db x

/-- The events. -/
inductive Ev
  | createName (n : Str)
  | createRow (n : Str) (ok : Bool)
  | incr (n : Str)
  | max (n : Str) (v : Nat) (ok : Bool)
  | clear (n : Str) (ok : Bool)
  | clearAll (ok : Bool)
  | take
  | write (i : Nat) (ok : Bool)

/-- One event; `ok` is what the engine answers.
`createName` and `createRow`: `create` (Reporting.cpp:68-72 and 75-81); `incr` (Reporting.cpp:86-93); `max` (Reporting.cpp:97-106); `clear` (Reporting.cpp:109-118 and 122-131);
`take`: the first part of `commit` (Reporting.cpp:175-185); `write`: one statement of its second part (Reporting.cpp:195-199). -/
def step (s : State) : Ev → State
  | .createName n => { s with batch := addName s.batch n }
  | .createRow n ok => if ok then { s with db := fun x => if x = n then some ((s.db x).getD 0) else s.db x } else s
  | .incr n => { s with batch := bump n s.batch }
  | .max n v ok => if ok then { s with db := update s.db n fun x => Max.max x (v : Int) } else s
  | .clear n ok => if ok then { s with db := update s.db n fun _ => 0 } else s
  | .clearAll ok => if ok then { s with db := fun x => (s.db x).map fun _ => 0 } else s
  | .take => { s with batch := s.batch.map fun e => (e.1, 0), flight := s.flight ++ s.batch.filter fun e => decide (e.2 > 0) }
  | .write i ok =>
    match s.flight[i]? with
    | none => s
    | some (n, c) => { s with flight := s.flight.eraseIdx i, db := if ok then update s.db n (· + (c : Int)) else s.db }

/-- A history. -/
def run (s : State) (es : List Ev) : State := es.foldl step s

/-- `commit` (Reporting.cpp:168-206) without interference: take, then write everything taken. -/
def commit (s : State) (ok : Bool) : State := run (step s .take) (List.replicate (step s .take).flight.length (.write 0 ok))

/-! ### Texts -/

/-- `sprintf` into a buffer of `size` bytes: writing past the end is undefined. -/
def sprintfTo (size : Nat) (text : Str) : Outcome Str := if text.length + 1 ≤ size then .ok text else .ub

/-- The command of `create` (Reporting.cpp:75-76). -/
def createCmd (name : Str) (time : Int) : Outcome Str :=
  sprintfTo 200 (lit "INSERT OR IGNORE INTO REPORTING (NAME,CLEAREDTIME) VALUES (\"" ++ name ++ lit "\"," ++ intText time ++ lit ")")

/-- The command of `max` (Reporting.cpp:99-100). -/
def maxCmd (name : Str) (newVal : Nat) (time : Int) : Outcome Str :=
  sprintfTo 200 (lit "UPDATE REPORTING SET VALUE=MAX(VALUE," ++ natText 10 newVal ++ lit "), UPDATETIME=" ++ intText time ++ lit " WHERE NAME=\"" ++ name ++ lit "\"")

/-- The command of `clear(name)` (Reporting.cpp:111-112). -/
def clearCmd (name : Str) (time : Int) : Outcome Str :=
  sprintfTo 200 (lit "UPDATE REPORTING SET VALUE=0, UPDATETIME=0, CLEAREDTIME=" ++ intText time ++ lit " WHERE NAME=\"" ++ name ++ lit "\"")

/-- The command of `clear()` (Reporting.cpp:124-125). -/
def clearAllCmd (time : Int) : Outcome Str := sprintfTo 200 (lit "UPDATE REPORTING SET VALUE=0, UPDATETIME=0, CLEAREDTIME=" ++ intText time)

/-- The command of `commit` (Reporting.cpp:190-195). -/
def writeCmd (name : Str) (count : Nat) (time : Int) : Outcome Str :=
  sprintfTo 200 (lit "UPDATE REPORTING SET VALUE=VALUE+" ++ natText 10 count ++ lit ", UPDATETIME=" ++ intText time ++ lit " WHERE NAME=\"" ++ name ++ lit "\"")

/-- The name of an indexed parameter (Reporting.cpp:138-139, 147-148, 155-156, 163-164). -/
def indexedName (base : Str) (index : Nat) : Outcome Str := sprintfTo (base.length + 10) (base ++ lit "." ++ natText 10 index)

/-- The loop of `create(baseName,minIndex,maxIndex)` (Reporting.cpp:137-141): the names for which `create` is called, `time` the clock.  `fuel` bounds the rounds; the counter is 32 bits wide.
The engine always succeeds. -/
def createLoop (base : Str) (maxIndex : Nat) (time : Int) : Nat → Nat → Outcome (List Str)
  | 0, _ => .diverge
  | fuel + 1, i =>
    if i ≤ maxIndex then
      (indexedName base i).bind fun n => (createCmd n time).bind fun _ => (createLoop base maxIndex time fuel ((i + 1) % 2 ^ 32)).bind fun r => .ok (n :: r)
    else .ok []

/-- `create(baseName,minIndex,maxIndex)` (Reporting.cpp:134-143).  Counting 2^32+1 rounds visits every value of the counter, so more rounds mean an endless loop. -/
def createIndexed (base : Str) (minIndex maxIndex : Nat) (time : Int) : Outcome (List Str) := createLoop base maxIndex time (2 ^ 32 + 1) minIndex

end Verif.Reporting
