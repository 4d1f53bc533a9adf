import Verif.Config.Table
import Verif.Config.Hash
import Verif.Core.CInt

/-
`Logger.cpp` and the macros of `Logger.h`: level names, levels of files, the level cache, the alarm list and the group levels.  Records and their output are in `Record.lean`, the start of the
logger in `Init.lean`, its mutexes in `Locks.lean`, the macros as statements in `Macros/Statements.lean`.
-/

namespace Verif.Logger
open Verif.Config

/-! ### Levels -/

/-- `levelNames` (Logger.cpp:69-71). -/
def levelNames : List Str := [lit "EMERG", lit "ALERT", lit "CRIT", lit "ERR", lit "WARNING", lit "NOTICE", lit "INFO", lit "DEBUG"]

/-- The search from the last of the first `n` names to the first (Logger.cpp:82-84). -/
def levelScan (name : Str) : Nat → Option Int
  | 0 => none
  | i + 1 => if levelNames[i]? = some name then some (i : Int) else levelScan name i

/-- `levelStringToInt` (Logger.cpp:79-95). -/
def levelStringToInt (name : Str) : Int :=
  match levelScan name 8 with
  | some i => i
  | none =>
    if name = lit "INFORMATION" then 6
    else if name = lit "WARN" then 4
    else if name = lit "ERROR" then 3
    else if name = lit "CRITICAL" then 2
    else if name = lit "EMERGENCY" then 0
    else -1

/-- `lookupLevel2` (Logger.cpp:98-110).  The log message about the unknown level, which enters the alarm list, is left out. -/
def lookupLevel2 (s : Table) (key keyVal : Str) : Table × Int :=
  let level := levelStringToInt keyVal
  if level = -1 then
    let s1 := touchSchema s (lit "Log.Level")
    let dflt := ((s1.schema (lit "Log.Level")).map Key.dflt).getD []
    ((setStr s1 key dflt).1, levelStringToInt dflt)
  else (s, level)

/-- `lookupLevel` (Logger.cpp:112-116); `none` is the exception of `getStr`. -/
def lookupLevel (s : Table) (key : Str) : Table × Option Int :=
  match getStr s key with
  | (s1, some v) => ((lookupLevel2 s1 key v).1, some (lookupLevel2 s1 key v).2)
  | (s1, none) => (s1, none)

/-- `getLoggingLevel` (Logger.cpp:119-138); the clock stands still during the call. -/
def getLoggingLevel (s : Table) : Option Str → Table × Option Int
  | none => lookupLevel s (lit "Log.Level")
  | some filename =>
    let keyName := lit "Log.Level." ++ filename
    match defines s keyName with
    | (s1, true) =>
      match getStr s1 keyName with
      | (s2, some keyVal) => if keyVal.length ≠ 0 then ((lookupLevel2 s2 keyName keyVal).1, some (lookupLevel2 s2 keyName keyVal).2) else lookupLevel s2 (lit "Log.Level")
      | (s2, none) => (s2, none)
    | (s1, false) => lookupLevel s1 (lit "Log.Level")

/-! ### The level cache -/

/-- The static variables of `gGetLoggingLevel` (Logger.cpp:145-148). -/
structure LevelCache where
  cache : BitVec 64 → Option Int := fun _ => none
  count : Nat := 0

/-- `gGetLoggingLevel` up to the end of the first critical section (Logger.cpp:152-172): `some` if the level was found in the cache.  The counter never exceeds 1001, so that its width does not matter. -/
def beginCheck (c : LevelCache) (f : Str) : LevelCache × Option Int :=
  let key := Config.hash f
  let c1 : LevelCache := if c.count > 1000 then {} else c
  ({ c1 with count := c1.count + 1 }, c1.cache key)

/-- The second critical section of `gGetLoggingLevel` (Logger.cpp:174-176); `insert` leaves an existing entry alone. -/
def endCheck (c : LevelCache) (f : Str) (level : Int) : LevelCache :=
  { c with cache := fun k => if k = Config.hash f then (c.cache k).or (some level) else c.cache k }

/-- `gGetLoggingLevel` (Logger.cpp:141-178) without interference by other threads; `cfg` is what `getLoggingLevel` (Logger.cpp:173) would return, `none` an exception. -/
def check (c : LevelCache) (cfg : Str → Option Int) (f : Str) : LevelCache × Option Int :=
  match beginCheck c f with
  | (c1, some l) => (c1, some l)
  | (c1, none) =>
    match cfg f with
    | some l => (endCheck c1 f l, some l)
    | none => (c1, none)

/-- `IS_LOG_LEVEL` (Logger.h:64-68) in the file `f`, with `gCheckGroupLogLevel` (Logger.h:185-189): `group` is the level of the group if the file defines `LOG_GROUP`; if that is enough, the level of the
file is not looked up.  `LOG` (Logger.h:75-76, without `NDEBUG`) logs exactly if this is true. -/
def isLogLevel (c : LevelCache) (cfg : Str → Option Int) (group : Option Int) (f : Str) (level : Int) : LevelCache × Option Bool :=
  let byFile := ((check c cfg f).1, (check c cfg f).2.map fun l => decide (l ≥ level))
  match group with
  | some g => if g ≥ level then (c, some true) else byFile
  | none => byFile

/-! ### Alarms -/

/-- `alarmsList` and whether `alarmsLock` is held by a call that ended (Logger.cpp:48-49). -/
structure Alarms where
  list : List Str := []
  held : Bool := false
deriving DecidableEq

/-- `while (alarmsList.size() > maxAlarms) alarmsList.pop_front();` (Logger.cpp:203). -/
def trim (maxAlarms : Nat) : List Str → List Str
  | [] => []
  | x :: l => if l.length + 1 > maxAlarms then trim maxAlarms l else x :: l

/-- `addAlarm` (Logger.cpp:198-205).  `limit` is the result of `getNum("Log.Alarms.Max")`, converted to `unsigned`; `none` is its exception, which leaves the lock held.
A call that finds the lock held waits for ever; the mutex being recursive, this is so for other threads (`AlarmThreads.lean` has the threads). -/
def addAlarm (a : Alarms) (s : Str) (limit : Option Int) : Outcome Alarms :=
  if a.held then .diverge
  else match limit with
    | none => .ok ⟨a.list ++ [s], true⟩
    | some n => .ok ⟨trim (uwrap32 n).toNat (a.list ++ [s]), false⟩

/-- `gGetLoggerAlarms` (Logger.cpp:185-195): the insert iterator advances, so the copy has the same order. -/
def gGetLoggerAlarms (a : Alarms) : Outcome (List Str) := if a.held then .diverge else .ok (a.list.foldl (fun ret x => ret ++ [x]) [])

/-- A history of alarms, each with the limit in force. -/
def addAlarms (a : Alarms) : List (Str × Option Int) → Outcome Alarms
  | [] => .ok a
  | (s, l) :: r => (addAlarm a s l).bind fun a1 => addAlarms a1 r

/-! ### Groups -/

/-- `LogGroup::mGroupNames` (Logger.cpp:345). -/
def groupNames : List Str := [lit "Control", lit "SIP", lit "GSM", lit "GPRS", lit "Layer2", lit "SMS"]

/-- `getNonEmptyStrIfDefined` followed by the use of its result (Logger.cpp:377-383, 395-397): the result points into a string that no longer exists; using it is undefined.
A null pointer gives level 0. -/
def groupLevel (s : Table) (param : Str) : Outcome (Table × Int) :=
  match defines s param with
  | (s1, false) => .ok (s1, 0)
  | (s1, true) =>
    match getStr s1 param with
    | (s2, some v) => if v.length ≠ 0 then .ub else .ok (s2, 0)
    | (s2, none) => .ok (s2, 0)

/-- The loop of `LogGroup::setAll` (Logger.cpp:386-410) over the groups: the debug and watch levels. -/
def setAllFrom (s : Table) : List Str → Outcome (Table × List (Int × Int))
  | [] => .ok (s, [])
  | g :: gs => (groupLevel s (lit "Log.Group." ++ g)).bind fun (s1, d) => (groupLevel s1 (lit "Log.Watch." ++ g)).bind fun (s2, w) =>
      (setAllFrom s2 gs).bind fun (s3, r) => .ok (s3, (d, w) :: r)

/-- `LogGroup::setAll` (Logger.cpp:386-410), without the log message at its beginning. -/
def setAll (s : Table) : Outcome (Table × List (Int × Int)) := setAllFrom s groupNames

end Verif.Logger
