import Verif.Config.Sql
import Verif.Core.Number

/-
`ConfigurationTable` (`Configuration.cpp:344-359, 658-700, 713-760, 827-838, 892-947`, `Configuration.h:189-322`).

Simplifications: the database is open (`mDB` not null); every statement is answered by `Config/Sql.lean`, the engine is never busy; each operation holds `mLock` from beginning
to end, so operations are atomic; log output and `mCRWarned`, which only guards log output, are left out; `time_t` does not overflow.  `std::map<HashString,...>` orders its keys
with `operator<` of `std::string` (the member operators of `HashString` are not `const`), so the cache is a map on strings.
-/

namespace Verif.Config

/-- `ConfigurationKey` as far as the table reads it (`Configuration.h:355-455`). -/
structure Key where
  dflt : Str := []
  desc : Str := []
deriving DecidableEq, Repr

/-- `ConfigurationRecord` (`Configuration.h:76-116`). -/
structure Rec where
  value : Str
  defined : Bool
deriving DecidableEq, Repr

/-- `ConfigurationTable`; `last` is the function-static `timeOfLastPurge`, `now` what `time(NULL)` returns. -/
structure Table where
  db : Db
  cache : Str → Option Rec
  schema : Str → Option Key
  last : Int
  now : Int

/-- Change one entry of a map. -/
def put {β : Type} (f : Str → β) (k : Str) (b : β) : Str → β := fun x => if x = k then b else f x

/-- `ConfigurationTable::checkCacheAge` (`Configuration.cpp:916-932`). -/
def checkCacheAge (s : Table) : Table :=
  if s.now - s.last < 3 then s else { s with last := s.now, cache := fun _ => none }

/-- `ConfigurationTable::purge` (`Configuration.cpp:935-944`). -/
def purge (s : Table) : Table := { s with cache := fun _ => none }

/-- The query of `sqlite3_single_lookup` (`sqlite3util.cpp:315-323`) as called at `Configuration.cpp:676`. -/
def lookupCmd (k : Str) : Str := lit "SELECT VALUESTRING FROM CONFIG WHERE KEYSTRING == \"" ++ cText k ++ lit "\""

/-- `sqlite3_single_lookup` (`sqlite3util.cpp:315-336`): the value read, `none` for NULL. -/
def singleLookup (db : Db) (k : Str) : Option Str :=
  match sqlQuery db (lookupCmd k) with
  | some (some (some v)) => some (cText v)
  | _ => none

/-- The part of `lookup` after the cache check (`Configuration.cpp:672-691`): the record stored in the cache. -/
def fetch (s : Table) (k : Str) : Rec :=
  match singleLookup s.db k with
  | some v => ⟨v, true⟩
  | none => match s.schema k with
    | some key => ⟨key.dflt, true⟩
    | none => ⟨[], false⟩

/-- `ConfigurationTable::lookup` (`Configuration.cpp:658-697`); `none` is the exception `ConfigurationTableKeyNotFound`. -/
def lookup (s0 : Table) (k : Str) : Table × Option Str :=
  let s := checkCacheAge s0
  match s.cache k with
  | some r => (s, if r.defined then some r.value else none)
  | none =>
    let r := fetch s k
    ({ s with cache := put s.cache k (some r) }, if r.defined then some r.value else none)

/-- `ConfigurationTable::getStr` (`Configuration.cpp:713-724`). -/
def getStr (s : Table) (k : Str) : Table × Option Str := lookup s k

/-- `ConfigurationTable::defines` (`Configuration.cpp:344-354`). -/
def defines (s : Table) (k : Str) : Table × Bool := ((lookup s k).1, (lookup s k).2.isSome)

/-- `ConfigurationTable::getNum` (`Configuration.cpp:739-750`) with `ConfigurationRecord::number` (`59-74`): `strtol` with base 0 of the value, 0 for the empty value. -/
def getNum (s : Table) (k : Str) : Table × Option Int := ((lookup s k).1, (lookup s k).2.map strtol0)

/-- `ConfigurationTable::getBool` (`Configuration.cpp:727-736`). -/
def getBool (s : Table) (k : Str) : Table × Option Bool := ((getNum s k).1, (getNum s k).2.map (· ≠ 0))

/-- The command built by `set` (`Configuration.cpp:896-901`). -/
def setCmd (s : Table) (k v : Str) : Str :=
  match s.schema k with
  | some key => lit "INSERT OR REPLACE INTO CONFIG (KEYSTRING,VALUESTRING,OPTIONAL,COMMENTS) VALUES (\"" ++ k ++ lit "\",\"" ++ v ++ lit "\",1,'" ++ key.desc ++ lit "')"
  | none => lit "INSERT OR REPLACE INTO CONFIG (KEYSTRING,VALUESTRING,OPTIONAL) VALUES (\"" ++ k ++ lit "\",\"" ++ v ++ lit "\",1)"

/-- `ConfigurationTable::set(key,string)` (`Configuration.cpp:892-907`). -/
def setStr (s : Table) (k v : Str) : Table × Bool :=
  match sqlExec s.db (setCmd s k v) with
  | some db' => ({ s with db := db', cache := put s.cache k (some ⟨v, true⟩) }, true)
  | none => (s, false)

/-- `ConfigurationTable::set(key,long)` (`Configuration.cpp:909-914`). -/
def setNum (s : Table) (k : Str) (n : Int) : Table × Bool := setStr s k (intText n)

/-- The command built by `remove` (`Configuration.cpp:836`). -/
def removeCmd (k : Str) : Str := lit "DELETE FROM CONFIG WHERE KEYSTRING=='" ++ k ++ lit "'"

/-- `ConfigurationTable::remove` (`Configuration.cpp:827-838`). -/
def remove (s : Table) (k : Str) : Table × Bool :=
  match sqlExec s.db (removeCmd k) with
  | some db' => ({ s with db := db', cache := put s.cache k none }, true)
  | none => ({ s with cache := put s.cache k none }, false)

/-- The side effect of `isValidValue` (`Configuration.cpp:364`): `mSchema[name]` adds an unknown name to the schema. -/
def touchSchema (s : Table) (k : Str) : Table :=
  match s.schema k with
  | some _ => s
  | none => { s with schema := put s.schema k (some {}) }

end Verif.Config
