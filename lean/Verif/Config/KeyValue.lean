import Verif.Config.Sql
import Verif.Core.Number

/-
`SimpleKeyValue`.  The map is compared with the operators of `std::string` (those of `HashString` are not `const`), so it is a map of strings.
`live` counts the copies made by `strdup` and not freed.
-/

namespace Verif.Config

/-- `SimpleKeyValue` (Configuration.h:332-352). -/
structure KeyValue where
  map : Str → Option Str
  live : Nat

/-- `m[k] = v`. -/
def store (m : Str → Option Str) (k v : Str) : Str → Option Str := fun x => if x = k then some v else m x

/-- `SimpleKeyValue::addItem` (Configuration.cpp:982-992).  A text without `=` is ignored and its copy is not freed. -/
def addItem (kv : KeyValue) (pairOrig : Str) : KeyValue :=
  let pair := cText pairOrig
  if chr '=' ∈ pair then
    { kv with map := store kv.map (pair.takeWhile (· ≠ chr '=')) (pair.dropWhile (· ≠ chr '=')).tail }
  else { kv with live := kv.live + 1 }

/-- `strsep(&s,d)`: the token and what is left, `none` if the delimiter was not found (library function). -/
def strsep (d : Byte) (s : Str) : Str × Option Str := (s.takeWhile (· ≠ d), if d ∈ s then some (s.dropWhile (· ≠ d)).tail else none)

theorem strsep_lt {d : Byte} {s t : Str} (h : (strsep d s).2 = some t) : t.length < s.length := by
  unfold strsep at h
  simp only at h
  split at h
  · rename_i hd
    have e : t = (s.dropWhile (· ≠ d)).tail := (Option.some.inj h).symm
    have h1 : (s.dropWhile (· ≠ d)).length ≤ s.length := (List.dropWhile_suffix _).length_le
    have h2 : 0 < s.length := List.length_pos_of_mem hd
    rw [e, List.length_tail]
    omega
  · cases h

/-- The loop of `addItems` (Configuration.cpp:1031-1033). -/
def addItemsLoop (kv : KeyValue) (pairs : Str) : KeyValue :=
  let kv' := addItem kv (strsep (chr ' ') pairs).1
  match _h : (strsep (chr ' ') pairs).2 with
  | some t => addItemsLoop kv' t
  | none => kv'
termination_by pairs.length
decreasing_by exact strsep_lt _h

/-- `SimpleKeyValue::addItems` (Configuration.cpp:1027-1035).  After the loop the pointer is NULL, so the copy of the text is not freed. -/
def addItems (kv : KeyValue) (pairsOrig : Str) : KeyValue := addItemsLoop { kv with live := kv.live + 1 } (cText pairsOrig)

/-- `SimpleKeyValue::get` and `getStrOrBust` (Configuration.cpp:996-1008); `none` is the null pointer or the exception. -/
def KeyValue.get (kv : KeyValue) (key : Str) : Option Str := kv.map (cText key)

/-- `SimpleKeyValue::getNumOrBust` (Configuration.cpp:1010-1016). -/
def KeyValue.getNumOrBust (kv : KeyValue) (key : Str) : Option Int := (kv.get key).map atol

/-- `SimpleKeyValue::getNum` (Configuration.cpp:1018-1024): result and new contents of `valid`. -/
def KeyValue.getNum (kv : KeyValue) (key : Str) (valid : Bool) : Int × Bool :=
  match kv.get key with
  | none => (0, false)
  | some v => (atol v, valid)

end Verif.Config
