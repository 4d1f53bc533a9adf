import Verif.Config.Sql
import Verif.Core.Number
import Verif.Core.Outcome

/-
`ConfigurationTable::isValidValue` (`Configuration.cpp:361-642`), `ConfigurationKey::isValidIP` (1038-1041), `getMinMaxStepping` (1044-1064), `isInValRange<int>` (1067-1097).

The width of `size_t` is the parameter `w` (64 on LP64, 32 on a 32-bit build), because the code stores positions in `uint` (32 bits) and compares them with
`std::string::npos`.  Strings are shorter than 2^31.  Library functions as documented: `inet_pton` as in glibc, `regexec` for the two patterns of the form `^[class]+$`
in the C locale, stream extraction as in `Core/Number.lean`.

MIPADDRESS is in `Config/MultiIp.lean`, ranges with decimal points in `Config/FloatRange.lean`.  Not modelled: REGEX and STRING (arbitrary regular expressions).
-/

namespace Verif.Config

/-- `std::string::find(c,pos)`: the first position at or after `pos`. -/
def findFrom (s : Str) (c : Byte) (pos : Nat) : Option Nat := ((s.drop pos).idxOf? c).map (· + pos)

/-- A position as `size_t`, with `npos`. -/
def asSize (w : Nat) : Option Nat → Nat
  | some p => p
  | none => 2 ^ w - 1

/-- Conversion to `uint`. -/
def u32 (x : Int) : Nat := (x % 2 ^ 32).toNat

/-- `substr(pos,n)`. -/
def substr (s : Str) (pos n : Nat) : Str := (s.drop pos).take n

/-- What the value is compared with in one round of case CHOICE (`Configuration.cpp:388-398`), `p` being `startPos`. -/
def choiceCand (w : Nat) (tmp : Str) (p : Nat) : Str :=
  match u32 (asSize w (findFrom tmp (chr '|') p)) with
  | endPos => if endPos = 2 ^ w - 1 then substr tmp p (asSize w (findFrom tmp (chr ',') p) - p) else substr tmp p (u32 ((endPos : Int) - p))

/-- The loop of case CHOICE (`Configuration.cpp:386-400`), `p` being `startPos` after the increment; `fuel` bounds the number of rounds. -/
def choiceLoop (w : Nat) (tmp val : Str) : Nat → Nat → Bool
  | 0, _ => false
  | fuel + 1, p =>
    if val = choiceCand w tmp p then true
    else match findFrom tmp (chr ',') p with
      | none => false
      | some q => choiceLoop w tmp val fuel (q + 1)

/-- Case CHOICE (`Configuration.cpp:380-402`). -/
def validChoice (w : Nat) (list val : Str) : Bool := choiceLoop w list val (list.length + 1) 0

/-- One character of `inet_pton(AF_INET,...)` in glibc; state: octets begun, value of the current one, digit seen; `none` is rejection. -/
def ptonStep : Nat × Nat × Bool → Byte → Option (Nat × Nat × Bool)
  | (octets, cur, saw), c =>
    if isDigit c then
      if saw && cur == 0 then none
      else if 255 < cur * 10 + (c.toNat - 48) then none
      else if saw then some (octets, cur * 10 + (c.toNat - 48), true)
      else if 4 < octets + 1 then none
      else some (octets + 1, cur * 10 + (c.toNat - 48), true)
    else if c = chr '.' && saw then if octets = 4 then none else some (octets, 0, false)
    else none

/-- The loop of `inet_pton`. -/
def ptonLoop : Nat × Nat × Bool → Str → Bool
  | st, [] => 4 ≤ st.1
  | st, c :: s => match ptonStep st c with
    | none => false
    | some st' => ptonLoop st' s

/-- `ConfigurationKey::isValidIP` (`Configuration.cpp:1038-1041`). -/
def isValidIP (ip : Str) : Bool := ptonLoop (0, 0, false) (cText ip)

/-- `regexec` of `^[a-zA-Z0-9/_.-]+$` (`Configuration.cpp:434-443`) on `val.c_str()`. -/
def matchPath (val : Str) : Bool := !(cText val).isEmpty && (cText val).all fun c => isAlnum c || c == chr '/' || c == chr '_' || c == chr '.' || c == chr '-'

/-- `regexec` of `^[a-zA-Z0-9_.-]+$` (`Configuration.cpp:468-477`). -/
def matchHost (val : Str) : Bool := !(cText val).isEmpty && (cText val).all fun c => isAlnum c || c == chr '_' || c == chr '.' || c == chr '-'

/-- `regexec` of `^[0-9-]+$` (`Configuration.cpp:621-628`). -/
def matchInt (val : Str) : Bool := !(cText val).isEmpty && (cText val).all fun c => isDigit c || c == chr '-'

/-- The two parts around the delimiter in cases CIDR, HOSTANDPORT and IPANDPORT (`Configuration.cpp:415-418, 460-463, 504-507`): `uint delimiter = val.find(c)` is compared
with `npos`, then the text before it and the number after it, -1 if there is none. -/
def twoParts (w : Nat) (c : Byte) (val : Str) : Option (Str × Int) :=
  let delimiter := u32 (asSize w (findFrom val c 0))
  if delimiter ≠ 2 ^ w - 1 then some (substr val 0 delimiter, (readInt (substr val (u32 (delimiter + 1)) val.length)).getD (-1)) else none

/-- Case CIDR (`Configuration.cpp:410-424`). -/
def validCidr (w : Nat) (val : Str) : Bool :=
  match twoParts w (chr '/') val with
  | some (ip, n) => isValidIP ip && decide (0 ≤ n) && decide (n ≤ 32)
  | none => false

/-- Case HOSTANDPORT (`Configuration.cpp:454-486`). -/
def validHostPort (w : Nat) (val : Str) : Bool :=
  match twoParts w (chr ':') val with
  | some (host, port) => (isValidIP host || matchHost host) && decide (1 ≤ port) && decide (port ≤ 65535)
  | none => false

/-- Case IPANDPORT (`Configuration.cpp:499-513`). -/
def validIpPort (w : Nat) (val : Str) : Bool :=
  match twoParts w (chr ':') val with
  | some (ip, port) => isValidIP ip && decide (1 ≤ port) && decide (port ≤ 65535)
  | none => false

/-- Case PORT (`Configuration.cpp:562-571`): `intVal` has no initial value, so reading it when nothing was extracted is undefined. -/
def validPort (val : Str) : Outcome Bool :=
  match readInt val with
  | some n => .ok (decide (1 ≤ n) && decide (n ≤ 65535))
  | none => .ub

/-- The range without the step (`Configuration.cpp:1053-1058`; the step is never used by `isInValRange`). -/
def stripStep (valid : Str) : Str :=
  match findFrom valid (chr '(') 0 with
  | some p => substr valid 0 p
  | none => valid

/-- `ConfigurationKey::getMinMaxStepping` (`Configuration.cpp:1044-1064`): minimum and maximum as text. -/
def minMax (w : Nat) (valid : Str) : Str × Str :=
  match stripStep valid, u32 (asSize w (findFrom (stripStep valid) (chr ':') 0)) with
  | tmp, delimiter => (substr tmp 0 delimiter, substr tmp (u32 (delimiter + 1)) ((((asSize w (findFrom tmp (chr ',') delimiter) : Int) - delimiter - 1) % 2 ^ w).toNat))

/-- Case VALRANGE for ranges without a dot in `mValidValues` (`Configuration.cpp:615-638`) with `isInValRange<int>` (1067-1097): `min` and `max` have no initial value. -/
def validRange (w : Nat) (valid val : Str) : Outcome Bool :=
  if matchInt val then
    match readInt val, readInt (minMax w valid).1, readInt (minMax w valid).2 with
    | some n, some lo, some hi => .ok ((findFrom val (chr '.') 0).isNone && decide (lo ≤ n) && decide (n ≤ hi))
    | _, _, _ => .ub
  else .ok false

/-- `ConfigurationKey::Type` (`Configuration.h:369-394`), without those that are not modelled. -/
inductive KType
  | boolean | choiceOpt | choice | cidrOpt | cidr | filepathOpt | filepath | hostAndPortOpt | hostAndPort | ipAddressOpt | ipAddress | ipAndPort | portOpt | port | valRange
deriving DecidableEq, Repr

/-- `ConfigurationTable::isValidValue` (`Configuration.cpp:361-642`) for a key of the given type and `mValidValues`.  The `_OPT` cases accept the empty text and fall
through to the next case. -/
def isValidValue (w : Nat) (type : KType) (valid val : Str) : Outcome Bool :=
  match type with
  | .boolean => .ok (val = lit "1" || val = lit "0")
  | .choiceOpt => .ok (val.isEmpty || validChoice w valid val)
  | .choice => .ok (validChoice w valid val)
  | .cidrOpt => .ok (val.isEmpty || validCidr w val)
  | .cidr => .ok (validCidr w val)
  | .filepathOpt => .ok (val.isEmpty || matchPath val)
  | .filepath => .ok (matchPath val)
  | .hostAndPortOpt => .ok (val.isEmpty || validHostPort w val)
  | .hostAndPort => .ok (validHostPort w val)
  | .ipAddressOpt => .ok (val.isEmpty || isValidIP val)
  | .ipAddress => .ok (isValidIP val)
  | .ipAndPort => .ok (validIpPort w val)
  | .portOpt => if val.isEmpty then .ok true else validPort val
  | .port => validPort val
  | .valRange => validRange w valid val

end Verif.Config
