import Verif.Core.CInt
import Verif.Core.Str

/-
Models of `Statistic`, `BitSet` (`/repo/Utils.h:106-165`), `stringToUint`, `uintToString`
(`/repo/Utils.cpp:534-569`) and `printPrettyTable` (`/repo/Utils.cpp:421-468`).
-/

namespace Verif.Utils
open Verif

/-! ### Statistic -/

/-- `Statistic<int>`, Utils.h:118-124.  Simplification: `mSum` is exact (a `double` in the code). -/
structure Statistic where
  mCurrent : Int := 0
  mMin : Int := 0
  mMax : Int := 0
  /-- 32-bit unsigned -/
  mCnt : Nat := 0
  mSum : Int := 0

/-- `addPoint`, Utils.h:126-133. -/
def Statistic.addPoint (s : Statistic) (val : Int) : Statistic :=
  { mCurrent := val
    mMin := if s.mCnt = 0 ∨ val < s.mMin then val else s.mMin
    mMax := if s.mCnt = 0 ∨ val > s.mMax then val else s.mMax
    mCnt := (s.mCnt + 1) % 2 ^ 32
    mSum := s.mSum + val }

/-- `getCurrent`, Utils.h:134-136. -/
def Statistic.getCurrent (s : Statistic) : Int := if s.mCnt ≠ 0 then s.mCurrent else 0

/-- `getAvg`, Utils.h:137-139. -/
def Statistic.getAvg (s : Statistic) : Rat := if s.mCnt = 0 then 0 else (s.mSum : Rat) / (s.mCnt : Rat)

/-! ### BitSet -/

/-- `1<<whichbit`, Utils.h:108-111 (undefined from 32 on; `1<<31` sets the top bit, as gcc defines it). -/
def bit (i : Nat) : Outcome (BitVec 32) := if i < 32 then .ok (1#32 <<< i) else .ub

/-- `setBit`, Utils.h:108. -/
def setBit (b : BitVec 32) (i : Nat) : Outcome (BitVec 32) := do .ok (b ||| (← bit i))

/-- `clearBit`, Utils.h:109. -/
def clearBit (b : BitVec 32) (i : Nat) : Outcome (BitVec 32) := do .ok (b &&& ~~~ (← bit i))

/-- `isSet`, Utils.h:111. -/
def isSet (b : BitVec 32) (i : Nat) : Outcome Bool := do .ok ((b &&& (← bit i)) != 0)

/-! ### Key text -/

/-- Lower-case hex digit. -/
def hexDigit (n : Nat) : Byte := if n < 10 then BitVec.ofNat 8 (48 + n) else BitVec.ofNat 8 (87 + n)

/-- `os << hex << n` without padding. -/
def hexText (n : Nat) : Str := if n < 16 then [hexDigit n] else hexText (n / 16) ++ [hexDigit (n % 16)]

/-- `width(w)`, `fill('0')`. -/
def pad (w : Nat) (t : Str) : Str := List.replicate (w - t.length) 48 ++ t

/-- `uintToString(uint64_t,uint64_t)`, Utils.cpp:547-560. -/
def uintToString (h l : BitVec 64) : Str := pad 16 (hexText h.toNat) ++ pad 16 (hexText l.toNat)

/-- `uintToString(uint32_t)`, Utils.cpp:562-569. -/
def uintToString32 (x : BitVec 32) : Str := pad 8 (hexText x.toNat)

/-- Value of a hex digit character. -/
def hexVal (c : Byte) : Option Nat :=
  if 48 ≤ c.toNat ∧ c.toNat ≤ 57 then some (c.toNat - 48)
  else if 97 ≤ c.toNat ∧ c.toNat ≤ 102 then some (c.toNat - 87)
  else if 65 ≤ c.toNat ∧ c.toNat ≤ 70 then some (c.toNat - 55)
  else none

/-- Value of the leading hex digits. -/
def hexValue (s : Str) : Nat := (s.takeWhile (hexVal · |>.isSome)).foldl (fun a c => a * 16 + (hexVal c).getD 0) 0

/-- Skips a leading 0x or 0X. -/
def skip0x : Str → Str
  | 48 :: 120 :: t => t
  | 48 :: 88 :: t => t
  | t => t

/-- `ss >> hex >> uint64`: white space skipped, optional sign, optional 0x, digits; too large a number gives the
largest value; no digits gives 0 (libstdc++). -/
def extractHex (s : Str) : BitVec 64 :=
  let s := s.dropWhile isSpace
  let neg := s.head? = some 45
  let s := if s.head? = some 45 ∨ s.head? = some 43 then s.tail else s
  let v := hexValue (skip0x s)
  if v ≥ 2 ^ 64 then BitVec.ofNat 64 (2 ^ 64 - 1)
  else if neg then - BitVec.ofNat 64 v else BitVec.ofNat 64 v

/-- `stringToUint`, Utils.cpp:534-545. -/
def stringToUint (s : Str) : Outcome (BitVec 64 × BitVec 64) :=
  if s.length ≠ 32 then .assertFail
  else .ok (extractHex (s.take 16), extractHex ((s.drop 16).take 16))

/-! ### printPrettyTable -/

/-- Utils.cpp:424. -/
def maxcols : Nat := 30

/-- Widths of the columns, Utils.cpp:426-436 (`tabSeparated` false): maximum over the rows that have the column of
the cell size, capped at 100. -/
def colWidth (tab : List (List Str)) (col : Nat) : Nat :=
  tab.foldl (fun w row => if col < maxcols ∧ col < row.length then max w (min ((row.getD col []).length) 100) else w) 0

/-- `val`, Utils.cpp:452: a cell "_" is printed as empty. -/
def cellVal (cell : Str) : Str := if cell = [95] then [] else cell

/-- `snprintf(buf,250,"%-*s ",width,val); os << buf;`, Utils.cpp:461-462 (cells without NUL characters). -/
def cellText (w : Nat) (val : Str) : Str := (val ++ List.replicate (w - val.length) 32 ++ [32]).take 249

/-- One row, Utils.cpp:449-465, starting at column `col`; `wd` are the widths. -/
def rowText (wd : Nat → Nat) : Nat → List Str → Str
  | _, [] => []
  | col, cell :: cells => if col < maxcols then cellText (wd col) (cellVal cell) ++ rowText wd (col + 1) cells else []

/-- `printPrettyTable(tab,os,false)`, Utils.cpp:421-468: what is written. -/
def printPrettyTable (tab : List (List Str)) : Str :=
  (tab.map fun row => rowText (colWidth tab) 0 row ++ [10]).flatten ++ [10]

/-- One row with `tabSeparated`, Utils.cpp:454-455. -/
def rowTabs : Nat → List Str → Str
  | _, [] => []
  | col, cell :: cells =>
    if col < maxcols then (if col ≠ 0 then [9] else []) ++ cellVal cell ++ rowTabs (col + 1) cells else []

/-- `printPrettyTable(tab,os,true)`. -/
def printTabTable (tab : List (List Str)) : Str := (tab.map fun row => rowTabs 0 row ++ [10]).flatten ++ [10]

end Verif.Utils
