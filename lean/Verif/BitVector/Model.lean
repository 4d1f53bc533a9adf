import Verif.Core.Outcome

/-
Model of the bit-level operations of `/repo/BitVector.cpp` and `/repo/BitVector.h`.

A `BitVector` stores one bit per `char`.  Here a vector is the list of the stored chars between
`mStart` and `mEnd` (`Bits`).  Ownership and aliasing of the storage are modelled separately
(`Verif/Vector`).  Simplifications used throughout this file: sizes and indices are natural numbers
(vectors longer than 2^31 are not considered, so no `int`/`unsigned` index wraps, and pointer
arithmetic does not wrap); reading outside `mStart..mEnd` is `Outcome.ub`.
-/

namespace Verif.BitVector
open Verif

/-- The stored chars of a bit vector, one char per bit; only the low bit of a char is the bit. -/
abbrev Bits := List (BitVec 8)

/-- `BitVector(const char*)`, BitVector.cpp:41-56: one char per input char, 1 iff it is `'1'`.
The argument is the C string without its terminator. -/
def ofString (s : List Char) : Bits := s.map fun c => if c = '1' then 1 else 0

/-- `BitVector::bit`, BitVector.h:282-288. -/
def bit (v : Bits) (index : Nat) : Outcome Bool :=
  match v[index]? with
  | none => .assertFail
  | some c => .ok ((c &&& 1) != 0)

/-- `BitVector::settfb`, BitVector.h:303-308 (`value` converted to `char`). -/
def settfb (v : Bits) (index : Nat) (value : BitVec 32) : Outcome Bits :=
  if index < v.length then .ok (v.set index (value.setWidth 8)) else .assertFail

/-- Loop of `BitVector::peekField`, BitVector.cpp:64-66; `dp` is the offset of the read pointer. -/
def peekLoop (v : Bits) (dp : Nat) : Nat → BitVec 64 → Outcome (BitVec 64)
  | 0, accum => .ok accum
  | n + 1, accum =>
    match v[dp]? with
    | none => .ub
    | some c => peekLoop v (dp + 1) n ((accum <<< 1) ||| (c &&& 1).setWidth 64)

/-- `BitVector::peekField`, BitVector.cpp:59-68 (no bounds assertion in the code). -/
def peekField (v : Bits) (readIndex length : Nat) : Outcome (BitVec 64) :=
  peekLoop v readIndex length 0

/-- Loop of `BitVector::peekFieldReversed`, BitVector.cpp:78-80; before the iteration with counter
`i+1` remaining, the read pointer is at `base + i`. -/
def peekRevLoop (v : Bits) (base : Nat) : Nat → BitVec 64 → Outcome (BitVec 64)
  | 0, accum => .ok accum
  | i + 1, accum =>
    match v[base + i]? with
    | none => .ub
    | some c => peekRevLoop v base i ((accum <<< 1) ||| (c &&& 1).setWidth 64)

/-- `BitVector::peekFieldReversed`, BitVector.cpp:73-82.  The assertion `dp<mEnd` with
`dp = mStart+readIndex+length-1` is `readIndex+length ≤ size`. -/
def peekFieldReversed (v : Bits) (readIndex length : Nat) : Outcome (BitVec 64) :=
  if readIndex + length ≤ v.length then peekRevLoop v readIndex length 0 else .assertFail

/-- `BitVector::readField`, BitVector.cpp:87-92: value and new cursor. -/
def readField (v : Bits) (readIndex length : Nat) : Outcome (BitVec 64 × Nat) := do
  let retVal ← peekField v readIndex length
  pure (retVal, readIndex + length)

/-- `BitVector::readFieldReversed`, BitVector.cpp:95-102. -/
def readFieldReversed (v : Bits) (readIndex length : Nat) : Outcome (BitVec 64 × Nat) := do
  let retVal ← peekFieldReversed v readIndex length
  pure (retVal, readIndex + length)

/-- Loop of `BitVector::fillField`, BitVector.cpp:113-116: with `k+1` positions left the write
pointer is at `base + k`. -/
def fillLoop (base : Nat) : Nat → BitVec 64 → Bits → Bits
  | 0, _, v => v
  | k + 1, value, v => fillLoop base k (value >>> 1) (v.set (base + k) ((value &&& 1).setWidth 8))

/-- `BitVector::fillField`, BitVector.cpp:107-118. -/
def fillField (v : Bits) (writeIndex : Nat) (value : BitVec 64) (length : Nat) : Outcome Bits :=
  if length ≠ 0 then
    if writeIndex + length - 1 < v.length then .ok (fillLoop writeIndex length value v)
    else .assertFail
  else .ok v

/-- Loop of `BitVector::fillFieldReversed`, BitVector.cpp:127-130. -/
def fillRevLoop (dp : Nat) : Nat → BitVec 64 → Bits → Bits
  | 0, _, v => v
  | k + 1, value, v => fillRevLoop (dp + 1) k (value >>> 1) (v.set dp ((value &&& 1).setWidth 8))

/-- `BitVector::fillFieldReversed`, BitVector.cpp:121-132. -/
def fillFieldReversed (v : Bits) (writeIndex : Nat) (value : BitVec 64) (length : Nat) :
    Outcome Bits :=
  if length ≠ 0 then
    if writeIndex + length - 1 < v.length then .ok (fillRevLoop writeIndex length value v)
    else .assertFail
  else .ok v

/-- `BitVector::writeField`, BitVector.cpp:137-143: new contents and new cursor. -/
def writeField (v : Bits) (writeIndex : Nat) (value : BitVec 64) (length : Nat) :
    Outcome (Bits × Nat) :=
  if length ≠ 0 then do
    let v' ← fillField v writeIndex value length
    pure (v', writeIndex + length)
  else .ok (v, writeIndex)

/-- `BitVector::writeFieldReversed`, BitVector.cpp:146-152. -/
def writeFieldReversed (v : Bits) (writeIndex : Nat) (value : BitVec 64) (length : Nat) :
    Outcome (Bits × Nat) :=
  if length ≠ 0 then do
    let v' ← fillFieldReversed v writeIndex value length
    pure (v', writeIndex + length)
  else .ok (v, writeIndex)

/-- `BitVector::invert`, BitVector.cpp:155-160: bitwise complement of every stored char. -/
def invert (v : Bits) : Bits := v.map fun c => ~~~ c

/-- `BitVector::reverse8`, BitVector.cpp:165-184: the four swaps, in order. -/
def reverse8 (v : Bits) : Outcome Bits :=
  if 8 ≤ v.length then
    let swap (v : Bits) (i j : Nat) : Bits := (v.set i (v.getD j 0)).set j (v.getD i 0)
    .ok (swap (swap (swap (swap v 0 7) 1 6) 2 5) 3 4)
  else .assertFail

/-- `segment(i,8).reverse8()` seen from the whole vector: the segment is an alias, so the eight
chars at `i` are replaced (BitVector.h:160-170, BitVector.cpp:193). -/
def reverse8At (v : Bits) (i : Nat) : Outcome Bits :=
  if i + 8 ≤ v.length then do
    let s ← reverse8 ((v.drop i).take 8)
    pure (v.take i ++ s ++ v.drop (i + 8))
  else .assertFail

/-- Loop of `BitVector::LSB8MSB`, BitVector.cpp:193, for `k` remaining octets starting at `i`. -/
def lsb8Loop (i : Nat) : Nat → Bits → Outcome Bits
  | 0, v => .ok v
  | k + 1, v => do
    let v' ← reverse8At v i
    lsb8Loop (i + 8) k v'

/-- `BitVector::LSB8MSB`, BitVector.cpp:188-194: `i = 0, 8, ..., 8*(size/8)-8`. -/
def LSB8MSB (v : Bits) : Outcome Bits :=
  if v.length < 8 then .ok v else lsb8Loop 0 (v.length / 8) v

/-- `BitVector::sum`, BitVector.cpp:216-221 (`unsigned` accumulator). -/
def sum (v : Bits) : BitVec 32 :=
  v.foldl (fun s c => s + (c &&& 1).setWidth 32) 0

/-- Loop of `BitVector::map`, BitVector.cpp:228-230: `dest[i] = this[map[i]]`. -/
def mapLoop (v : Bits) (i : Nat) : List Nat → Bits → Outcome Bits
  | [], dest => .ok dest
  | m :: ms, dest =>
    match v[m]? with
    | none => .ub
    | some c => if i < dest.length then mapLoop v (i + 1) ms (dest.set i c) else .ub

/-- `BitVector::map`, BitVector.cpp:226-231 (no bounds assertions in the code). -/
def map (v : Bits) (table : List Nat) (dest : Bits) : Outcome Bits := mapLoop v 0 table dest

/-- Loop of `BitVector::unmap`, BitVector.cpp:238-240: `dest[map[i]] = this[i]`. -/
def unmapLoop (v : Bits) (i : Nat) : List Nat → Bits → Outcome Bits
  | [], dest => .ok dest
  | m :: ms, dest =>
    match v[i]? with
    | none => .ub
    | some c => if m < dest.length then unmapLoop v (i + 1) ms (dest.set m c) else .ub

/-- `BitVector::unmap`, BitVector.cpp:236-241. -/
def unmap (v : Bits) (table : List Nat) (dest : Bits) : Outcome Bits := unmapLoop v 0 table dest

/-- `operator<<`, BitVector.cpp:249-256. -/
def print (v : Bits) : List Char := v.map fun c => if (c &&& 1) != 0 then '1' else '0'

/-- `BitVector::operator==`, BitVector.cpp:449-453: sizes equal and `memcmp` of the stored chars. -/
def eqOp (a b : Bits) : Bool := a.length == b.length && (a == b)

/-- First loop of `BitVector::pack` / `packToString`, BitVector.cpp:369-371, 384-386. -/
def packLoop (v : Bits) (i : Nat) : Nat → Outcome (List (BitVec 8))
  | 0 => .ok []
  | k + 1 => do
    let w ← peekField v (i * 8) 8
    let rest ← packLoop v (i + 1) k
    pure (w.setWidth 8 :: rest)

/-- `BitVector::pack`, BitVector.cpp:365-376: the bytes written to the target, in order.  The
shift `peekField(..) << (8-rem)` is a 64-bit shift whose result is converted to a byte. -/
def pack (v : Bits) : Outcome (List (BitVec 8)) := do
  let bytes := v.length / 8
  let front ← packLoop v 0 bytes
  let whole := bytes * 8
  let rem := v.length - whole
  if rem = 0 then pure front
  else do
    let w ← peekField v whole rem
    pure (front ++ [(w <<< (8 - rem)).setWidth 8])

/-- `BitVector::packToString`, BitVector.cpp:378-392 (separate code, `push_back` per byte). -/
def packToStringLoop (v : Bits) (i : Nat) : Nat → List (BitVec 8) → Outcome (List (BitVec 8))
  | 0, result => .ok result
  | k + 1, result => do
    let w ← peekField v (i * 8) 8
    packToStringLoop v (i + 1) k (result ++ [w.setWidth 8])

/-- `BitVector::packToString`, BitVector.cpp:378-392. -/
def packToString (v : Bits) : Outcome (List (BitVec 8)) := do
  let bytes := v.length / 8
  let result ← packToStringLoop v 0 bytes []
  let whole := bytes * 8
  let rem := v.length - whole
  if rem = 0 then pure result
  else do
    let w ← peekField v whole rem
    pure (result ++ [(w <<< (8 - rem)).setWidth 8])

/-- Loop of `BitVector::unpack`, BitVector.cpp:399-401; reading past the source is `ub`. -/
def unpackLoop (src : List (BitVec 8)) (i : Nat) : Nat → Bits → Outcome Bits
  | 0, v => .ok v
  | k + 1, v =>
    match src[i]? with
    | none => .ub
    | some b => do
      let v' ← fillField v (i * 8) (b.setWidth 64) 8
      unpackLoop src (i + 1) k v'

/-- `BitVector::unpack`, BitVector.cpp:395-406. -/
def unpack (v : Bits) (src : List (BitVec 8)) : Outcome Bits := do
  let bytes := v.length / 8
  let v' ← unpackLoop src 0 bytes v
  let whole := bytes * 8
  let rem := v.length - whole
  if rem = 0 then pure v'
  else
    match src[bytes]? with
    | none => .ub
    | some b => fillField v' whole ((b >>> (8 - rem)).setWidth 64) rem

/-- One hexadecimal digit as printed by `os << std::hex << n` for `n < 16`. -/
def hexDigit (n : Nat) : Char :=
  "0123456789abcdef".toList.getD n '?'

/-- Loop of `BitVector::hex`, BitVector.cpp:413-415.  `readField(wp,4)` is below 16, so one
character is printed per iteration (`hexDigit` of a larger number would be `?`). -/
def hexLoop (v : Bits) (wp : Nat) : Nat → Outcome (List Char)
  | 0 => .ok []
  | k + 1 => do
    let (w, wp') ← readField v wp 4
    let rest ← hexLoop v wp' k
    pure (hexDigit w.toNat :: rest)

/-- `BitVector::hex` / `hexstr`, BitVector.cpp:408-424. -/
def hexstr (v : Bits) : Outcome (List Char) := hexLoop v 0 (v.length / 4)

/-- Value of a hexadecimal digit character. -/
def hexVal (c : Char) : Option Nat :=
  if '0' ≤ c ∧ c ≤ '9' then some (c.toNat - 48)
  else if 'a' ≤ c ∧ c ≤ 'f' then some (c.toNat - 87)
  else if 'A' ≤ c ∧ c ≤ 'F' then some (c.toNat - 55)
  else none

/-- `isspace` in the C locale. -/
def isSpaceC (c : Char) : Bool :=
  c == ' ' || c == '\t' || c == '\n' || c.toNat == 11 || c.toNat == 12 || c == '\r'

/-- `sscanf(src, "%1x", &val)`: skips white space, then reads one hexadecimal digit (a sign uses up
the width and the conversion fails).  `none` stands for a result `< 1`. -/
def scan1x (src : List Char) : Option Nat :=
  match src.dropWhile isSpaceC with
  | [] => none
  | c :: _ => hexVal c

/-- Loop of `BitVector::unhex`, BitVector.cpp:432-437.  Returns the vector and whether all digits
were read; on `false` the vector is left partly filled. -/
def unhexLoop (src : List Char) (i : Nat) : Nat → Bits → Outcome (Bits × Bool)
  | 0, v => .ok (v, true)
  | k + 1, v =>
    match scan1x (src.drop i) with
    | none => .ok (v, false)
    | some val => do
      let v' ← fillField v (i * 4) (BitVec.ofNat 64 val) 4
      unhexLoop src (i + 1) k v'

/-- `BitVector::unhex`, BitVector.cpp:427-447.  The argument is the C string without its
terminator (`src+i` never passes the terminator because the loop stops at the first failure). -/
def unhex (v : Bits) (src : List Char) : Outcome (Bits × Bool) := do
  let digits := v.length / 4
  let (v', good) ← unhexLoop src 0 digits v
  if !good then pure (v', false)
  else
    let whole := digits * 4
    let rem := v.length - whole
    if rem > 0 then
      match scan1x (src.drop digits) with
      | none => pure (v', false)
      | some val => do
        let v'' ← fillField v' whole (BitVec.ofNat 64 val) rem
        pure (v'', true)
    else pure (v', true)

end Verif.BitVector
