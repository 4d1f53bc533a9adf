import Verif.BitVector.Model

/-
Model of the LFSR `Generator` and the `Parity` coder of `/repo/BitVector.h` and `/repo/BitVector.cpp`.
-/

namespace Verif.Crc
open Verif Verif.BitVector

/-- `class Generator`, BitVector.h:42-91: members `mCoeff`, `mState`, `mMask`, `mLen`, `mLen_1`
(64-bit words and `unsigned`s). -/
structure Generator where
  coeff : BitVec 64
  state : BitVec 64
  mask : BitVec 64
  len : Nat
  len_1 : Nat
  deriving DecidableEq, Repr

/-- Constructor, BitVector.h:54-58.  `1ULL<<wLen` with `wLen ≥ 64` is undefined (the assertion
`wLen<64` comes after it); `wLen-1` is `unsigned` arithmetic. -/
def mkGenerator (wCoeff : BitVec 64) (wLen : Nat) : Outcome Generator :=
  if wLen < 64 then
    .ok { coeff := wCoeff, state := 0, mask := ((1 : BitVec 64) <<< wLen) - 1, len := wLen,
          len_1 := (wLen + (2 ^ 32 - 1)) % 2 ^ 32 }
  else .ub

/-- `Generator::clear`, BitVector.h:60. -/
def Generator.clear (g : Generator) : Generator := { g with state := 0 }

/-- `Generator::state`, BitVector.h:64. -/
def Generator.stateWord (g : Generator) : BitVec 64 := g.state &&& g.mask

/-- `Generator::syndromeShift`, BitVector.h:72-77.  A shift count of 64 or more is undefined. -/
def Generator.syndromeShift (g : Generator) (inBit : BitVec 32) : Outcome Generator :=
  if g.len_1 < 64 then
    let fb := (g.state >>> g.len_1) &&& 1
    let s := (g.state <<< 1) ^^^ (inBit &&& 1).setWidth 64
    .ok { g with state := if fb ≠ 0 then s ^^^ g.coeff else s }
  else .ub

/-- `Generator::encoderShift`, BitVector.h:83-88. -/
def Generator.encoderShift (g : Generator) (inBit : BitVec 32) : Outcome Generator :=
  if g.len_1 < 64 then
    let fb := ((g.state >>> g.len_1) ^^^ inBit.setWidth 64) &&& 1
    let s := g.state <<< 1
    .ok { g with state := if fb ≠ 0 then s ^^^ g.coeff else s }
  else .ub

/-- Loop of `BitVector::syndrome`, BitVector.cpp:202; a `char` is converted to `unsigned` by sign
extension. -/
def syndromeLoop : List (BitVec 8) → Generator → Outcome Generator
  | [], g => .ok g
  | c :: cs, g => do
    let g' ← g.syndromeShift (c.signExtend 32)
    syndromeLoop cs g'

/-- `BitVector::syndrome`, BitVector.cpp:198-204 and `Parity::syndrome`, 261-264. -/
def syndrome (v : Bits) (g : Generator) : Outcome (BitVec 64) := do
  let g' ← syndromeLoop v g.clear
  pure g'.stateWord

/-- Loop of `BitVector::parity`, BitVector.cpp:211. -/
def parityLoop : List (BitVec 8) → Generator → Outcome Generator
  | [], g => .ok g
  | c :: cs, g => do
    let g' ← g.encoderShift (c.signExtend 32)
    parityLoop cs g'

/-- `BitVector::parity`, BitVector.cpp:207-213. -/
def parity (v : Bits) (g : Generator) : Outcome (BitVec 64) := do
  let g' ← parityLoop v g.clear
  pure g'.stateWord

/-- `Parity::writeParityWord`, BitVector.cpp:267-272: the new contents of `parityTarget`. -/
def writeParityWord (g : Generator) (data target : Bits) (invert : Bool) : Outcome Bits := do
  let pWord ← parity data g
  let pWord := if invert then ~~~ pWord else pWord
  fillField target 0 pWord g.len

end Verif.Crc
