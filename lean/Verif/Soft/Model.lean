import Verif.Core.Outcome
import Verif.BitVector.Model
import Mathlib.Data.Rat.Defs
import Mathlib.Algebra.Order.Ring.Unbundled.Rat

/-
Model of puncturing and of soft-decision vectors, `/repo/BitVector.cpp`.

Soft bits are exact rationals instead of IEEE floats; the only constants involved (0, 1/2, 1) are exact
in both.  Puncture indices are below 2^31, so the `int n` does not wrap.
-/

namespace Verif.Soft
open Verif

/-- The copy loop `for (i<n) { assert(srcp<mEnd && dstp<dst.mEnd); *dstp++ = *srcp++; }`,
BitVector.cpp:465-468 and 490-493.  State: source position, destination contents, destination
position. -/
def copyN {α : Type} (src : List α) : Nat → Nat → List α → Nat → Outcome (Nat × List α × Nat)
  | 0, srcp, dst, dstp => .ok (srcp, dst, dstp)
  | n + 1, srcp, dst, dstp =>
    match src[srcp]? with
    | none => .assertFail
    | some x =>
      if dstp < dst.length then copyN src n (srcp + 1) (dst.set dstp x) (dstp + 1)
      else .assertFail

/-- Outer loop of `BitVector::copyPunctured`, BitVector.cpp:461-477.  With no puncture left the inner
`while (srcp < mEnd)` copies the rest. -/
def punctLoop {α : Type} (src : List α) : List Nat → Nat → List α → Nat → Outcome (List α)
  | puncture, srcp, dst, dstp =>
    if srcp < src.length then
      match puncture with
      | p :: ps =>
        if p < srcp then .assertFail
        else do
          let (srcp', dst', dstp') ← copyN src (p - srcp) srcp dst dstp
          punctLoop src ps (srcp' + 1) dst' dstp'
      | [] => do
        let (_, dst', dstp') ← copyN src (src.length - srcp) srcp dst dstp
        if dstp' = dst'.length then .ok dst' else .assertFail
    else if dstp = dst.length ∧ puncture = [] then .ok dst
    else .assertFail

/-- `BitVector::copyPunctured`, BitVector.cpp:455-478.  The first assertion compares
`size() - plth == dst.size()` in `size_t`; for real sizes this is `plth + dst.size() = size()`. -/
def copyPunctured {α : Type} (src dst : List α) (puncture : List Nat) : Outcome (List α) :=
  if puncture.length + dst.length = src.length then punctLoop src puncture 0 dst 0
  else .assertFail

/-- Outer loop of `SoftVector::copyUnPunctured`, BitVector.cpp:486-502; `half` is the constant 0.5.
The store of `half` has no assertion: outside the destination it is undefined.  If no puncture is left,
the inner `while (srcp < mEnd)` copies the rest of the source; if that does not fill the destination
the outer loop never ends. -/
def unpunctLoop {α : Type} (half : α) (src : List α) :
    List Nat → Nat → List α → Nat → Outcome (List α)
  | puncture, srcp, dst, dstp =>
    if dstp < dst.length then
      match puncture with
      | p :: ps =>
        if p < dstp then .assertFail
        else do
          let (srcp', dst', dstp') ← copyN src (p - dstp) srcp dst dstp
          if dstp' < dst'.length then unpunctLoop half src ps srcp' (dst'.set dstp' half) (dstp' + 1)
          else .ub
      | [] => do
        let (_, dst', dstp') ← copyN src (src.length - srcp) srcp dst dstp
        if dstp' < dst'.length then .diverge
        else if dstp' = dst'.length then .ok dst' else .assertFail
    else if dstp = dst.length ∧ puncture = [] then .ok dst
    else .assertFail

/-- `SoftVector::copyUnPunctured`, BitVector.cpp:480-503. -/
def copyUnPunctured {α : Type} (half : α) (src dst : List α) (puncture : List Nat) :
    Outcome (List α) :=
  if src.length + puncture.length = dst.length then unpunctLoop half src puncture 0 dst 0
  else .assertFail

/-- `SoftVector(const BitVector&)`, BitVector.cpp:282-289. -/
def ofBits (v : BitVector.Bits) : List Rat := v.map fun c => if (c &&& 1) != 0 then 1 else 0

/-- `SoftVector::sliced`, BitVector.cpp:292-301. -/
def sliced (v : List Rat) : BitVector.Bits := v.map fun x => if x > 1 / 2 then 1 else 0

/-- `SoftVector::bit`, BitVector.h:395-400. -/
def softBit (v : List Rat) (i : Nat) : Outcome Bool :=
  match v[i]? with
  | none => .assertFail
  | some x => .ok (decide (x > 1 / 2))

/-- `SoftVector::unknown`, BitVector.h:392. -/
def unknown (v : List Rat) : List Rat := v.map fun _ => 1 / 2

/-- Energy of one soft bit, BitVector.cpp:313. -/
def energy (x : Rat) : Rat := 2 * (if x < 1 / 2 then 1 / 2 - x else x - 1 / 2)

/-- `SoftVector::getEnergy`, BitVector.cpp:306-319: average and lowest energy. -/
def getEnergy (v : List Rat) : Rat × Rat :=
  v.foldl (fun (avg, low) x =>
    let e := energy x
    (avg + e / v.length, if e < low then e else low)) (0, 1)

/-- Noise sum of `SoftVector::getSNR`, BitVector.cpp:334-343. -/
def noiseSum (v : List Rat) : Rat :=
  v.foldl (fun s x => if x < 1 / 2 then s + (x - 0) * (x - 0) else s + (x - 1) * (x - 1)) 0

/-- `SoftVector::getSNR`, BitVector.cpp:328-349 (exact arithmetic). -/
def getSNR (v : List Rat) : Rat :=
  if v.length = 0 then 0
  else
    let signal : Rat := 1 / 2 * (1 / 2) * v.length
    if noiseSum v * 1000 < signal then 999 else signal / noiseSum v

end Verif.Soft
