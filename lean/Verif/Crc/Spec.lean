import Mathlib.Algebra.Polynomial.Div
import Mathlib.Data.ZMod.Basic
import Mathlib.Algebra.Polynomial.RingDivision

/-
Specification of cyclic codes: polynomials over GF(2).
-/

namespace Verif.Crc.Spec
open Polynomial

/-- GF(2). -/
abbrev F2 := ZMod 2

/-- 0/1 as an element of GF(2). -/
def ofBool (b : Bool) : F2 := if b then 1 else 0

/-- The polynomial of a word; the first bit has the highest power. -/
noncomputable def wordPoly (bs : List Bool) : F2[X] :=
  bs.foldl (fun p b => X * p + C (ofBool b)) 0

/-- The polynomial whose coefficient of `X^i` is binary digit `i` of `x`, for `i < n`. -/
noncomputable def numPoly (n x : Nat) : F2[X] :=
  ∑ i ∈ Finset.range n, C (ofBool (x.testBit i)) * X ^ i

/-- The generator polynomial of degree `n` with lower coefficients given by the digits of `c`. -/
noncomputable def genPoly (n c : Nat) : F2[X] := X ^ n + numPoly n c

end Verif.Crc.Spec
