import Verif.Core.Outcome

/-
Model of `/repo/ScalarTypes.h`: numbers that are initialised when declared, and fields with a width.

One model for all integer types of the file; values are integers in the range of the type.  Platform assumptions: two's complement; conversion to a signed type that does not hold the value
wraps around (GCC); `int` has 32 and `size_t` 64 bits.  Not modelled: `Float_z`, `Double_z`, `Enum_z` and the address operator.
-/

namespace Verif.Scalar
open Verif

/-- An integer type. -/
structure Ty where
  signed : Bool
  bits : Nat
deriving DecidableEq, Repr

/-- The names declared, `ScalarTypes.h:58-66`. -/
inductive Name
  | int_z | char_z | int16_z | int32_z | uint_z | uchar_z | uint16_z | uint32_z | size_t_z
deriving DecidableEq, Repr

/-- Their types, `ScalarTypes.h:58-66`. -/
def Name.ty : Name → Ty
  | .int_z => ⟨true, 32⟩
  | .char_z => ⟨true, 8⟩
  | .int16_z => ⟨true, 16⟩
  | .int32_z => ⟨true, 32⟩
  | .uint_z => ⟨false, 32⟩
  | .uchar_z => ⟨false, 8⟩
  | .uint16_z => ⟨false, 16⟩
  | .uint32_z => ⟨false, 32⟩
  | .size_t_z => ⟨false, 64⟩

/-- Smallest and largest value. -/
def Ty.min (ty : Ty) : Int := if ty.signed then -2 ^ (ty.bits - 1) else 0
def Ty.max (ty : Ty) : Int := if ty.signed then 2 ^ (ty.bits - 1) - 1 else 2 ^ ty.bits - 1

/-- Conversion of an integer to the type. -/
def Ty.conv (ty : Ty) (x : Int) : Int := (x - ty.min) % 2 ^ ty.bits + ty.min

/-- Sum or difference assigned back to a variable of the type: narrow types are promoted to `int` and converted back, unsigned ones wrap around, and an overflowing `int` is undefined. -/
def Ty.arith (ty : Ty) (x : Int) : Outcome Int := if ty.signed ∧ ty.bits = 32 ∧ (x < ty.min ∨ ty.max < x) then .ub else .ok (ty.conv x)

/-- Operations, `ScalarTypes.h:24-37`; the argument is what the caller writes, converted to the type when it is passed. -/
inductive Op
  | set (x : Int)
  | preInc | postInc | preDec | postDec
  | add (x : Int) | sub (x : Int)
deriving DecidableEq, Repr

/-- One operation: the new value and the value returned (`ScalarTypes.h:28,32-37`). -/
def apply (ty : Ty) (v : Int) : Op → Outcome (Int × Int)
  | .set x => .ok (ty.conv x, ty.conv x)
  | .preInc => (ty.arith (v + 1)).bind fun w => .ok (w, w)
  | .postInc => (ty.arith (v + 1)).bind fun w => .ok (w, v)
  | .preDec => (ty.arith (v - 1)).bind fun w => .ok (w, w)
  | .postDec => (ty.arith (v - 1)).bind fun w => .ok (w, v)
  | .add x => (ty.arith (v + ty.conv x)).bind fun w => .ok (w, w)
  | .sub x => (ty.arith (v - ty.conv x)).bind fun w => .ok (w, w)

/-- A sequence of operations; the values returned. -/
def run (ty : Ty) : Int → List Op → Outcome (Int × List Int)
  | v, [] => .ok (v, [])
  | v, op :: ops => (apply ty v op).bind fun p => (run ty p.1 ops).bind fun q => .ok (q.1, p.2 :: q.2)

/-- The value of a new variable, `ScalarTypes.h:25`; `init` is the template argument converted to the type. -/
def fresh (ty : Ty) (init : Int) : Int := ty.conv init

/-- `getValue` and `getWidth` of a field (`ScalarTypes.h:102-132`): the value is an `unsigned`, whatever the width. -/
def fieldValue (init : Int) (ops : List Op) : Outcome Int := (run ⟨false, 32⟩ (fresh ⟨false, 32⟩ init) ops).bind fun p => .ok p.1

end Verif.Scalar
