import Verif.Core.CInt

/-
Model of `/repo/F16.h` (32-bit F15.16 fixed point).

A value is the raw 32-bit integer `mV` (as an `Int` in range).  The overloads taking a
`float`/`double`, and `f()`, are in `F16/Float.lean`.  Left shift of a negative number is as gcc defines it.
-/

namespace Verif.F16
open Verif

/-- `F16::F16(int)`, F16.h:58, and `operator=(int)`, F16.h:76-80: `i<<16`. -/
def ofInt (i : Int) : Int := wrap32 (i * 65536)

/-- `operator+`, F16.h:88-93, and `operator+=`, 95-99: signed 32-bit addition. -/
def add (a b : Int) : Outcome Int := int32 (a + b)

/-- `operator-`, F16.h:101-106, and `operator-=`, 108-112. -/
def sub (a b : Int) : Outcome Int := int32 (a - b)

/-- `operator*`, F16.h:114-120, and `operator*=`, 122-127: 64-bit product, arithmetic shift right by
16 (floor), conversion to `int32_t`. -/
def mul (a b : Int) : Int := wrap32 (Int.fdiv (a * b) 65536)

/-- `operator/`, F16.h:142-148, and `operator/=`, 150-155: 64-bit truncating division, conversion to
`int32_t`; dividing by zero is undefined. -/
def div (a b : Int) : Outcome Int :=
  if b = 0 then .ub else .ok (wrap32 (Int.tdiv (a * 65536) b))

/-- `operator<`, `operator>`, `operator==` on F16, F16.h:170-183. -/
def lt (a b : Int) : Bool := a < b
def gt (a b : Int) : Bool := a > b
def eq (a b : Int) : Bool := a == b

/-- `operator=(const F16&)`, F16.h:82-86.  The first component is the new `mV` of the target, the
second the `F16` returned: `return mV` converts the raw `int` with `F16(int)`. -/
def assign (_old other : Int) : Int × Int := (other, ofInt other)

end Verif.F16
