import Verif.Core.Outcome

/-
Fixed-width C integers on the modelled platform (LP64, two's complement).
-/

namespace Verif

/-- `x` converted to a signed 32-bit integer (modulo 2^32, as gcc defines it). -/
def wrap32 (x : Int) : Int := Int.bmod x (2 ^ 32)

/-- `x` converted to an unsigned 32-bit integer. -/
def uwrap32 (x : Int) : Int := x % 2 ^ 32

/-- The value is representable in `int32_t`/`int`. -/
def InInt32 (x : Int) : Prop := -2 ^ 31 ≤ x ∧ x < 2 ^ 31

instance (x : Int) : Decidable (InInt32 x) := by unfold InInt32; infer_instance

/-- Result of signed 32-bit arithmetic whose exact value is `x`: overflow is undefined. -/
def int32 (x : Int) : Outcome Int := if InInt32 x then .ok x else .ub

theorem wrap32_of_inInt32 {x : Int} (h : InInt32 x) : wrap32 x = x := by
  unfold InInt32 at h; unfold wrap32
  rw [Int.bmod_eq_iff (by omega)]
  omega

theorem wrap32_in (x : Int) : InInt32 (wrap32 x) := by
  unfold wrap32 InInt32
  have h1 := Int.le_bmod (x := x) (m := 2 ^ 32) (by omega)
  have h2 := Int.bmod_lt (x := x) (m := 2 ^ 32) (by omega)
  omega

theorem int32_of_in {x : Int} (h : InInt32 x) : int32 x = .ok x := by unfold int32; rw [if_pos h]

end Verif
