/-
Specification of puncturing: keep the elements whose index is not listed.
-/
namespace Verif.Soft.Spec

/-- Elements of `xs` (whose first element has index `start`) at indices not in `P`, in order. -/
def keepFrom {α : Type} (P : List Nat) (start : Nat) (xs : List α) : List α :=
  ((xs.zipIdx start).filter fun xi => !P.contains xi.2).map (·.1)

/-- `xs` without the elements at the indices in `P`. -/
def keep {α : Type} (P : List Nat) (xs : List α) : List α := keepFrom P 0 xs

/-- Legal puncture list for a vector of length `n`: strictly increasing, inside the vector. -/
def Legal (P : List Nat) (n : Nat) : Prop := P.Pairwise (· < ·) ∧ ∀ p ∈ P, p < n

end Verif.Soft.Spec
