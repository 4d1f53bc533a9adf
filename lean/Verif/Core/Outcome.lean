/-
Outcomes of modelled C++ calls.

A modelled call is a total function.  Its result separates the normal return from the abnormal
ends a C++ call can have: a failed `assert` (the process stops, nothing else happens), undefined
behaviour (the model makes no promise about anything after it), and never returning.
-/

namespace Verif

/-- Result of a modelled C++ call. -/
inductive Outcome (α : Type) where
  /-- normal return with a value -/
  | ok (a : α)
  /-- an `assert(...)` in the code failed -/
  | assertFail
  /-- undefined behaviour (e.g. access outside the vector) -/
  | ub
  /-- the call never returns (only used where the model can decide this) -/
  | diverge
  deriving DecidableEq, Repr

namespace Outcome

/-- Sequencing of calls: abnormal ends propagate. -/
def bind {α β : Type} : Outcome α → (α → Outcome β) → Outcome β
  | .ok a, f => f a
  | .assertFail, _ => .assertFail
  | .ub, _ => .ub
  | .diverge, _ => .diverge

instance : Monad Outcome where
  pure := .ok
  bind := bind

@[simp] theorem bind_ok {α β : Type} (a : α) (f : α → Outcome β) : (Outcome.ok a >>= f) = f a := rfl
@[simp] theorem bind_assertFail {α β : Type} (f : α → Outcome β) :
    ((Outcome.assertFail : Outcome α) >>= f) = .assertFail := rfl
@[simp] theorem bind_ub {α β : Type} (f : α → Outcome β) :
    ((Outcome.ub : Outcome α) >>= f) = .ub := rfl
@[simp] theorem bind_diverge {α β : Type} (f : α → Outcome β) :
    ((Outcome.diverge : Outcome α) >>= f) = .diverge := rfl
@[simp] theorem pure_eq {α : Type} (a : α) : (pure a : Outcome α) = .ok a := rfl

/-- A sequence returns normally exactly if both parts do. -/
theorem bind_eq_ok {α β : Type} {x : Outcome α} {f : α → Outcome β} {b : β} :
    (x >>= f) = .ok b ↔ ∃ a, x = .ok a ∧ f a = .ok b := by
  cases x <;> simp

end Outcome
end Verif
