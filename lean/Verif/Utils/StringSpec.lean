import Verif.Core.Str

/-
Specifications for the string functions, without reference to the model.
-/

namespace Verif.Utils.Spec
open Verif

/-- `pat` occurs in `s` at index `i`. -/
def OccursAt (pat s : Str) (i : Nat) : Prop := pat <+: s.drop i

/-- `Replaced pat rep s t`: `t` is `s` with every leftmost non-overlapping occurrence of `pat` replaced;
replaced text is not looked at again. -/
inductive Replaced (pat rep : Str) : Str → Str → Prop
  | done (s : Str) : (∀ i, ¬ OccursAt pat s i) → Replaced pat rep s s
  | step (pre s t : Str) : (∀ i, i < pre.length → ¬ OccursAt pat (pre ++ pat ++ s) i) →
      Replaced pat rep s t → Replaced pat rep (pre ++ pat ++ s) (pre ++ rep ++ t)

/-- The pieces between separators (possibly empty). -/
def pieces (sep : Byte → Bool) : Str → List Str
  | [] => [[]]
  | c :: s =>
    if sep c then [] :: pieces sep s
    else
      match pieces sep s with
      | [] => [[c]]
      | p :: ps => (c :: p) :: ps

/-- The words of a text: its non-empty pieces. -/
def words (sep : Byte → Bool) (s : Str) : List Str := (pieces sep s).filter (! ·.isEmpty)

/-- `p` is the first `n` lines of `s`, with their newlines. -/
def FirstLines (n : Nat) (s p : Str) : Prop :=
  p <+: s ∧ ((p.count 10 = n ∧ p.getLast? = some 10) ∨ (p = s ∧ s.count 10 < n))

end Verif.Utils.Spec
