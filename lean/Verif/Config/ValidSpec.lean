import Verif.Core.Str
import Mathlib.Data.Nat.Digits.Defs

/-
What the legal values of configuration keys are; independent of `Config/Valid.lean`.
-/

namespace Verif.Config.Spec

/-- The decimal digits `ds`, most significant first. -/
def digits (ds : List Nat) : Str := ds.map fun d => BitVec.ofNat 8 (48 + d)

/-- `s` consists of one or more decimal digits and denotes `v`. -/
def Decimal (s : Str) (v : Nat) : Prop := ∃ ds, ds ≠ [] ∧ (∀ d ∈ ds, d < 10) ∧ s = digits ds ∧ v = Nat.ofDigits 10 ds.reverse

/-- As `Decimal`, without superfluous zeros in front. -/
def Canonical (s : Str) (v : Nat) : Prop := ∃ ds, ds ≠ [] ∧ (∀ d ∈ ds, d < 10) ∧ (ds.head? = some 0 → ds = [0]) ∧ s = digits ds ∧ v = Nat.ofDigits 10 ds.reverse

/-- An optional minus sign and a decimal number. -/
def Signed (s : Str) (v : Int) : Prop := (∃ n, Decimal s n ∧ v = n) ∨ (∃ n t, s = chr '-' :: t ∧ Decimal t n ∧ v = -n)

/-- Dotted quad. -/
def Quad (s : Str) : Prop :=
  ∃ a b c d x y z t, a < 256 ∧ b < 256 ∧ c < 256 ∧ d < 256 ∧ Canonical x a ∧ Canonical y b ∧ Canonical z c ∧ Canonical t d ∧
    s = x ++ chr '.' :: y ++ chr '.' :: z ++ chr '.' :: t

/-- Letters, digits and the characters of `extra`, at least one. -/
def Over (extra : Str) (s : Str) : Prop := s ≠ [] ∧ ∀ c ∈ s, isAlnum c = true ∨ c ∈ extra

/-- File paths. -/
def Path (s : Str) : Prop := Over (lit "/_.-") s

/-- Host names. -/
def Host (s : Str) : Prop := Over (lit "_.-") s

/-- Texts separated by commas. -/
def commas : List Str → Str
  | [] => []
  | [x] => x
  | x :: y :: l => x ++ chr ',' :: commas (y :: l)

/-- A list of choices with descriptions. -/
def described (l : List (Str × Str)) : Str := commas (l.map fun e => e.1 ++ chr '|' :: e.2)

/-- A range with optional step. -/
def range (lo hi : Str) (step : Option Str) : Str := lo ++ chr ':' :: hi ++ (match step with | some s => chr '(' :: s ++ [chr ')'] | none => [])

end Verif.Config.Spec
