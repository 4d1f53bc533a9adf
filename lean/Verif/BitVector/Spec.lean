/-
Specification vocabulary for bit vectors, independent of the model functions.

A stored vector is a list of chars (`BitVec 8`); what a user can observe of it is the list of low bits.
-/

namespace Verif.BitVector.Spec

/-- The observable bits of a stored vector. -/
def bits (v : List (BitVec 8)) : List Bool := v.map fun c => c.getLsbD 0

/-- The number whose binary digits, most significant first, are the given bits. -/
def msbValue (bs : List Bool) : Nat := bs.foldl (fun a b => 2 * a + b.toNat) 0

/-- The number whose binary digits, least significant first, are the given bits. -/
def lsbValue : List Bool → Nat
  | [] => 0
  | b :: bs => b.toNat + 2 * lsbValue bs

/-- The `n` low binary digits of `x`, most significant first. -/
def msbDigits (n x : Nat) : List Bool := (List.range n).map fun k => x.testBit (n - 1 - k)

/-- The `n` low binary digits of `x`, least significant first. -/
def lsbDigits (n x : Nat) : List Bool := (List.range n).map fun k => x.testBit k

/-- The bits of positions `i .. i+n-1`. -/
def window (bs : List Bool) (i n : Nat) : List Bool := (bs.drop i).take n

/-- The list `bs` with positions `i ..` overwritten by `new`. -/
def overwrite (bs : List Bool) (i : Nat) (new : List Bool) : List Bool :=
  bs.take i ++ new ++ bs.drop (i + new.length)

/-- All stored chars are 0 or 1. -/
def Normalised (v : List (BitVec 8)) : Prop := ∀ c ∈ v, c = 0 ∨ c = 1

end Verif.BitVector.Spec
