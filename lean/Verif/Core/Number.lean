import Verif.Core.Str

/-
Reading and printing numbers: `strtol`, stream extraction of `int`, `sprintf("%ld")`.  These are library functions, modelled after the C and C++ standards (C locale).
-/

namespace Verif

/-- The value of a digit or letter, as used by `strtol`. -/
def digitVal (c : Byte) : Option Nat :=
  if 48 ≤ c.toNat ∧ c.toNat ≤ 57 then some (c.toNat - 48)
  else if 97 ≤ c.toNat ∧ c.toNat ≤ 122 then some (c.toNat - 87)
  else if 65 ≤ c.toNat ∧ c.toNat ≤ 90 then some (c.toNat - 55)
  else none

/-- Is `c` a digit in base `b`? -/
def isDig (b : Nat) (c : Byte) : Bool :=
  match digitVal c with
  | some d => decide (d < b)
  | none => false

/-- The number denoted by the digits at the beginning of `s`. -/
def scanNat (b : Nat) (s : Str) : Nat := (s.takeWhile (isDig b)).foldl (fun a c => a * b + (digitVal c).getD 0) 0

/-- The magnitude read by `strtol` with base 0, after white space and sign: `0x` and a hex digit, leading `0`, or decimal. -/
def mag0 : Str → Nat
  | 48 :: x :: d :: t => if (x = chr 'x' ∨ x = chr 'X') ∧ isDig 16 d then scanNat 16 (d :: t) else scanNat 8 (48 :: x :: d :: t)
  | 48 :: t => scanNat 8 (48 :: t)
  | s => scanNat 10 s

/-- Clamp to the range `lo..hi`. -/
def clamp (lo hi x : Int) : Int := if x < lo then lo else if hi < x then hi else x

/-- Optional sign, then a magnitude. -/
def signed (mag : Str → Nat) : Str → Int
  | c :: t => if c = chr '-' then -(mag t : Int) else if c = chr '+' then mag t else mag (c :: t)
  | [] => mag []

/-- `strtol(s,NULL,0)` with 64-bit `long`; the terminating NUL is the end of the list or a zero byte. -/
def strtol0 (s : Str) : Int := clamp (-(2 ^ 63)) (2 ^ 63 - 1) (signed mag0 (s.dropWhile isSpace))

/-- `atol(s)`: `strtol` with base 10. -/
def atol (s : Str) : Int := clamp (-(2 ^ 63)) (2 ^ 63 - 1) (signed (scanNat 10) (s.dropWhile isSpace))

/-- `std::stringstream(s) >> n` for an `int`: `none` if there is nothing but white space, in which case `n` is left alone; otherwise the number at the beginning, clamped
to the range of `int`, 0 if there is no number (C++11 and libstdc++). -/
def readInt (s : Str) : Option Int :=
  match s.dropWhile isSpace with
  | [] => none
  | c :: t => some (clamp (-(2 ^ 31)) (2 ^ 31 - 1) (signed (scanNat 10) (c :: t)))

/-- The character of a digit. -/
def digitChar (d : Nat) : Byte := if d < 10 then BitVec.ofNat 8 (48 + d) else BitVec.ofNat 8 (87 + d)

/-- Positional notation (`%u`, `%x`, `%o`). -/
def natText (b n : Nat) : Str :=
  if _h : 2 ≤ b ∧ b ≤ n then natText b (n / b) ++ [digitChar (n % b)] else [digitChar n]
termination_by n
decreasing_by exact Nat.div_lt_self (by omega) (by omega)

/-- `sprintf("%ld")`. -/
def intText (n : Int) : Str := if n < 0 then chr '-' :: natText 10 n.natAbs else natText 10 n.natAbs

end Verif
