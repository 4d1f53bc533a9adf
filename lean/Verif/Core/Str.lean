/-
Byte strings (`std::string`, `char*` buffers).
-/

namespace Verif

/-- One `char`. -/
abbrev Byte := BitVec 8

/-- A string of bytes. -/
abbrev Str := List Byte

/-- The bytes of an ASCII literal. -/
def lit (s : String) : Str := s.toList.map fun c => BitVec.ofNat 8 c.toNat

/-- The byte of an ASCII character. -/
def chr (c : Char) : Byte := BitVec.ofNat 8 c.toNat

/-- `isspace` in the C locale (argument an `unsigned char`, or an ASCII `char`). -/
def isSpace (b : Byte) : Bool := b == 32 || (9 ≤ b.toNat && b.toNat ≤ 13)

/-- `isdigit`. -/
def isDigit (b : Byte) : Bool := 48 ≤ b.toNat && b.toNat ≤ 57

/-- `isalpha` in the C locale. -/
def isAlpha (b : Byte) : Bool :=
  (65 ≤ b.toNat && b.toNat ≤ 90) || (97 ≤ b.toNat && b.toNat ≤ 122)

/-- `isalnum` in the C locale. -/
def isAlnum (b : Byte) : Bool := isAlpha b || isDigit b

end Verif
