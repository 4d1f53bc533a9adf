import Verif.Core.Str

/-
Model of `/repo/URLEncode.cpp`.
-/

namespace Verif.Url
open Verif

/-- The literal `digits`, URLEncode.cpp:35 (seventeen characters). -/
def digits : Str := lit "01234567890ABCDEF"

/-- `isalnum(ch) || strchr("-_.!~'()",ch)`, URLEncode.cpp:40.  `strchr` also finds the terminating NUL,
so a NUL character is kept.  `isalnum` of a negative `char` is false (glibc, C locale). -/
def kept (ch : Byte) : Bool := isAlnum ch || (lit "-_.!~'()").contains ch || ch == 0

/-- The escape of a character, URLEncode.cpp:43-45 (`ch>>4` is an arithmetic shift of a signed char,
the mask removes the sign). -/
def escape (ch : Byte) : Str :=
  [chr '%', digits.getD ((ch.sshiftRight 4).toNat &&& 0x0f) 0, digits.getD (ch.toNat &&& 0x0f) 0]

/-- `URLEncode`, URLEncode.cpp:33-49. -/
def urlEncode (c : Str) : Str := c.flatMap fun ch => if kept ch then [ch] else escape ch

end Verif.Url
