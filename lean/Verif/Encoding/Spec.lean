import Verif.Core.Str
import Verif.BitVector.Spec

/-
Specification of base64 (RFC 4648) and of hexadecimal text in terms of bit strings.
-/

namespace Verif.Encoding.Spec
open Verif Verif.BitVector.Spec

/-- The bits of a byte string, most significant first. -/
def bitsOf (s : Str) : List Bool := s.flatMap fun b => msbDigits 8 b.toNat

/-- The numbers denoted by the consecutive groups of `k` bits; an incomplete last group is dropped. -/
def groups (k : Nat) (bs : List Bool) : List Nat :=
  if _h : 0 < k ∧ k ≤ bs.length then msbValue (bs.take k) :: groups k (bs.drop k) else []
  termination_by bs.length
  decreasing_by simp; omega

/-- Zero bits needed to fill up to a multiple of six. -/
def pad6 (bs : List Bool) : List Bool := bs ++ List.replicate ((6 - bs.length % 6) % 6) false

/-- The base64 character of a number below 64. -/
def alpha64 (n : Nat) : Byte :=
  if n < 26 then BitVec.ofNat 8 (n + 65)
  else if n < 52 then BitVec.ofNat 8 (n - 26 + 97)
  else if n < 62 then BitVec.ofNat 8 (n - 52 + 48)
  else if n = 62 then chr '+' else chr '/'

/-- The number of a base64 character. -/
def val64 (c : Byte) : Option Nat :=
  if 65 ≤ c.toNat ∧ c.toNat ≤ 90 then some (c.toNat - 65)
  else if 97 ≤ c.toNat ∧ c.toNat ≤ 122 then some (c.toNat - 97 + 26)
  else if 48 ≤ c.toNat ∧ c.toNat ≤ 57 then some (c.toNat - 48 + 52)
  else if c = chr '+' then some 62
  else if c = chr '/' then some 63
  else none

/-- RFC 4648 encoding: six bits per character, the last one filled with zero bits, then `=` up to a
multiple of four characters. -/
def rfcEncode (s : Str) : Str :=
  let cs := (groups 6 (pad6 (bitsOf s))).map alpha64
  cs ++ List.replicate ((4 - cs.length % 4) % 4) (chr '=')

/-- The bytes made of the consecutive octets of a bit string. -/
def octets (bs : List Bool) : Str := (groups 8 bs).map fun n => BitVec.ofNat 8 n

/-- The numbers of the alphabet characters before the first `=`, everything else being skipped. -/
def sextets (t : Str) : List Nat := (t.takeWhile (· ≠ chr '=')).filterMap val64

/-- What a decoder must return for a text. -/
def rfcDecode (t : Str) : Str := octets ((sextets t).flatMap fun n => msbDigits 6 n)

/-- The number of a hexadecimal digit. -/
def val16 (c : Byte) : Option Nat :=
  if 48 ≤ c.toNat ∧ c.toNat ≤ 57 then some (c.toNat - 48)
  else if 65 ≤ c.toNat ∧ c.toNat ≤ 70 then some (c.toNat - 65 + 10)
  else if 97 ≤ c.toNat ∧ c.toNat ≤ 102 then some (c.toNat - 97 + 10)
  else none

/-- `t'` is `t` with white space inserted anywhere. -/
def SpacesInserted (t t' : Str) : Prop := t'.filter (fun c => !isSpace c) = t

end Verif.Encoding.Spec
