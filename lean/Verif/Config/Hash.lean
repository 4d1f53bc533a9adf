import Verif.Config.Sql

/-
`HashString`: the hash and the comparison operators.
-/

namespace Verif.Config

/-- One round of the hash; `char` is signed, so bytes from 128 up are added as negative numbers (Configuration.cpp:976-977). -/
def hashStep (h : BitVec 64) (c : Byte) : BitVec 64 := (h ^^^ (h >>> 32)) * 127 + c.signExtend 64

/-- `HashString::computeHash` (Configuration.cpp:970-979), for strings of less than 2^32 characters (the loop counter is 32 bits wide). -/
def hash (s : Str) : BitVec 64 := s.foldl hashStep 0

/-- `HashString::operator==` (Configuration.h:162-165).  The operator is not `const`; comparisons of constant objects, as in `std::map<HashString,…>`, use those of `std::string`. -/
def hashEq (a b : Str) : Bool := hash a == hash b

/-- `HashString::operator<` (Configuration.h:167-170). -/
def hashLt (a b : Str) : Bool := decide ((hash a).toNat < (hash b).toNat)

/-- `HashString::operator>` (Configuration.h:172-175). -/
def hashGt (a b : Str) : Bool := decide ((hash a).toNat < (hash b).toNat)

end Verif.Config
