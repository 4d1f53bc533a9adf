import Verif.Core.Str
import Verif.Core.Outcome

/-
Model of the string functions of `/repo/Utils.cpp`.
-/

namespace Verif.Utils
open Verif

/-- `std::string::find(pat,pos)`: least index ≥ pos at which `pat` occurs; `none` is `npos`. -/
def find (s pat : Str) (pos : Nat) : Option Nat :=
  (List.range (s.length + 1)).find? fun i => decide (pos ≤ i) && pat.isPrefixOf (s.drop i)

/-- `size_t` value of a `find` result. -/
def size_t : Option Nat → Nat
  | some i => i
  | none => 2 ^ 64 - 1

/-- The loop of `replaceAll`, Utils.cpp:482-496, for at most `fuel` rounds; state `output`, `index1`.
`index1` is a 32-bit `unsigned`, so the comparison with the 64-bit `npos` never holds (LP64) and the
`replace` with an index beyond the end throws, is caught, logged, and ends the loop.
The result is the returned string and whether an error was logged; `none`: not finished.
Simplification: memory allocation never fails. -/
def replaceLoop (search rep : Str) : Nat → Str → Nat → Option (Str × Bool)
  | 0, _, _ => none
  | fuel + 1, output, index1 =>
    if index1 < output.length then
      let index1 := size_t (find output search index1) % 2 ^ 32
      if index1 = 2 ^ 64 - 1 then some (output, false)
      else if output.length < index1 then some (output, true)
      else
        replaceLoop search rep fuel (output.take index1 ++ rep ++ output.drop (index1 + search.length))
          ((index1 + rep.length) % 2 ^ 32)
    else some (output, false)

/-- `replaceAll`, Utils.cpp:477-499. -/
def replaceAll (fuel : Nat) (input search rep : Str) : Option (Str × Bool) :=
  replaceLoop search rep fuel input 0

/-- The C string stored in a buffer from position `p` on. -/
def cstr (buf : Str) (p : Nat) : Str := (buf.drop p).takeWhile (· ≠ 0)

/-- Loop of `cstrSplit`, Utils.cpp:370-378; first argument `maxargc - argc`.  Returns the changed buffer
and the pointers (positions) stored into `pargv`. -/
def splitLoop (split : Str) : Nat → Str → Nat → List Nat → Str × List Nat
  | 0, buf, _, argv => (buf, argv)
  | k + 1, buf, inp, argv =>
    let inp := inp + ((cstr buf inp).takeWhile (split.contains ·)).length
    if cstr buf inp = [] then (buf, argv)
    else
      let argv := argv ++ [inp]
      let n := ((cstr buf inp).takeWhile (! split.contains ·)).length
      if n = (cstr buf inp).length then (buf, argv)
      else splitLoop split k (buf.set (inp + n) 0) (inp + n + 1) argv

/-- `cstrSplit`, Utils.cpp:367-380, on the buffer holding the string `s` and its terminator.
The result is what a caller sees: the C strings at the returned pointers, in the changed buffer.
`split` is the separator set (`" \t\r\n"` when the argument is NULL). -/
def cstrSplit (s : Str) (maxargc : Int) (split : Str) : List Str :=
  let r := splitLoop split maxargc.toNat (s ++ [0]) 0 []
  r.2.map (cstr r.1)

/-- Default separators, Utils.cpp:369. -/
def defaultSplit : Str := [32, 9, 13, 10]

/-- `stringSplit`, Utils.cpp:402-414 (appends to `result`). -/
def stringSplit (result : List Str) (input : Str) : List Str := result ++ cstrSplit input 40 defaultSplit

/-- Loop of `cstrGetArg`, Utils.cpp:388-397; first argument `nth`, then the position of `cp`, then the
string from `cp` on.  Result: position and length, or NULL. -/
def getArgLoop : Nat → Nat → Str → Option (Nat × Nat)
  | 0, _, _ => none
  | nth + 1, pos, cp =>
    if cp = [] then none
    else
      let sp := (cp.takeWhile isSpace).length
      let cp1 := cp.drop sp
      let len := (cp1.takeWhile (! isSpace ·)).length
      if nth = 0 then (if len ≠ 0 then some (pos + sp, len) else none)
      else getArgLoop nth (pos + sp + len) (cp1.drop len)

/-- `cstrGetArg`, Utils.cpp:385-399. -/
def cstrGetArg (s : Str) (nth : Int) : Option (Nat × Nat) := getArgLoop nth.toNat 0 s

/-- `if (pos < msgstr.size()) pos++;`, Utils.cpp:575,580. -/
def bump (s : Str) (pos : Nat) : Nat := if pos < s.length then pos + 1 else pos

/-- Loop of `firstlines`, Utils.cpp:577-581, with `k` rounds allowed by `--n > 0`. -/
def linesLoop (s : Str) : Nat → Nat → Nat
  | 0, pos => pos
  | k + 1, pos => if pos < s.length then linesLoop s k (bump s (size_t (find s [10] pos))) else pos

/-- `firstlines`, Utils.cpp:573-584 (for `n` above INT_MIN). -/
def firstlines (s : Str) (n : Int) : Str :=
  s.take (linesLoop s (n - 1).toNat (bump s (size_t (find s [10] 0))))

/-- What `vsnprintf(buf,size,...)` leaves in the buffer (with its terminator) when the complete text is `t`. -/
def vsn (size : Nat) (t : Str) : Str := t.take (size - 1) ++ [0]

/-- `format` and `format1`, Utils.cpp:129-151 and 172-195, as a function of the complete formatted text
(whose length is the value `vsnprintf` returns; encoding errors, result -1, are not modelled). -/
def format (t : Str) : Str :=
  let n := t.length
  if n ≤ 199 then cstr (vsn 199 t) 0
  else
    let n := if n > 5000 then 5000 else n
    cstr (vsn (n + 1) t) 0

/-- `osprintf`, Utils.cpp:117-127: what is written to the stream. -/
def osprintf (t : Str) : Str :=
  let buf := vsn 300 t
  if t.length ≥ 300 - 4 then cstr (buf.take (300 - 4) ++ [46, 46, 46, 0]) 0 else cstr buf 0

end Verif.Utils
