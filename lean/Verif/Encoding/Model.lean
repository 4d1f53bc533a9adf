import Verif.Core.Str

/-
Model of the text encodings of `/repo/Utils.cpp`.

Loop positions `i < buflen` are modelled by the rest of the buffer still to be read (`ubuf` from `i`);
`buflen` is below 2^32-3, so `i += 3` does not wrap.  `result.reserve` has no observable effect.  Error
messages are kept as the literal the code assigns; only the last one assigned is visible.
-/

namespace Verif.Encoding
open Verif

/-- `sMapBase64`, Utils.cpp:610. -/
def sMapBase64 : Str := lit "ABCDEFGHIJKLMNOPQRSTUVWXYZabcdefghijklmnopqrstuvwxyz0123456789+/"

/-- `sMapBase64Reverse` after the static initialiser, Utils.cpp:617-620. -/
def sMapBase64Reverse : List Nat :=
  ((List.range 64).foldl (fun t i => t.set (sMapBase64.getD i 0).toNat i) (List.replicate 256 0xff)).set 61 0

/-- `sMapHexReverse` after the static initialiser, Utils.cpp:622-626. -/
def sMapHexReverse : List Nat :=
  let t0 := List.replicate 256 0xff
  let t1 := (List.range' 48 10).foldl (fun t ch => t.set ch (ch - 48)) t0
  let t2 := (List.range' 65 26).foldl (fun t ch => t.set ch (ch - 65 + 10)) t1
  (List.range' 97 26).foldl (fun t ch => t.set ch (ch - 97 + 10)) t2

/-- `sMapBase64[0x3f & n]`. -/
def enc1 (n : Nat) : Byte := sMapBase64.getD (0x3f &&& n) 0

/-- `base64EncodeToString`, Utils.cpp:632-649; the argument is `ubuf` from position `i`. -/
def base64Encode : Str → Str
  | [] => []
  | a :: rest =>
    let accum := a.toNat <<< 8
    let accum := match rest[0]? with
      | some b => accum ||| b.toNat
      | none => accum
    let accum := accum <<< 8
    let accum := match rest[1]? with
      | some c => accum ||| c.toNat
      | none => accum
    [enc1 (accum >>> 18), enc1 (accum >>> 12),
      if rest[0]?.isSome then enc1 (accum >>> 6) else chr '=',
      if rest[1]?.isSome then enc1 accum else chr '='] ++ base64Encode (rest.drop 2)
  termination_by s => s.length
  decreasing_by simp; omega

/-- Message of Utils.cpp:668. -/
def msgAfterEnd : String := "found data after '=' terminator in base64 data"
/-- Message of Utils.cpp:674. -/
def msgBad64 : String := "invalid characters in base64 data"
/-- Message of Utils.cpp:704. -/
def msgBadHex : String := "unexpected character in hex data"
/-- Message of Utils.cpp:713. -/
def msgOddHex : String := "Unexpected odd length of hex encoded string"

/-- State of the group loop of the base64 decoder. -/
structure Group where
  rest : Str
  accum : Nat
  j : Nat
  err : Option String

/-- The loop `while (j < 4 && i < buflen)`, Utils.cpp:661-679. -/
def group64 : Str → Nat → Nat → Option String → Group
  | [], accum, j, err => ⟨[], accum, j, err⟩
  | ch :: rest, accum, j, err =>
    if j < 4 then
      if isSpace ch then group64 rest accum j err
      else if ch = chr '=' then
        -- the scan of Utils.cpp:667-669 leaves `i == buflen`
        ⟨[], accum, j, rest.foldl (fun e c => if !(isSpace c || c == chr '=') then some msgAfterEnd else e) err⟩
      else
        let decoded := sMapBase64Reverse.getD ch.toNat 0
        if decoded ≥ 64 then group64 rest accum j (some msgBad64)
        else group64 rest (accum ||| (decoded <<< ((3 - j) * 6))) (j + 1) err
    else ⟨ch :: rest, accum, j, err⟩

theorem group64_length (s : Str) (accum j : Nat) (err : Option String) :
    (group64 s accum j err).rest.length ≤ s.length := by
  induction s generalizing accum j err with
  | nil => simp [group64]
  | cons ch rest ih =>
    unfold group64
    split
    · split
      · have := ih accum j err; simp; omega
      · split
        · simp
        · simp only
          split
          · have := ih accum j (some msgBad64); simp; omega
          · have := ih (accum ||| (sMapBase64Reverse.getD ch.toNat 0 <<< ((3 - j) * 6))) (j + 1) err
            simp only [List.length_cons]; omega
    · simp

theorem group64_decreases (ch : Byte) (rest : Str) (accum j : Nat) (err : Option String) (hj : j < 4) :
    (group64 (ch :: rest) accum j err).rest.length < (ch :: rest).length := by
  unfold group64
  rw [if_pos hj]
  split
  · have := group64_length rest accum j err; simp; omega
  · split
    · simp
    · simp only
      split
      · have := group64_length rest accum j (some msgBad64); simp; omega
      · have := group64_length rest (accum ||| (sMapBase64Reverse.getD ch.toNat 0 <<< ((3 - j) * 6))) (j + 1) err
        simp only [List.length_cons]; omega

/-- `base64DecodeToString`, Utils.cpp:653-686.  Arguments: the rest of the buffer and the error
message so far; result: the decoded bytes and the final error message. -/
def base64Decode (s : Str) (err : Option String) : Str × Option String :=
  match s with
  | [] => ([], err)
  | ch :: rest =>
    let g := group64 (ch :: rest) 0 0 err
    let out :=
      (if g.j ≥ 1 then [BitVec.ofNat 8 (0xff &&& (g.accum >>> 16))] else []) ++
      (if g.j ≥ 3 then [BitVec.ofNat 8 (0xff &&& (g.accum >>> 8))] else []) ++
      (if g.j = 4 then [BitVec.ofNat 8 (0xff &&& g.accum)] else [])
    let r := base64Decode g.rest g.err
    (out ++ r.1, r.2)
  termination_by s.length
  decreasing_by exact group64_decreases ch rest 0 0 err (by omega)

/-- The loop `while (j < 2 && i < buflen)`, Utils.cpp:699-709 (`accum` is an `unsigned char`). -/
def group16 : Str → Byte → Nat → Option String → Str × Byte × Nat × Option String
  | [], accum, j, err => ([], accum, j, err)
  | ch :: rest, accum, j, err =>
    if j < 2 then
      if isSpace ch then group16 rest accum j err
      else
        let decoded := sMapHexReverse.getD ch.toNat 0
        if decoded ≥ 16 then group16 rest accum (j + 1) (some msgBadHex)
        else group16 rest ((accum <<< 4) ||| BitVec.ofNat 8 decoded) (j + 1) err
    else (ch :: rest, accum, j, err)

theorem group16_length (s : Str) (accum : Byte) (j : Nat) (err : Option String) :
    (group16 s accum j err).1.length ≤ s.length := by
  induction s generalizing accum j err with
  | nil => simp [group16]
  | cons ch rest ih =>
    unfold group16
    split
    · split
      · have := ih accum j err; simp; omega
      · simp only
        split
        · have := ih accum (j + 1) (some msgBadHex); simp; omega
        · have := ih ((accum <<< 4) ||| BitVec.ofNat 8 (sMapHexReverse.getD ch.toNat 0)) (j + 1) err
          simp only [List.length_cons]; omega
    · simp

theorem group16_decreases (ch : Byte) (rest : Str) (accum : Byte) (j : Nat) (err : Option String)
    (hj : j < 2) : (group16 (ch :: rest) accum j err).1.length < (ch :: rest).length := by
  unfold group16
  rw [if_pos hj]
  split
  · have := group16_length rest accum j err; simp; omega
  · simp only
    split
    · have := group16_length rest accum (j + 1) (some msgBadHex); simp; omega
    · have := group16_length rest ((accum <<< 4) ||| BitVec.ofNat 8 (sMapHexReverse.getD ch.toNat 0)) (j + 1) err
      simp only [List.length_cons]; omega

/-- `hexDecodeToString`, Utils.cpp:691-717. -/
def hexDecode (s : Str) (err : Option String) : Str × Option String :=
  match s with
  | [] => ([], err)
  | ch :: rest =>
    let g := group16 (ch :: rest) 0 0 err
    let out := if g.2.2.1 ≠ 0 then [g.2.1] else []
    let err' := if g.2.2.1 = 1 then some msgOddHex else g.2.2.2
    let r := hexDecode g.1 err'
    (out ++ r.1, r.2)
  termination_by s.length
  decreasing_by exact group16_decreases ch rest 0 0 err (by omega)

/-- `tohex1`, Utils.cpp:719-723. -/
def tohex1 (data : Nat) : Byte :=
  let data := data &&& 0xf
  BitVec.ofNat 8 (if data ≤ 9 then data + 48 else data + 65 - 10)

/-- The hex branch of `encodeToString`, Utils.cpp:752-759 (`*dp >> 4` is an arithmetic shift of a
signed char). -/
def hexEncode (s : Str) : Str :=
  s.flatMap fun c => [tohex1 ((c.sshiftRight 4).toNat &&& 0xf), tohex1 (c.toNat &&& 0xf)]

/-- Message of Utils.cpp:739 and 763, without the appended name. -/
def msgBadEncoding : String := "Unexpected encoding specified:"

/-- `decodeToString`, Utils.cpp:729-742.  `stringCaseInsensitive::operator==(string&)`, Utils.cpp:31,
cannot take the literal (a temporary does not bind to a non-const reference), so the comparison that
is used is the ordinary case-sensitive one. -/
def decodeToString (buf : Str) (encoding : Str) : Str × Option String :=
  if encoding = lit "binary" then (buf, none)
  else if encoding = lit "hex" ∨ encoding = lit "base16" then hexDecode buf none
  else if encoding = lit "base64" then base64Decode buf none
  else ([], some msgBadEncoding)

/-- `encodeToString`, Utils.cpp:747-766. -/
def encodeToString (data : Str) (encoding : Str) : Str × Option String :=
  if encoding = lit "binary" then (data, none)
  else if encoding = lit "hex" ∨ encoding = lit "base16" then (hexEncode data, none)
  else if encoding = lit "base64" then (base64Encode data, none)
  else ([], some msgBadEncoding)

end Verif.Encoding
