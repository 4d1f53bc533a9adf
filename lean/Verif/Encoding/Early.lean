import Verif.Encoding.Messages

/-
Property C142: decoding before the tables are filled (`Utils.cpp:611-628`).

The two tables of the decoders are zero from the start of the program and are filled by the constructor of the static object `sBaseNDecoderInit`.  Constructors of static objects of other translation
units may run before it.  Here the decoders take the table as an argument; that they are the decoders of `C37`-`C39` when it is filled is a theorem below.  The encoders use only `sMapBase64`, which has
its value from the start.
-/

namespace Verif.Encoding.Early
open Verif Verif.Encoding Verif.Encoding.Spec

/-- The loop of a group of the base64 decoder (`Utils.cpp:661-679`) with the table `tab`. -/
def group64 (tab : List Nat) : Str → Nat → Nat → Option String → Group
  | [], accum, j, err => ⟨[], accum, j, err⟩
  | ch :: rest, accum, j, err =>
    if j < 4 then
      if isSpace ch then group64 tab rest accum j err
      else if ch = chr '=' then ⟨[], accum, j, rest.foldl (fun e c => if !(isSpace c || c == chr '=') then some msgAfterEnd else e) err⟩
      else if tab.getD ch.toNat 0 ≥ 64 then group64 tab rest accum j (some msgBad64)
      else group64 tab rest (accum ||| (tab.getD ch.toNat 0 <<< ((3 - j) * 6))) (j + 1) err
    else ⟨ch :: rest, accum, j, err⟩

theorem group64_length (tab : List Nat) (s : Str) (accum j : Nat) (err : Option String) : (group64 tab s accum j err).rest.length ≤ s.length := by
  induction s generalizing accum j err with
  | nil => simp [group64]
  | cons ch rest ih =>
    simp only [group64]
    split
    · split
      · exact Nat.le_trans (ih _ _ _) (by simp)
      · split
        · simp
        · split <;> exact Nat.le_trans (ih _ _ _) (by simp)
    · simp

theorem group64_decreases (tab : List Nat) (ch : Byte) (rest : Str) (accum j : Nat) (err : Option String) (hj : j < 4) :
    (group64 tab (ch :: rest) accum j err).rest.length < (ch :: rest).length := by
  simp only [group64, if_pos hj]
  split
  · exact Nat.lt_succ_of_le (group64_length ..)
  · split
    · simp
    · split <;> exact Nat.lt_succ_of_le (group64_length ..)

/-- `base64DecodeToString` (`Utils.cpp:653-686`) with the table `tab`. -/
def base64Decode (tab : List Nat) (s : Str) (err : Option String) : Str × Option String :=
  match s with
  | [] => ([], err)
  | ch :: rest =>
    let g := group64 tab (ch :: rest) 0 0 err
    let out :=
      (if g.j ≥ 1 then [BitVec.ofNat 8 (0xff &&& (g.accum >>> 16))] else []) ++
      (if g.j ≥ 3 then [BitVec.ofNat 8 (0xff &&& (g.accum >>> 8))] else []) ++
      (if g.j = 4 then [BitVec.ofNat 8 (0xff &&& g.accum)] else [])
    let r := base64Decode tab g.rest g.err
    (out ++ r.1, r.2)
  termination_by s.length
  decreasing_by exact group64_decreases tab ch rest 0 0 err (by omega)

/-- The loop of a group of the hex decoder (`Utils.cpp:699-709`) with the table `tab`. -/
def group16 (tab : List Nat) : Str → Byte → Nat → Option String → Str × Byte × Nat × Option String
  | [], accum, j, err => ([], accum, j, err)
  | ch :: rest, accum, j, err =>
    if j < 2 then
      if isSpace ch then group16 tab rest accum j err
      else if tab.getD ch.toNat 0 ≥ 16 then group16 tab rest accum (j + 1) (some msgBadHex)
      else group16 tab rest ((accum <<< 4) ||| BitVec.ofNat 8 (tab.getD ch.toNat 0)) (j + 1) err
    else (ch :: rest, accum, j, err)

theorem group16_length (tab : List Nat) (s : Str) (accum : Byte) (j : Nat) (err : Option String) : (group16 tab s accum j err).1.length ≤ s.length := by
  induction s generalizing accum j err with
  | nil => simp [group16]
  | cons ch rest ih =>
    simp only [group16]
    split
    · split
      · exact Nat.le_trans (ih _ _ _) (by simp)
      · split <;> exact Nat.le_trans (ih _ _ _) (by simp)
    · simp

theorem group16_decreases (tab : List Nat) (ch : Byte) (rest : Str) (accum : Byte) (j : Nat) (err : Option String) (hj : j < 2) :
    (group16 tab (ch :: rest) accum j err).1.length < (ch :: rest).length := by
  simp only [group16, if_pos hj]
  split
  · exact Nat.lt_succ_of_le (group16_length ..)
  · split <;> exact Nat.lt_succ_of_le (group16_length ..)

/-- `hexDecodeToString` (`Utils.cpp:691-717`) with the table `tab`. -/
def hexDecode (tab : List Nat) (s : Str) (err : Option String) : Str × Option String :=
  match s with
  | [] => ([], err)
  | ch :: rest =>
    let g := group16 tab (ch :: rest) 0 0 err
    let out := if g.2.2.1 ≠ 0 then [g.2.1] else []
    let err' := if g.2.2.1 = 1 then some msgOddHex else g.2.2.2
    let r := hexDecode tab g.1 err'
    (out ++ r.1, r.2)
  termination_by s.length
  decreasing_by exact group16_decreases tab ch rest 0 0 err (by omega)

/-- The two tables. -/
structure Tables where
  base64 : List Nat
  hex : List Nat

/-- Static objects without an initialiser are zero at the start (`Utils.cpp:611-612`). -/
def zero : Tables := ⟨List.replicate 256 0, List.replicate 256 0⟩

/-- What the constructor of `sBaseNDecoderInit` leaves (`Utils.cpp:616-627`). -/
@[irreducible] def filled : Tables := ⟨sMapBase64Reverse, sMapHexReverse⟩

/-- `decodeToString` (`Utils.cpp:729-742`). -/
def decodeToString (tabs : Tables) (buf encoding : Str) : Str × Option String :=
  if encoding = lit "binary" then (buf, none)
  else if encoding = lit "hex" ∨ encoding = lit "base16" then hexDecode tabs.hex buf none
  else if encoding = lit "base64" then base64Decode tabs.base64 buf none
  else ([], some msgBadEncoding)

/-- A static object: that of `Utils.cpp`, or another one with the texts its constructor decodes. -/
inductive Static where
  | tables
  | other (calls : List (Str × Str))

/-- What the calls of `decodeToString` return while the static objects are constructed in this order. -/
def construct : Tables → List Static → List (Str × Option String)
  | _, [] => []
  | _, .tables :: os => construct filled os
  | tabs, .other calls :: os => calls.map (fun c => decodeToString tabs c.1 c.2) ++ construct tabs os

/-! ### Specification -/

/-- The calls of a sequence of objects. -/
def calls : List Static → List (Str × Str)
  | [] => []
  | .tables :: os => calls os
  | .other cs :: os => cs ++ calls os

/-- The characters the base64 decoder counts: all but white space before the first `=`. -/
def counted (t : Str) : Str := solid (t.takeWhile (· ≠ chr '='))

/-- What an early call returns: zeros, as many as a text with so many digits has bytes; no character is wrong. -/
def early (buf encoding : Str) : Str × Option String :=
  if encoding = lit "binary" then (buf, none)
  else if encoding = lit "hex" ∨ encoding = lit "base16" then
    (List.replicate (((solid buf).length + 1) / 2) 0, if (solid buf).length % 2 = 1 then some "Unexpected odd length of hex encoded string" else none)
  else if encoding = lit "base64" then
    (List.replicate (3 * ((counted buf).length / 4) + ((counted buf).length % 4 + 1) / 2) 0,
      if (buf.dropWhile (· ≠ chr '=')).any (fun c => !(isSpace c || c == chr '=')) then some "found data after '=' terminator in base64 data" else none)
  else ([], some "Unexpected encoding specified:")

/-! ### Lemmas -/

theorem group64_filled (s : Str) (accum j : Nat) (err : Option String) : group64 sMapBase64Reverse s accum j err = Encoding.group64 s accum j err := by
  induction s generalizing accum j err with
  | nil => rfl
  | cons ch rest ih => simp only [group64, Encoding.group64, ih]

theorem base64_filled (s : Str) (err : Option String) : base64Decode sMapBase64Reverse s err = Encoding.base64Decode s err := by
  induction hn : s.length using Nat.strongRecOn generalizing s err with
  | _ n ih =>
    cases s with
    | nil => rw [base64Decode, Encoding.base64Decode]
    | cons ch rest =>
      rw [base64Decode, Encoding.base64Decode]
      simp only [group64_filled]
      rw [ih _ (by rw [← hn]; exact Encoding.group64_decreases ch rest 0 0 err (by omega)) _ _ rfl]

theorem group16_filled (s : Str) (accum : Byte) (j : Nat) (err : Option String) : group16 sMapHexReverse s accum j err = Encoding.group16 s accum j err := by
  induction s generalizing accum j err with
  | nil => rfl
  | cons ch rest ih => simp only [group16, Encoding.group16, ih]

theorem hex_filled (s : Str) (err : Option String) : hexDecode sMapHexReverse s err = Encoding.hexDecode s err := by
  induction hn : s.length using Nat.strongRecOn generalizing s err with
  | _ n ih =>
    cases s with
    | nil => rw [hexDecode, Encoding.hexDecode]
    | cons ch rest =>
      rw [hexDecode, Encoding.hexDecode]
      simp only [group16_filled]
      rw [ih _ (by rw [← hn]; exact Encoding.group16_decreases ch rest 0 0 err (by omega)) _ _ rfl]

theorem zero_getD (n : Nat) : (List.replicate 256 0).getD n 0 = 0 := by
  rw [List.getD_eq_getElem?_getD, List.getElem?_replicate]
  split <;> rfl

/-- A message at the end of a base64 text. -/
def after (t : Str) (err : Option String) : Option String :=
  if (t.dropWhile (· ≠ chr '=')).any (fun c => !(isSpace c || c == chr '=')) then some msgAfterEnd else err

theorem counted_nil : counted [] = [] := rfl

theorem counted_end (rest : Str) : counted (chr '=' :: rest) = [] := by simp [counted, solid]

theorem counted_space {c : Byte} (h : isSpace c = true) (rest : Str) : counted (c :: rest) = counted rest := by
  have hc := (val64_space c h).2
  unfold counted solid
  rw [List.takeWhile_cons_of_pos (by simpa using hc), List.filter_cons_of_neg (by simp [h])]

theorem counted_cons {c : Byte} (h : ¬ isSpace c = true) (hc : c ≠ chr '=') (rest : Str) : counted (c :: rest) = c :: counted rest := by
  unfold counted solid
  rw [List.takeWhile_cons_of_pos (by simpa using hc), List.filter_cons_of_pos (by simp [h])]

theorem after_cons {c : Byte} (hc : c ≠ chr '=') (rest : Str) (err : Option String) : after (c :: rest) err = after rest err := by
  unfold after
  rw [List.dropWhile_cons_of_pos (by simpa using hc)]

theorem after_end (rest : Str) (err : Option String) : after (chr '=' :: rest) err = if rest.any (fun c => !(isSpace c || c == chr '=')) then some msgAfterEnd else err := by
  unfold after
  rw [List.dropWhile_cons_of_neg (by simp), List.any_cons]
  simp

theorem group64_zero (s : Str) (j : Nat) (err : Option String) (hj : j ≤ 4) :
    (group64 zero.base64 s 0 j err).accum = 0 ∧ (group64 zero.base64 s 0 j err).j ≤ 4 ∧
    j + (counted s).length = (group64 zero.base64 s 0 j err).j + (counted (group64 zero.base64 s 0 j err).rest).length ∧
    ((group64 zero.base64 s 0 j err).j < 4 → (group64 zero.base64 s 0 j err).rest = []) ∧
    after (group64 zero.base64 s 0 j err).rest (group64 zero.base64 s 0 j err).err = after s err := by
  induction s generalizing j err with
  | nil => exact ⟨rfl, hj, by simp [group64], fun _ => rfl, rfl⟩
  | cons c rest ih =>
    simp only [group64]
    by_cases h4 : j < 4
    · rw [if_pos h4]
      by_cases hs : isSpace c = true
      · rw [if_pos hs, counted_space hs, after_cons (val64_space c hs).2]
        exact ih j err hj
      · rw [if_neg hs]
        by_cases he : c = chr '='
        · subst he
          rw [if_pos rfl, counted_end, after_end]
          exact ⟨rfl, hj, by simp [counted_nil], fun _ => rfl, by rw [scan_fold]; simp [after]⟩
        · rw [if_neg he, show zero.base64 = List.replicate 256 0 from rfl, zero_getD, if_neg (by omega), counted_cons hs he, after_cons he]
          have := ih (j + 1) err (by omega)
          simp only [Nat.zero_shiftLeft, Nat.or_zero]
          refine ⟨this.1, this.2.1, ?_, this.2.2.2⟩
          rw [List.length_cons]
          have h3 := this.2.2.1
          change _ = _
          rw [show zero.base64 = List.replicate 256 0 from rfl] at h3
          omega
    · rw [if_neg h4]
      exact ⟨rfl, hj, rfl, fun h => absurd h h4, rfl⟩

theorem base64_zero (s : Str) (err : Option String) :
    base64Decode zero.base64 s err = (List.replicate (3 * ((counted s).length / 4) + ((counted s).length % 4 + 1) / 2) 0, after s err) := by
  induction hn : s.length using Nat.strongRecOn generalizing s err with
  | _ n ih =>
    cases s with
    | nil => rw [base64Decode]; simp [counted_nil, after]
    | cons c rest =>
      rw [base64Decode]
      obtain ⟨h1, h2, h3, h4, h5⟩ := group64_zero (c :: rest) 0 err (by omega)
      rw [ih _ (by rw [← hn]; exact group64_decreases _ c rest 0 0 err (by omega)) _ _ rfl, h5, h1]
      generalize group64 zero.base64 (c :: rest) 0 0 err = g at *
      congr 1
      rw [show (BitVec.ofNat 8 (255 &&& 0 >>> 16)) = (0 : Byte) from rfl, show (BitVec.ofNat 8 (255 &&& 0 >>> 8)) = (0 : Byte) from rfl, show (BitVec.ofNat 8 (255 &&& 0)) = (0 : Byte) from rfl]
      have : ∀ (p : Prop) [Decidable p], (if p then [(0 : Byte)] else []) = List.replicate (if p then 1 else 0) 0 := by intro p _; split <;> rfl
      rw [this, this, this, List.replicate_append_replicate, List.replicate_append_replicate, List.replicate_append_replicate]
      congr 1
      by_cases hj : g.j < 4
      · rw [h4 hj] at h3 ⊢
        rw [counted_nil] at h3 ⊢
        simp only [List.length_nil] at h3 ⊢
        have : g.j = 0 ∨ g.j = 1 ∨ g.j = 2 ∨ g.j = 3 := by omega
        have hk : (counted (c :: rest)).length = g.j := by omega
        rw [hk]
        rcases this with e | e | e | e <;> rw [e] <;> rfl
      · have e : g.j = 4 := by omega
        rw [e] at h3 ⊢
        simp at h3 ⊢
        omega

theorem group16_zero (s : Str) (j : Nat) (err : Option String) (hj : j ≤ 2) :
    (group16 zero.hex s 0 j err).2.1 = 0 ∧ (group16 zero.hex s 0 j err).2.2.1 ≤ 2 ∧
    j + (solid s).length = (group16 zero.hex s 0 j err).2.2.1 + (solid (group16 zero.hex s 0 j err).1).length ∧
    ((group16 zero.hex s 0 j err).2.2.1 < 2 → (group16 zero.hex s 0 j err).1 = []) ∧ (group16 zero.hex s 0 j err).2.2.2 = err := by
  induction s generalizing j err with
  | nil => exact ⟨rfl, hj, by simp [group16], fun _ => rfl, rfl⟩
  | cons c rest ih =>
    simp only [group16]
    by_cases h2 : j < 2
    · rw [if_pos h2]
      by_cases hs : isSpace c = true
      · rw [if_pos hs, show solid (c :: rest) = solid rest by simp [solid, hs]]
        exact ih j err hj
      · rw [if_neg hs, show zero.hex = List.replicate 256 0 from rfl, zero_getD, if_neg (by omega), show solid (c :: rest) = c :: solid rest by simp [solid, hs]]
        have := ih (j + 1) err (by omega)
        rw [show ((0 : Byte) <<< 4 ||| BitVec.ofNat 8 0) = 0 from rfl]
        refine ⟨this.1, this.2.1, ?_, this.2.2.2⟩
        have h3 := this.2.2.1
        rw [show zero.hex = List.replicate 256 0 from rfl] at h3
        rw [List.length_cons]
        omega
    · rw [if_neg h2]
      exact ⟨rfl, hj, rfl, fun h => absurd h h2, rfl⟩

theorem hex_zero (s : Str) (err : Option String) :
    hexDecode zero.hex s err = (List.replicate (((solid s).length + 1) / 2) 0, if (solid s).length % 2 = 1 then some msgOddHex else err) := by
  induction hn : s.length using Nat.strongRecOn generalizing s err with
  | _ n ih =>
    cases s with
    | nil => rw [hexDecode]; simp [solid]
    | cons c rest =>
      rw [hexDecode]
      obtain ⟨h1, h2, h3, h4, h5⟩ := group16_zero (c :: rest) 0 err (by omega)
      rw [ih _ (by rw [← hn]; exact group16_decreases _ c rest 0 0 err (by omega)) _ _ rfl, h5, h1]
      generalize group16 zero.hex (c :: rest) 0 0 err = g at *
      rw [show (if g.2.2.1 ≠ 0 then [(0 : Byte)] else []) = List.replicate (if g.2.2.1 ≠ 0 then 1 else 0) 0 by split <;> rfl]
      simp only [List.replicate_append_replicate]
      by_cases hj : g.2.2.1 < 2
      · rw [h4 hj] at h3 ⊢
        have hs : (solid []).length = 0 := rfl
        have hk : (solid (c :: rest)).length = g.2.2.1 := by omega
        have : g.2.2.1 = 0 ∨ g.2.2.1 = 1 := by omega
        rw [hk, hs]
        rcases this with e | e <;> rw [e] <;> rfl
      · have e : g.2.2.1 = 2 := by omega
        rw [e] at h3 ⊢
        have h6 : (solid (c :: rest)).length = 2 + (solid g.1).length := by omega
        rw [h6, Nat.add_mod_left]
        rw [if_pos (by omega), if_neg (show ¬ 2 = 1 by omega)]
        congr 2
        omega

theorem decode_filled (buf encoding : Str) : decodeToString filled buf encoding = Encoding.decodeToString buf encoding := by
  unfold decodeToString Encoding.decodeToString filled
  rw [hex_filled, base64_filled]

theorem decode_zero (buf encoding : Str) : decodeToString zero buf encoding = early buf encoding := by
  unfold decodeToString early
  rw [hex_zero, base64_zero]
  rfl

theorem construct_filled (os : List Static) : construct filled os = (calls os).map fun c => Encoding.decodeToString c.1 c.2 := by
  induction os with
  | nil => rfl
  | cons o os ih => cases o <;> simp only [construct, calls, ih, decode_filled, List.map_append]

theorem construct_append (tabs : Tables) (pre post : List Static) (h : Static.tables ∉ pre) :
    construct tabs (pre ++ post) = (calls pre).map (fun c => decodeToString tabs c.1 c.2) ++ construct tabs post := by
  induction pre with
  | nil => rfl
  | cons o pre ih =>
    cases o with
    | tables => exact absurd List.mem_cons_self h
    | other cs => simp only [List.cons_append, construct, calls, ih (fun hm => h (List.mem_cons_of_mem _ hm)), List.map_append, List.append_assoc]

/-! ### Theorems -/

/-- C142: for every order of construction and all calls: those made after the object of `Utils.cpp` return what `C37`-`C39` say, those made before it return zeros without complaining about any character. -/
theorem C142_order (pre post : List Static) (h : Static.tables ∉ pre) :
    construct zero (pre ++ .tables :: post) = (calls pre).map (fun c => early c.1 c.2) ++ (calls post).map fun c => Encoding.decodeToString c.1 c.2 := by
  rw [construct_append _ _ _ h, construct, construct_filled]
  simp only [decode_zero]

/-- Two calls with the same text, the first one before the tables are filled. -/
example : construct zero [.other [(lit "4F6b", lit "hex")], .tables, .other [(lit "4F6b", lit "hex")]] = [([0, 0], none), (lit "Ok", none)] := by
  rw [show [Static.other [(lit "4F6b", lit "hex")], .tables, .other [(lit "4F6b", lit "hex")]] = [.other [(lit "4F6b", lit "hex")]] ++ .tables :: [.other [(lit "4F6b", lit "hex")]] from rfl,
    C142_order _ _ (by simp)]
  decide +kernel

/-- C142: an early decoding of an encoded text, white space inserted anywhere, gives as many zeros as the data has bytes, and no error; it is right just for zeros. -/
theorem C142_roundtrip (s t e : Str) (he : e = lit "hex" ∨ e = lit "base16" ∨ e = lit "base64") (h : SpacesInserted (encodeToString s e).1 t) :
    decodeToString zero t e = (List.replicate s.length 0, none) ∧ (decodeToString zero t e = (s, none) ↔ ∀ b ∈ s, b = 0) := by
  have key : decodeToString zero t e = (List.replicate s.length 0, none) := by
    rw [decode_zero]
    unfold SpacesInserted at h
    have hb : e ≠ lit "binary" := by rcases he with rfl | rfl | rfl <;> decide +kernel
    unfold encodeToString at h
    unfold early
    rw [if_neg hb] at h ⊢
    by_cases hx : e = lit "hex" ∨ e = lit "base16"
    · rw [if_pos hx] at h ⊢
      have hl : (solid t).length = 2 * s.length := by
        unfold solid
        rw [h]
        unfold hexEncode
        clear h
        induction s with
        | nil => rfl
        | cons c s ih => simp only [List.flatMap_cons, List.length_append, List.length_cons, List.length_nil, ih]; omega
      rw [hl, if_neg (by omega)]
      congr 2
      omega
    · have h64 : e = lit "base64" := by
        rcases he with h' | h' | h'
        · exact absurd (Or.inl h') hx
        · exact absurd (Or.inr h') hx
        · exact h'
      rw [if_neg hx, if_pos h64] at h ⊢
      have hlt := groups_lt 6 (pad6 (bitsOf s))
      have hr := C37_encode_rfc s
      have hlen : (groups 6 (pad6 (bitsOf s))).length = (8 * s.length + 5) / 6 := by
        rw [groups_length 6 (by omega)]
        unfold pad6
        rw [List.length_append, List.length_replicate, bitsOf_length]
        omega
      have hrt := C37_roundtrip s t h
      have hnb : ¬ Bad64 t := fun hb => by
        have := (C39_base64_decode t none).2.2 (Or.inr hb)
        rw [hrt] at this; cases this
      have hsx : sextets t = groups 6 (pad6 (bitsOf s)) := by
        rw [← sextets_filter, h, hr]
        exact sextets_append_alpha _ _ hlt
      have hc : (counted t).length = (sextets t).length := by
        have hno : ∀ c ∈ counted t, (val64 c).isSome := by
          intro c hc
          rw [counted, solid, List.mem_filter] at hc
          cases hv : val64 c with
          | some _ => rfl
          | none => exact absurd (Or.inl ⟨c, hc.1, by simpa using hc.2, hv⟩) hnb
        have : ∀ l : Str, (∀ c ∈ solid l, (val64 c).isSome) → (solid l).length = (l.filterMap val64).length := by
          intro l
          induction l with
          | nil => intro _; rfl
          | cons c l ih =>
            intro hl
            by_cases hs : isSpace c = true
            · have e1 : solid (c :: l) = solid l := by simp [solid, hs]
              rw [e1] at hl ⊢
              rw [ih hl, List.filterMap_cons, (val64_space c hs).1]
            · have e1 : solid (c :: l) = c :: solid l := by simp [solid, hs]
              rw [e1] at hl ⊢
              obtain ⟨v, hv⟩ := Option.isSome_iff_exists.1 (hl c List.mem_cons_self)
              rw [List.filterMap_cons, hv, List.length_cons, List.length_cons, ih fun x hx => hl x (List.mem_cons_of_mem _ hx)]
        exact this _ hno
      rw [hc, hsx, hlen, if_neg]
      · congr 2
        obtain ⟨q, r, hr, e⟩ : ∃ q r, r < 3 ∧ s.length = 3 * q + r := ⟨s.length / 3, s.length % 3, Nat.mod_lt _ (by omega), (Nat.div_add_mod _ _).symm⟩
        rw [e]
        have : r = 0 ∨ r = 1 ∨ r = 2 := by omega
        rcases this with rfl | rfl | rfl
        · rw [show (8 * (3 * q + 0) + 5) / 6 = 4 * q by omega]; omega
        · rw [show (8 * (3 * q + 1) + 5) / 6 = 4 * q + 2 by omega]; omega
        · rw [show (8 * (3 * q + 2) + 5) / 6 = 4 * q + 3 by omega]; omega
      · intro ha
        obtain ⟨c, hc, hx⟩ := List.any_eq_true.1 ha
        refine hnb (Or.inr ⟨c, hc, ?_, ?_⟩)
        · cases hs : isSpace c <;> simp_all
        · rintro rfl; simp at hx
  refine ⟨key, ?_⟩
  rw [key]
  constructor
  · intro he b hb
    have : List.replicate s.length 0 = s := congrArg Prod.fst he
    rw [← this] at hb
    exact List.eq_of_mem_replicate hb
  · intro hz
    rw [List.eq_replicate_of_mem hz, List.length_replicate]

example : decodeToString zero (lit "Zm9\nvYg==") (lit "base64") = (List.replicate (lit "foob").length 0, none) :=
  (C142_roundtrip (lit "foob") _ _ (by simp) (by unfold SpacesInserted; decide +kernel)).1

/-- C142 (negation): a correct text decoded by the constructor of a static object gives wrong bytes and no error, and a wrong text gives no error, if that object happens to come first. -/
theorem C142_silent_refuted : construct zero [.other [(lit "4F6B", lit "hex"), (lit "xyz!", lit "base16"), (lit "T2s=", lit "base64")], .tables] = [([0, 0], none), ([0, 0], none), ([0, 0], none)] ∧
    construct zero [.tables, .other [(lit "4F6B", lit "hex"), (lit "xyz!", lit "base16"), (lit "T2s=", lit "base64")]] =
      [(lit "Ok", none), ([0, 0], some "unexpected character in hex data"), (lit "Ok", none)] := by
  decide +kernel

end Verif.Encoding.Early
