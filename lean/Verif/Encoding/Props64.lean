import Verif.Encoding.Lemmas

/-
Property C37 and the base64 part of C39.
-/

namespace Verif.Encoding
open Verif Verif.BitVector Verif.BitVector.Spec Spec

theorem cons_congr {α : Type} {x y : α} {xs ys : List α} (h : x = y) (h' : xs = ys) : x :: xs = y :: ys := by
  rw [h, h']

theorem alpha_congr {m n : Nat} (h : m = n) : alpha64 m = alpha64 n := by rw [h]

theorem byte_congr {m n : Nat} (h : m % 256 = n % 256) : BitVec.ofNat 8 m = BitVec.ofNat 8 n := by
  apply BitVec.eq_of_toNat_eq
  simpa using h

/-! ### Encoder -/

theorem shl8_or (n x : Nat) (h : x < 256) : n <<< 8 ||| x = n * 256 + x := by
  rw [← Nat.shiftLeft_add_eq_or_of_lt (by simpa using h), Nat.shiftLeft_eq]

theorem pad6_24 (xs bs : List Bool) (h : xs.length = 24) : pad6 (xs ++ bs) = xs ++ pad6 bs := by
  unfold pad6
  rw [List.append_assoc, List.length_append, h]
  congr 4
  omega

theorem rfcEncode_cons3 (a b c : Byte) (rest : Str) :
    rfcEncode (a :: b :: c :: rest) =
      [alpha64 ((a.toNat * 65536 + b.toNat * 256 + c.toNat) / 262144),
       alpha64 ((a.toNat * 65536 + b.toNat * 256 + c.toNat) / 4096 % 64),
       alpha64 ((a.toNat * 65536 + b.toNat * 256 + c.toNat) / 64 % 64),
       alpha64 ((a.toNat * 65536 + b.toNat * 256 + c.toNat) % 64)] ++ rfcEncode rest := by
  have hx : bitsOf (a :: b :: c :: rest) =
      (msbDigits 8 a.toNat ++ msbDigits 8 b.toNat ++ msbDigits 8 c.toNat) ++ bitsOf rest := by
    simp [bitsOf]
  have hl : (msbDigits 8 a.toNat ++ msbDigits 8 b.toNat ++ msbDigits 8 c.toNat).length = 24 := by
    simp [msbDigits_length]
  have hv : msbValue (msbDigits 8 a.toNat ++ msbDigits 8 b.toNat ++ msbDigits 8 c.toNat) =
      a.toNat * 65536 + b.toNat * 256 + c.toNat := by
    rw [msbValue_append, msbValue_append]
    simp only [msbValue_msbDigits, msbDigits_length]
    have := a.isLt; have := b.isLt; have := c.isLt
    omega
  unfold rfcEncode
  simp only
  rw [hx, pad6_24 _ _ hl, groups6_24 _ _ hl, hv]
  simp only [List.map_cons, List.length_cons, List.length_map, List.cons_append, List.nil_append]
  congr 7
  omega

/-- C37 (encoder is RFC 4648): for every byte string the encoder produces the RFC 4648 text. -/
theorem C37_encode_rfc (s : Str) : base64Encode s = rfcEncode s := by
  induction hn : s.length using Nat.strongRecOn generalizing s with
  | _ n ih =>
    match s, hn with
    | [], _ => simp [base64Encode, rfcEncode, bitsOf, pad6, groups_short]
    | [a], _ =>
      have ha := a.isLt
      have e : base64Encode [a] = [alpha64 (a.toNat * 65536 / 262144 % 64), alpha64 (a.toNat * 65536 / 4096 % 64), chr '=', chr '='] := by
        rw [base64Encode]
        simp only [List.getElem?_nil, Option.isSome_none, List.drop_nil, Bool.false_eq_true, if_false, enc1_eq,
          Nat.shiftLeft_eq, Nat.shiftRight_eq_div_pow]
        rw [base64Encode, List.append_nil]
        simp only [Nat.reducePow, Nat.mul_assoc, Nat.reduceMul]
      rw [e]
      have hg : groups 6 (pad6 (bitsOf [a])) = [a.toNat / 4, a.toNat % 4 * 16] := by
        have hb : pad6 (bitsOf [a]) = msbDigits 8 a.toNat ++ List.replicate 4 false := by
          simp [pad6, bitsOf, msbDigits_length]
        have hl : (msbDigits 8 a.toNat ++ List.replicate 4 false).length = 12 := by simp [msbDigits_length]
        have hv : msbValue (msbDigits 8 a.toNat ++ List.replicate 4 false) = a.toNat * 16 := by
          rw [msbValue_append, msbValue_msbDigits]
          have : msbValue (List.replicate 4 false) = 0 := by decide
          simp only [List.length_replicate]
          omega
        rw [hb, groups6_12 _ hl, hv]
        exact cons_congr (by omega) (cons_congr (by omega) rfl)
      unfold rfcEncode
      simp only [hg]
      exact cons_congr (alpha_congr (by omega)) (cons_congr (alpha_congr (by omega)) rfl)
    | [a, b], _ =>
      have ha := a.isLt
      have hb' := b.isLt
      have e : base64Encode [a, b] = [alpha64 ((a.toNat * 65536 + b.toNat * 256) / 262144 % 64),
          alpha64 ((a.toNat * 65536 + b.toNat * 256) / 4096 % 64),
          alpha64 ((a.toNat * 65536 + b.toNat * 256) / 64 % 64), chr '='] := by
        rw [base64Encode]
        simp only [List.getElem?_cons_zero, List.getElem?_cons_succ, List.getElem?_nil, Option.isSome_some,
          Option.isSome_none, shl8_or _ _ hb', Bool.false_eq_true, if_false, if_true, enc1_eq,
          Nat.shiftRight_eq_div_pow, List.drop_succ_cons, List.drop_nil]
        rw [base64Encode, List.append_nil, Nat.shiftLeft_eq]
        simp only [Nat.reducePow, Nat.add_mul, Nat.mul_assoc, Nat.reduceMul]
      rw [e]
      have hg : groups 6 (pad6 (bitsOf [a, b])) =
          [(a.toNat * 256 + b.toNat) / 1024, (a.toNat * 256 + b.toNat) / 16 % 64, (a.toNat * 256 + b.toNat) % 16 * 4] := by
        have hb : pad6 (bitsOf [a, b]) = msbDigits 8 a.toNat ++ msbDigits 8 b.toNat ++ List.replicate 2 false := by
          simp [pad6, bitsOf, msbDigits_length]
        have hl : (msbDigits 8 a.toNat ++ msbDigits 8 b.toNat ++ List.replicate 2 false).length = 18 := by
          simp [msbDigits_length]
        have hv : msbValue (msbDigits 8 a.toNat ++ msbDigits 8 b.toNat ++ List.replicate 2 false) =
            (a.toNat * 256 + b.toNat) * 4 := by
          rw [msbValue_append, msbValue_append, msbValue_msbDigits, msbValue_msbDigits]
          have : msbValue (List.replicate 2 false) = 0 := by decide
          simp only [List.length_replicate, msbDigits_length]
          omega
        rw [hb, groups6_18 _ hl, hv]
        exact cons_congr (by omega) (cons_congr (by omega) (cons_congr (by omega) rfl))
      unfold rfcEncode
      simp only [hg]
      exact cons_congr (alpha_congr (by omega)) (cons_congr (alpha_congr (by omega))
          (cons_congr (alpha_congr (by omega)) rfl))
    | a :: b :: c :: rest, hn =>
      rw [rfcEncode_cons3, base64Encode]
      simp only [List.getElem?_cons_zero, List.getElem?_cons_succ, Option.isSome_some, if_true,
        shl8_or _ _ b.isLt, shl8_or _ _ c.isLt, enc1_eq, Nat.shiftRight_eq_div_pow, List.drop_succ_cons,
        List.drop_zero]
      rw [ih rest.length (by simp at hn; omega) rest rfl]
      have := a.isLt
      have := b.isLt
      have := c.isLt
      simp only [Nat.reducePow, Nat.add_mul, Nat.mul_assoc, Nat.reduceMul]
      exact cons_congr (alpha_congr (by omega)) (cons_congr (alpha_congr (by omega))
        (cons_congr (alpha_congr (by omega)) (cons_congr (alpha_congr rfl) rfl)))

example : base64Encode (lit "foobar") = lit "Zm9vYmFy" := by decide +kernel
example : base64Encode (lit "foob") = lit "Zm9vYg==" := by decide +kernel

theorem pad6_length (bs : List Bool) : (pad6 bs).length % 6 = 0 := by
  unfold pad6; rw [List.length_append, List.length_replicate]; omega

/-- C37 (shape): the encoded text has `4*ceil(n/3)` characters, all from the alphabet except up to two
final `=`. -/
theorem C37_encode_shape (s : Str) :
    (base64Encode s).length = 4 * ((s.length + 2) / 3) ∧
      ∃ body k, base64Encode s = body ++ List.replicate k (chr '=') ∧ k ≤ 2 ∧
        ∀ c ∈ body, (val64 c).isSome := by
  rw [C37_encode_rfc]
  have hlen : (groups 6 (pad6 (bitsOf s))).length = (8 * s.length + 5) / 6 := by
    rw [groups_length 6 (by omega)]
    unfold pad6
    rw [List.length_append, List.length_replicate, bitsOf_length]
    omega
  unfold rfcEncode
  simp only [List.length_map, List.length_append, List.length_replicate, hlen]
  refine ⟨by omega, _, _, rfl, by omega, ?_⟩
  intro c hc
  rw [List.mem_map] at hc
  obtain ⟨n, hn, rfl⟩ := hc
  rw [(alpha64_facts n (groups_lt 6 _ n hn)).1]
  rfl

/-! ### Decoder -/

/-- The text contains something the decoder must complain about: a character before the first `=` that
is neither white space nor in the alphabet, or after it anything but white space and `=`. -/
def Bad64 (t : Str) : Prop :=
  (∃ c ∈ t.takeWhile (· ≠ chr '='), isSpace c = false ∧ val64 c = none) ∨
  (∃ c ∈ t.dropWhile (· ≠ chr '='), isSpace c = false ∧ c ≠ chr '=')

theorem bad64_nil : ¬ Bad64 [] := by simp [Bad64]

theorem bad64_cons_ne (c : Byte) (t : Str) (h : c ≠ chr '=') :
    Bad64 (c :: t) ↔ ((isSpace c = false ∧ val64 c = none) ∨ Bad64 t) := by
  unfold Bad64
  rw [List.takeWhile_cons_of_pos (by simpa using h), List.dropWhile_cons_of_pos (by simpa using h)]
  simp only [List.mem_cons, exists_eq_or_imp]
  exact or_assoc

theorem bad64_cons_eq (t : Str) :
    Bad64 (chr '=' :: t) ↔ ∃ c ∈ t, isSpace c = false ∧ c ≠ chr '=' := by
  unfold Bad64
  rw [List.takeWhile_cons_of_neg (by simp), List.dropWhile_cons_of_neg (by simp)]
  simp

theorem sextets_nil : sextets [] = [] := rfl

theorem sextets_cons_ne (c : Byte) (t : Str) (h : c ≠ chr '=') :
    sextets (c :: t) = (val64 c).toList ++ sextets t := by
  unfold sextets
  rw [List.takeWhile_cons_of_pos (by simpa using h), List.filterMap_cons]
  cases val64 c <;> rfl

theorem sextets_cons_eq (t : Str) : sextets (chr '=' :: t) = [] := by
  unfold sextets
  rw [List.takeWhile_cons_of_neg (by simp)]; rfl

/-- contribution of the sextets `xs` from position `j` of a group -/
def valueAt : Nat → List Nat → Nat
  | _, [] => 0
  | j, x :: xs => x * 64 ^ (3 - j) + valueAt (j + 1) xs

theorem scanAfter_isSome (t : Str) (err : Option String) :
    (t.foldl (fun e c => if !(isSpace c || c == chr '=') then some msgAfterEnd else e) err).isSome ↔
      (err.isSome ∨ ∃ c ∈ t, isSpace c = false ∧ c ≠ chr '=') := by
  induction t generalizing err with
  | nil => simp
  | cons c t ih =>
    rw [List.foldl_cons, ih]
    simp only [List.mem_cons, exists_eq_or_imp]
    by_cases h : (!(isSpace c || c == chr '=')) = true
    · rw [if_pos h]
      simp only [Bool.not_eq_true', Bool.or_eq_false_iff, beq_eq_false_iff_ne] at h
      simp [h]
    · rw [if_neg h]
      simp only [Bool.not_eq_true', Bool.or_eq_false_iff, beq_eq_false_iff_ne] at h
      simp [h]

theorem or_shift (q s d : Nat) (hd : d < 64) : (q * 2 ^ (s + 6)) ||| (d <<< s) = q * 2 ^ (s + 6) + d * 2 ^ s := by
  rw [← Nat.shiftLeft_eq q, ← Nat.shiftLeft_add_eq_or_of_lt, Nat.shiftLeft_eq, Nat.shiftLeft_eq]
  rw [Nat.shiftLeft_eq, show 2 ^ (s + 6) = 64 * 2 ^ s by rw [Nat.pow_add, Nat.mul_comm]]
  exact Nat.mul_lt_mul_of_pos_right hd (Nat.two_pow_pos s)

theorem group64_spec (s : Str) (accum j : Nat) (err : Option String) (hj : j ≤ 4) (q : Nat)
    (hq : accum = q * 64 ^ (4 - j)) :
    ∃ xs, sextets s = xs ++ sextets (group64 s accum j err).rest ∧
      (group64 s accum j err).j = j + xs.length ∧ (group64 s accum j err).j ≤ 4 ∧
      ((group64 s accum j err).j < 4 → (group64 s accum j err).rest = []) ∧
      (group64 s accum j err).accum = accum + valueAt j xs ∧
      (((group64 s accum j err).err.isSome ∨ Bad64 (group64 s accum j err).rest) ↔
        (err.isSome ∨ Bad64 s)) := by
  induction s generalizing accum j err q with
  | nil => exact ⟨[], by simp [group64, sextets_nil, hj, valueAt]⟩
  | cons ch rest ih =>
    unfold group64
    by_cases h4 : j < 4
    · rw [if_pos h4]
      by_cases hsp : isSpace ch = true
      · rw [if_pos hsp]
        obtain ⟨hv, hne⟩ := val64_space ch hsp
        obtain ⟨xs, h1, h2, h3, h5, h6, h7⟩ := ih accum j err hj q hq
        refine ⟨xs, ?_, h2, h3, h5, h6, ?_⟩
        · rw [sextets_cons_ne _ _ hne, hv]; exact h1
        · rw [h7, bad64_cons_ne _ _ hne]; simp [hsp]
      · rw [if_neg hsp]
        have hsf : isSpace ch = false := by simpa using hsp
        by_cases heq : ch = chr '='
        · rw [if_pos heq]
          refine ⟨[], ?_, by simp, by simp; omega, by simp, by simp [valueAt], ?_⟩
          · rw [heq, sextets_cons_eq]; rfl
          · simp only
            rw [scanAfter_isSome, heq, bad64_cons_eq]
            simp [bad64_nil]
        · rw [if_neg heq]
          simp only
          rw [reverse64 ch heq]
          cases hv : val64 ch with
          | none =>
            rw [if_pos (by simp)]
            obtain ⟨xs, h1, h2, h3, h5, h6, h7⟩ := ih accum j (some msgBad64) hj q hq
            refine ⟨xs, ?_, h2, h3, h5, h6, ?_⟩
            · rw [sextets_cons_ne _ _ heq, hv]; exact h1
            · rw [h7, bad64_cons_ne _ _ heq]; simp [hsf, hv]
          | some d =>
            have hd := val64_lt ch d hv
            rw [if_neg (by simp; omega)]
            simp only [Option.getD_some]
            have hacc : accum ||| (d <<< ((3 - j) * 6)) = accum + d * 64 ^ (3 - j) := by
              rw [hq, show (64 : Nat) = 2 ^ 6 by rfl, ← Nat.pow_mul, ← Nat.pow_mul,
                show 6 * (4 - j) = (3 - j) * 6 + 6 by omega, or_shift _ _ _ hd,
                show 6 * (3 - j) = (3 - j) * 6 by omega]
            rw [hacc]
            obtain ⟨xs, h1, h2, h3, h5, h6, h7⟩ := ih (accum + d * 64 ^ (3 - j)) (j + 1) err (by omega)
              (q * 64 + d) (by
                rw [hq, show 4 - j = (3 - j) + 1 by omega, show 4 - (j + 1) = 3 - j by omega, Nat.pow_succ,
                  Nat.add_mul]
                congr 1
                rw [Nat.mul_assoc, Nat.mul_comm 64])
            refine ⟨d :: xs, ?_, ?_, h3, h5, ?_, ?_⟩
            · rw [sextets_cons_ne _ _ heq, hv]
              simp only [Option.toList_some, List.cons_append, List.nil_append]
              rw [h1]
            · rw [h2]; simp; omega
            · rw [h6]; simp only [valueAt]; omega
            · rw [h7, bad64_cons_ne _ _ heq]; simp [hv]
    · rw [if_neg h4]
      exact ⟨[], by simp [valueAt]; omega⟩

/-- the byte a lone last character leaves behind -/
def leftover (xs : List Nat) : Str :=
  if xs.length % 4 = 1 then [BitVec.ofNat 8 (4 * xs.getLastD 0)] else []

theorem low8 (n : Nat) : 0xff &&& n = n % 256 := by
  rw [Nat.and_comm, show (0xff : Nat) = 2 ^ 8 - 1 by rfl, Nat.and_two_pow_sub_one_eq_mod]

theorem ofNat8_mod (n : Nat) : BitVec.ofNat 8 (n % 256) = BitVec.ofNat 8 n := by
  apply BitVec.eq_of_toNat_eq
  simp

theorem flatMap6_value (a b c d : Nat) (ha : a < 64) (hb : b < 64) (hc : c < 64) (hd : d < 64) :
    msbValue (msbDigits 6 a ++ msbDigits 6 b ++ msbDigits 6 c ++ msbDigits 6 d) =
      a * 262144 + b * 4096 + c * 64 + d := by
  rw [msbValue_append, msbValue_append, msbValue_append]
  simp only [msbValue_msbDigits, msbDigits_length]
  omega

theorem sextets_lt (t : Str) : ∀ x ∈ sextets t, x < 64 := by
  intro x hx
  unfold sextets at hx
  rw [List.mem_filterMap] at hx
  obtain ⟨c, -, hc⟩ := hx
  exact val64_lt c x hc

/-- C39 (base64, exact behaviour): for every text the decoder returns the octets of the alphabet
characters before the first `=`, plus one byte made of six bits when a single character is left
over; and it reports an error exactly if the text is `Bad64` (or an error was already there). -/
theorem C39_base64_decode (t : Str) (err : Option String) :
    (base64Decode t err).1 = rfcDecode t ++ leftover (sextets t) ∧
      ((base64Decode t err).2.isSome ↔ (err.isSome ∨ Bad64 t)) := by
  induction hn : t.length using Nat.strongRecOn generalizing t err with
  | _ n ih =>
    cases t with
    | nil =>
      rw [base64Decode]
      refine ⟨?_, ?_⟩
      · simp [rfcDecode, sextets_nil, leftover, octets, groups_short]
      · simp [bad64_nil]
    | cons ch rest =>
      rw [base64Decode]
      simp only
      obtain ⟨xs, h1, h2, h3, h5, h6, h7⟩ := group64_spec (ch :: rest) 0 0 err (by omega) 0 (by simp)
      obtain ⟨i1, i2⟩ := ih _ (by rw [← hn]; exact group64_decreases ch rest 0 0 err (by omega))
        (group64 (ch :: rest) 0 0 err).rest (group64 (ch :: rest) 0 0 err).err rfl
      have hlt := sextets_lt (ch :: rest)
      refine ⟨?_, by rw [i2, h7]⟩
      rw [i1]
      unfold rfcDecode
      rw [h1] at hlt ⊢
      simp only [Nat.zero_add] at h2 h6
      rw [h6, h2, Nat.shiftRight_eq_div_pow, Nat.shiftRight_eq_div_pow]
      simp only [low8, ofNat8_mod]
      by_cases hfull : (group64 (ch :: rest) 0 0 err).j = 4
      · rw [hfull] at h2
        match xs, h2 with
        | [a, b, c, d], _ =>
          have ha : a < 64 := hlt a (by simp)
          have hb : b < 64 := hlt b (by simp)
          have hc : c < 64 := hlt c (by simp)
          have hd : d < 64 := hlt d (by simp)
          have hfm : ([a, b, c, d] ++ sextets (group64 (ch :: rest) 0 0 err).rest).flatMap (fun n => msbDigits 6 n) =
              (msbDigits 6 a ++ msbDigits 6 b ++ msbDigits 6 c ++ msbDigits 6 d) ++
                (sextets (group64 (ch :: rest) 0 0 err).rest).flatMap (fun n => msbDigits 6 n) := by
            simp
          rw [hfm]
          unfold octets
          rw [groups8_24 _ _ (by simp [msbDigits_length]), flatMap6_value _ _ _ _ ha hb hc hd]
          have hlo : leftover ([a, b, c, d] ++ sextets (group64 (ch :: rest) 0 0 err).rest) =
              leftover (sextets (group64 (ch :: rest) 0 0 err).rest) := by
            unfold leftover
            have hl4 : ([a, b, c, d] ++ sextets (group64 (ch :: rest) 0 0 err).rest).length % 4 =
              (sextets (group64 (ch :: rest) 0 0 err).rest).length % 4 := by simp; omega
            rw [hl4]
            split
            · next h =>
              congr 3
              have hne : sextets (group64 (ch :: rest) 0 0 err).rest ≠ [] := by
                intro h0; rw [h0] at h; simp at h
              rw [List.getLastD_eq_getLast?, List.getLastD_eq_getLast?, List.getLast?_append,
                List.getLast?_eq_some_getLast hne]
              rfl
            · rfl
          rw [hlo]
          simp only [valueAt, List.length_cons, List.length_nil, List.map_cons, List.cons_append, List.append_assoc]
          simp only [Nat.reduceAdd, Nat.reduceLeDiff, ge_iff_le, if_true, List.cons_append, List.nil_append, Nat.reducePow, Nat.reduceSub]
          exact cons_congr (byte_congr (by omega)) (cons_congr (byte_congr (by omega))
            (cons_congr (byte_congr (by omega)) rfl))
      · have hr := h5 (by omega)
        rw [hr]
        simp only [sextets_nil, List.append_nil, List.flatMap_nil]
        have hxl : xs.length < 4 := by omega
        have hoct0 : octets [] = [] := by simp [octets, groups_short]
        have hlo0 : leftover [] = [] := rfl
        rw [hoct0, hlo0]
        simp only [List.append_nil]
        match xs, hxl with
        | [], _ => simp [hoct0, hlo0]
        | [a], _ =>
          have ha : a < 64 := hlt a (by simp)
          simp [leftover, octets, groups_short, msbDigits_length, valueAt]
          exact byte_congr (by omega)
        | [a, b], _ =>
          have ha : a < 64 := hlt a (by simp)
          have hb : b < 64 := hlt b (by simp)
          have hv : msbValue (msbDigits 6 a ++ msbDigits 6 b) = a * 64 + b := by
            rw [msbValue_append]; simp only [msbValue_msbDigits, msbDigits_length]; omega
          have hg : groups 8 (msbDigits 6 a ++ msbDigits 6 b) = [(a * 64 + b) / 16] := by
            rw [groups8_12 _ (by simp [msbDigits_length]), hv]
          simp [leftover, octets, valueAt, hg]
          exact byte_congr (by omega)
        | [a, b, c], _ =>
          have ha : a < 64 := hlt a (by simp)
          have hb : b < 64 := hlt b (by simp)
          have hc : c < 64 := hlt c (by simp)
          have hl : (msbDigits 6 a ++ msbDigits 6 b ++ msbDigits 6 c).length = 18 := by simp [msbDigits_length]
          have hv : msbValue (msbDigits 6 a ++ msbDigits 6 b ++ msbDigits 6 c) = a * 4096 + b * 64 + c := by
            rw [msbValue_append, msbValue_append]; simp only [msbValue_msbDigits, msbDigits_length]; omega
          have hg : groups 8 (msbDigits 6 a ++ msbDigits 6 b ++ msbDigits 6 c) =
              [(a * 4096 + b * 64 + c) / 1024, (a * 4096 + b * 64 + c) / 4 % 256] := by
            rw [groups8_18 _ hl, hv]
          have hfm : [a, b, c].flatMap (fun n => msbDigits 6 n) = msbDigits 6 a ++ msbDigits 6 b ++ msbDigits 6 c := by
            simp
          rw [hfm]
          unfold octets
          rw [hg]
          simp [leftover, valueAt]
          constructor
          · exact byte_congr (by omega)
          · exact byte_congr (by omega)

theorem sextets_filter (t : Str) : sextets (t.filter fun c => !isSpace c) = sextets t := by
  induction t with
  | nil => rfl
  | cons c t ih =>
    by_cases hs : isSpace c = true
    · obtain ⟨hv, hne⟩ := val64_space c hs
      rw [List.filter_cons_of_neg (by simp [hs]), ih, sextets_cons_ne _ _ hne, hv]; rfl
    · rw [List.filter_cons_of_pos (by simpa using hs)]
      by_cases heq : c = chr '='
      · rw [heq, sextets_cons_eq, sextets_cons_eq]
      · rw [sextets_cons_ne _ _ heq, sextets_cons_ne _ _ heq, ih]

theorem bad64_filter (t : Str) : Bad64 (t.filter fun c => !isSpace c) ↔ Bad64 t := by
  induction t with
  | nil => rfl
  | cons c t ih =>
    by_cases hs : isSpace c = true
    · obtain ⟨-, hne⟩ := val64_space c hs
      rw [List.filter_cons_of_neg (by simp [hs]), ih, bad64_cons_ne _ _ hne]
      simp [hs]
    · rw [List.filter_cons_of_pos (by simpa using hs)]
      by_cases heq : c = chr '='
      · rw [heq, bad64_cons_eq, bad64_cons_eq]
        constructor
        · rintro ⟨x, hx, h⟩; exact ⟨x, (List.mem_filter.mp hx).1, h⟩
        · rintro ⟨x, hx, h⟩; exact ⟨x, List.mem_filter.mpr ⟨hx, by simp [h.1]⟩, h⟩
      · rw [bad64_cons_ne _ _ heq, bad64_cons_ne _ _ heq, ih]

theorem sextets_append_alpha (ns : List Nat) (k : Nat) (h : ∀ n ∈ ns, n < 64) :
    sextets (ns.map alpha64 ++ List.replicate k (chr '=')) = ns := by
  induction ns with
  | nil =>
    cases k with
    | zero => rfl
    | succ k => simp only [List.map_nil, List.nil_append, List.replicate_succ]; exact sextets_cons_eq _
  | cons n ns ih =>
    obtain ⟨f1, f2, -⟩ := alpha64_facts n (h n (by simp))
    rw [List.map_cons, List.cons_append, sextets_cons_ne _ _ f2, f1, ih (fun m hm => h m (by simp [hm]))]
    rfl

theorem not_bad64_alpha (ns : List Nat) (k : Nat) (h : ∀ n ∈ ns, n < 64) :
    ¬ Bad64 (ns.map alpha64 ++ List.replicate k (chr '=')) := by
  induction ns with
  | nil =>
    cases k with
    | zero => exact bad64_nil
    | succ k =>
      simp only [List.map_nil, List.nil_append, List.replicate_succ]
      rw [bad64_cons_eq]
      rintro ⟨c, hc, -, hne⟩
      exact hne (List.mem_replicate.mp hc).2
  | cons n ns ih =>
    obtain ⟨f1, f2, -⟩ := alpha64_facts n (h n (by simp))
    rw [List.map_cons, List.cons_append, bad64_cons_ne _ _ f2, f1]
    simp only [reduceCtorEq, and_false, false_or]
    exact ih (fun m hm => h m (by simp [hm]))

/-- C37 (round trip): decoding the encoding of any byte string, with white space inserted anywhere,
gives the byte string back without error. -/
theorem C37_roundtrip (s t' : Str) (h : SpacesInserted (base64Encode s) t') :
    base64Decode t' none = (s, none) := by
  obtain ⟨d1, d2⟩ := C39_base64_decode t' none
  unfold SpacesInserted at h
  rw [C37_encode_rfc] at h
  have hlt := groups_lt 6 (pad6 (bitsOf s))
  have hsx : sextets t' = groups 6 (pad6 (bitsOf s)) := by
    rw [← sextets_filter, h]
    exact sextets_append_alpha _ _ hlt
  have hnb : ¬ Bad64 t' := by
    rw [← bad64_filter, h]
    exact not_bad64_alpha _ _ hlt
  have hlen : (groups 6 (pad6 (bitsOf s))).length = (8 * s.length + 5) / 6 := by
    rw [groups_length 6 (by omega)]
    unfold pad6
    rw [List.length_append, List.length_replicate, bitsOf_length]
    omega
  have hlo : leftover (sextets t') = [] := by
    unfold leftover
    rw [hsx, hlen, if_neg (by omega)]
  have hd : rfcDecode t' = s := by
    unfold rfcDecode
    rw [hsx, flatMap_groups 6 (by omega) _ (pad6_length _)]
    unfold pad6
    exact octets_bitsOf s _ (by rw [List.length_replicate]; omega)
  apply Prod.ext
  · rw [d1, hd, hlo, List.append_nil]
  · cases he : (base64Decode t' none).2 with
    | none => rfl
    | some e =>
      rw [he] at d2
      exact absurd (d2.mp rfl) (by simp [hnb])

example : base64Decode (lit " Zm9\nvY g= = ") none = (lit "foob", none) :=
  C37_roundtrip _ _ (by unfold SpacesInserted; decide +kernel)

/-- C39 (base64, nothing but the alphabet matters): two texts without errors that have the same
alphabet characters before the first `=` decode to the same bytes. -/
theorem C39_base64_depends_only (t u : Str) (h : sextets t = sextets u) :
    (base64Decode t none).1 = (base64Decode u none).1 := by
  rw [(C39_base64_decode t none).1, (C39_base64_decode u none).1, rfcDecode, rfcDecode, h]

/-- C39 (base64, negation): malformed texts are accepted without error: a lone character (which RFC
4648 makes impossible) decodes to a byte, and padding in a wrong place is ignored. -/
theorem C39_base64_refuted :
    base64Decode (lit "Q") none = ([BitVec.ofNat 8 64], none) ∧
    base64Decode (lit "QQ") none = (lit "A", none) ∧
    base64Decode (lit "QQ=====") none = (lit "A", none) ∧
    base64Decode (lit "Q===") none = ([BitVec.ofNat 8 64], none) := by
  refine ⟨?_, ?_, ?_, ?_⟩ <;> decide +kernel

example : Bad64 (lit "Zm9v*") ∧ ¬ Bad64 (lit "Zm9v") := by
  unfold Bad64
  decide +kernel

end Verif.Encoding
