import Verif.BitVector.Lemmas

/-
Properties C01, C02, C03: bit fields.
-/

namespace Verif.BitVector
open Verif Spec

/-! ### C01: fields, most significant bit first -/

/-- C01 (write): a fitting `fillField` succeeds, keeps the size, overwrites exactly the bits of the
field with the digits of the value (most significant first), stores clean 0/1 chars there and leaves
every other stored char alone. -/
theorem C01_fillField (v : Bits) (i n : Nat) (x : BitVec 64) (h : n = 0 ∨ i + n ≤ v.length) :
    ∃ v', fillField v i x n = .ok v' ∧ v'.length = v.length ∧
      bits v' = overwrite (bits v) i (msbDigits n x.toNat) ∧
      (∀ j, i ≤ j → j < i + n → v'[j]? = some 0 ∨ v'[j]? = some 1) ∧
      (∀ j, (j < i ∨ i + n ≤ j) → v'[j]? = v[j]?) := by
  by_cases hn : n = 0
  · subst hn
    refine ⟨v, by simp [fillField], rfl, by simp [overwrite, msbDigits], ?_, fun _ _ => rfl⟩
    intro j h1 h2; omega
  · have hfit : i + n ≤ v.length := by omega
    have hlt : i + n - 1 < v.length := by omega
    refine ⟨fillLoop i n x v, by simp [fillField, hn, hlt], fillLoop_length .., bits_fillLoop _ _ _ _ hfit, ?_, ?_⟩
    · intro j h1 h2
      rw [fillLoop_getElem? _ _ _ _ hfit, if_pos ⟨h1, h2⟩]
      unfold bitChar
      split <;> simp
    · intro j hj
      rw [fillLoop_getElem? _ _ _ _ hfit, if_neg (by omega)]

/-- C01 (read): `peekField` inside the vector returns the number spelled by the bits of the window,
most significant first (low 64 bits of it for windows over 64 bits). -/
theorem C01_peekField (v : Bits) (i n : Nat) (h : i + n ≤ v.length) :
    peekField v i n = .ok (BitVec.ofNat 64 (msbValue (window (bits v) i n))) := by
  rw [peekField, peekLoop_ok _ _ _ _ h]; simp

/-- C01 (round trip): what `fillField` wrote, `peekField` reads back, reduced to the field width. -/
theorem C01_roundtrip (v : Bits) (i n : Nat) (x : BitVec 64) (h : i + n ≤ v.length) :
    ∃ v' w, fillField v i x n = .ok v' ∧ peekField v' i n = .ok w ∧ w.toNat = x.toNat % 2 ^ n := by
  obtain ⟨v', h1, h2, h3, -, -⟩ := C01_fillField v i n x (.inr h)
  refine ⟨v', _, h1, C01_peekField v' i n (by omega), ?_⟩
  have hl : (msbDigits n x.toNat).length = n := by simp [msbDigits]
  have hw := window_overwrite (bits v) (msbDigits n x.toNat) i (by rw [hl, bits_length]; omega)
  rw [hl] at hw
  rw [h3, hw, msbValue_msbDigits, BitVec.toNat_ofNat]
  exact Nat.mod_eq_of_lt (Nat.lt_of_le_of_lt (Nat.mod_le ..) x.isLt)

/-- C01 (single bits): bit `i+k` after the write, read with `bit()`, is binary digit `n-1-k` of the
value. -/
theorem C01_bit_after_fill (v : Bits) (i n k : Nat) (x : BitVec 64) (h : i + n ≤ v.length) (hk : k < n) :
    ∃ v', fillField v i x n = .ok v' ∧ bit v' (i + k) = .ok (x.toNat.testBit (n - 1 - k)) := by
  obtain ⟨v', h1, h2, h3, -, -⟩ := C01_fillField v i n x (.inr h)
  refine ⟨v', h1, ?_⟩
  have hl : (msbDigits n x.toNat).length = n := by simp [msbDigits]
  have hb : (bits v')[i + k]? = some (x.toNat.testBit (n - 1 - k)) := by
    rw [h3, overwrite_getElem? _ _ _ _ (by rw [hl, bits_length]; omega), hl, if_pos (by omega)]
    rw [List.getElem?_eq_getElem (by omega)]
    simp only [msbDigits, List.getElem_map, List.getElem_range]
    congr 3; omega
  rw [bits_getElem?] at hb
  unfold bit
  cases hc : v'[i + k]? with
  | none => simp [hc] at hb
  | some c =>
    simp only [hc, Option.map_some, Option.some.injEq] at hb
    simp only [char_bit, hb]

/-- C01 (misfit write): a non-empty field that does not fit is stopped by the assertion; nothing is
written. -/
theorem C01_fillField_misfit (v : Bits) (i n : Nat) (x : BitVec 64) (hn : n ≠ 0)
    (h : v.length < i + n) : fillField v i x n = .assertFail := by
  simp only [fillField, hn, ne_eq, not_false_eq_true, if_true]
  rw [if_neg (by omega)]

/-- C01 (misfit read): `peekField` has no such assertion: a window sticking out of the vector reads
outside it.  This is the exact domain on which `peekField` is safe. -/
theorem C01_peekField_safe_iff (v : Bits) (i n : Nat) (hi : i ≤ v.length) :
    peekField v i n ≠ .ub ↔ i + n ≤ v.length := by
  constructor
  · intro h
    rcases Nat.lt_or_ge v.length (i + n) with h' | h'
    · exact absurd (peekLoop_ub v i n 0 h' hi) h
    · exact h'
  · intro h
    rw [C01_peekField v i n h]; simp

/-- Non-vacuity: a 5-bit field at index 2 of an 8-bit vector holding stray chars. -/
example : ∃ v' w, fillField [0, 1, 255, 254, 1, 1, 0, 1] 2 0b10110 5 = .ok v' ∧
    peekField v' 2 5 = .ok w ∧ w.toNat = 0b10110 % 2 ^ 5 :=
  C01_roundtrip _ 2 5 0b10110 (by decide)

example : fillField [0, 1, 255, 254, 1, 1, 0, 1] 2 0b10110 5 = .ok [0, 1, 1, 0, 1, 1, 0, 1] := by decide

example : fillField [0, 1, 0] 1 7 3 = .assertFail := C01_fillField_misfit _ 1 3 7 (by decide) (by decide)

/-! ### C02: reversed fields -/

/-- C02 (write): like `C01_fillField`, least significant digit first. -/
theorem C02_fillFieldReversed (v : Bits) (i n : Nat) (x : BitVec 64) (h : n = 0 ∨ i + n ≤ v.length) :
    ∃ v', fillFieldReversed v i x n = .ok v' ∧ v'.length = v.length ∧
      bits v' = overwrite (bits v) i (lsbDigits n x.toNat) ∧
      (∀ j, i ≤ j → j < i + n → v'[j]? = some 0 ∨ v'[j]? = some 1) ∧
      (∀ j, (j < i ∨ i + n ≤ j) → v'[j]? = v[j]?) := by
  by_cases hn : n = 0
  · subst hn
    refine ⟨v, by simp [fillFieldReversed], rfl, by simp [overwrite, lsbDigits], ?_, fun _ _ => rfl⟩
    intro j h1 h2; omega
  · have hfit : i + n ≤ v.length := by omega
    have hlt : i + n - 1 < v.length := by omega
    refine ⟨fillRevLoop i n x v, by simp [fillFieldReversed, hn, hlt], fillRevLoop_length .., bits_fillRevLoop _ _ _ _ hfit, ?_, ?_⟩
    · intro j h1 h2
      rw [fillRevLoop_getElem? _ _ _ _ hfit, if_pos ⟨h1, h2⟩]
      unfold bitChar
      split <;> simp
    · intro j hj
      rw [fillRevLoop_getElem? _ _ _ _ hfit, if_neg (by omega)]

/-- C02 (read). -/
theorem C02_peekFieldReversed (v : Bits) (i n : Nat) (h : i + n ≤ v.length) :
    peekFieldReversed v i n = .ok (BitVec.ofNat 64 (lsbValue (window (bits v) i n))) := by
  rw [peekFieldReversed, if_pos h, peekRevLoop_ok _ _ _ _ h]; simp

/-- C02 (round trip). -/
theorem C02_roundtrip (v : Bits) (i n : Nat) (x : BitVec 64) (h : i + n ≤ v.length) :
    ∃ v' w, fillFieldReversed v i x n = .ok v' ∧ peekFieldReversed v' i n = .ok w ∧
      w.toNat = x.toNat % 2 ^ n := by
  obtain ⟨v', h1, h2, h3, -, -⟩ := C02_fillFieldReversed v i n x (.inr h)
  refine ⟨v', _, h1, C02_peekFieldReversed v' i n (by omega), ?_⟩
  have hl : (lsbDigits n x.toNat).length = n := by simp [lsbDigits]
  have hw := window_overwrite (bits v) (lsbDigits n x.toNat) i (by rw [hl, bits_length]; omega)
  rw [hl] at hw
  rw [h3, hw, lsbValue_lsbDigits, BitVec.toNat_ofNat]
  exact Nat.mod_eq_of_lt (Nat.lt_of_le_of_lt (Nat.mod_le ..) x.isLt)

/-- C02 (misfit): both reversed accessors stop on an assertion when the window does not fit. -/
theorem C02_misfit (v : Bits) (i n : Nat) (x : BitVec 64) (hn : n ≠ 0) (h : v.length < i + n) :
    fillFieldReversed v i x n = .assertFail ∧ peekFieldReversed v i n = .assertFail := by
  constructor
  · simp only [fillFieldReversed, hn, ne_eq, not_false_eq_true, if_true]
    rw [if_neg (by omega)]
  · rw [peekFieldReversed, if_neg (by omega)]

/-- C02 (mirror, reading): for widths up to 64 the reversed read is the `n`-bit mirror image of the
normal read. -/
theorem C02_mirror_read (v : Bits) (i n : Nat) (h : i + n ≤ v.length) (hn : n ≤ 64) :
    ∃ a b, peekField v i n = .ok a ∧ peekFieldReversed v i n = .ok b ∧
      (∀ k, k < n → b.toNat.testBit k = a.toNat.testBit (n - 1 - k)) ∧
      a.toNat < 2 ^ n ∧ b.toNat < 2 ^ n := by
  refine ⟨_, _, C01_peekField v i n h, C02_peekFieldReversed v i n h, ?_, ?_, ?_⟩
  all_goals
    have hl : (window (bits v) i n).length = n := window_length _ _ _ (by rw [bits_length]; exact h)
    have hlt := msbValue_lt (window (bits v) i n)
    have hlt' := msbValue_lt (window (bits v) i n).reverse
    rw [List.length_reverse] at hlt'
    have h64 : 2 ^ n ≤ 2 ^ 64 := Nat.pow_le_pow_right (by decide) hn
    rw [hl] at hlt hlt'
  · intro k hk
    rw [lsbValue_reverse, BitVec.toNat_ofNat, BitVec.toNat_ofNat,
      Nat.mod_eq_of_lt (by omega), Nat.mod_eq_of_lt (by omega),
      testBit_msbValue _ _ (by simp; omega), testBit_msbValue _ _ (by omega), List.getElem_reverse]
    congr 1
    simp; omega
  · rw [BitVec.toNat_ofNat, Nat.mod_eq_of_lt (by omega)]; exact hlt
  · rw [lsbValue_reverse, BitVec.toNat_ofNat, Nat.mod_eq_of_lt (by omega)]; exact hlt'

/-- C02 (mirror, writing): writing `x` reversed is writing, normally, a value `y` whose `n` low bits
are the mirror image of those of `x`. -/
theorem C02_mirror_write (v : Bits) (i n : Nat) (x y : BitVec 64)
    (h : n = 0 ∨ i + n ≤ v.length)
    (hxy : ∀ k, k < n → y.toNat.testBit k = x.toNat.testBit (n - 1 - k)) :
    fillFieldReversed v i x n = fillField v i y n := by
  by_cases hn : n = 0
  · simp [fillFieldReversed, fillField, hn]
  · have hfit : i + n ≤ v.length := by omega
    have hlt : i + n - 1 < v.length := by omega
    simp only [fillFieldReversed, fillField, hn, ne_eq, not_false_eq_true, if_true, hlt]
    congr 1
    apply List.ext_getElem?
    intro j
    rw [fillRevLoop_getElem? _ _ _ _ hfit, fillLoop_getElem? _ _ _ _ hfit]
    by_cases hj : i ≤ j ∧ j < i + n
    · rw [if_pos hj, if_pos hj]
      have := hxy (n - 1 - (j - i)) (by omega)
      have he : n - 1 - (n - 1 - (j - i)) = j - i := by omega
      rw [he] at this
      simp only [BitVec.getLsbD, this]
    · rw [if_neg hj, if_neg hj]

example : ∃ v' w, fillFieldReversed [0, 1, 255, 254, 1, 1, 0, 1] 2 0b10110 5 = .ok v' ∧
    peekFieldReversed v' 2 5 = .ok w ∧ w.toNat = 0b10110 % 2 ^ 5 :=
  C02_roundtrip _ 2 5 0b10110 (by decide)

example : fillFieldReversed [0, 1, 255, 254, 1, 1, 0, 1] 2 0b10110 5 =
    fillField [0, 1, 255, 254, 1, 1, 0, 1] 2 0b01101 5 :=
  C02_mirror_write _ 2 5 0b10110 0b01101 (by decide) (by decide)

/-! ### C03: serialisation with a cursor -/

/-- Client program: write a list of (value, width) fields one after another. -/
def writeAll (write : Bits → Nat → BitVec 64 → Nat → Outcome (Bits × Nat)) :
    Bits → Nat → List (BitVec 64 × Nat) → Outcome (Bits × Nat)
  | v, wp, [] => .ok (v, wp)
  | v, wp, (x, n) :: fs => do
    let (v', wp') ← write v wp x n
    writeAll write v' wp' fs

/-- Client program: read a list of widths one after another. -/
def readAll (read : Bits → Nat → Nat → Outcome (BitVec 64 × Nat)) :
    Bits → Nat → List Nat → Outcome (List (BitVec 64) × Nat)
  | _, rp, [] => .ok ([], rp)
  | v, rp, n :: ns => do
    let (x, rp') ← read v rp n
    let (xs, rp'') ← readAll read v rp' ns
    pure (x :: xs, rp'')

/-- total width of a field list -/
def totalWidth (fs : List (BitVec 64 × Nat)) : Nat := (fs.map (·.2)).sum

theorem serialise_aux
    (write : Bits → Nat → BitVec 64 → Nat → Outcome (Bits × Nat))
    (read : Bits → Nat → Nat → Outcome (BitVec 64 × Nat))
    (hw : ∀ v i x n, i + n ≤ v.length → ∃ v' w, write v i x n = .ok (v', i + n) ∧
      v'.length = v.length ∧ (∀ j, (j < i ∨ i + n ≤ j) → v'[j]? = v[j]?) ∧
      read v' i n = .ok (w, i + n) ∧ w.toNat = x.toNat % 2 ^ n)
    (hr : ∀ v v' i n, v'.length = v.length → i + n ≤ v.length →
      (∀ j, j < i + n → v'[j]? = v[j]?) → read v' i n = read v i n)
    (fs : List (BitVec 64 × Nat)) (v : Bits) (cur : Nat) (h : cur + totalWidth fs ≤ v.length) :
    ∃ v' xs, writeAll write v cur fs = .ok (v', cur + totalWidth fs) ∧
      v'.length = v.length ∧
      (∀ j, (j < cur ∨ cur + totalWidth fs ≤ j) → v'[j]? = v[j]?) ∧
      readAll read v' cur (fs.map (·.2)) = .ok (xs, cur + totalWidth fs) ∧
      xs.map (·.toNat) = fs.map (fun f => f.1.toNat % 2 ^ f.2) := by
  induction fs generalizing v cur with
  | nil =>
    exact ⟨v, [], by simp [writeAll, totalWidth], rfl, fun _ _ => rfl, by simp [readAll, totalWidth], rfl⟩
  | cons f fs ih =>
    obtain ⟨x, n⟩ := f
    have htw : totalWidth ((x, n) :: fs) = n + totalWidth fs := by simp [totalWidth]
    rw [htw] at h ⊢
    obtain ⟨v1, w, h1, h2, h3, h4, h5⟩ := hw v cur x n (by omega)
    obtain ⟨v2, xs, g1, g2, g3, g4, g5⟩ := ih v1 (cur + n) (by omega)
    refine ⟨v2, w :: xs, ?_, by omega, ?_, ?_, ?_⟩
    · simp only [writeAll, h1, Outcome.bind_ok]
      rw [g1, Nat.add_assoc]
    · intro j hj
      rw [g3 j (by omega), h3 j (by omega)]
    · have hread : read v2 cur n = read v1 cur n := by
        apply hr _ _ _ _ g2 (by omega)
        intro j hj
        exact g3 j (by omega)
      simp only [List.map_cons, readAll, hread, h4, Outcome.bind_ok, g4, Outcome.pure_eq]
      rw [Nat.add_assoc]
    · simp [h5, g5]

theorem bits_window_congr (v v' : Bits) (i n : Nat)
    (h : ∀ j, j < i + n → v'[j]? = v[j]?) : window (bits v') i n = window (bits v) i n := by
  unfold window
  apply List.ext_getElem?
  intro k
  rw [List.getElem?_take, List.getElem?_take]
  split
  · rw [List.getElem?_drop, List.getElem?_drop, bits_getElem?, bits_getElem?, h _ (by omega)]
  · rfl

/-- C03: any list of fields that fits, written with `writeField` and read back with `readField` from
the same cursor, comes back value by value (mod the widths); both cursors advance by the total width
and no stored char outside the written range changes. -/
theorem C03_serialise (fs : List (BitVec 64 × Nat)) (v : Bits) (cur : Nat)
    (h : cur + totalWidth fs ≤ v.length) :
    ∃ v' xs, writeAll writeField v cur fs = .ok (v', cur + totalWidth fs) ∧
      v'.length = v.length ∧
      (∀ j, (j < cur ∨ cur + totalWidth fs ≤ j) → v'[j]? = v[j]?) ∧
      readAll readField v' cur (fs.map (·.2)) = .ok (xs, cur + totalWidth fs) ∧
      xs.map (·.toNat) = fs.map (fun f => f.1.toNat % 2 ^ f.2) := by
  refine serialise_aux writeField readField ?_ ?_ fs v cur h
  · intro v i x n hf
    obtain ⟨v', h1, h2, -, -, h5⟩ := C01_fillField v i n x (.inr hf)
    obtain ⟨v'', w, g1, g2, g3⟩ := C01_roundtrip v i n x hf
    obtain rfl : v' = v'' := by rw [h1] at g1; injection g1
    refine ⟨v', w, ?_, h2, h5, ?_, g3⟩
    · by_cases hn : n = 0
      · subst hn
        simp [fillField] at h1
        simp [writeField, h1]
      · simp [writeField, hn, h1]
    · simp [readField, g2]
  · intro v v' i n hl hf hc
    simp only [readField]
    rw [C01_peekField v i n hf, C01_peekField v' i n (by omega), bits_window_congr v v' i n hc]

/-- C03 for the reversed variants. -/
theorem C03_serialise_reversed (fs : List (BitVec 64 × Nat)) (v : Bits) (cur : Nat)
    (h : cur + totalWidth fs ≤ v.length) :
    ∃ v' xs, writeAll writeFieldReversed v cur fs = .ok (v', cur + totalWidth fs) ∧
      v'.length = v.length ∧
      (∀ j, (j < cur ∨ cur + totalWidth fs ≤ j) → v'[j]? = v[j]?) ∧
      readAll readFieldReversed v' cur (fs.map (·.2)) = .ok (xs, cur + totalWidth fs) ∧
      xs.map (·.toNat) = fs.map (fun f => f.1.toNat % 2 ^ f.2) := by
  refine serialise_aux writeFieldReversed readFieldReversed ?_ ?_ fs v cur h
  · intro v i x n hf
    obtain ⟨v', h1, h2, -, -, h5⟩ := C02_fillFieldReversed v i n x (.inr hf)
    obtain ⟨v'', w, g1, g2, g3⟩ := C02_roundtrip v i n x hf
    obtain rfl : v' = v'' := by rw [h1] at g1; injection g1
    refine ⟨v', w, ?_, h2, h5, ?_, g3⟩
    · by_cases hn : n = 0
      · subst hn
        simp [fillFieldReversed] at h1
        simp [writeFieldReversed, h1]
      · simp [writeFieldReversed, hn, h1]
    · simp [readFieldReversed, g2]
  · intro v v' i n hl hf hc
    simp only [readFieldReversed]
    rw [C02_peekFieldReversed v i n hf, C02_peekFieldReversed v' i n (by omega),
      bits_window_congr v v' i n hc]

/-- C03: a write sequence that does not fit ends in an assertion, it never writes outside. -/
theorem C03_no_overrun (fs : List (BitVec 64 × Nat)) (v : Bits) (cur : Nat) (hc : cur ≤ v.length)
    (h : v.length < cur + totalWidth fs) : writeAll writeField v cur fs = .assertFail := by
  induction fs generalizing v cur with
  | nil => simp [totalWidth] at h; omega
  | cons f fs ih =>
    obtain ⟨x, n⟩ := f
    have htw : totalWidth ((x, n) :: fs) = n + totalWidth fs := by simp [totalWidth]
    rw [htw] at h
    by_cases hn : n = 0
    · subst hn
      simp only [writeAll, writeField, ne_eq, not_true_eq_false, if_false, Outcome.bind_ok]
      exact ih v cur hc (by omega)
    · rcases Nat.lt_or_ge v.length (cur + n) with hf | hf
      · simp [writeAll, writeField, hn, C01_fillField_misfit v cur n x hn hf]
      · obtain ⟨v', h1, h2, -, -, -⟩ := C01_fillField v cur n x (.inr hf)
        simp only [writeAll, writeField, hn, ne_eq, not_false_eq_true, if_true, h1, Outcome.bind_ok,
          Outcome.pure_eq]
        exact ih v' (cur + n) (by omega) (by omega)

example : (writeAll writeField (List.replicate 12 255) 1 [(5, 3), (1, 0), (300, 7)]) =
    .ok ([255, 1, 0, 1, 0, 1, 0, 1, 1, 0, 0, 255], 11) := by decide

example : ∃ v' xs, writeAll writeField (List.replicate 12 255) 1 [(5, 3), (1, 0), (300, 7)] = .ok (v', 11) ∧
    readAll readField v' 1 [3, 0, 7] = .ok (xs, 11) ∧ xs.map (·.toNat) = [5, 0, 44] := by
  obtain ⟨v', xs, h1, -, -, h2, h3⟩ :=
    C03_serialise [(5, 3), (1, 0), (300, 7)] (List.replicate 12 255) 1 (by decide)
  exact ⟨v', xs, h1, h2, h3⟩

end Verif.BitVector
