import Verif.BitVector.PropsPack
import Mathlib.Data.List.Perm.Subperm

/-
Properties C09 (interleaving), C11 (octet reversal), C12 (inversion and equality), C13 (sum).
-/

namespace Verif.BitVector
open Verif Spec

/-! ### C09: map / unmap -/

theorem mapLoop_ok (v : Bits) (table : List Nat) (i : Nat) (d : Bits)
    (ht : ∀ m ∈ table, m < v.length) (hd : i + table.length ≤ d.length) :
    ∃ r, mapLoop v i table d = .ok r ∧ r.length = d.length ∧
      (∀ k (hk : k < table.length), r[i + k]? = v[table[k]]?) ∧
      (∀ j, (j < i ∨ i + table.length ≤ j) → r[j]? = d[j]?) := by
  induction table generalizing i d with
  | nil => exact ⟨d, rfl, rfl, fun k hk => by simp at hk, fun _ _ => rfl⟩
  | cons m ms ih =>
    have hm : m < v.length := ht m (by simp)
    simp only [List.length_cons] at hd
    obtain ⟨r, h1, h2, h3, h4⟩ := ih (i + 1) (d.set i v[m]) (fun x hx => ht x (by simp [hx])) (by simp; omega)
    have hid : i < d.length := by omega
    refine ⟨r, by simp [mapLoop, hm, hid, h1], by simpa using h2, ?_, ?_⟩
    · intro k hk
      cases k with
      | zero =>
        rw [Nat.add_zero, h4 i (by omega)]
        simp [hid, hm]
      | succ k =>
        simp only [List.length_cons] at hk
        have := h3 k (by omega)
        rw [show i + 1 + k = i + (k + 1) by omega] at this
        simpa using this
    · intro j hj
      simp only [List.length_cons] at hj
      rw [h4 j (by omega), List.getElem?_set, if_neg (by omega)]

theorem unmapLoop_ok (v : Bits) (table : List Nat) (i : Nat) (d : Bits)
    (ht : ∀ m ∈ table, m < d.length) (hv : i + table.length ≤ v.length) :
    ∃ r, unmapLoop v i table d = .ok r ∧ r.length = d.length ∧
      (table.Nodup → ∀ k (hk : k < table.length), r[table[k]]? = v[i + k]?) ∧
      (∀ j, j ∉ table → r[j]? = d[j]?) := by
  induction table generalizing i d with
  | nil => exact ⟨d, rfl, rfl, fun _ k hk => by simp at hk, fun _ _ => rfl⟩
  | cons m ms ih =>
    have hm : m < d.length := ht m (by simp)
    simp only [List.length_cons] at hv
    have hiv : i < v.length := by omega
    obtain ⟨r, h1, h2, h3, h4⟩ := ih (i + 1) (d.set m v[i]) (fun x hx => by simpa using ht x (by simp [hx])) (by omega)
    refine ⟨r, by simp [unmapLoop, hm, hiv, h1], by simpa using h2, ?_, ?_⟩
    · intro hnd k hk
      rw [List.nodup_cons] at hnd
      cases k with
      | zero =>
        simp only [List.getElem_cons_zero, Nat.add_zero]
        rw [h4 m hnd.1]
        simp [hm, hiv]
      | succ k =>
        simp only [List.length_cons] at hk
        have := h3 hnd.2 k (by omega)
        rw [show i + 1 + k = i + (k + 1) by omega] at this
        simpa using this
    · intro j hj
      simp only [List.mem_cons, not_or] at hj
      rw [h4 j hj.2, List.getElem?_set, if_neg (by omega)]

/-- C09 (map): `dest[k] = src[table[k]]` for every table position, the rest of `dest` unchanged. -/
theorem C09_map (v d : Bits) (table : List Nat) (ht : ∀ m ∈ table, m < v.length)
    (hd : table.length ≤ d.length) :
    ∃ r, map v table d = .ok r ∧ r.length = d.length ∧
      (∀ k (hk : k < table.length), r[k]? = v[table[k]]?) ∧
      (∀ j, table.length ≤ j → r[j]? = d[j]?) := by
  obtain ⟨r, h1, h2, h3, h4⟩ := mapLoop_ok v table 0 d ht (by omega)
  refine ⟨r, h1, h2, ?_, fun j hj => h4 j (by omega)⟩
  intro k hk
  simpa using h3 k hk

/-- C09 (unmap): `dest[table[k]] = src[k]` for an injective table, the rest of `dest` unchanged. -/
theorem C09_unmap (v d : Bits) (table : List Nat) (ht : ∀ m ∈ table, m < d.length)
    (hv : table.length ≤ v.length) (hnd : table.Nodup) :
    ∃ r, unmap v table d = .ok r ∧ r.length = d.length ∧
      (∀ k (hk : k < table.length), r[table[k]]? = v[k]?) ∧
      (∀ j, j ∉ table → r[j]? = d[j]?) := by
  obtain ⟨r, h1, h2, h3, h4⟩ := unmapLoop_ok v table 0 d ht (by omega)
  refine ⟨r, h1, h2, ?_, h4⟩
  intro k hk
  simpa using h3 hnd k hk

/-- A table without repetitions whose entries are below its length contains every number below it. -/
theorem perm_table_surj (table : List Nat) (hnd : table.Nodup) (ht : ∀ m ∈ table, m < table.length)
    (j : Nat) (hj : j < table.length) : j ∈ table := by
  have hp : table.Perm (List.range table.length) := by
    apply List.Subperm.perm_of_length_le
    · apply List.subperm_of_subset hnd
      intro x hx
      simpa using ht x hx
    · simp
  exact hp.mem_iff.mpr (by simpa using hj)

/-- C09 (interleave then de-interleave): for every permutation table `unmap` undoes `map`. -/
theorem C09_unmap_map (v d1 d2 : Bits) (table : List Nat) (hnd : table.Nodup)
    (ht : ∀ m ∈ table, m < table.length) (hv : v.length = table.length)
    (h1 : d1.length = table.length) (h2 : d2.length = table.length) :
    ∃ m, map v table d1 = .ok m ∧ unmap m table d2 = .ok v := by
  obtain ⟨m, m1, m2, m3, -⟩ := C09_map v d1 table (by simpa [hv] using ht) (by omega)
  obtain ⟨u, u1, u2, u3, -⟩ := C09_unmap m d2 table (by simpa [h2] using ht) (by omega) hnd
  refine ⟨m, m1, ?_⟩
  rw [u1]
  congr 1
  apply List.ext_getElem?
  intro j
  rcases Nat.lt_or_ge j table.length with hj | hj
  · obtain ⟨k, hk, rfl⟩ := List.getElem_of_mem (perm_table_surj table hnd ht j hj)
    rw [u3 k hk, m3 k hk]
  · rw [List.getElem?_eq_none (by omega), List.getElem?_eq_none (by omega)]

/-- C09 (de-interleave then interleave): `map` undoes `unmap` for every injective table: reading back
gives the first `table.length` elements of the source. -/
theorem C09_map_unmap (v d1 d2 : Bits) (table : List Nat) (hnd : table.Nodup)
    (ht : ∀ m ∈ table, m < d1.length) (hv : v.length = table.length) (h2 : d2.length = table.length) :
    ∃ u, unmap v table d1 = .ok u ∧ map u table d2 = .ok v := by
  obtain ⟨u, u1, u2, u3, -⟩ := C09_unmap v d1 table ht (by omega) hnd
  obtain ⟨m, m1, m2, m3, -⟩ := C09_map u d2 table (by simpa [u2] using ht) (by omega)
  refine ⟨u, u1, ?_⟩
  rw [m1]
  congr 1
  apply List.ext_getElem?
  intro j
  rcases Nat.lt_or_ge j table.length with hj | hj
  · rw [m3 j hj, u3 j hj]
  · rw [List.getElem?_eq_none (by omega), List.getElem?_eq_none (by omega)]

example : ∃ m, map [1, 0, 0, 1, 1] [3, 0, 4, 1, 2] [0, 0, 0, 0, 0] = .ok m ∧
    unmap m [3, 0, 4, 1, 2] [1, 1, 1, 1, 1] = .ok [1, 0, 0, 1, 1] :=
  C09_unmap_map _ _ _ _ (by decide) (by decide) rfl rfl rfl

example : ∃ u, unmap [1, 0, 1] [5, 0, 2] [0, 0, 0, 1, 1, 1] = .ok u ∧ map u [5, 0, 2] [0, 0, 0] = .ok [1, 0, 1] :=
  C09_map_unmap _ _ _ _ (by decide) (by decide) rfl rfl

/-! ### C11: LSB8MSB -/

theorem reverse8_eight (a b c d e f g h : BitVec 8) :
    reverse8 [a, b, c, d, e, f, g, h] = .ok [h, g, f, e, d, c, b, a] := rfl

theorem eight_of_length (s : Bits) (hs : s.length = 8) :
    reverse8 s = .ok s.reverse := by
  match s, hs with
  | [a, b, c, d, e, f, g, h], _ => rfl

theorem reverse8At_ok (v : Bits) (i : Nat) (h : i + 8 ≤ v.length) :
    ∃ r, reverse8At v i = .ok r ∧ r.length = v.length ∧
      (∀ b, b < 8 → r[i + b]? = v[i + (7 - b)]?) ∧
      (∀ j, (j < i ∨ i + 8 ≤ j) → r[j]? = v[j]?) := by
  have hl : ((v.drop i).take 8).length = 8 := by simp; omega
  refine ⟨v.take i ++ ((v.drop i).take 8).reverse ++ v.drop (i + 8), ?_, ?_, ?_, ?_⟩
  · simp [reverse8At, h, eight_of_length _ hl]
  · simp; omega
  · intro b hb
    have hti : (v.take i).length = i := by simp; omega
    rw [List.append_assoc, List.getElem?_append_right (by omega), hti,
      List.getElem?_append_left (by rw [List.length_reverse, hl]; omega), List.getElem?_reverse (by omega), hl,
      List.getElem?_take, if_pos (by omega), List.getElem?_drop]
    congr 1; omega
  · intro j hj
    have hti : (v.take i).length = i := by simp; omega
    rcases hj with hj | hj
    · rw [List.append_assoc, List.getElem?_append_left (by omega), List.getElem?_take, if_pos hj]
    · rw [List.getElem?_append_right (by rw [List.length_append, List.length_reverse, hl]; omega), List.length_append,
        List.length_reverse, hl, hti, List.getElem?_drop]
      congr 1; omega

theorem lsb8Loop_ok (k i : Nat) (v : Bits) (h : i + 8 * k ≤ v.length) :
    ∃ r, lsb8Loop i k v = .ok r ∧ r.length = v.length ∧
      (∀ m b, m < k → b < 8 → r[i + 8 * m + b]? = v[i + 8 * m + (7 - b)]?) ∧
      (∀ j, (j < i ∨ i + 8 * k ≤ j) → r[j]? = v[j]?) := by
  induction k generalizing i v with
  | zero => exact ⟨v, rfl, rfl, fun m b hm => by omega, fun _ _ => rfl⟩
  | succ k ih =>
    obtain ⟨r1, a1, a2, a3, a4⟩ := reverse8At_ok v i (by omega)
    obtain ⟨r2, b1, b2, b3, b4⟩ := ih (i + 8) r1 (by omega)
    refine ⟨r2, by simp [lsb8Loop, a1, b1], by omega, ?_, ?_⟩
    · intro m b hm hb
      cases m with
      | zero =>
        have := b4 (i + b) (by omega)
        simpa [this] using a3 b hb
      | succ m =>
        have := b3 m b (by omega) hb
        rw [show i + 8 + 8 * m + b = i + 8 * (m + 1) + b by omega,
          show i + 8 + 8 * m + (7 - b) = i + 8 * (m + 1) + (7 - b) by omega] at this
        rw [this, a4 _ (by omega)]
    · intro j hj
      rw [b4 j (by omega), a4 j (by omega)]

/-- C11 (meaning): within each whole octet the chars are reversed; a trailing partial octet stays.
Never fails. -/
theorem C11_LSB8MSB (v : Bits) : ∃ r, LSB8MSB v = .ok r ∧ r.length = v.length ∧
    ∀ j, r[j]? = if j < 8 * (v.length / 8) then v[8 * (j / 8) + (7 - j % 8)]? else v[j]? := by
  unfold LSB8MSB
  split
  · refine ⟨v, rfl, rfl, ?_⟩
    intro j
    rw [if_neg (by omega)]
  · obtain ⟨r, h1, h2, h3, h4⟩ := lsb8Loop_ok (v.length / 8) 0 v (by omega)
    refine ⟨r, h1, h2, ?_⟩
    intro j
    split
    · next hj =>
      have := h3 (j / 8) (j % 8) (by omega) (by omega)
      rw [Nat.zero_add, show 8 * (j / 8) + j % 8 = j by omega] at this
      exact this
    · next hj => exact h4 j (by omega)

/-- C11 (involution). -/
theorem C11_involution (v : Bits) : ∃ r, LSB8MSB v = .ok r ∧ LSB8MSB r = .ok v := by
  obtain ⟨r, h1, h2, h3⟩ := C11_LSB8MSB v
  obtain ⟨s, g1, g2, g3⟩ := C11_LSB8MSB r
  refine ⟨r, h1, ?_⟩
  rw [g1]
  congr 1
  apply List.ext_getElem?
  intro j
  rw [g3, h2]
  by_cases hj : j < 8 * (v.length / 8)
  · rw [if_pos hj, h3, if_pos (by omega)]
    congr 1; omega
  · rw [if_neg hj, h3, if_neg hj]

example : LSB8MSB [1, 1, 0, 0, 0, 0, 0, 0, 1, 0, 0] = .ok [0, 0, 0, 0, 0, 0, 1, 1, 1, 0, 0] := by decide

/-! ### C12: inversion and equality -/

theorem not_bit (c : BitVec 8) : (~~~ c).getLsbD 0 = !(c.getLsbD 0) := by revert c; decide

/-- C12 (inversion): every bit is complemented, as read by `bit()`. -/
theorem C12_invert_bit (v : Bits) (i : Nat) (b : Bool) (h : bit v i = .ok b) :
    bit (invert v) i = .ok (!b) := by
  unfold bit invert at *
  rw [List.getElem?_map]
  cases hc : v[i]? with
  | none => simp [hc] at h
  | some c =>
    simp only [hc, char_bit, Outcome.ok.injEq, Option.map_some, not_bit] at *
    rw [h]

theorem bits_invert (v : Bits) : bits (invert v) = (bits v).map (! ·) := by
  simp [bits, invert]

/-- C12 (double inversion) restores the stored vector exactly. -/
theorem C12_invert_invert (v : Bits) : invert (invert v) = v := by
  simp [invert, Function.comp_def]

/-- C12 (soundness of ==): vectors that compare equal read the same bits. -/
theorem C12_eq_sound (a b : Bits) (h : eqOp a b = true) : bits a = bits b := by
  simp only [eqOp, Bool.and_eq_true, beq_iff_eq] at h
  rw [h.2]

/-- The part of C12 about == is false of the code: after `invert()` a vector reads the same bits as
another but does not compare equal to it, because the stored chars are 0xff/0xfe. -/
theorem C12_eq_refuted : ∃ a b : Bits, bits (invert a) = bits b ∧ eqOp (invert a) b = false :=
  ⟨[0, 1], [1, 0], by decide, by decide⟩

theorem normalised_char_inj {c d : BitVec 8} (hc : c = 0 ∨ c = 1) (hd : d = 0 ∨ d = 1)
    (h : c.getLsbD 0 = d.getLsbD 0) : c = d := by
  rcases hc with rfl | rfl <;> rcases hd with rfl | rfl <;> simp_all

/-- Mutations of a bit vector that leave clean chars behind, as a client may apply them. -/
inductive CleanOp where
  | fill (i : Nat) (x : BitVec 64) (n : Nat)
  | fillRev (i : Nat) (x : BitVec 64) (n : Nat)
  | lsb8msb
  | setBit (i : Nat) (b : Bool)
  | invertTwice

/-- Run one mutation. -/
def CleanOp.run : CleanOp → Bits → Outcome Bits
  | .fill i x n, v => fillField v i x n
  | .fillRev i x n, v => fillFieldReversed v i x n
  | .lsb8msb, v => LSB8MSB v
  | .setBit i b, v => settfb v i (if b then 1 else 0)
  | .invertTwice, v => .ok (invert (invert v))

/-- Run a history of mutations. -/
def runClean : List CleanOp → Bits → Outcome Bits
  | [], v => .ok v
  | o :: os, v => do
    let v' ← o.run v
    runClean os v'

theorem normalised_iff (v : Bits) : Normalised v ↔ ∀ (j : Nat) (c : BitVec 8), v[j]? = some c → c = 0 ∨ c = 1 := by
  constructor
  · intro h j c hj
    exact h c (List.mem_of_getElem? hj)
  · intro h c hc
    obtain ⟨j, hj⟩ := List.getElem?_of_mem hc
    exact h j c hj

theorem cleanOp_normalised (o : CleanOp) (v v' : Bits) (hv : Normalised v) (h : o.run v = .ok v') :
    Normalised v' := by
  rw [normalised_iff] at *
  cases o with
  | fill i x n =>
    simp only [CleanOp.run] at h
    by_cases hf : n = 0 ∨ i + n ≤ v.length
    · obtain ⟨w, h1, -, -, h4, h5⟩ := C01_fillField v i n x hf
      rw [h1] at h
      injection h with h; subst h
      intro j c hj
      by_cases hr : i ≤ j ∧ j < i + n
      · have := h4 j hr.1 hr.2
        rw [hj] at this
        simpa using this
      · rw [h5 j (by omega)] at hj
        exact hv j c hj
    · rw [C01_fillField_misfit v i n x (by omega) (by omega)] at h
      simp at h
  | fillRev i x n =>
    simp only [CleanOp.run] at h
    by_cases hf : n = 0 ∨ i + n ≤ v.length
    · obtain ⟨w, h1, -, -, h4, h5⟩ := C02_fillFieldReversed v i n x hf
      rw [h1] at h
      injection h with h; subst h
      intro j c hj
      by_cases hr : i ≤ j ∧ j < i + n
      · have := h4 j hr.1 hr.2
        rw [hj] at this
        simpa using this
      · rw [h5 j (by omega)] at hj
        exact hv j c hj
    · rw [(C02_misfit v i n x (by omega) (by omega)).1] at h
      simp at h
  | lsb8msb =>
    simp only [CleanOp.run] at h
    obtain ⟨w, h1, -, h3⟩ := C11_LSB8MSB v
    rw [h1] at h
    injection h with h; subst h
    intro j c hj
    rw [h3] at hj
    split at hj
    · exact hv _ c hj
    · exact hv _ c hj
  | setBit i b =>
    simp only [CleanOp.run, settfb] at h
    split at h
    · injection h with h; subst h
      intro j c hj
      rw [List.getElem?_set] at hj
      split at hj
      · cases b <;> grind
      · exact hv j c hj
    · simp at h
  | invertTwice =>
    simp only [CleanOp.run, C12_invert_invert, Outcome.ok.injEq] at h
    subst h; exact hv

/-- C12 (equality), partial: along every history of mutations that never leaves an odd number of
inversions behind, starting from a vector built from text, `==` holds exactly when the two vectors
read the same bits.  Missing: vectors holding the result of an `invert()`, for which it is false
(`C12_eq_refuted`). -/
theorem C12_eq_iff_bits_partial (s1 s2 : List Char) (h1 h2 : List CleanOp) (a b : Bits)
    (ha : runClean h1 (ofString s1) = .ok a) (hb : runClean h2 (ofString s2) = .ok b) :
    eqOp a b = true ↔ bits a = bits b := by
  have hnorm : ∀ (s : List Char) (h : List CleanOp) (r : Bits),
      runClean h (ofString s) = .ok r → Normalised r := by
    intro s h r hr
    have h0 : Normalised (ofString s) := by
      intro c hc
      simp only [ofString, List.mem_map] at hc
      obtain ⟨x, -, rfl⟩ := hc
      split <;> simp
    generalize ofString s = v at hr h0
    induction h generalizing v with
    | nil => simp only [runClean, Outcome.ok.injEq] at hr; subst hr; exact h0
    | cons o os ih =>
      simp only [runClean] at hr
      cases ho : o.run v with
      | ok v' =>
        rw [ho] at hr
        exact ih v' hr (cleanOp_normalised o v v' h0 ho)
      | assertFail => rw [ho] at hr; simp at hr
      | ub => rw [ho] at hr; simp at hr
      | diverge => rw [ho] at hr; simp at hr
  have na := (normalised_iff a).mp (hnorm s1 h1 a ha)
  have nb := (normalised_iff b).mp (hnorm s2 h2 b hb)
  constructor
  · exact C12_eq_sound a b
  · intro he
    have hlen : a.length = b.length := by
      have := congrArg List.length he
      simpa [bits] using this
    have : a = b := by
      apply List.ext_getElem?
      intro j
      rcases Nat.lt_or_ge j a.length with hj | hj
      · have hjb : j < b.length := by omega
        have hbj : (bits a)[j]? = (bits b)[j]? := by rw [he]
        rw [bits_getElem?, bits_getElem?, List.getElem?_eq_getElem hj, List.getElem?_eq_getElem hjb] at hbj
        simp only [Option.map_some, Option.some.injEq] at hbj
        rw [List.getElem?_eq_getElem hj, List.getElem?_eq_getElem hjb]
        congr 1
        exact normalised_char_inj (na j _ (List.getElem?_eq_getElem hj)) (nb j _ (List.getElem?_eq_getElem hjb)) hbj
      · rw [List.getElem?_eq_none hj, List.getElem?_eq_none (by omega)]
    subst this
    simp [eqOp]

example : eqOp [1, 0, 1, 1, 0] [1, 0, 1, 1, 0] = true ↔ bits [1, 0, 1, 1, 0] = bits [1, 0, 1, 1, 0] :=
  C12_eq_iff_bits_partial "10110".toList "00000".toList [.invertTwice] [.fill 0 0b10110 5] _ _
    (by decide) (by decide)

/-! ### C13: sum -/

theorem sum_foldl (v : Bits) (s : BitVec 32) :
    v.foldl (fun s c => s + (c &&& 1).setWidth 32) s = s + BitVec.ofNat 32 ((bits v).count true) := by
  induction v generalizing s with
  | nil => simp [bits]
  | cons c v ih =>
    simp only [List.foldl_cons]
    rw [ih, char_and_one32]
    have : (bits (c :: v)).count true = (c.getLsbD 0).toNat + (bits v).count true := by
      simp only [bits, List.map_cons, List.count_cons]
      cases c.getLsbD 0 <;> simp; omega
    rw [this, BitVec.ofNat_add, BitVec.add_assoc]

/-- C13: `sum()` is the number of ones among the observable bits, whatever chars are stored. -/
theorem C13_sum (v : Bits) (h : v.length < 2 ^ 32) : (sum v).toNat = (bits v).count true := by
  unfold sum
  rw [sum_foldl]
  have : (bits v).count true ≤ (bits v).length := List.count_le_length
  rw [bits_length] at this
  simp only [BitVec.toNat_add, BitVec.toNat_ofNat]
  simp
  omega

/-- C13: complement. -/
theorem C13_sum_invert (v : Bits) (h : v.length < 2 ^ 32) :
    (sum (invert v)).toNat + (sum v).toNat = v.length := by
  rw [C13_sum _ (by simpa [invert] using h), C13_sum _ h, bits_invert, ← bits_length]
  generalize bits v = bs
  induction bs with
  | nil => rfl
  | cons b bs ih => cases b <;> simp_all <;> omega

/-- C13: additivity over concatenation. -/
theorem C13_sum_append (a b : Bits) (h : a.length + b.length < 2 ^ 32) :
    (sum (a ++ b)).toNat = (sum a).toNat + (sum b).toNat := by
  rw [C13_sum _ (by simpa using h), C13_sum _ (by omega), C13_sum _ (by omega)]
  simp [bits]

example : (sum (invert [0, 0, 1, 1, 1])).toNat = 2 := by decide

end Verif.BitVector
