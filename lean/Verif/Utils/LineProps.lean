import Verif.Utils.ReplaceProps

/-
Properties C44 and C45.
-/

namespace Verif.Utils
open Verif Spec

theorem occurs_nl (s : Str) (i : Nat) : OccursAt [10] s i ↔ s[i]? = some 10 := by
  unfold OccursAt
  rw [← List.head?_drop]
  cases s.drop i with
  | nil => simp
  | cons c t => simp [eq_comm]

/-- No newline between two positions: the counts agree. -/
theorem count_gap (s : Str) (pos n : Nat) (h : ∀ j, pos ≤ j → j < pos + n → s[j]? ≠ some 10) :
    (s.take (pos + n)).count 10 = (s.take pos).count 10 := by
  rw [List.take_add, List.count_append]
  have : ((s.drop pos).take n).count 10 = 0 := by
    rw [List.count_eq_zero]
    intro hm
    obtain ⟨j, hj⟩ := List.mem_iff_getElem?.mp hm
    rw [List.getElem?_take] at hj
    split at hj
    · next hjn =>
      rw [List.getElem?_drop] at hj
      exact h (pos + j) (by omega) (by omega) hj
    · cases hj
  omega

/-- One search step: from position `pos`, either the next line ends, or there is no newline left. -/
theorem next_line (s : Str) (pos : Nat) (hl : s.length < 2 ^ 64 - 1) :
    (∃ i, pos ≤ i ∧ s[i]? = some 10 ∧ bump s (size_t (find s [10] pos)) = i + 1 ∧
      (s.take (i + 1)).count 10 = (s.take pos).count 10 + 1) ∨
    (s.length < bump s (size_t (find s [10] pos)) ∧ s.count 10 = (s.take pos).count 10) := by
  cases h : find s [10] pos with
  | some i =>
    obtain ⟨h1, h2, h3, h4⟩ := find_some h
    rw [occurs_nl] at h3
    have hi : i < s.length := by
      rcases Nat.lt_or_ge i s.length with hlt | hge
      · exact hlt
      · rw [List.getElem?_eq_none hge] at h3; cases h3
    refine .inl ⟨i, h1, h3, ?_, ?_⟩
    · show bump s i = _
      unfold bump; rw [if_pos hi]
    · rw [List.take_add_one, h3, List.count_append]
      have := count_gap s pos (i - pos) (fun j h5 h6 h7 => h4 j h5 (by omega) ((occurs_nl s j).mpr h7))
      rw [Nat.add_sub_cancel' h1] at this
      rw [this]; rfl
  | none =>
    have hno := find_none h
    right
    constructor
    · show s.length < bump s (2 ^ 64 - 1)
      unfold bump; rw [if_neg (by omega)]; exact hl
    · have := count_gap s pos s.length (fun j h5 h6 h7 => by
        rcases Nat.lt_or_ge j s.length with hlt | hge
        · exact hno j h5 (by omega) ((occurs_nl s j).mpr h7)
        · rw [List.getElem?_eq_none hge] at h7; cases h7)
      rw [← this, List.take_of_length_le (by omega)]

theorem take_last (s : Str) (i : Nat) (c : Byte) (h : s[i]? = some c) : (s.take (i + 1)).getLast? = some c := by
  rw [List.take_add_one, h]; simp

/-- Continuing from the end of the `m`-th line. -/
theorem linesLoop_spec (s : Str) (hl : s.length < 2 ^ 64 - 1) : ∀ (k pos m : Nat), pos ≤ s.length →
    (s.take pos).count 10 = m → (s.take pos).getLast? = some 10 →
    FirstLines (m + k) s (s.take (linesLoop s k pos)) := by
  intro k
  induction k with
  | zero => intro pos m hp hc hla; exact ⟨List.take_prefix .., .inl ⟨hc, hla⟩⟩
  | succ k ih =>
    intro pos m hp hc hla
    rw [linesLoop]
    by_cases hlt : pos < s.length
    · rw [if_pos hlt]
      rcases next_line s pos hl with ⟨i, h1, h2, h3, h4⟩ | ⟨h1, h2⟩
      · rw [h3]
        have hi : i < s.length := by
          rcases Nat.lt_or_ge i s.length with hlt | hge
          · exact hlt
          · rw [List.getElem?_eq_none hge] at h2; cases h2
        have := ih (i + 1) (m + 1) (by omega) (by omega) (take_last s i 10 h2)
        rwa [Nat.add_right_comm] at this
      · generalize bump s (size_t (find s [10] pos)) = q at h1
        have hq : linesLoop s k q = q := by
          cases k with
          | zero => rfl
          | succ k => rw [linesLoop, if_neg (by omega)]
        rw [hq, List.take_of_length_le (by omega)]
        exact ⟨List.prefix_refl _, .inr ⟨rfl, by omega⟩⟩
    · rw [if_neg hlt]
      have hall : s.take pos = s := List.take_of_length_le (by omega)
      rw [hall] at hc ⊢
      exact ⟨List.prefix_refl _, .inr ⟨rfl, by omega⟩⟩

/-- C44: `firstlines(s,n)` for n ≥ 1 is the first `n` lines of `s`, with their newlines (all of `s` if it has
fewer). -/
theorem C44_firstlines (s : Str) (n : Int) (hn : 1 ≤ n) (hl : s.length < 2 ^ 64 - 1) :
    FirstLines n.toNat s (firstlines s n) := by
  unfold firstlines
  have hnn : n.toNat = 1 + (n - 1).toNat := by omega
  rw [hnn]
  generalize (n - 1).toNat = k
  rcases next_line s 0 hl with ⟨i, h1, h2, h3, h4⟩ | ⟨h1, h2⟩
  · rw [h3]
    have hi : i < s.length := by
      rcases Nat.lt_or_ge i s.length with hlt | hge
      · exact hlt
      · rw [List.getElem?_eq_none hge] at h2; cases h2
    exact linesLoop_spec s hl k (i + 1) 1 (by omega) (by simpa using h4) (take_last s i 10 h2)
  · generalize bump s (size_t (find s [10] 0)) = q at h1
    have hq : linesLoop s k q = q := by
      cases k with
      | zero => rfl
      | succ k => rw [linesLoop, if_neg (by omega)]
    rw [hq, List.take_of_length_le (by omega)]
    rw [List.take_zero, List.count_nil] at h2
    exact ⟨List.prefix_refl _, .inr ⟨rfl, by omega⟩⟩

/-- The specification of C44 determines the result. -/
theorem firstLines_unique (n : Nat) (s p q : Str) (hp : FirstLines n s p) (hq : FirstLines n s q) : p = q := by
  have key : ∀ p q : Str, p <+: q → p.count 10 = n → q.count 10 = n → q.getLast? = some 10 → p = q := by
    rintro p q ⟨r, rfl⟩ h1 h2 h3
    rw [List.count_append] at h2
    cases r with
    | nil => simp
    | cons c t =>
      exfalso
      have hne : (c :: t) ≠ [] := by simp
      rw [List.getLast?_append, List.getLast?_eq_some_getLast hne, Option.some_or] at h3
      have hm : (10 : Byte) ∈ c :: t := by
        injection h3 with h3; rw [← h3]; exact List.getLast_mem hne
      have := List.count_pos_iff.mpr hm
      omega
  obtain ⟨hp1, hp2⟩ := hp
  obtain ⟨hq1, hq2⟩ := hq
  rcases hp2 with ⟨a, b⟩ | ⟨rfl, b⟩ <;> rcases hq2 with ⟨c, d⟩ | ⟨rfl, d⟩
  · rcases List.prefix_or_prefix_of_prefix hp1 hq1 with h | h
    · exact key p q h a c d
    · exact (key q p h c a b).symm
  · have := hp1.sublist.count_le 10; omega
  · have := hq1.sublist.count_le 10; omega
  · rfl

/-- C44: printing the first lines is stable: taking more lines only extends the result. -/
theorem C44_monotone (s : Str) (m n : Int) (hm : 1 ≤ m) (hmn : m ≤ n) (hl : s.length < 2 ^ 64 - 1) :
    firstlines s m <+: firstlines s n := by
  obtain ⟨hp1, hp2⟩ := C44_firstlines s m hm hl
  obtain ⟨hq1, hq2⟩ := C44_firstlines s n (by omega) hl
  rcases List.prefix_or_prefix_of_prefix hp1 hq1 with h | h
  · exact h
  · rcases hq2 with ⟨c, d⟩ | ⟨hqs, d⟩
    · have hle := h.sublist.count_le 10
      have hmn' : m.toNat ≤ n.toNat := by omega
      rcases hp2 with ⟨a, b⟩ | ⟨hps, b⟩
      · -- same counts: both end with the newline of that count
        have hmn2 : m = n := by omega
        subst hmn2; exact List.prefix_refl _
      · rw [hps] at hle; omega
    · rw [hqs] at h ⊢; exact hp1

/-! ### C45 -/

theorem cstr_vsn (size : Nat) (t : Str) (ht : ∀ c ∈ t, c ≠ 0) : cstr (vsn size t) 0 = t.take (size - 1) := by
  unfold cstr vsn
  rw [List.drop_zero, List.takeWhile_append_of_pos]
  · simp
  · intro c hc; simpa using ht c (List.mem_of_mem_take hc)

/-- C45, partial: `format` returns the whole text up to 5000 characters and its first 5000 otherwise, except
for texts of exactly 199 characters.  Missing: that length (`C45_refuted`). -/
theorem C45_format_partial (t : Str) (ht : ∀ c ∈ t, c ≠ 0) (h : t.length ≠ 199) : format t = t.take 5000 := by
  unfold format
  by_cases h1 : t.length ≤ 199
  · simp only [if_pos h1]
    rw [cstr_vsn _ _ ht, List.take_of_length_le (by omega), List.take_of_length_le (by omega)]
  · by_cases h2 : t.length > 5000
    · simp only [if_neg h1, if_pos h2]
      rw [cstr_vsn _ _ ht]
    · simp only [if_neg h1, if_neg h2]
      rw [cstr_vsn _ _ ht, List.take_of_length_le (by omega), List.take_of_length_le (by omega)]

/-- C45 (negation): every text of exactly 199 characters loses its last character. -/
theorem C45_refuted (t : Str) (ht : ∀ c ∈ t, c ≠ 0) (h : t.length = 199) : format t = t.dropLast ∧ format t ≠ t := by
  have : format t = t.dropLast := by
    unfold format
    simp only [if_pos (show t.length ≤ 199 by omega)]
    rw [cstr_vsn _ _ ht, List.dropLast_eq_take, h]
  refine ⟨this, ?_⟩
  rw [this]
  intro he
  have := congrArg List.length he
  rw [List.length_dropLast] at this
  omega

/-- C45: `osprintf` prints texts shorter than 296 characters completely and marks longer ones: first 296
characters followed by three dots (so it never overruns its 300-byte buffer). -/
theorem C45_osprintf (t : Str) (ht : ∀ c ∈ t, c ≠ 0) :
    osprintf t = if t.length < 296 then t else t.take 296 ++ [46, 46, 46] := by
  unfold osprintf
  by_cases h : t.length < 296
  · rw [if_pos h]
    simp only [if_neg (show ¬ t.length ≥ 300 - 4 by omega)]
    rw [cstr_vsn _ _ ht, List.take_of_length_le (by omega)]
  · rw [if_neg h]
    simp only [if_pos (show t.length ≥ 300 - 4 by omega)]
    have h1 : (vsn 300 t).take (300 - 4) = t.take 296 := by
      unfold vsn
      rw [List.take_append_of_le_length (by rw [List.length_take]; omega), List.take_take]; rfl
    rw [h1]
    unfold cstr
    rw [List.drop_zero, List.takeWhile_append_of_pos]
    · rfl
    · intro c hc; simpa using ht c (List.mem_of_mem_take hc)

example : firstlines (lit "a\nb\nc") 2 = lit "a\nb\n" := by decide +kernel
example : firstlines (lit "a\nb\nc") 5 = lit "a\nb\nc" := by decide +kernel
example : (format (List.replicate 250 97)).length = 250 ∧ (format (List.replicate 199 97)).length = 198 := by
  decide +kernel

end Verif.Utils
