import Verif.Core.Number
import Mathlib.Data.Nat.Digits.Defs
import Mathlib.Tactic.Ring

/-
Lemmas about reading and printing numbers.
-/

namespace Verif

/-- Folding digits into a number. -/
def foldDigits (b : Nat) (a : Nat) (s : Str) : Nat := s.foldl (fun a c => a * b + (digitVal c).getD 0) a

theorem scanNat_eq (b : Nat) (s : Str) : scanNat b s = foldDigits b 0 (s.takeWhile (isDig b)) := rfl

theorem takeWhile_all {p : Byte → Bool} {s : Str} (h : ∀ c ∈ s, p c = true) : s.takeWhile p = s := by
  induction s with
  | nil => rfl
  | cons c s ih => rw [List.takeWhile_cons_of_pos (h c (by simp)), ih fun x hx => h x (by simp [hx])]

theorem takeWhile_stop {p : Byte → Bool} {s : Str} {c : Byte} {t : Str} (hc : p c = false) : (s ++ c :: t).takeWhile p = s.takeWhile p := by
  induction s with
  | nil => rw [List.nil_append, List.takeWhile_cons_of_neg (by simp [hc])]; rfl
  | cons d s ih =>
    rw [List.cons_append]
    by_cases h : p d = true
    · rw [List.takeWhile_cons_of_pos h, List.takeWhile_cons_of_pos h, ih]
    · rw [List.takeWhile_cons_of_neg h, List.takeWhile_cons_of_neg h]

theorem scanNat_all {b : Nat} {s : Str} (h : ∀ c ∈ s, isDig b c = true) : scanNat b s = foldDigits b 0 s := by
  rw [scanNat_eq, takeWhile_all h]

theorem scanNat_stop {b : Nat} {s : Str} {c : Byte} {t : Str} (hc : isDig b c = false) : scanNat b (s ++ c :: t) = scanNat b s := by
  rw [scanNat_eq, scanNat_eq, takeWhile_stop hc]

theorem foldDigits_map (b : Nat) (a : Nat) (ds : List Nat) (f : Nat → Byte) (hf : ∀ d ∈ ds, digitVal (f d) = some d) :
    foldDigits b a (ds.map f) = a * b ^ ds.length + Nat.ofDigits b ds.reverse := by
  induction ds generalizing a with
  | nil => simp [foldDigits]
  | cons d ds ih =>
    have h1 := ih (a * b + d) fun x hx => hf x (by simp [hx])
    have h2 : foldDigits b a ((d :: ds).map f) = foldDigits b (a * b + d) (ds.map f) := by
      simp only [foldDigits, List.map_cons, List.foldl_cons, hf d (by simp), Option.getD_some]
    rw [h2, h1, List.reverse_cons, Nat.ofDigits_append]
    simp only [List.length_reverse, Nat.ofDigits_singleton, List.length_cons]
    ring

theorem digitVal_digitChar : ∀ d, d < 16 → digitVal (digitChar d) = some d := by decide

theorem isDig_digitChar {b d : Nat} (hb : b ≤ 16) (h : d < b) : isDig b (digitChar d) = true := by
  unfold isDig
  rw [digitVal_digitChar d (by omega)]
  simpa using h

theorem natText_isDig {b : Nat} (h2 : 2 ≤ b) (hb : b ≤ 16) (n : Nat) : ∀ c ∈ natText b n, isDig b c = true := by
  induction n using Nat.strongRecOn with
  | _ n ih =>
    intro c hc
    unfold natText at hc
    split at hc
    · next h =>
      rcases List.mem_append.1 hc with hc | hc
      · exact ih (n / b) (Nat.div_lt_self (by omega) (by omega)) c hc
      · rw [List.mem_singleton.1 hc]; exact isDig_digitChar hb (Nat.mod_lt _ (by omega))
    · next h => rw [List.mem_singleton.1 hc]; exact isDig_digitChar hb (by omega)

theorem foldDigits_append (b a : Nat) (s t : Str) : foldDigits b a (s ++ t) = foldDigits b (foldDigits b a s) t := by simp [foldDigits]

theorem natText_fold {b : Nat} (h2 : 2 ≤ b) (hb : b ≤ 16) (n : Nat) : foldDigits b 0 (natText b n) = n := by
  induction n using Nat.strongRecOn with
  | _ n ih =>
    unfold natText
    split
    · next h =>
      rw [foldDigits_append, ih (n / b) (Nat.div_lt_self (by omega) (by omega))]
      have : digitVal (digitChar (n % b)) = some (n % b) := digitVal_digitChar _ (by have := Nat.mod_lt n (show 0 < b by omega); omega)
      simp only [foldDigits, List.foldl_cons, List.foldl_nil, this, Option.getD_some]
      have := Nat.div_add_mod n b
      rw [Nat.mul_comm] at this
      omega
    · next h =>
      have : digitVal (digitChar n) = some n := digitVal_digitChar _ (by omega)
      simp [foldDigits, this]

theorem scanNat_natText {b : Nat} (h2 : 2 ≤ b) (hb : b ≤ 16) (n : Nat) : scanNat b (natText b n) = n := by
  rw [scanNat_all (natText_isDig h2 hb n), natText_fold h2 hb]

theorem scanNat_natText_stop {b : Nat} (h2 : 2 ≤ b) (hb : b ≤ 16) (n : Nat) {c : Byte} {t : Str} (hc : isDig b c = false) : scanNat b (natText b n ++ c :: t) = n := by
  rw [scanNat_stop hc, scanNat_natText h2 hb]

theorem natText_ne_nil (b n : Nat) : natText b n ≠ [] := by unfold natText; split <;> simp

/-- The first digit is not zero, except for zero itself. -/
theorem natText_head {b : Nat} (h2 : 2 ≤ b) (hb : b ≤ 16) (n : Nat) (hn : n ≠ 0) : ∃ d t, d < b ∧ d ≠ 0 ∧ natText b n = digitChar d :: t := by
  induction n using Nat.strongRecOn with
  | _ n ih =>
    unfold natText
    split
    · next h =>
      obtain ⟨d, t, h1, h3, h4⟩ := ih (n / b) (Nat.div_lt_self (by omega) (by omega)) (by
        have := Nat.div_pos h.2 (by omega); omega)
      exact ⟨d, t ++ [digitChar (n % b)], h1, h3, by rw [h4]; rfl⟩
    · next h => exact ⟨n, [], by omega, hn, rfl⟩

theorem clamp_of_mem {lo hi x : Int} (h1 : lo ≤ x) (h2 : x ≤ hi) : clamp lo hi x = x := by
  unfold clamp
  rw [if_neg (by omega), if_neg (by omega)]

theorem mag0_nonzero {c : Byte} {t : Str} (h : c ≠ 48) : mag0 (c :: t) = scanNat 10 (c :: t) := by
  unfold mag0
  split
  · next e => cases e; exact absurd rfl h
  · next e => cases e; exact absurd rfl h
  · rfl

theorem mag0_three (x d : Byte) (t : Str) :
    mag0 (48 :: x :: d :: t) = if (x = chr 'x' ∨ x = chr 'X') ∧ isDig 16 d then scanNat 16 (d :: t) else scanNat 8 (48 :: x :: d :: t) := rfl

theorem mem_takeWhile_imp {p : Byte → Bool} {s : Str} {c : Byte} (h : c ∈ s.takeWhile p) : p c = true := by
  induction s with
  | nil => cases h
  | cons d s ih =>
    by_cases hd : p d = true
    · rw [List.takeWhile_cons_of_pos hd] at h
      rcases List.mem_cons.1 h with rfl | h
      · exact hd
      · exact ih h
    · rw [List.takeWhile_cons_of_neg hd] at h; cases h

theorem mag0_natText (n : Nat) : mag0 (natText 10 n) = n := by
  by_cases hn : n = 0
  · subst hn; unfold natText; rw [dif_neg (by omega)]; decide
  · obtain ⟨d, t, h1, h2, h3⟩ := natText_head (b := 10) (by omega) (by omega) n hn
    have h48 : digitChar d ≠ 48 := by
      have key : ∀ d, d < 10 → d ≠ 0 → digitChar d ≠ 48 := by decide
      exact key d h1 h2
    have := scanNat_natText (b := 10) (by omega) (by omega) n
    rw [h3] at this ⊢
    rw [mag0_nonzero h48, this]

theorem digitChar_plain : ∀ d, d < 16 → isSpace (digitChar d) = false ∧ digitChar d ≠ chr '-' ∧ digitChar d ≠ chr '+' := by decide

theorem natText_plain {b : Nat} (h2 : 2 ≤ b) (hb : b ≤ 16) (n : Nat) : ∃ c t, natText b n = c :: t ∧ isSpace c = false ∧ c ≠ chr '-' ∧ c ≠ chr '+' ∧ isDig b c = true := by
  by_cases hn : n = 0
  · subst hn
    refine ⟨48, [], ?_, by decide, by decide, by decide, ?_⟩
    · unfold natText; rw [dif_neg (by omega)]; rfl
    · have := isDig_digitChar hb (show 0 < b by omega)
      exact this
  · obtain ⟨d, t, h1, h2', h3⟩ := natText_head h2 hb n hn
    obtain ⟨p1, p2, p3⟩ := digitChar_plain d (by omega)
    exact ⟨_, t, h3, p1, p2, p3, isDig_digitChar hb h1⟩

theorem dropWhile_cons {c : Byte} {t : Str} (h : isSpace c = false) : (c :: t).dropWhile isSpace = c :: t := by
  rw [List.dropWhile_cons_of_neg (by simp [h])]

theorem signed_plain {mag : Str → Nat} {c : Byte} {t : Str} (h1 : c ≠ chr '-') (h2 : c ≠ chr '+') : signed mag (c :: t) = mag (c :: t) := by
  unfold signed
  simp only
  rw [if_neg h1, if_neg h2]

/-- `signed` on the printed number, followed by something that is not a digit. -/
theorem signed_intText {mag : Str → Nat} (hm : ∀ n, mag (natText 10 n) = n) (n : Int) : signed mag ((intText n).dropWhile isSpace) = n := by
  unfold intText
  split
  · next h =>
    rw [dropWhile_cons (by decide)]
    unfold signed
    simp only
    rw [if_pos trivial, hm]
    omega
  · next h =>
    obtain ⟨c, t, h1, h2, h3, h4, -⟩ := natText_plain (b := 10) (by omega) (by omega) n.natAbs
    have := hm n.natAbs
    rw [h1] at this ⊢
    rw [dropWhile_cons h2, signed_plain h3 h4, this]
    omega

theorem natText_length (n k : Nat) (hk : 1 ≤ k) : (natText 10 n).length ≤ k ↔ n < 10 ^ k := by
  induction k generalizing n with
  | zero => omega
  | succ k ih =>
    rw [natText]
    by_cases h : 10 ≤ n
    · rw [dif_pos ⟨by omega, h⟩, List.length_append, List.length_singleton]
      by_cases hk0 : k = 0
      · subst hk0
        have : 0 < (natText 10 (n / 10)).length := List.length_pos_iff.2 (natText_ne_nil _ _)
        omega
      · have := ih (n / 10) (by omega)
        rw [Nat.pow_succ]
        omega
    · rw [dif_neg (by omega), List.length_singleton]
      have : 10 ^ 1 ≤ 10 ^ (k + 1) := Nat.pow_le_pow_right (by omega) (by omega)
      omega

end Verif
