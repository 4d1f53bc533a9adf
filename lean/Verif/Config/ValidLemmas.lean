import Verif.Config.Valid
import Verif.Config.ValidSpec
import Verif.Config.SqlProps
import Verif.Core.NumberLemmas
import Mathlib.Data.Nat.Digits.Lemmas

/-
Lemmas for `ValidProps.lean`.
-/

namespace Verif.Config
open Spec

/-! ### Digits -/

theorem digit_char : ∀ d, d < 10 → BitVec.ofNat 8 (48 + d) = digitChar d := by decide

theorem digits_eq {ds : List Nat} (h : ∀ d ∈ ds, d < 10) : digits ds = ds.map digitChar :=
  List.map_congr_left fun d hd => digit_char d (h d hd)

theorem natText_digits (n : Nat) : natText 10 n = digits (Nat.digits 10 n).reverse ∨ n = 0 := by
  induction n using Nat.strongRecOn with
  | _ n ih =>
    by_cases hn : n = 0
    · exact Or.inr hn
    · left
      unfold natText
      by_cases h : 2 ≤ 10 ∧ 10 ≤ n
      · rw [dif_pos h]
        rcases ih (n / 10) (by omega) with e | e
        · rw [e, Nat.digits_def' (by omega) (by omega : 0 < n), List.reverse_cons]
          unfold digits
          rw [List.map_append, List.map_cons, List.map_nil, digit_char _ (by omega)]
        · omega
      · rw [dif_neg h, Nat.digits_def' (by omega) (by omega : 0 < n), (by omega : n / 10 = 0), (by omega : n % 10 = n)]
        simp [digits, digit_char n (by omega)]

/-- `natText` is the canonical decimal text. -/
theorem canonical_natText (n : Nat) : Canonical (natText 10 n) n := by
  by_cases hn : n = 0
  · subst hn
    refine ⟨[0], by simp, by simp, by simp, ?_, by simp⟩
    unfold natText; rw [dif_neg (by omega)]; rfl
  · refine ⟨(Nat.digits 10 n).reverse, ?_, ?_, ?_, (natText_digits n).resolve_right hn, ?_⟩
    · simpa [Nat.digits_eq_nil_iff_eq_zero] using hn
    · intro d hd; exact Nat.digits_lt_base (by omega) (List.mem_reverse.1 hd)
    · intro h
      rw [List.head?_reverse] at h
      have hne : Nat.digits 10 n ≠ [] := Nat.digits_ne_nil_iff_ne_zero.2 hn
      rw [List.getLast?_eq_some_getLast hne] at h
      exact absurd (Option.some.inj h) (Nat.getLast_digit_ne_zero 10 hn)
    · rw [List.reverse_reverse, Nat.ofDigits_digits]

theorem canonical_unique {s : Str} {n : Nat} (h : Canonical s n) : s = natText 10 n := by
  obtain ⟨ds, h1, h2, h3, rfl, rfl⟩ := h
  by_cases h0 : ds.head? = some 0
  · rw [h3 h0]
    show _ = natText 10 (Nat.ofDigits 10 [0])
    unfold natText; rw [dif_neg (by simp)]; rfl
  · have hne : ds.reverse ≠ [] := by simpa using h1
    have e : Nat.digits 10 (Nat.ofDigits 10 ds.reverse) = ds.reverse := by
      apply Nat.digits_ofDigits 10 (by omega)
      · intro d hd; exact h2 d (List.mem_reverse.1 hd)
      · intro hx hz
        apply h0
        rw [← List.getLast?_reverse, List.getLast?_eq_some_getLast hx, hz]
    rcases natText_digits (Nat.ofDigits 10 ds.reverse) with x | x
    · rw [x, e, List.reverse_reverse]
    · rw [x] at e
      rw [Nat.digits_zero] at e
      exact absurd e.symm hne

theorem decimal_of_canonical {s : Str} {n : Nat} (h : Canonical s n) : Decimal s n := by
  obtain ⟨ds, h1, h2, -, h4, h5⟩ := h
  exact ⟨ds, h1, h2, h4, h5⟩

theorem scanNat_decimal {s : Str} {n : Nat} (h : Decimal s n) : scanNat 10 s = n := by
  obtain ⟨ds, -, h2, rfl, rfl⟩ := h
  rw [digits_eq h2, scanNat_all, foldDigits_map]
  · simp
  · intro d hd; exact digitVal_digitChar d (by have := h2 d hd; omega)
  · intro c hc
    obtain ⟨d, hd, rfl⟩ := List.mem_map.1 hc
    exact isDig_digitChar (by omega) (h2 d hd)

theorem decimal_cons {s : Str} {n : Nat} (h : Decimal s n) : ∃ c t, s = c :: t ∧ isSpace c = false ∧ c ≠ chr '-' ∧ c ≠ chr '+' := by
  obtain ⟨ds, h1, h2, rfl, -⟩ := h
  cases ds with
  | nil => exact absurd rfl h1
  | cons d ds =>
    obtain ⟨p1, p2, p3⟩ := digitChar_plain d (by have := h2 d (by simp); omega)
    rw [digits_eq h2]
    exact ⟨digitChar d, ds.map digitChar, rfl, p1, p2, p3⟩

/-- Reading a decimal number of any size. -/
theorem readInt_decimal {s : Str} {n : Nat} (h : Decimal s n) : readInt s = some (min (n : Int) (2 ^ 31 - 1)) := by
  obtain ⟨c, t, rfl, h1, h2, h3⟩ := decimal_cons h
  unfold readInt
  rw [dropWhile_cons h1]
  simp only
  rw [signed_plain h2 h3, scanNat_decimal h]
  congr 1
  unfold clamp
  rw [if_neg (by omega)]
  split <;> omega

theorem decimal_chars {s : Str} {n : Nat} (h : Decimal s n) : ∀ c ∈ s, isDigit c = true := by
  obtain ⟨ds, -, h2, rfl, -⟩ := h
  intro c hc
  obtain ⟨d, hd, rfl⟩ := List.mem_map.1 hc
  have key : ∀ d, d < 10 → isDigit (BitVec.ofNat 8 (48 + d)) = true := by decide
  exact key d (h2 d hd)

/-- Reading a signed number of any size. -/
theorem readInt_signed {s : Str} {v : Int} (h : Signed s v) : readInt s = some (clamp (-(2 ^ 31)) (2 ^ 31 - 1) v) := by
  rcases h with ⟨n, h, rfl⟩ | ⟨n, t, rfl, h, rfl⟩
  · rw [readInt_decimal h]
    congr 1
    unfold clamp
    rw [if_neg (by omega)]
    split <;> omega
  · unfold readInt
    rw [dropWhile_cons (by decide)]
    simp only [signed, if_pos]
    rw [scanNat_decimal h]

theorem signed_chars {s : Str} {v : Int} (h : Signed s v) : s ≠ [] ∧ ∀ c ∈ s, isDigit c = true ∨ c = chr '-' := by
  rcases h with ⟨n, h, rfl⟩ | ⟨n, t, rfl, h, rfl⟩
  · obtain ⟨c, t, e, -⟩ := decimal_cons h
    exact ⟨by simp [e], fun c hc => Or.inl (decimal_chars h c hc)⟩
  · refine ⟨by simp, ?_⟩
    intro c hc
    rcases List.mem_cons.1 hc with rfl | hc
    · exact Or.inr rfl
    · exact Or.inl (decimal_chars h c hc)

/-! ### `inet_pton` -/

theorem isDigit_char {c : Byte} (h : isDigit c = true) : ∃ d, d < 10 ∧ c = digitChar d ∧ c.toNat - 48 = d := by
  have key : ∀ n : Fin 256, isDigit (BitVec.ofFin n) = true → BitVec.ofFin n = digitChar (n.val - 48) ∧ n.val - 48 < 10 := by decide +kernel
  obtain ⟨n⟩ := c
  exact ⟨n.val - 48, (key n h).2, (key n h).1, rfl⟩

theorem digitChar_isDigit : ∀ d, d < 10 → isDigit (digitChar d) = true ∧ (digitChar d).toNat - 48 = d := by decide

theorem natText_snoc {a d : Nat} (ha : a ≠ 0) (hd : d < 10) : natText 10 (a * 10 + d) = natText 10 a ++ [digitChar d] := by
  rw [natText, dif_pos (by omega), (by omega : (a * 10 + d) / 10 = a), (by omega : (a * 10 + d) % 10 = d)]

theorem natText_one {d : Nat} (hd : d < 10) : natText 10 d = [digitChar d] := by rw [natText, dif_neg (by omega)]

/-- What follows an octet. -/
def PtonTail (k : Nat) (rest : Str) : Prop := (rest = [] ∧ 4 ≤ k) ∨ ∃ s', rest = chr '.' :: s' ∧ k ≠ 4 ∧ ptonLoop (k, 0, false) s' = true

theorem dot_not_digit : isDigit (chr '.') = false := by decide

/-- A prefix of a decimal text denotes a smaller number. -/
theorem fold_mono (b a : Nat) (hb : 1 ≤ b) (s : Str) : a ≤ foldDigits b a s := by
  induction s generalizing a with
  | nil => exact Nat.le_refl _
  | cons c s ih =>
    refine Nat.le_trans (m := a * b + (digitVal c).getD 0) ?_ (ih _)
    have : a * 1 ≤ a * b := Nat.mul_le_mul_left a hb
    omega

/-- Inside an octet. -/
theorem pton_in (k cur : Nat) (s : Str) (hc : cur ≤ 255) :
    ptonLoop (k, cur, true) s = true ↔ ∃ a e rest, a ≤ 255 ∧ natText 10 a = natText 10 cur ++ e ∧ s = e ++ rest ∧ PtonTail k rest := by
  induction s generalizing cur with
  | nil =>
    constructor
    · intro h
      exact ⟨cur, [], [], hc, by simp, rfl, Or.inl ⟨rfl, by simpa [ptonLoop] using h⟩⟩
    · rintro ⟨a, e, rest, -, -, h, ht⟩
      rcases ht with ⟨-, h4⟩ | ⟨s', rfl, -⟩
      · simpa [ptonLoop] using h4
      · simp at h
  | cons c s ih =>
    by_cases hd : isDigit c = true
    · obtain ⟨d, d10, rfl, dv⟩ := isDigit_char hd
      by_cases h0 : cur = 0
      · subst h0
        constructor
        · intro h; simp [ptonLoop, ptonStep, hd] at h
        · rintro ⟨a, e, rest, ha, hn, hs, ht⟩
          exfalso
          rw [natText_one (d := 0) (by omega)] at hn
          have he : e = [] := by
            by_cases a0 : a = 0
            · subst a0; rw [natText_one (by omega)] at hn; simpa using hn
            · obtain ⟨x, t, hx, x0, hx2⟩ := natText_head (b := 10) (by omega) (by omega) a a0
              rw [hx2] at hn
              simp only [List.cons_append, List.nil_append, List.cons.injEq] at hn
              have := congrArg digitVal hn.1
              rw [digitVal_digitChar x (by omega), digitVal_digitChar 0 (by omega)] at this
              exact absurd (Option.some.inj this) x0
          subst he
          rcases ht with ⟨rfl, -⟩ | ⟨s', rfl, -⟩
          · simp at hs
          · simp only [List.nil_append, List.cons.injEq] at hs
            rw [hs.1, dot_not_digit] at hd
            cases hd
      · have step : ptonLoop (k, cur, true) (digitChar d :: s) = if 255 < cur * 10 + d then false else ptonLoop (k, cur * 10 + d, true) s := by
          rw [ptonLoop]
          unfold ptonStep
          simp only [hd, if_true, dv]
          rw [if_neg (by simp [h0])]
          by_cases h255 : 255 < cur * 10 + d
          · simp [h255]
          · simp [h255]
        rw [step]
        by_cases h255 : 255 < cur * 10 + d
        · simp only [h255, if_true]
          constructor
          · intro h; cases h
          · rintro ⟨a, e, rest, ha, hn, hs, ht⟩
            exfalso
            cases e with
            | nil =>
              rcases ht with ⟨rfl, -⟩ | ⟨s', rfl, -⟩
              · simp at hs
              · simp only [List.nil_append, List.cons.injEq] at hs
                rw [hs.1, dot_not_digit] at hd
                cases hd
            | cons x e =>
              simp only [List.cons_append, List.cons.injEq] at hs
              rw [← hs.1] at hn
              have h1 := natText_fold (b := 10) (by omega) (by omega) a
              rw [hn, foldDigits_append, natText_fold (by omega) (by omega)] at h1
              have h2 := fold_mono 10 (cur * 10 + d) (by omega) e
              have h3 : foldDigits 10 cur (digitChar d :: e) = foldDigits 10 (cur * 10 + d) e := by
                show foldDigits 10 (cur * 10 + (digitVal (digitChar d)).getD 0) e = _
                rw [digitVal_digitChar d (by omega)]; rfl
              omega
        · simp only [h255, if_false]
          rw [ih (cur * 10 + d) (by omega), natText_snoc h0 d10]
          constructor
          · rintro ⟨a, e, rest, ha, hn, rfl, ht⟩
            exact ⟨a, digitChar d :: e, rest, ha, by rw [hn]; simp, rfl, ht⟩
          · rintro ⟨a, e, rest, ha, hn, hs, ht⟩
            cases e with
            | nil =>
              exfalso
              rcases ht with ⟨rfl, -⟩ | ⟨s', rfl, -⟩
              · simp at hs
              · simp only [List.nil_append, List.cons.injEq] at hs
                rw [hs.1, dot_not_digit] at hd
                cases hd
            | cons x e =>
              simp only [List.cons_append, List.cons.injEq] at hs
              refine ⟨a, e, rest, ha, ?_, hs.2, ht⟩
              rw [hn, ← hs.1]; simp
    · have hd' : isDigit c = false := by simpa using hd
      have step : ptonLoop (k, cur, true) (c :: s) = if c = chr '.' then (if k = 4 then false else ptonLoop (k, 0, false) s) else false := by
        rw [ptonLoop]
        unfold ptonStep
        simp only [hd', Bool.false_eq_true, if_false, Bool.and_true]
        by_cases e1 : c = chr '.'
        · by_cases e2 : k = 4
          · simp [e1, e2]
          · simp [e1, e2]
        · simp [e1]
      rw [step]
      constructor
      · intro h
        by_cases e1 : c = chr '.'
        · rw [if_pos e1] at h
          by_cases e2 : k = 4
          · rw [if_pos e2] at h; cases h
          · rw [if_neg e2] at h
            exact ⟨cur, [], c :: s, hc, by simp, rfl, Or.inr ⟨s, by rw [e1], e2, h⟩⟩
        · rw [if_neg e1] at h; cases h
      · rintro ⟨a, e, rest, ha, hn, hs, ht⟩
        cases e with
        | nil =>
          rcases ht with ⟨rfl, -⟩ | ⟨s', rfl, h4, h⟩
          · simp at hs
          · simp only [List.nil_append, List.cons.injEq] at hs
            rw [if_pos hs.1, if_neg h4, hs.2]; exact h
        | cons x e =>
          exfalso
          simp only [List.cons_append, List.cons.injEq] at hs
          have hm : x ∈ natText 10 a := by rw [hn]; simp
          have hx := decimal_chars (decimal_of_canonical (canonical_natText a)) x hm
          rw [← hs.1, hd'] at hx
          cases hx

/-- At the beginning of an octet. -/
theorem pton_start (k : Nat) (s : Str) (hk : k < 4) :
    ptonLoop (k, 0, false) s = true ↔ ∃ a rest, a < 256 ∧ s = natText 10 a ++ rest ∧ PtonTail (k + 1) rest := by
  cases s with
  | nil =>
    constructor
    · intro h; simp [ptonLoop] at h; omega
    · rintro ⟨a, rest, -, h, -⟩
      have := natText_ne_nil 10 a
      simp [this] at h
  | cons c s =>
    by_cases hd : isDigit c = true
    · obtain ⟨d, d10, rfl, dv⟩ := isDigit_char hd
      have step : ptonLoop (k, 0, false) (digitChar d :: s) = ptonLoop (k + 1, d, true) s := by
        rw [ptonLoop]
        have : ptonStep (k, 0, false) (digitChar d) = some (k + 1, d, true) := by
          unfold ptonStep
          simp only [hd, if_true, dv, Bool.false_and, Bool.false_eq_true, if_false]
          rw [if_neg (by omega), if_neg (by omega)]
          simp
        rw [this]
      rw [step, pton_in (k + 1) d s (by omega), natText_one d10]
      constructor
      · rintro ⟨a, e, rest, ha, hn, rfl, ht⟩
        exact ⟨a, rest, by omega, by rw [hn]; simp, ht⟩
      · rintro ⟨a, rest, ha, hs, ht⟩
        obtain ⟨x, t, hx⟩ : ∃ x t, natText 10 a = x :: t := by
          cases h : natText 10 a with
          | nil => exact absurd h (natText_ne_nil 10 a)
          | cons x t => exact ⟨x, t, rfl⟩
        rw [hx] at hs
        simp only [List.cons_append, List.cons.injEq] at hs
        exact ⟨a, t, rest, by omega, by rw [hx, hs.1]; rfl, hs.2, ht⟩
    · have hd' : isDigit c = false := by simpa using hd
      constructor
      · intro h
        simp [ptonLoop, ptonStep, hd'] at h
      · rintro ⟨a, rest, ha, hs, -⟩
        exfalso
        obtain ⟨x, t, hx⟩ : ∃ x t, natText 10 a = x :: t := by
          cases h : natText 10 a with
          | nil => exact absurd h (natText_ne_nil 10 a)
          | cons x t => exact ⟨x, t, rfl⟩
        have hm := decimal_chars (decimal_of_canonical (canonical_natText a)) x (by simp [hx])
        rw [hx] at hs
        simp only [List.cons_append, List.cons.injEq] at hs
        rw [← hs.1, hd'] at hm
        cases hm

/-- `inet_pton` accepts exactly the dotted quads. -/
theorem pton_quad (s : Str) : ptonLoop (0, 0, false) s = true ↔ Quad s := by
  constructor
  · intro h
    obtain ⟨a, r1, ha, rfl, t1⟩ := (pton_start 0 s (by omega)).1 h
    obtain ⟨s1, rfl, -, h1⟩ := t1.resolve_left (by rintro ⟨-, h⟩; omega)
    obtain ⟨b, r2, hb, rfl, t2⟩ := (pton_start 1 s1 (by omega)).1 h1
    obtain ⟨s2, rfl, -, h2⟩ := t2.resolve_left (by rintro ⟨-, h⟩; omega)
    obtain ⟨c, r3, hc, rfl, t3⟩ := (pton_start 2 s2 (by omega)).1 h2
    obtain ⟨s3, rfl, -, h3⟩ := t3.resolve_left (by rintro ⟨-, h⟩; omega)
    obtain ⟨d, r4, hd, rfl, t4⟩ := (pton_start 3 s3 (by omega)).1 h3
    have e : r4 = [] := by
      rcases t4 with ⟨h, -⟩ | ⟨s4, -, h, -⟩
      · exact h
      · exact absurd rfl h
    subst e
    exact ⟨a, b, c, d, _, _, _, _, ha, hb, hc, hd, canonical_natText a, canonical_natText b, canonical_natText c, canonical_natText d, by simp⟩
  · rintro ⟨a, b, c, d, x, y, z, t, ha, hb, hc, hd, hx, hy, hz, ht, rfl⟩
    rw [canonical_unique hx, canonical_unique hy, canonical_unique hz, canonical_unique ht]
    refine (pton_start 0 _ (by omega)).2 ⟨a, _, ha, by simp only [List.append_assoc, List.cons_append]; rfl, Or.inr ⟨_, rfl, by omega, ?_⟩⟩
    refine (pton_start 1 _ (by omega)).2 ⟨b, _, hb, rfl, Or.inr ⟨_, rfl, by omega, ?_⟩⟩
    refine (pton_start 2 _ (by omega)).2 ⟨c, _, hc, rfl, Or.inr ⟨_, rfl, by omega, ?_⟩⟩
    exact (pton_start 3 _ (by omega)).2 ⟨d, [], hd, by simp, Or.inl ⟨rfl, by omega⟩⟩

theorem quad_nul {s : Str} (h : Quad s) : (0 : Byte) ∉ s := by
  obtain ⟨a, b, c, d, x, y, z, t, -, -, -, -, hx, hy, hz, ht, rfl⟩ := h
  have key : ∀ {u : Str} {n : Nat}, Canonical u n → (0 : Byte) ∉ u := by
    intro u n hu hm
    have := decimal_chars (decimal_of_canonical hu) 0 hm
    revert this; decide
  have kd : (0 : Byte) ≠ chr '.' := by decide
  simp only [List.mem_append, List.mem_cons, not_or]
  exact ⟨⟨⟨key hx, kd, key hy⟩, kd, key hz⟩, kd, key ht⟩

theorem isValidIP_iff (s : Str) : isValidIP s = true ↔ Quad (cText s) := pton_quad _

theorem cText_nul (s : Str) : (0 : Byte) ∉ cText s := by
  intro h
  have := mem_takeWhile_imp h
  simp at this

/-! ### Positions -/

theorem idx_none {s : Str} {c : Byte} (h : c ∉ s) : s.idxOf? c = none := by simpa [List.idxOf?_eq_none_iff] using h

theorem idx_split {s t : Str} {c : Byte} (h : c ∉ s) : (s ++ c :: t).idxOf? c = some s.length := by
  induction s with
  | nil => simp [List.idxOf?_cons]
  | cons d s ih =>
    have hd : d ≠ c := fun e => h (by simp [e])
    rw [List.cons_append, List.idxOf?_cons, ih fun hm => h (by simp [hm])]
    simp [hd]

theorem findFrom_at (pre rest : Str) (c : Byte) : findFrom (pre ++ rest) c pre.length = (rest.idxOf? c).map (· + pre.length) := by simp [findFrom]

theorem findFrom_zero (s : Str) (c : Byte) : findFrom s c 0 = s.idxOf? c := by
  have := findFrom_at [] s c
  simpa using this

theorem u32_small {n : Nat} (h : n < 2 ^ 32) : u32 (n : Int) = n := by unfold u32; omega

theorem substr_at (pre rest : Str) (n : Nat) : substr (pre ++ rest) pre.length n = rest.take n := by simp [substr]

/-- 32- or 64-bit `size_t`. -/
def Width (w : Nat) : Prop := w = 32 ∨ w = 64

theorem small_ne_npos {w n : Nat} (hw : Width w) (h : n < 2 ^ 31) : n ≠ 2 ^ w - 1 := by
  rcases hw with rfl | rfl <;> omega

/-- A value with the delimiter. -/
theorem twoParts_split {w : Nat} (hw : Width w) {a b : Str} {c : Byte} (hc : c ∉ a) (hl : (a ++ c :: b).length < 2 ^ 31) :
    twoParts w c (a ++ c :: b) = some (a, (readInt b).getD (-1)) := by
  have hl' : a.length < 2 ^ 31 := by simp at hl; omega
  unfold twoParts
  rw [findFrom_zero, idx_split hc]
  simp only [asSize, u32_small (show a.length < 2 ^ 32 by omega)]
  rw [if_pos (small_ne_npos hw hl')]
  have e1 : u32 ((a.length : Int) + 1) = a.length + 1 := by
    have := u32_small (n := a.length + 1) (by omega)
    push_cast at this; exact this
  have e2 : substr (a ++ c :: b) 0 a.length = a := by simp [substr]
  have e3 : substr (a ++ c :: b) (a.length + 1) (a ++ c :: b).length = b := by
    have := substr_at (a ++ [c]) b (a ++ c :: b).length
    simp only [List.append_assoc, List.cons_append, List.nil_append, List.length_append, List.length_cons, List.length_nil, Nat.zero_add] at this ⊢
    rw [this, List.take_of_length_le (by omega)]
  rw [e1, e2, e3]

/-- A value without the delimiter, 64 bits: position 2^32-1, so both parts are the whole value. -/
theorem twoParts_missing {val : Str} {c : Byte} (hc : c ∉ val) (hl : val.length < 2 ^ 31) : twoParts 64 c val = some (val, (readInt val).getD (-1)) := by
  unfold twoParts
  rw [findFrom_zero, idx_none hc]
  have e0 : u32 ((asSize 64 none : Nat) : Int) = 2 ^ 32 - 1 := by decide
  simp only [e0]
  have e1 : u32 (((2 ^ 32 - 1 : Nat) : Int) + 1) = 0 := by decide
  rw [if_pos (by decide), e1]
  unfold substr
  rw [List.drop_zero, List.take_of_length_le (by omega), List.take_of_length_le (by omega)]

/-- 32 bits: detected. -/
theorem twoParts_missing32 {val : Str} {c : Byte} (hc : c ∉ val) : twoParts 32 c val = none := by
  unfold twoParts
  rw [findFrom_zero, idx_none hc]
  have e0 : u32 ((asSize 32 none : Nat) : Int) = 2 ^ 32 - 1 := by decide
  simp only [e0]
  rw [if_neg (by decide)]

/-! ### Choices -/

theorem choice_step {w : Nat} (tmp val : Str) (f p : Nat) {cand : Str} (hc : choiceCand w tmp p = cand) :
    choiceLoop w tmp val (f + 1) p = if val = cand then true else match findFrom tmp (chr ',') p with
      | none => false
      | some q => choiceLoop w tmp val f (q + 1) := by
  subst hc; rfl

theorem commas_cons (x y : Str) (l : List Str) : commas (x :: y :: l) = x ++ chr ',' :: commas (y :: l) := rfl

/-- An entry with `v|` in front is compared with `v`. -/
theorem cand_described {w : Nat} (hw : Width w) (pre v rest : Str) (hv : chr '|' ∉ v) (hl : (pre ++ (v ++ chr '|' :: rest)).length < 2 ^ 31) :
    choiceCand w (pre ++ (v ++ chr '|' :: rest)) pre.length = v := by
  have hl' : v.length + pre.length < 2 ^ 31 := by simp at hl; omega
  have e0 : u32 (asSize w (findFrom (pre ++ (v ++ chr '|' :: rest)) (chr '|') pre.length)) = v.length + pre.length := by
    rw [findFrom_at, idx_split hv]
    exact u32_small (n := v.length + pre.length) (by omega)
  have e : (((v.length + pre.length : Nat) : Int) - pre.length) = (v.length : Int) := by push_cast; omega
  unfold choiceCand
  rw [e0]
  simp only
  rw [if_neg (small_ne_npos hw hl'), e, u32_small (by omega), substr_at]
  simp

theorem choice_described {w : Nat} (hw : Width w) (val : Str) (l : List (Str × Str)) (hne : l ≠ []) (hv : ∀ e ∈ l, chr '|' ∉ e.1 ∧ chr ',' ∉ e.1 ∧ chr ',' ∉ e.2) (pre : Str) (f : Nat)
    (hf : l.length ≤ f) (hl : (pre ++ described l).length < 2 ^ 31) :
    choiceLoop w (pre ++ described l) val f pre.length = decide (val ∈ l.map (·.1)) := by
  induction l generalizing pre f with
  | nil => exact absurd rfl hne
  | cons e l ih =>
    obtain ⟨f, rfl⟩ : ∃ g, f = g + 1 := ⟨f - 1, by simp at hf; omega⟩
    obtain ⟨v1, v2, v3⟩ := hv e (by simp)
    have kc : chr ',' ≠ chr '|' := by decide
    cases l with
    | nil =>
      have he : described [e] = e.1 ++ chr '|' :: e.2 := rfl
      rw [he] at hl ⊢
      rw [choice_step _ val f pre.length (cand_described hw pre e.1 e.2 v1 hl), findFrom_at, idx_none (by simp [v2, v3, kc])]
      simp
    | cons e' l =>
      have he : described (e :: e' :: l) = e.1 ++ chr '|' :: (e.2 ++ chr ',' :: described (e' :: l)) := by
        show (e.1 ++ chr '|' :: e.2) ++ chr ',' :: described (e' :: l) = _
        simp
      have he2 : pre ++ described (e :: e' :: l) = (pre ++ (e.1 ++ chr '|' :: e.2) ++ [chr ',']) ++ described (e' :: l) := by rw [he]; simp
      have hi := ih (by simp) (fun x hx => hv x (by simp [hx])) (pre ++ (e.1 ++ chr '|' :: e.2) ++ [chr ',']) f (by simp at hf ⊢; omega) (by rw [← he2]; exact hl)
      have hl2 := hl
      rw [he] at hl2
      rw [he, choice_step _ val f pre.length (cand_described hw pre e.1 _ v1 hl2), ← he, findFrom_at]
      have hidx : (described (e :: e' :: l)).idxOf? (chr ',') = some (e.1 ++ chr '|' :: e.2).length := by
        rw [show described (e :: e' :: l) = (e.1 ++ chr '|' :: e.2) ++ chr ',' :: described (e' :: l) from rfl]
        exact idx_split (by simp [v2, v3, kc])
      rw [hidx]
      simp only [Option.map_some]
      have hp : (e.1 ++ chr '|' :: e.2).length + pre.length + 1 = (pre ++ (e.1 ++ chr '|' :: e.2) ++ [chr ',']).length := by simp; omega
      rw [hp, he2, hi]
      by_cases h : val = e.1 <;> simp [h]

/-- Without any bar, 64 bits: compared with everything that is left. -/
theorem cand_plain64 (pre rest : Str) (hv : chr '|' ∉ rest) (hl : (pre ++ rest).length < 2 ^ 31) : choiceCand 64 (pre ++ rest) pre.length = rest := by
  rw [List.length_append] at hl
  have e0 : u32 (asSize 64 (findFrom (pre ++ rest) (chr '|') pre.length)) = 2 ^ 32 - 1 := by
    rw [findFrom_at, idx_none hv, Option.map_none]; decide
  unfold choiceCand
  rw [e0]
  simp only
  rw [if_neg (by decide), substr_at, List.take_of_length_le]
  unfold u32
  omega

/-- Without any bar, 32 bits: compared up to the comma. -/
theorem cand_plain32 (pre rest : Str) (hv : chr '|' ∉ rest) {x : Str} (hx : rest = x ∨ ∃ t, rest = x ++ chr ',' :: t) (hc : chr ',' ∉ x) (hl : (pre ++ rest).length < 2 ^ 31) :
    choiceCand 32 (pre ++ rest) pre.length = x := by
  rw [List.length_append] at hl
  have e0 : u32 (asSize 32 (findFrom (pre ++ rest) (chr '|') pre.length)) = 2 ^ 32 - 1 := by
    rw [findFrom_at, idx_none hv, Option.map_none]; decide
  unfold choiceCand
  rw [e0]
  simp only
  rw [if_pos trivial, substr_at, findFrom_at]
  rcases hx with rfl | ⟨t, rfl⟩
  · rw [idx_none hc, List.take_of_length_le]
    simp only [Option.map_none, asSize]
    omega
  · rw [idx_split hc]
    simp [asSize]

theorem mem_commas {l : List Str} {c : Byte} (h : ∀ x ∈ l, c ∉ x) (hc : c ≠ chr ',') : c ∉ commas l := by
  induction l with
  | nil => simp [commas]
  | cons x l ih =>
    cases l with
    | nil => exact h x (by simp)
    | cons y l =>
      rw [commas_cons]
      simp only [List.mem_append, List.mem_cons, not_or]
      exact ⟨h x (by simp), hc, ih fun z hz => h z (by simp [hz])⟩

theorem choice_plain64 (val : Str) (l : List Str) (hne : l ≠ []) (hv : ∀ x ∈ l, chr '|' ∉ x ∧ chr ',' ∉ x) (pre : Str) (f : Nat) (hf : l.length ≤ f)
    (hl : (pre ++ commas l).length < 2 ^ 31) :
    choiceLoop 64 (pre ++ commas l) val f pre.length = true ↔ ∃ t, t ≠ [] ∧ t <:+ l ∧ val = commas t := by
  induction l generalizing pre f with
  | nil => exact absurd rfl hne
  | cons x l ih =>
    obtain ⟨f, rfl⟩ : ∃ g, f = g + 1 := ⟨f - 1, by simp at hf; omega⟩
    have hb : chr '|' ∉ commas (x :: l) := mem_commas (fun y hy => (hv y hy).1) (by decide)
    rw [choice_step _ val f pre.length (cand_plain64 pre (commas (x :: l)) hb hl), findFrom_at]
    obtain ⟨v1, v2⟩ := hv x (by simp)
    cases l with
    | nil =>
      rw [show commas [x] = x from rfl, idx_none v2]
      simp only [Option.map_none]
      constructor
      · intro h
        refine ⟨[x], by simp, List.suffix_rfl, ?_⟩
        by_contra hn
        rw [if_neg (show ¬ val = x from hn)] at h; cases h
      · rintro ⟨t, ht, hs, rfl⟩
        have : t = [x] := by
          rcases List.suffix_cons_iff.1 hs with h | h
          · exact h
          · exact absurd (List.suffix_nil.1 h) ht
        rw [this]; exact if_pos rfl
    | cons y l =>
      have he2 : pre ++ commas (x :: y :: l) = (pre ++ x ++ [chr ',']) ++ commas (y :: l) := by rw [commas_cons]; simp
      have hi := ih (by simp) (fun z hz => hv z (by simp [hz])) (pre ++ x ++ [chr ',']) f (by simp at hf ⊢; omega) (by rw [← he2]; exact hl)
      have hidx : (commas (x :: y :: l)).idxOf? (chr ',') = some x.length := by rw [commas_cons]; exact idx_split v2
      rw [hidx]
      simp only [Option.map_some]
      rw [show x.length + pre.length + 1 = (pre ++ x ++ [chr ',']).length by simp; omega, he2]
      constructor
      · intro h
        by_cases e : val = commas (x :: y :: l)
        · exact ⟨x :: y :: l, by simp, List.suffix_rfl, e⟩
        · rw [if_neg e] at h
          obtain ⟨t, h1, h2, h3⟩ := hi.1 h
          exact ⟨t, h1, List.suffix_cons_iff.2 (Or.inr h2), h3⟩
      · rintro ⟨t, h1, h2, h3⟩
        by_cases e : val = commas (x :: y :: l)
        · rw [if_pos e]
        · rw [if_neg e]
          rcases List.suffix_cons_iff.1 h2 with h | h
          · exact absurd (h ▸ h3) e
          · exact hi.2 ⟨t, h1, h, h3⟩

theorem choice_plain32 (val : Str) (l : List Str) (hne : l ≠ []) (hv : ∀ x ∈ l, chr '|' ∉ x ∧ chr ',' ∉ x) (pre : Str) (f : Nat) (hf : l.length ≤ f)
    (hl : (pre ++ commas l).length < 2 ^ 31) : choiceLoop 32 (pre ++ commas l) val f pre.length = decide (val ∈ l) := by
  induction l generalizing pre f with
  | nil => exact absurd rfl hne
  | cons x l ih =>
    obtain ⟨f, rfl⟩ : ∃ g, f = g + 1 := ⟨f - 1, by simp at hf; omega⟩
    have hb : chr '|' ∉ commas (x :: l) := mem_commas (fun y hy => (hv y hy).1) (by decide)
    obtain ⟨v1, v2⟩ := hv x (by simp)
    cases l with
    | nil =>
      rw [choice_step _ val f pre.length (cand_plain32 pre (commas [x]) hb (Or.inl rfl) v2 hl), findFrom_at, show commas [x] = x from rfl, idx_none v2]
      simp
    | cons y l =>
      have he2 : pre ++ commas (x :: y :: l) = (pre ++ x ++ [chr ',']) ++ commas (y :: l) := by rw [commas_cons]; simp
      have hi := ih (by simp) (fun z hz => hv z (by simp [hz])) (pre ++ x ++ [chr ',']) f (by simp at hf ⊢; omega) (by rw [← he2]; exact hl)
      have hidx : (commas (x :: y :: l)).idxOf? (chr ',') = some x.length := by rw [commas_cons]; exact idx_split v2
      rw [choice_step _ val f pre.length (cand_plain32 pre (commas (x :: y :: l)) hb (Or.inr ⟨_, commas_cons x y l⟩) v2 hl), findFrom_at, hidx]
      simp only [Option.map_some]
      rw [show x.length + pre.length + 1 = (pre ++ x ++ [chr ',']).length by simp; omega, he2, hi]
      by_cases h : val = x <;> simp [h]

theorem length_commas (l : List Str) : l.length ≤ (commas l).length + 1 := by
  induction l with
  | nil => simp
  | cons x l ih =>
    cases l with
    | nil => simp
    | cons y l => rw [commas_cons]; simp at ih ⊢; omega

/-! ### Ranges -/

theorem signed_no {s : Str} {v : Int} (h : Signed s v) {c : Byte} (h1 : isDigit c = false) (h2 : c ≠ chr '-') : c ∉ s := by
  intro hm
  rcases (signed_chars h).2 c hm with e | e
  · rw [h1] at e; cases e
  · exact h2 e

theorem minMax_parts {w : Nat} (hw : Width w) {lo hi : Str} (nlo : ∀ c, isDigit c = false → c ≠ chr '-' → c ≠ chr '.' → c ∉ lo)
    (nhi : ∀ c, isDigit c = false → c ≠ chr '-' → c ≠ chr '.' → c ∉ hi) (step : Option Str) (hl : (lo ++ hi).length < 2 ^ 30) : minMax w (range lo hi step) = (lo, hi) := by
  have np : chr '(' ∉ lo ++ chr ':' :: hi := by
    simp only [List.mem_append, List.mem_cons, not_or]
    exact ⟨nlo _ (by decide) (by decide) (by decide), by decide, nhi _ (by decide) (by decide) (by decide)⟩
  have htmp : stripStep (range lo hi step) = lo ++ chr ':' :: hi := by
    unfold range stripStep
    cases step with
    | none =>
      simp only [List.append_nil]
      rw [findFrom_zero, idx_none np]
    | some s =>
      rw [findFrom_zero]
      simp only [List.cons_append]
      rw [idx_split np]
      show List.take _ (List.drop 0 _) = _
      rw [List.drop_zero, List.take_left]
  rw [List.length_append] at hl
  have e1 : u32 ((lo.length : Int) + 1) = lo.length + 1 := by
    have := u32_small (n := lo.length + 1) (by omega)
    push_cast at this; exact this
  have e0 : u32 (asSize w (findFrom (lo ++ chr ':' :: hi) (chr ':') 0)) = lo.length := by
    rw [findFrom_zero, idx_split (nlo _ (by decide) (by decide) (by decide))]
    exact u32_small (n := lo.length) (by omega)
  unfold minMax
  rw [htmp, e0]
  simp only [e1]
  have e2 : substr (lo ++ chr ':' :: hi) 0 lo.length = lo := by simp [substr]
  have e3 : findFrom (lo ++ chr ':' :: hi) (chr ',') lo.length = none := by
    rw [findFrom_at, idx_none]
    · rfl
    · simp only [List.mem_cons, not_or]
      exact ⟨by decide, nhi _ (by decide) (by decide) (by decide)⟩
  have e4 : ∀ n, hi.length ≤ n → substr (lo ++ chr ':' :: hi) (lo.length + 1) n = hi := by
    intro n hn
    have := substr_at (lo ++ [chr ':']) hi n
    simp only [List.append_assoc, List.cons_append, List.nil_append, List.length_append, List.length_cons, List.length_nil, Nat.zero_add] at this
    rw [this, List.take_of_length_le hn]
  rw [e2, e3, e4]
  rcases hw with rfl | rfl <;> simp only [asSize] <;> omega

theorem minMax_range {w : Nat} (hw : Width w) {lo hi : Str} {a b : Int} (hlo : Signed lo a) (hhi : Signed hi b) (step : Option Str) (hl : (lo ++ hi).length < 2 ^ 30) :
    minMax w (range lo hi step) = (lo, hi) :=
  minMax_parts hw (fun _ h1 h2 _ => signed_no hlo h1 h2) (fun _ h1 h2 _ => signed_no hhi h1 h2) step hl

end Verif.Config
