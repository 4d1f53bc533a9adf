import Verif.Utils.Small

/-
Properties C47, C48, C49, C52.
-/

namespace Verif.Utils
open Verif

/-! ### C47 -/

/-- `m` is the least element of `l`. -/
def IsLeast (m : Int) (l : List Int) : Prop := m ∈ l ∧ ∀ x ∈ l, m ≤ x
/-- `m` is the greatest element of `l`. -/
def IsGreatest (m : Int) (l : List Int) : Prop := m ∈ l ∧ ∀ x ∈ l, x ≤ m

/-- The statistic after adding the samples in order. -/
def samples (l : List Int) : Statistic := l.foldl Statistic.addPoint {}

theorem samples_snoc (l : List Int) (x : Int) : samples (l ++ [x]) = (samples l).addPoint x := by
  simp [samples, List.foldl_append]

theorem samples_cnt (l : List Int) : (samples l).mCnt = l.length % 2 ^ 32 := by
  have : ∀ (l : List Int) (s : Statistic), s.mCnt < 2 ^ 32 → (l.foldl Statistic.addPoint s).mCnt = (s.mCnt + l.length) % 2 ^ 32 := by
    intro l
    induction l with
    | nil => intro s h; simp [Nat.mod_eq_of_lt h]
    | cons x l ih =>
      intro s h
      rw [List.foldl_cons, ih _ (Nat.mod_lt _ (by decide))]
      simp only [Statistic.addPoint, List.length_cons]
      omega
  have h := this l {} (by decide)
  simpa [samples] using h

theorem samples_sum (l : List Int) : (samples l).mSum = l.sum := by
  have : ∀ (l : List Int) (s : Statistic), (l.foldl Statistic.addPoint s).mSum = s.mSum + l.sum := by
    intro l
    induction l with
    | nil => intro s; simp
    | cons x l ih =>
      intro s
      rw [List.foldl_cons, ih, List.sum_cons]
      simp only [Statistic.addPoint]; omega
  have h := this l {}
  simpa [samples] using h

/-- C47, partial: after 1 to 2^32-1 samples the statistic shows their least, greatest, last, number and average (the average
exact, ignoring floating-point rounding).  Missing: 2^32 samples or more (`C47_wrap_refuted`). -/
theorem C47_statistic_partial (l : List Int) (x : Int) (hn : (l ++ [x]).length < 2 ^ 32) :
    IsLeast (samples (l ++ [x])).mMin (l ++ [x]) ∧ IsGreatest (samples (l ++ [x])).mMax (l ++ [x]) ∧
    (samples (l ++ [x])).getCurrent = x ∧ (samples (l ++ [x])).mCnt = (l ++ [x]).length ∧
    (samples (l ++ [x])).getAvg = ((l ++ [x]).sum : Rat) / ((l ++ [x]).length : Rat) := by
  have hcnt : ∀ l : List Int, l.length < 2 ^ 32 → (samples l).mCnt = l.length := fun l h => by
    rw [samples_cnt, Nat.mod_eq_of_lt h]
  have hc := hcnt _ hn
  have hpos : (l ++ [x]).length ≠ 0 := by simp
  have hmm : ∀ l : List Int, l.length < 2 ^ 32 → l ≠ [] →
      IsLeast (samples l).mMin l ∧ IsGreatest (samples l).mMax l := by
    intro l
    -- induction on the reversed list: one more sample at the end
    have : ∀ r : List Int, r.reverse.length < 2 ^ 32 → r ≠ [] →
        IsLeast (samples r.reverse).mMin r.reverse ∧ IsGreatest (samples r.reverse).mMax r.reverse := by
      intro r
      induction r with
      | nil => intro _ h; exact absurd rfl h
      | cons y r ih =>
        intro hlen _
        rw [List.reverse_cons, samples_snoc]
        have hrl : r.reverse.length < 2 ^ 32 := by simp at hlen ⊢; omega
        by_cases hr : r = []
        · subst hr
          simp [samples, Statistic.addPoint, IsLeast, IsGreatest]
        · obtain ⟨⟨h1, h2⟩, ⟨h3, h4⟩⟩ := ih hrl hr
          have hc0 : (samples r.reverse).mCnt ≠ 0 := by
            rw [hcnt _ hrl]; simpa using hr
          simp only [Statistic.addPoint]
          constructor
          · unfold IsLeast
            by_cases hlt : y < (samples r.reverse).mMin
            · rw [if_pos (.inr hlt)]
              refine ⟨by simp, fun z hz => ?_⟩
              rcases List.mem_append.mp hz with hz | hz
              · have := h2 z hz; omega
              · simp at hz; omega
            · rw [if_neg (by simp [hc0, hlt])]
              refine ⟨by simp [List.mem_reverse.mp h1], fun z hz => ?_⟩
              rcases List.mem_append.mp hz with hz | hz
              · exact h2 z hz
              · simp at hz; omega
          · unfold IsGreatest
            by_cases hlt : y > (samples r.reverse).mMax
            · rw [if_pos (.inr hlt)]
              refine ⟨by simp, fun z hz => ?_⟩
              rcases List.mem_append.mp hz with hz | hz
              · have := h4 z hz; omega
              · simp at hz; omega
            · rw [if_neg (by simp only [hc0, false_or]; exact hlt)]
              refine ⟨by simp [List.mem_reverse.mp h3], fun z hz => ?_⟩
              rcases List.mem_append.mp hz with hz | hz
              · exact h4 z hz
              · simp at hz; omega
    intro h1 h2
    have := this l.reverse (by simpa using h1) (by simpa using h2)
    rwa [List.reverse_reverse] at this
  obtain ⟨h1, h2⟩ := hmm _ hn (by simp)
  refine ⟨h1, h2, ?_, hc, ?_⟩
  · unfold Statistic.getCurrent
    rw [hc, if_pos hpos, samples_snoc]; rfl
  · unfold Statistic.getAvg
    rw [hc, if_neg hpos, samples_sum]

/-- C47 (negation): after exactly 2^32 samples the statistic claims to have none. -/
theorem C47_wrap_refuted : ∃ l : List Int, l.length = 2 ^ 32 ∧ (∀ x ∈ l, x = 7) ∧
    (samples l).mCnt = 0 ∧ (samples l).getAvg = 0 ∧ (samples l).getCurrent = 0 := by
  obtain ⟨l, h, h7⟩ : ∃ l : List Int, l.length = 2 ^ 32 ∧ ∀ x ∈ l, x = 7 :=
    ⟨List.replicate (2 ^ 32) 7, List.length_replicate, fun x hx => (List.mem_replicate.mp hx).2⟩
  have : (samples l).mCnt = 0 := by rw [samples_cnt, h]
  exact ⟨l, h, h7, this, by simp [Statistic.getAvg, this], by simp [Statistic.getCurrent, this]⟩

example : (samples [3, -1, 5]).mMin = -1 ∧ (samples [3, -1, 5]).mMax = 5 ∧ (samples [3, -1, 5]).mCnt = 3 := by decide

/-! ### C48 -/

/-- A change of a bit set. -/
inductive BitOp
  | set (i : Nat)
  | clear (i : Nat)

/-- Performs the operations in order. -/
def runBits (b : BitVec 32) : List BitOp → Outcome (BitVec 32)
  | [] => .ok b
  | .set i :: ops => do runBits (← setBit b i) ops
  | .clear i :: ops => do runBits (← clearBit b i) ops

/-- Number named by an operation. -/
def BitOp.idx : BitOp → Nat
  | .set i => i
  | .clear i => i

/-- Specification: a set of numbers. -/
def specBits (s : Nat → Prop) : List BitOp → Nat → Prop
  | [], n => s n
  | .set i :: ops, n => specBits (fun m => m = i ∨ s m) ops n
  | .clear i :: ops, n => specBits (fun m => m ≠ i ∧ s m) ops n

theorem isSet_eq (b : BitVec 32) (i : Nat) (h : i < 32) : isSet b i = .ok (b.getLsbD i) := by
  unfold isSet bit
  simp only [if_pos h, Outcome.bind_ok]
  congr 1
  rw [Bool.eq_iff_iff, bne_iff_ne]
  constructor
  · intro hne
    rcases hb : b.getLsbD i with _ | _
    · exfalso; apply hne
      apply BitVec.eq_of_getLsbD_eq
      intro j hj
      simp only [BitVec.getLsbD_and, BitVec.getLsbD_shiftLeft, BitVec.getLsbD_one]
      by_cases hji : j = i
      · subst hji; simp [hb]
      · by_cases hlt : j < i
        · simp [hlt]
        · have : ¬ j - i = 0 := by omega
          simp [this]
    · rfl
  · intro hb he
    have := congrArg (fun v => v.getLsbD i) he
    simp only [BitVec.getLsbD_and, hb] at this
    simp [h] at this

theorem setBit_getLsbD (b : BitVec 32) (i : Nat) (h : i < 32) :
    ∃ b', setBit b i = .ok b' ∧ ∀ j, j < 32 → b'.getLsbD j = (decide (j = i) || b.getLsbD j) := by
  refine ⟨b ||| (1#32 <<< i), by simp [setBit, bit, h], ?_⟩
  intro j hj
  simp only [BitVec.getLsbD_or, BitVec.getLsbD_shiftLeft, BitVec.getLsbD_one]
  by_cases hji : j = i
  · subst hji; simp [hj]
  · have h1 : ¬ (¬ j < i ∧ j - i = 0) := by omega
    simp [hji]
    intro _ h2 h3
    omega

theorem clearBit_getLsbD (b : BitVec 32) (i : Nat) (h : i < 32) :
    ∃ b', clearBit b i = .ok b' ∧ ∀ j, j < 32 → b'.getLsbD j = (!decide (j = i) && b.getLsbD j) := by
  refine ⟨b &&& ~~~ (1#32 <<< i), by simp [clearBit, bit, h], ?_⟩
  intro j hj
  simp only [BitVec.getLsbD_and, BitVec.getLsbD_not, BitVec.getLsbD_shiftLeft, BitVec.getLsbD_one]
  by_cases hji : j = i
  · subst hji; simp [hj]
  · have : (decide (j < i) = true ∨ ¬ j - i = 0) := by
      by_cases hlt : j < i
      · simp [hlt]
      · right; omega
    simp [hj, hji]
    intro hb
    by_cases hlt : j < i
    · exact .inl hlt
    · right; omega

/-- C48: after any sequence of changes with numbers below 32 starting from the empty set, `isSet` answers exactly
membership in the ideal set, i.e. whether the last change of that number was a set. -/
theorem C48_bitset (ops : List BitOp) (h : ∀ o ∈ ops, o.idx < 32) :
    ∃ b, runBits 0 ops = .ok b ∧ ∀ i, i < 32 → ∃ r, isSet b i = .ok r ∧ (r = true ↔ specBits (fun _ => False) ops i) := by
  have main : ∀ (ops : List BitOp) (b : BitVec 32) (S : Nat → Prop), (∀ o ∈ ops, o.idx < 32) →
      (∀ j, j < 32 → (b.getLsbD j = true ↔ S j)) →
      ∃ b', runBits b ops = .ok b' ∧ ∀ j, j < 32 → (b'.getLsbD j = true ↔ specBits S ops j) := by
    intro ops
    induction ops with
    | nil => intro b S _ hS; exact ⟨b, rfl, hS⟩
    | cons o ops ih =>
      intro b S hi hS
      have hlt := hi o List.mem_cons_self
      have hrest := fun x hx => hi x (List.mem_cons_of_mem _ hx)
      cases o with
      | set i =>
        obtain ⟨b1, e1, e2⟩ := setBit_getLsbD b i hlt
        obtain ⟨b', h1, h2⟩ := ih b1 (fun m => m = i ∨ S m) hrest (fun j hj => by
          rw [e2 j hj]; simp [hS j hj])
        exact ⟨b', by rw [runBits, e1]; exact h1, h2⟩
      | clear i =>
        obtain ⟨b1, e1, e2⟩ := clearBit_getLsbD b i hlt
        obtain ⟨b', h1, h2⟩ := ih b1 (fun m => m ≠ i ∧ S m) hrest (fun j hj => by
          rw [e2 j hj]; simp [hS j hj])
        exact ⟨b', by rw [runBits, e1]; exact h1, h2⟩
  obtain ⟨b, h1, h2⟩ := main ops 0 (fun _ => False) h (by simp)
  exact ⟨b, h1, fun i hi => ⟨_, isSet_eq b i hi, h2 i hi⟩⟩

/-- The ideal set: a number is in it exactly if it was set and not cleared later. -/
theorem specBits_iff (ops : List BitOp) (S : Nat → Prop) (n : Nat) :
    specBits S ops n ↔ (∃ pre post, ops = pre ++ .set n :: post ∧ BitOp.clear n ∉ post) ∨
      (S n ∧ BitOp.clear n ∉ ops) := by
  induction ops generalizing S with
  | nil => simp [specBits]
  | cons o ops ih =>
    cases o with
    | set i =>
      rw [specBits, ih]
      constructor
      · rintro (⟨pre, post, rfl, h⟩ | ⟨h1 | h1, h2⟩)
        · exact .inl ⟨.set i :: pre, post, rfl, h⟩
        · subst h1; exact .inl ⟨[], ops, rfl, h2⟩
        · exact .inr ⟨h1, by simpa using h2⟩
      · rintro (⟨pre, post, h0, h⟩ | ⟨h1, h2⟩)
        · cases pre with
          | nil => injection h0 with h0 h0'; injection h0 with h0; subst h0 h0'; exact .inr ⟨.inl rfl, h⟩
          | cons p pre => injection h0 with h0 h0'; exact .inl ⟨pre, post, h0', h⟩
        · exact .inr ⟨.inr h1, by simpa using h2⟩
    | clear i =>
      rw [specBits, ih]
      constructor
      · rintro (⟨pre, post, rfl, h⟩ | ⟨⟨h0, h1⟩, h2⟩)
        · exact .inl ⟨.clear i :: pre, post, rfl, h⟩
        · exact .inr ⟨h1, by simp [h2, h0]⟩
      · rintro (⟨pre, post, h0, h⟩ | ⟨h1, h2⟩)
        · cases pre with
          | nil => injection h0 with h0 h0'; cases h0
          | cons p pre => injection h0 with h0 h0'; exact .inl ⟨pre, post, h0', h⟩
        · simp at h2; exact .inr ⟨⟨h2.1, h1⟩, h2.2⟩

/-- C48: numbers from 32 on are undefined behaviour, in every call. -/
theorem C48_range (b : BitVec 32) (i : Nat) (h : 32 ≤ i) : setBit b i = .ub ∧ clearBit b i = .ub ∧ isSet b i = .ub := by
  have : ¬ i < 32 := by omega
  simp [setBit, clearBit, isSet, bit, this]

example : (do let b ← runBits 0 [.set 3, .set 31, .clear 3]; isSet b 31) = .ok true := by decide

/-! ### C49 -/

theorem hexVal_digit (n : Nat) (h : n < 16) : hexVal (hexDigit n) = some n := by
  have : ∀ n : Fin 16, hexVal (hexDigit n) = some n.val := by decide +kernel
  exact this ⟨n, h⟩

theorem hexDigit_lower (n : Nat) (h : n < 16) : isDigit (hexDigit n) = true ∨ (97 ≤ (hexDigit n).toNat ∧ (hexDigit n).toNat ≤ 102) := by
  have : ∀ n : Fin 16, isDigit (hexDigit n) = true ∨ (97 ≤ (hexDigit n).toNat ∧ (hexDigit n).toNat ≤ 102) := by decide +kernel
  exact this ⟨n, h⟩

/-- Value of a digit string. -/
def hv (s : Str) (a : Nat) : Nat := s.foldl (fun a c => a * 16 + (hexVal c).getD 0) a

theorem hv_append (s t : Str) (a : Nat) : hv (s ++ t) a = hv t (hv s a) := by simp [hv, List.foldl_append]

theorem hexText_spec (n : Nat) : (∀ c ∈ hexText n, ∃ d, d < 16 ∧ c = hexDigit d) ∧ hv (hexText n) 0 = n ∧
    ∀ k, 0 < k → n < 16 ^ k → (hexText n).length ≤ k := by
  induction n using Nat.strongRecOn with
  | ind n ih =>
    rw [hexText]
    by_cases h : n < 16
    · rw [if_pos h]
      refine ⟨by simp; exact ⟨n, h, rfl⟩, by simp [hv, hexVal_digit n h], ?_⟩
      intro k hk _; simp; omega
    · rw [if_neg h]
      obtain ⟨h1, h2, h3⟩ := ih (n / 16) (by omega)
      have hd : n % 16 < 16 := by omega
      refine ⟨?_, ?_, ?_⟩
      · intro c hc
        rcases List.mem_append.mp hc with hc | hc
        · exact h1 c hc
        · simp at hc; exact ⟨n % 16, hd, hc⟩
      · rw [hv_append, h2]; simp [hv, hexVal_digit _ hd]; omega
      · intro k hk hlt
        cases k with
        | zero => omega
        | succ k =>
          have hk0 : 0 < k := by
            rcases Nat.eq_zero_or_pos k with rfl | hp
            · simp at hlt; omega
            · exact hp
          have := h3 k hk0 (by rw [Nat.pow_succ] at hlt; omega)
          simp; omega

theorem hv_zeros (k a : Nat) : a = 0 → hv (List.replicate k 48) a = 0 := by
  rintro rfl
  induction k with
  | zero => rfl
  | succ k ih =>
    rw [List.replicate_succ]
    show hv (List.replicate k 48) (0 * 16 + (hexVal 48).getD 0) = 0
    exact ih

theorem pad_spec (n k : Nat) (hk : 0 < k) (h : n < 16 ^ k) : (pad k (hexText n)).length = k ∧
    (∀ c ∈ pad k (hexText n), ∃ d, d < 16 ∧ c = hexDigit d) ∧ hv (pad k (hexText n)) 0 = n := by
  obtain ⟨h1, h2, h3⟩ := hexText_spec n
  have hl := h3 k hk h
  refine ⟨by simp [pad]; omega, ?_, ?_⟩
  · intro c hc
    rcases List.mem_append.mp hc with hc | hc
    · exact ⟨0, by decide, (List.mem_replicate.mp hc).2⟩
    · exact h1 c hc
  · rw [pad, hv_append, hv_zeros _ _ rfl, h2]

theorem takeWhile_all {α : Type} (p : α → Bool) (l : List α) (h : ∀ x ∈ l, p x = true) : l.takeWhile p = l := by
  induction l with
  | nil => rfl
  | cons a l ih =>
    rw [List.takeWhile_cons, if_pos (h a List.mem_cons_self), ih (fun x hx => h x (List.mem_cons_of_mem _ hx))]

/-- Reading a string of hex digits. -/
theorem extractHex_digits (s : Str) (hd : ∀ c ∈ s, ∃ d, d < 16 ∧ hexVal c = some d) (hv64 : hv s 0 < 2 ^ 64) :
    extractHex s = BitVec.ofNat 64 (hv s 0) := by
  have key : ∀ c : Byte, (∃ d, d < 16 ∧ hexVal c = some d) → isSpace c = false ∧ c ≠ 45 ∧ c ≠ 43 ∧ c ≠ 120 ∧ c ≠ 88 := by
    have : ∀ c : Fin 256, (hexVal (BitVec.ofFin c)).isSome = true →
        isSpace (BitVec.ofFin c) = false ∧ (BitVec.ofFin c : Byte) ≠ 45 ∧ (BitVec.ofFin c : Byte) ≠ 43 ∧
        (BitVec.ofFin c : Byte) ≠ 120 ∧ (BitVec.ofFin c : Byte) ≠ 88 := by decide +kernel
    rintro c ⟨d, -, hd⟩
    exact this c.toFin (by show (hexVal c).isSome = true; rw [hd]; rfl)
  have hval : hexValue s = hv s 0 := by
    unfold hexValue hv
    rw [takeWhile_all]
    intro c hc
    obtain ⟨d, -, h⟩ := hd c hc
    rw [h]; rfl
  unfold extractHex
  have hdw : s.dropWhile isSpace = s := by
    cases s with
    | nil => rfl
    | cons c s => rw [List.dropWhile_cons, if_neg (by simp [(key c (hd c List.mem_cons_self)).1])]
  have hn : s.head? ≠ some 45 ∧ s.head? ≠ some 43 := by
    cases s with
    | nil => simp
    | cons c s =>
      have := key c (hd c List.mem_cons_self)
      exact ⟨fun h => this.2.1 (by simpa using h), fun h => this.2.2.1 (by simpa using h)⟩
  simp only [hdw, hn.1, hn.2, or_self, if_false]
  have hx : ∀ s : Str, (∀ c ∈ s, ∃ d, d < 16 ∧ hexVal c = some d) → skip0x s = s := by
    intro s hd
    unfold skip0x
    split
    · exact absurd rfl (key 120 (hd 120 (by simp))).2.2.2.1
    · exact absurd rfl (key 88 (hd 88 (by simp))).2.2.2.2
    · rfl
  rw [hx s hd, hval, if_neg (by omega)]

/-- C49: reading back the text gives the two words. -/
theorem C49_roundtrip (h l : BitVec 64) : stringToUint (uintToString h l) = .ok (h, l) := by
  obtain ⟨h1, h2, h3⟩ := pad_spec h.toNat 16 (by decide) h.isLt
  obtain ⟨l1, l2, l3⟩ := pad_spec l.toNat 16 (by decide) l.isLt
  unfold stringToUint uintToString
  rw [if_neg (by simp [h1, l1]), List.take_left' h1, List.drop_left' h1, List.take_of_length_le (by omega)]
  rw [extractHex_digits _ (fun c hc => by obtain ⟨d, e1, rfl⟩ := h2 c hc; exact ⟨d, e1, hexVal_digit d e1⟩) (by rw [h3]; exact h.isLt),
    extractHex_digits _ (fun c hc => by obtain ⟨d, e1, rfl⟩ := l2 c hc; exact ⟨d, e1, hexVal_digit d e1⟩) (by rw [l3]; exact l.isLt),
    h3, l3]
  simp

/-- C49: the text always has 32 lower-case hex digits. -/
theorem C49_shape (h l : BitVec 64) : (uintToString h l).length = 32 ∧
    ∀ c ∈ uintToString h l, isDigit c = true ∨ (97 ≤ c.toNat ∧ c.toNat ≤ 102) := by
  obtain ⟨h1, h2, -⟩ := pad_spec h.toNat 16 (by decide) h.isLt
  obtain ⟨l1, l2, -⟩ := pad_spec l.toNat 16 (by decide) l.isLt
  refine ⟨by simp [uintToString, h1, l1], ?_⟩
  intro c hc
  rcases List.mem_append.mp hc with hc | hc
  · obtain ⟨d, e1, rfl⟩ := h2 c hc; exact hexDigit_lower d e1
  · obtain ⟨d, e1, rfl⟩ := l2 c hc; exact hexDigit_lower d e1

/-- C49: a text of 32 lower-case hex digits is what its value prints as, so distinct keys have distinct texts and
vice versa. -/
theorem C49_reverse (s : Str) (hl : s.length = 32)
    (hs : ∀ c ∈ s, isDigit c = true ∨ (97 ≤ c.toNat ∧ c.toNat ≤ 102)) :
    ∃ h l, stringToUint s = .ok (h, l) ∧ uintToString h l = s := by
  have key : ∀ c : Byte, (isDigit c = true ∨ (97 ≤ c.toNat ∧ c.toNat ≤ 102)) → ∃ d, d < 16 ∧ c = hexDigit d := by
    have : ∀ c : Fin 256, (isDigit (BitVec.ofFin c) = true ∨ (97 ≤ (BitVec.ofFin c : Byte).toNat ∧ (BitVec.ofFin c : Byte).toNat ≤ 102)) →
        (BitVec.ofFin c : Byte) = hexDigit ((hexVal (BitVec.ofFin c)).getD 16) ∧ (hexVal (BitVec.ofFin c)).getD 16 < 16 := by
      decide +kernel
    intro c hc
    have := this c.toFin hc
    exact ⟨_, this.2, this.1⟩
  -- fixed-width digit strings are determined by their value
  have inj : ∀ (s t : Str), s.length = t.length → (∀ c ∈ s, ∃ d, d < 16 ∧ c = hexDigit d) →
      (∀ c ∈ t, ∃ d, d < 16 ∧ c = hexDigit d) → hv s 0 = hv t 0 → s = t := by
    have gen : ∀ (s t : Str), s.length = t.length → (∀ c ∈ s, ∃ d, d < 16 ∧ c = hexDigit d) →
        (∀ c ∈ t, ∃ d, d < 16 ∧ c = hexDigit d) → hv s.reverse 0 = hv t.reverse 0 → s = t := by
      intro s
      induction s with
      | nil => intro t hlen _ _ _; exact (List.eq_nil_of_length_eq_zero (by simpa using hlen.symm)).symm
      | cons a s ih =>
        intro t hlen hs ht he
        cases t with
        | nil => simp at hlen
        | cons b t =>
          obtain ⟨da, ha1, rfl⟩ := hs a List.mem_cons_self
          obtain ⟨db, hb1, rfl⟩ := ht b List.mem_cons_self
          rw [List.reverse_cons, List.reverse_cons, hv_append, hv_append] at he
          have e1 : hv [hexDigit da] (hv s.reverse 0) = hv s.reverse 0 * 16 + da := by simp [hv, hexVal_digit da ha1]
          have e2 : hv [hexDigit db] (hv t.reverse 0) = hv t.reverse 0 * 16 + db := by simp [hv, hexVal_digit db hb1]
          rw [e1, e2] at he
          have hd : da = db := by omega
          have hr : hv s.reverse 0 = hv t.reverse 0 := by omega
          subst hd
          rw [ih t (by simpa using hlen) (fun c hc => hs c (List.mem_cons_of_mem _ hc)) (fun c hc => ht c (List.mem_cons_of_mem _ hc)) hr]
    intro s t hlen hs ht he
    have := gen s.reverse t.reverse (by simpa using hlen) (by simpa using hs) (by simpa using ht) (by simpa using he)
    simpa using this
  have bound : ∀ (s : Str), (∀ c ∈ s, ∃ d, d < 16 ∧ c = hexDigit d) → ∀ a, hv s a < (a + 1) * 16 ^ s.length := by
    intro s
    induction s with
    | nil => intro _ a; simp [hv]
    | cons c s ih =>
      intro hs a
      obtain ⟨d, hd, rfl⟩ := hs c List.mem_cons_self
      have h1 : hv (hexDigit d :: s) a = hv s (a * 16 + d) := by simp [hv, hexVal_digit d hd]
      rw [h1]
      have := ih (fun c hc => hs c (List.mem_cons_of_mem _ hc)) (a * 16 + d)
      refine Nat.lt_of_lt_of_le this ?_
      rw [List.length_cons, Nat.pow_succ, Nat.mul_comm (16 ^ s.length) 16, ← Nat.mul_assoc]
      exact Nat.mul_le_mul_right _ (by omega)
  have hs' : ∀ c ∈ s, ∃ d, d < 16 ∧ c = hexDigit d := fun c hc => key c (hs c hc)
  have hs1 : ∀ c ∈ s.take 16, ∃ d, d < 16 ∧ c = hexDigit d := fun c hc => hs' c (List.mem_of_mem_take hc)
  have hs2 : ∀ c ∈ s.drop 16, ∃ d, d < 16 ∧ c = hexDigit d := fun c hc => hs' c (List.mem_of_mem_drop hc)
  have hl1 : (s.take 16).length = 16 := by simp [hl]
  have hl2 : (s.drop 16).length = 16 := by simp [hl]
  have b1 := bound _ hs1 0
  have b2 := bound _ hs2 0
  rw [hl1] at b1
  rw [hl2] at b2
  have hdv : ∀ t : Str, (∀ c ∈ t, ∃ d, d < 16 ∧ c = hexDigit d) → ∀ c ∈ t, ∃ d, d < 16 ∧ hexVal c = some d :=
    fun t ht c hc => by obtain ⟨d, h1, rfl⟩ := ht c hc; exact ⟨d, h1, hexVal_digit d h1⟩
  refine ⟨BitVec.ofNat 64 (hv (s.take 16) 0), BitVec.ofNat 64 (hv (s.drop 16) 0), ?_, ?_⟩
  · unfold stringToUint
    rw [if_neg (by omega), List.take_of_length_le (l := s.drop 16) (by omega),
      extractHex_digits _ (hdv _ hs1) (by omega), extractHex_digits _ (hdv _ hs2) (by omega)]
  · unfold uintToString
    have e1 : (BitVec.ofNat 64 (hv (s.take 16) 0)).toNat = hv (s.take 16) 0 := by
      rw [BitVec.toNat_ofNat, Nat.mod_eq_of_lt (by omega)]
    have e2 : (BitVec.ofNat 64 (hv (s.drop 16) 0)).toNat = hv (s.drop 16) 0 := by
      rw [BitVec.toNat_ofNat, Nat.mod_eq_of_lt (by omega)]
    rw [e1, e2]
    obtain ⟨p1, p2, p3⟩ := pad_spec (hv (s.take 16) 0) 16 (by decide) (by omega)
    obtain ⟨q1, q2, q3⟩ := pad_spec (hv (s.drop 16) 0) 16 (by decide) (by omega)
    rw [inj _ _ (by omega) p2 hs1 p3, inj _ _ (by omega) q2 hs2 q3, List.take_append_drop]

/-- C49: the 32-bit variant has 8 digits with the same value. -/
theorem C49_uint32 (x : BitVec 32) : (uintToString32 x).length = 8 ∧
    extractHex (uintToString32 x) = x.setWidth 64 := by
  obtain ⟨h1, h2, h3⟩ := pad_spec x.toNat 8 (by decide) x.isLt
  refine ⟨h1, ?_⟩
  unfold uintToString32
  rw [extractHex_digits _ (fun c hc => by obtain ⟨d, e1, rfl⟩ := h2 c hc; exact ⟨d, e1, hexVal_digit d e1⟩) (by rw [h3]; have := x.isLt; omega), h3]
  apply BitVec.eq_of_toNat_eq
  simp

example : uintToString 0x123abc 5 = lit "0000000000123abc0000000000000005" := by decide +kernel

/-! ### C52 -/

theorem colWidth_ge (tab : List (List Str)) (row : List Str) (hr : row ∈ tab) (c : Nat) (hc : c < row.length) (h30 : c < maxcols) :
    min ((row.getD c []).length) 100 ≤ colWidth tab c := by
  have mono : ∀ (t : List (List Str)) (w : Nat), w ≤ t.foldl (fun w row => if c < maxcols ∧ c < row.length then max w (min ((row.getD c []).length) 100) else w) w := by
    intro t
    induction t with
    | nil => intro w; exact Nat.le_refl _
    | cons r t ih =>
      intro w
      rw [List.foldl_cons]
      refine Nat.le_trans ?_ (ih _)
      split <;> omega
  have main : ∀ (t : List (List Str)) (w : Nat), row ∈ t → min ((row.getD c []).length) 100 ≤
      t.foldl (fun w row => if c < maxcols ∧ c < row.length then max w (min ((row.getD c []).length) 100) else w) w := by
    intro t
    induction t with
    | nil => intro w h; cases h
    | cons r t ih =>
      intro w h
      rw [List.foldl_cons]
      rcases List.mem_cons.mp h with rfl | h
      · refine Nat.le_trans ?_ (mono t _)
        rw [if_pos ⟨h30, hc⟩]; omega
      · exact ih _ h
  exact main tab 0 hr

theorem colWidth_le (tab : List (List Str)) (c : Nat) : colWidth tab c ≤ 100 := by
  have : ∀ (t : List (List Str)) (w : Nat), w ≤ 100 →
      t.foldl (fun w row => if c < maxcols ∧ c < row.length then max w (min ((row.getD c []).length) 100) else w) w ≤ 100 := by
    intro t
    induction t with
    | nil => intro w h; exact h
    | cons r t ih =>
      intro w h
      rw [List.foldl_cons]
      apply ih
      split <;> omega
  exact this tab 0 (by omega)

/-- Specification of an aligned line: the cell of column `c` stands at offset `off c`, followed only by spaces (at
least one) up to the next column. -/
def AlignedLine (off : Nat → Nat) (cells : List Str) (line : Str) : Prop :=
  line.length = off cells.length ∧
  ∀ c cell, cells[c]? = some cell → off c + cell.length < off (c + 1) ∧
    (line.drop (off c)).take (off (c + 1) - off c) = cell ++ List.replicate (off (c + 1) - off c - cell.length) 32

/-- Start of column `c`. -/
def offset (wd : Nat → Nat) (c : Nat) : Nat := ((List.range c).map fun j => wd j + 1).sum

theorem offset_succ (wd : Nat → Nat) (c : Nat) : offset wd (c + 1) = offset wd c + wd c + 1 := by
  simp [offset, List.range_succ]; omega

theorem cellText_eq (w : Nat) (v : Str) (h : v.length ≤ w) (hw : w ≤ 100) :
    cellText w v = v ++ List.replicate (w + 1 - v.length) 32 := by
  unfold cellText
  rw [List.take_of_length_le (by simp; omega), List.append_assoc]
  congr 1
  have : w + 1 - v.length = (w - v.length) + 1 := by omega
  rw [this, List.replicate_succ']

theorem rowText_aligned (wd : Nat → Nat) (hw : ∀ c, wd c ≤ 100) : ∀ (cells : List Str) (col : Nat), col + cells.length ≤ 30 →
    (∀ c cell, cells[c]? = some cell → (cellVal cell).length ≤ wd (col + c)) →
    (rowText wd col cells).length + offset wd col = offset wd (col + cells.length) ∧
    ∀ c cell, cells[c]? = some cell →
      ((rowText wd col cells).drop (offset wd (col + c) - offset wd col)).take (wd (col + c) + 1) =
        cellVal cell ++ List.replicate (wd (col + c) + 1 - (cellVal cell).length) 32 ∧ offset wd col ≤ offset wd (col + c) := by
  intro cells
  induction cells with
  | nil => intro col _ _; simp [rowText]
  | cons cell cells ih =>
    intro col h30 hfit
    have hcol : col < maxcols := by simp [maxcols] at h30 ⊢; omega
    have hfit0 := hfit 0 cell rfl
    have hfit1 : ∀ c x, cells[c]? = some x → (cellVal x).length ≤ wd (col + 1 + c) := fun c x hx => by
      have := hfit (c + 1) x (by simpa using hx)
      rwa [show col + 1 + c = col + (c + 1) by omega]
    obtain ⟨i1, i2⟩ := ih (col + 1) (by simp at h30; omega) hfit1
    rw [rowText, if_pos hcol, cellText_eq _ _ (by simpa using hfit0) (hw _)]
    have hl : (cellVal cell ++ List.replicate (wd col + 1 - (cellVal cell).length) 32).length = wd col + 1 := by
      simp at hfit0 ⊢; omega
    have hoff := offset_succ wd col
    constructor
    · rw [List.length_append, hl, List.length_cons, show col + (cells.length + 1) = col + 1 + cells.length by omega]
      omega
    · intro c x hx
      cases c with
      | zero =>
        simp at hx; subst hx
        refine ⟨?_, Nat.le_refl _⟩
        simp only [Nat.add_zero, Nat.sub_self, List.drop_zero]
        rw [List.take_left' hl]
      | succ c =>
        have hx' : cells[c]? = some x := by simpa using hx
        obtain ⟨j1, j2⟩ := i2 c x hx'
        rw [show col + (c + 1) = col + 1 + c by omega]
        refine ⟨?_, by omega⟩
        rw [← j1]
        congr 1
        rw [show offset wd (col + 1 + c) - offset wd col = (wd col + 1) + (offset wd (col + 1 + c) - offset wd (col + 1)) by omega,
          ← List.drop_drop, List.drop_left' hl]

/-- C52: for every table with at most 30 columns and cells of at most 100 characters, the output consists of one line per row and
an empty line, and in all lines each column starts at the same offset, every cell is printed completely (`_` as empty) and is
followed by spaces up to the next column. -/
theorem C52_aligned (tab : List (List Str)) (h30 : ∀ row ∈ tab, row.length ≤ 30)
    (h100 : ∀ row ∈ tab, ∀ cell ∈ row, cell.length ≤ 100) :
    ∃ (off : Nat → Nat) (lines : List Str), printPrettyTable tab = (lines.map (· ++ [10])).flatten ++ [10] ∧
      lines.length = tab.length ∧ off 0 = 0 ∧
      ∀ (i : Nat) (row : List Str) (line : Str), tab[i]? = some row → lines[i]? = some line →
        AlignedLine off (row.map fun cell => if cell = lit "_" then [] else cell) line := by
  refine ⟨offset (colWidth tab), tab.map (rowText (colWidth tab) 0), ?_, by simp, rfl, ?_⟩
  · simp [printPrettyTable, List.map_map, Function.comp_def]
  · intro i row line hrow hline
    have hmem : row ∈ tab := List.mem_iff_getElem?.mpr ⟨i, hrow⟩
    rw [List.getElem?_map, hrow] at hline
    injection hline with hline
    subst hline
    have hus : lit "_" = [95] := by decide +kernel
    have hcv : (fun cell : Str => if cell = lit "_" then [] else cell) = cellVal := by
      funext cell; rw [hus]; rfl
    rw [hcv]
    have hfit : ∀ c cell, row[c]? = some cell → (cellVal cell).length ≤ colWidth tab (0 + c) := by
      intro c cell hc
      rw [Nat.zero_add]
      obtain ⟨hlt, he⟩ := List.getElem?_eq_some_iff.mp hc
      have := colWidth_ge tab row hmem c hlt (by have := h30 row hmem; simp [maxcols]; omega)
      rw [List.getD_eq_getElem?_getD, hc, Option.getD_some] at this
      have h1 := h100 row hmem cell (List.mem_iff_getElem?.mpr ⟨c, hc⟩)
      have h2 : (cellVal cell).length ≤ cell.length := by unfold cellVal; split <;> simp
      omega
    obtain ⟨r1, r2⟩ := rowText_aligned (colWidth tab) (colWidth_le tab) row 0 (by have := h30 row hmem; omega) hfit
    have hz : offset (colWidth tab) 0 = 0 := rfl
    refine ⟨by rw [List.length_map]; simpa [hz] using r1, ?_⟩
    intro c v hv
    rw [List.getElem?_map] at hv
    cases hc : row[c]? with
    | none => rw [hc] at hv; cases hv
    | some cell =>
      rw [hc] at hv
      injection hv with hv
      subst hv
      obtain ⟨j1, -⟩ := r2 c cell hc
      have hf := hfit c cell hc
      rw [Nat.zero_add] at j1 hf
      rw [hz, Nat.sub_zero] at j1
      have hs := offset_succ (colWidth tab) c
      refine ⟨by omega, ?_⟩
      rw [show offset (colWidth tab) (c + 1) - offset (colWidth tab) c = colWidth tab c + 1 by omega]
      exact j1

/-- C52: outside the stated limits text is lost: a cell in column 31 is not printed at all. -/
theorem C52_thirty_columns (tab : List (List Str)) (row : List Str) (h : 30 ≤ row.length) :
    rowText (colWidth tab) 0 row = rowText (colWidth tab) 0 (row.take 30) := by
  have : ∀ (cells : List Str) (col : Nat), col ≤ 30 → rowText (colWidth tab) col cells = rowText (colWidth tab) col (cells.take (30 - col)) := by
    intro cells
    induction cells with
    | nil => intro col _; simp
    | cons c cells ih =>
      intro col hcol
      by_cases hlt : col < 30
      · rw [show 30 - col = (30 - (col + 1)) + 1 by omega, List.take_succ_cons, rowText, rowText, ih (col + 1) (by omega)]
      · rw [show 30 - col = 0 by omega, rowText, if_neg (by simp [maxcols]; omega)]; rfl
  have _ := h
  exact this row 0 (by omega)

example : printPrettyTable [[lit "ab", lit "_"], [lit "c", lit "def"]] = lit "ab     \nc  def \n\n" := by decide +kernel

theorem rowTabs_later (cells : List Str) : ∀ col, 1 ≤ col → col ≤ 30 →
    rowTabs col cells = ((cells.take (30 - col)).map fun c => [9] ++ (if c = lit "_" then [] else c)).flatten := by
  induction cells with
  | nil => intro col _ _; simp [rowTabs]
  | cons c cells ih =>
    intro col h1 h2
    by_cases hlt : col < 30
    · rw [show 30 - col = (30 - (col + 1)) + 1 by omega, List.take_succ_cons, rowTabs, if_pos (show col < maxcols from hlt), if_pos (by omega), ih (col + 1) (by omega) (by omega)]
      rfl
    · rw [show 30 - col = 0 by omega, rowTabs, if_neg (by simp [maxcols]; omega)]; rfl

/-- C52 (with tabs): every row is a line of its own, its cells (30 at most, "_" as empty) are separated by one tab each, with none before the first or after the last; an empty line follows. -/
theorem C52_tabs (tab : List (List Str)) :
    printTabTable tab = (tab.map fun row => List.intercalate [9] ((row.take 30).map fun c => if c = lit "_" then [] else c) ++ [10]).flatten ++ [10] := by
  have h : ∀ row : List Str, rowTabs 0 row = List.intercalate [9] ((row.take 30).map fun c => if c = lit "_" then [] else c) := by
    intro row
    cases row with
    | nil => rfl
    | cons c cells =>
      rw [rowTabs, if_pos (by decide), if_neg (by decide), rowTabs_later cells 1 (by omega) (by omega), List.take_succ_cons]
      have key : ∀ (x : Str) (l : List Str), List.intercalate [9] (x :: l) = x ++ (l.map fun c => [9] ++ c).flatten := by
        intro x l
        induction l generalizing x with
        | nil => simp [List.intercalate]
        | cons y l ih =>
          have := ih y
          simp only [List.intercalate, List.intersperse_cons_cons, List.flatten_cons, List.map_cons] at this ⊢
          rw [this]
          simp
      rw [List.map_cons, key, List.map_map]
      rfl
  simp only [printTabTable, h]

example : printTabTable [[lit "a", lit "_", lit "bc"], [], [lit "d"]] = lit "a\t\tbc\n\nd\n\n" := by decide

end Verif.Utils
