import Verif.Soft.Model
import Verif.Soft.Spec
import Verif.BitVector.Lemmas
import Mathlib.Algebra.Order.Field.Rat
import Mathlib.Tactic.Linarith
import Mathlib.Tactic.FieldSimp
import Mathlib.Tactic.Positivity
import Mathlib.Tactic.NormNum

/-
Properties C10 (puncturing) and C14 (slicing), and C75 (energy and SNR).
-/

namespace Verif.Soft
open Verif Spec

/-! ### C10 -/

theorem copyN_ok {α : Type} (src : List α) (n s : Nat) (dst : List α) (d : Nat)
    (hs : s + n ≤ src.length) (hd : d + n ≤ dst.length) :
    copyN src n s dst d =
      .ok (s + n, dst.take d ++ (src.drop s).take n ++ dst.drop (d + n), d + n) := by
  induction n generalizing s dst d with
  | zero => simp [copyN]
  | succ n ih =>
    have h1 : s < src.length := by omega
    have h2 : d < dst.length := by omega
    simp only [copyN, List.getElem?_eq_getElem h1, if_pos h2]
    rw [ih _ _ _ (by omega) (by simp; omega)]
    congr 1
    rw [show s + 1 + n = s + (n + 1) by omega, show d + 1 + n = d + (n + 1) by omega]
    congr 2
    rw [List.take_add_one, List.take_set_of_le (Nat.le_refl d), List.getElem?_set_self h2,
      List.drop_eq_getElem_cons h1]
    simp only [Option.toList_some, List.append_assoc, List.take_succ_cons,
      List.cons_append, List.nil_append, List.append_cancel_left_eq, List.cons.injEq, true_and]
    rw [List.drop_set_of_lt (by omega)]

theorem copyN_fail {α : Type} (src : List α) (n s : Nat) (dst : List α) (d : Nat)
    (h : src.length < s + n ∨ dst.length < d + n) (hs : s ≤ src.length) (hd : d ≤ dst.length) :
    copyN src n s dst d = .assertFail := by
  induction n generalizing s dst d with
  | zero => omega
  | succ n ih =>
    simp only [copyN]
    split
    · rfl
    · next x hx =>
      have h1 : s < src.length := (List.getElem?_eq_some_iff.mp hx).1
      split
      · next h2 => exact ih _ _ _ (by simp; omega) (by omega) (by simp; omega)
      · rfl

theorem keepFrom_nil {α : Type} (P : List Nat) (s : Nat) : keepFrom P s ([] : List α) = [] := rfl

theorem keepFrom_no {α : Type} (P : List Nat) (s : Nat) (xs : List α)
    (h : ∀ p ∈ P, p < s ∨ s + xs.length ≤ p) : keepFrom P s xs = xs := by
  induction xs generalizing s with
  | nil => rfl
  | cons x xs ih =>
    unfold keepFrom at *
    simp only [List.zipIdx_cons, List.filter_cons]
    have hs : (!P.contains s) = true := by
      simp only [Bool.not_eq_true', List.contains_eq_mem, decide_eq_false_iff_not]
      intro hm
      have := h s hm
      simp at this
    rw [if_pos hs, List.map_cons, ih (s + 1)]
    intro p hp
    have := h p hp
    simp only [List.length_cons] at this
    omega

theorem keepFrom_append {α : Type} (P : List Nat) (s : Nat) (xs ys : List α) :
    keepFrom P s (xs ++ ys) = keepFrom P s xs ++ keepFrom P (s + xs.length) ys := by
  unfold keepFrom
  rw [List.zipIdx_append, List.filter_append, List.map_append]

theorem keepFrom_hit {α : Type} (P : List Nat) (s : Nat) (x : α) (xs : List α) (h : s ∈ P) :
    keepFrom P s (x :: xs) = keepFrom P (s + 1) xs := by
  unfold keepFrom
  simp [List.zipIdx_cons, h]

theorem keepFrom_congr {α : Type} (P Q : List Nat) (s : Nat) (xs : List α)
    (h : ∀ i, s ≤ i → (i ∈ P ↔ i ∈ Q)) : keepFrom P s xs = keepFrom Q s xs := by
  unfold keepFrom
  congr 1
  apply List.filter_congr
  intro ⟨x, i⟩ hx
  have := List.mem_zipIdx hx
  simp [h i this.1]

/-- a strictly increasing list inside `[p, n)` has at most `n - p` elements -/
theorem length_le_of_increasing (P : List Nat) (p n : Nat) (h : P.Pairwise (· < ·))
    (hp : ∀ q ∈ P, p ≤ q ∧ q < n) : P.length ≤ n - p := by
  induction P generalizing p with
  | nil => simp
  | cons a P ih =>
    rw [List.pairwise_cons] at h
    have ha := hp a (by simp)
    have := ih (a + 1) h.2 (fun q hq => ⟨h.1 q hq, (hp q (by simp [hq])).2⟩)
    simp only [List.length_cons]
    omega

/-- tail of a legal puncture list seen from a position -/
def LegalFrom (P : List Nat) (s n : Nat) : Prop := P.Pairwise (· < ·) ∧ ∀ p ∈ P, s ≤ p ∧ p < n

theorem punctLoop_good {α : Type} (src : List α) (P : List Nat) (s : Nat) (dst : List α) (d : Nat)
    (hs : s ≤ src.length) (hd : d ≤ dst.length)
    (hcount : (dst.length - d) + P.length = src.length - s) (hP : LegalFrom P s src.length) :
    punctLoop src P s dst d = .ok (dst.take d ++ keepFrom P s (src.drop s)) := by
  induction P generalizing s dst d with
  | nil =>
    unfold punctLoop
    simp only [List.length_nil, Nat.add_zero] at hcount
    rw [keepFrom_no _ _ _ (by simp)]
    split
    · rw [copyN_ok _ _ _ _ _ (by omega) (by omega)]
      simp only [Outcome.bind_ok]
      rw [if_pos (by simp; omega)]
      congr 1
      rw [List.drop_eq_nil_of_le (as := dst) (by omega), List.append_nil]
      congr 1
      rw [List.take_of_length_le (by simp)]
    · rw [if_pos ⟨by omega, rfl⟩, List.drop_eq_nil_of_le (by omega), List.append_nil,
        List.take_of_length_le (by omega)]
  | cons p ps ih =>
    obtain ⟨hinc, hmem⟩ := hP
    have hp := hmem p (by simp)
    rw [List.pairwise_cons] at hinc
    have hcard := length_le_of_increasing ps (p + 1) src.length hinc.2
      (fun q hq => ⟨hinc.1 q hq, (hmem q (by simp [hq])).2⟩)
    simp only [List.length_cons] at hcount
    unfold punctLoop
    rw [if_pos (by omega)]
    simp only
    rw [if_neg (by omega), copyN_ok _ _ _ _ _ (by omega) (by omega)]
    simp only [Outcome.bind_ok]
    rw [ih]
    · congr 1
      have hsplit : src.drop s = (src.drop s).take (p - s) ++ src[p] :: src.drop (p + 1) := by
        conv => lhs; rw [← List.take_append_drop (p - s) (src.drop s)]
        congr 1
        rw [List.drop_drop, show s + (p - s) = p by omega, List.drop_eq_getElem_cons hp.2]
      have htl : ((src.drop s).take (p - s)).length = p - s := by simp; omega
      conv => rhs; rw [hsplit, keepFrom_append, htl, show s + (p - s) = p by omega]
      rw [keepFrom_hit (p :: ps) p _ _ (by simp), keepFrom_no (p :: ps) s _ (by
        intro q hq
        rw [htl]
        simp only [List.mem_cons] at hq
        rcases hq with rfl | hq
        · omega
        · have := hinc.1 q hq; omega)]
      rw [show s + (p - s) + 1 = p + 1 by omega,
        keepFrom_congr ps (p :: ps) (p + 1) _ (by intro i hi; simp; omega), ← List.append_assoc]
      congr 1
      have hl : (dst.take d ++ (src.drop s).take (p - s)).length = d + (p - s) := by
        simp; omega
      rw [List.take_append_of_le_length (by omega), List.take_of_length_le (by omega)]
    · omega
    · simp; omega
    · simp; omega
    · refine ⟨hinc.2, fun q hq => ⟨?_, (hmem q (by simp [hq])).2⟩⟩
      have := hinc.1 q hq; omega

theorem punctLoop_bad {α : Type} (src : List α) (P : List Nat) (s : Nat) (dst : List α) (d : Nat)
    (hs : s ≤ src.length) (hd : d ≤ dst.length)
    (hcount : (dst.length - d) + P.length = src.length - s) (hP : ¬ LegalFrom P s src.length) :
    punctLoop src P s dst d = .assertFail := by
  induction P generalizing s dst d with
  | nil => exact absurd ⟨List.Pairwise.nil, by simp⟩ hP
  | cons p ps ih =>
    simp only [List.length_cons] at hcount
    unfold punctLoop
    rw [if_pos (by omega)]
    simp only
    split
    · rfl
    · next hps =>
      by_cases hfit : s + (p - s) ≤ src.length ∧ d + (p - s) ≤ dst.length
      · rw [copyN_ok _ _ _ _ _ hfit.1 hfit.2]
        simp only [Outcome.bind_ok]
        apply ih
        · omega
        · simp; omega
        · simp; omega
        · intro hl
          apply hP
          obtain ⟨h1, h2⟩ := hl
          refine ⟨List.pairwise_cons.mpr ⟨fun q hq => by have := h2 q hq; omega, h1⟩, ?_⟩
          intro q hq
          simp only [List.mem_cons] at hq
          rcases hq with rfl | hq
          · omega
          · have := h2 q hq; omega
      · rw [copyN_fail _ _ _ _ _ (by omega) hs hd]
        rfl

/-- C10 (puncture): with a legal puncture list and matching sizes, `copyPunctured` fills the
destination with exactly the elements not punctured, in order. -/
theorem C10_copyPunctured {α : Type} (src dst : List α) (P : List Nat) (hP : Legal P src.length)
    (hd : P.length + dst.length = src.length) :
    copyPunctured src dst P = .ok (keep P src) := by
  unfold copyPunctured
  rw [if_pos hd, punctLoop_good src P 0 dst 0 (by omega) (by omega) (by omega)
    ⟨hP.1, fun p hp => ⟨by omega, hP.2 p hp⟩⟩]
  simp [keep]

/-- C10 (puncture, rejection): in every other case the call stops on an assertion. -/
theorem C10_copyPunctured_rejects {α : Type} (src dst : List α) (P : List Nat)
    (h : ¬ (Legal P src.length ∧ P.length + dst.length = src.length)) :
    copyPunctured src dst P = .assertFail := by
  unfold copyPunctured
  split
  · next hd =>
    apply punctLoop_bad _ _ _ _ _ (by omega) (by omega) (by omega)
    intro hl
    exact h ⟨⟨hl.1, fun p hp => (hl.2 p hp).2⟩, hd⟩
  · rfl

theorem unpunctLoop_good {α : Type} (half : α) (src : List α) (P : List Nat) (s : Nat) (dst : List α)
    (d : Nat) (hs : s ≤ src.length) (hd : d ≤ dst.length)
    (hcount : (src.length - s) + P.length = dst.length - d) (hP : LegalFrom P d dst.length) :
    ∃ tail, unpunctLoop half src P s dst d = .ok (dst.take d ++ tail) ∧
      tail.length = dst.length - d ∧ keepFrom P d tail = src.drop s ∧
      ∀ p ∈ P, tail[p - d]? = some half := by
  induction P generalizing s dst d with
  | nil =>
    unfold unpunctLoop
    simp only [List.length_nil, Nat.add_zero] at hcount
    split
    · rw [copyN_ok _ _ _ _ _ (by omega) (by omega)]
      simp only [Outcome.bind_ok]
      rw [if_neg (by simp; omega), if_pos (by simp; omega)]
      refine ⟨src.drop s, ?_, by simp; omega, keepFrom_no _ _ _ (by simp), by simp⟩
      congr 1
      rw [List.drop_eq_nil_of_le (as := dst) (by omega), List.append_nil]
      congr 1
      rw [List.take_of_length_le (by simp)]
    · rw [if_pos ⟨by omega, rfl⟩]
      refine ⟨[], ?_, by simp; omega, ?_, by simp⟩
      · rw [List.append_nil, List.take_of_length_le (by omega)]
      · rw [keepFrom_nil, List.drop_eq_nil_of_le (by omega)]
  | cons p ps ih =>
    obtain ⟨hinc, hmem⟩ := hP
    have hp := hmem p (by simp)
    rw [List.pairwise_cons] at hinc
    have hcard := length_le_of_increasing ps (p + 1) dst.length hinc.2
      (fun q hq => ⟨hinc.1 q hq, (hmem q (by simp [hq])).2⟩)
    simp only [List.length_cons] at hcount
    unfold unpunctLoop
    rw [if_pos (by omega)]
    simp only
    rw [if_neg (by omega), copyN_ok _ _ _ _ _ (by omega) (by omega)]
    simp only [Outcome.bind_ok]
    have hlen : (dst.take d ++ (src.drop s).take (p - d) ++ dst.drop (d + (p - d))).length = dst.length := by
      simp; omega
    rw [if_pos (by rw [hlen]; omega)]
    obtain ⟨tail, t1, t2, t3, t4⟩ := ih (s + (p - d))
      ((dst.take d ++ (src.drop s).take (p - d) ++ dst.drop (d + (p - d))).set (d + (p - d)) half)
      (d + (p - d) + 1) (by omega) (by rw [List.length_set, hlen]; omega)
      (by rw [List.length_set, hlen]; omega)
      ⟨hinc.2, fun q hq => ⟨by have := hinc.1 q hq; omega, by
        rw [List.length_set, hlen]; exact (hmem q (by simp [hq])).2⟩⟩
    rw [List.length_set, hlen] at t2
    have hxl : ((src.drop s).take (p - d)).length = p - d := by simp; omega
    refine ⟨(src.drop s).take (p - d) ++ half :: tail, ?_, ?_, ?_, ?_⟩
    · rw [t1]
      congr 1
      rw [List.take_add_one, List.take_set_of_le (Nat.le_refl _), List.getElem?_set_self (by rw [hlen]; omega)]
      have hl : (dst.take d ++ (src.drop s).take (p - d)).length = d + (p - d) := by
        simp; omega
      rw [List.take_append_of_le_length (by omega), List.take_of_length_le (by omega)]
      simp
    · simp; omega
    · rw [keepFrom_append, hxl, show d + (p - d) = p by omega, keepFrom_hit (p :: ps) p _ _ (by simp),
        keepFrom_no (p :: ps) d _ (by
          intro q hq
          rw [hxl]
          simp only [List.mem_cons] at hq
          rcases hq with rfl | hq
          · omega
          · have := hinc.1 q hq; omega),
        keepFrom_congr (p :: ps) ps (p + 1) _ (by intro i hi; simp; omega)]
      rw [show d + (p - d) + 1 = p + 1 by omega] at t3
      rw [t3]
      conv => rhs; rw [← List.take_append_drop (p - d) (src.drop s), List.drop_drop]
    · intro q hq
      simp only [List.mem_cons] at hq
      rcases hq with rfl | hq
      · rw [List.getElem?_append_right (by omega), hxl]; simp
      · have h1 := hinc.1 q hq
        have h2 := t4 q hq
        rw [List.getElem?_append_right (by omega), hxl,
          show q - d - (p - d) = (q - (d + (p - d) + 1)) + 1 by omega, List.getElem?_cons_succ]
        exact h2

theorem unpunctLoop_bad {α : Type} (half : α) (src : List α) (P : List Nat) (s : Nat) (dst : List α)
    (d : Nat) (hs : s ≤ src.length) (hd : d ≤ dst.length)
    (hcount : (src.length - s) + P.length = dst.length - d) (hP : ¬ LegalFrom P d dst.length) :
    unpunctLoop half src P s dst d = .assertFail := by
  induction P generalizing s dst d with
  | nil => exact absurd ⟨List.Pairwise.nil, by simp⟩ hP
  | cons p ps ih =>
    simp only [List.length_cons] at hcount
    unfold unpunctLoop
    rw [if_pos (by omega)]
    simp only
    split
    · rfl
    · next hps =>
      by_cases hfit : s + (p - d) ≤ src.length ∧ d + (p - d) ≤ dst.length
      · rw [copyN_ok _ _ _ _ _ hfit.1 hfit.2]
        simp only [Outcome.bind_ok]
        have hlen : (dst.take d ++ (src.drop s).take (p - d) ++ dst.drop (d + (p - d))).length = dst.length := by
          simp; omega
        rw [if_pos (by rw [hlen]; omega)]
        apply ih
        · omega
        · rw [List.length_set, hlen]; omega
        · rw [List.length_set, hlen]; omega
        · intro hl
          apply hP
          rw [List.length_set, hlen] at hl
          obtain ⟨h1, h2⟩ := hl
          refine ⟨List.pairwise_cons.mpr ⟨fun q hq => by have := h2 q hq; omega, h1⟩, ?_⟩
          intro q hq
          simp only [List.mem_cons] at hq
          rcases hq with rfl | hq
          · omega
          · have := h2 q hq; omega
      · rw [copyN_fail _ _ _ _ _ (by omega) hs hd]
        rfl

/-- C10 (un-puncture): with a legal puncture list and matching sizes, `copyUnPunctured` produces the
vector that has the erasure value at every punctured index and whose other elements, in order, are
the source. -/
theorem C10_copyUnPunctured {α : Type} (half : α) (src dst : List α) (P : List Nat)
    (hP : Legal P dst.length) (hd : src.length + P.length = dst.length) :
    ∃ r, copyUnPunctured half src dst P = .ok r ∧ r.length = dst.length ∧ keep P r = src ∧
      ∀ p ∈ P, r[p]? = some half := by
  obtain ⟨tail, h1, h2, h3, h4⟩ := unpunctLoop_good half src P 0 dst 0 (by omega) (by omega) (by omega)
    ⟨hP.1, fun p hp => ⟨by omega, hP.2 p hp⟩⟩
  refine ⟨tail, ?_, by omega, by simpa [keep] using h3, by simpa using h4⟩
  unfold copyUnPunctured
  rw [if_pos hd, h1]
  simp

/-- C10 (un-puncture, rejection): in every other case the call stops on an assertion; in particular
it never writes outside the destination and never runs forever. -/
theorem C10_copyUnPunctured_rejects {α : Type} (half : α) (src dst : List α) (P : List Nat)
    (h : ¬ (Legal P dst.length ∧ src.length + P.length = dst.length)) :
    copyUnPunctured half src dst P = .assertFail := by
  unfold copyUnPunctured
  split
  · next hd =>
    apply unpunctLoop_bad _ _ _ _ _ _ (by omega) (by omega) (by omega)
    intro hl
    exact h ⟨⟨hl.1, fun p hp => (hl.2 p hp).2⟩, hd⟩
  · rfl

/-- C10 (inverse): puncturing the un-punctured vector restores the source. -/
theorem C10_puncture_unpuncture {α : Type} (half : α) (src dst dst2 : List α) (P : List Nat)
    (hP : Legal P dst.length) (hd : src.length + P.length = dst.length)
    (h2 : dst2.length = src.length) :
    ∃ r, copyUnPunctured half src dst P = .ok r ∧ copyPunctured r dst2 P = .ok src := by
  obtain ⟨r, r1, r2, r3, -⟩ := C10_copyUnPunctured half src dst P hP hd
  refine ⟨r, r1, ?_⟩
  rw [C10_copyPunctured r dst2 P (by rw [r2]; exact hP) (by omega), r3]

/-- an element at a kept index survives in `keepFrom` at the position counting kept indices -/
theorem keepFrom_ext {α : Type} (half : α) (P : List Nat) (s : Nat) (xs ys : List α)
    (hl : xs.length = ys.length) (hk : keepFrom P s xs = keepFrom P s ys)
    (hx : ∀ p ∈ P, s ≤ p → p < s + xs.length → xs[p - s]? = some half)
    (hy : ∀ p ∈ P, s ≤ p → p < s + xs.length → ys[p - s]? = some half) : xs = ys := by
  induction xs generalizing s ys with
  | nil => cases ys with
    | nil => rfl
    | cons _ _ => simp at hl
  | cons x xs ih =>
    cases ys with
    | nil => simp at hl
    | cons y ys =>
      simp only [List.length_cons, Nat.add_right_cancel_iff] at hl
      have step : ∀ zs : List α, ∀ z : α, (∀ p ∈ P, s ≤ p → p < s + (xs.length + 1) → (z :: zs)[p - s]? = some half) →
          ∀ p ∈ P, s + 1 ≤ p → p < s + 1 + xs.length → zs[p - (s + 1)]? = some half := by
        intro zs z h p hp h1 h2
        have := h p hp (by omega) (by omega)
        rw [show p - s = (p - (s + 1)) + 1 by omega, List.getElem?_cons_succ] at this
        exact this
      by_cases hs : s ∈ P
      · have h1 := hx s hs (by omega) (by simp)
        have h2 := hy s hs (by omega) (by simp)
        simp only [Nat.sub_self, List.getElem?_cons_zero, Option.some.injEq] at h1 h2
        rw [keepFrom_hit _ _ _ _ hs, keepFrom_hit _ _ _ _ hs] at hk
        rw [h1, h2, ih (s + 1) ys hl hk (step xs x (by simpa using hx)) (step ys y (by simpa using hy))]
      · have he : ∀ (z : α) (zs : List α), keepFrom P s (z :: zs) = z :: keepFrom P (s + 1) zs := by
          intro z zs
          unfold keepFrom
          simp [List.zipIdx_cons, hs]
        rw [he, he] at hk
        injection hk with hk1 hk2
        rw [hk1, ih (s + 1) ys hl hk2 (step xs x (by simpa using hx)) (step ys y (by simpa using hy))]

/-- C10 (erasures): un-puncturing the punctured vector gives the original vector with the erasure
value at the punctured indices and nothing else changed. -/
theorem C10_unpuncture_puncture {α : Type} (half : α) (v d1 d2 : List α) (P : List Nat)
    (hP : Legal P v.length) (h1 : P.length + d1.length = v.length) (h2 : d2.length = v.length) :
    ∃ m r, copyPunctured v d1 P = .ok m ∧ copyUnPunctured half m d2 P = .ok r ∧
      r.length = v.length ∧ ∀ j, j < v.length → r[j]? = if j ∈ P then some half else v[j]? := by
  have hm := C10_copyPunctured v d1 P hP h1
  have hml : (keep P v).length + P.length = v.length := by
    have hg := punctLoop_good v P 0 d1 0 (by omega) (by omega) (by omega) ⟨hP.1, fun p hp => ⟨by omega, hP.2 p hp⟩⟩
    -- the destination length is preserved, so count the kept elements through the filter
    have key : ∀ (Q : List Nat) (s : Nat) (xs : List α), Q.Pairwise (· < ·) →
        (∀ q ∈ Q, s ≤ q ∧ q < s + xs.length) → (keepFrom Q s xs).length + Q.length = xs.length := by
      intro Q
      induction Q with
      | nil => intro s xs _ _; rw [keepFrom_no _ _ _ (by simp)]; rfl
      | cons q Q ih =>
        intro s xs hinc hmem
        rw [List.pairwise_cons] at hinc
        have hq := hmem q (by simp)
        have hlt : q - s < xs.length := by omega
        have hsplit : xs = xs.take (q - s) ++ xs[q - s] :: xs.drop (q - s + 1) := by
          conv => lhs; rw [← List.take_append_drop (q - s) xs]
          rw [List.drop_eq_getElem_cons hlt]
        have htl : (xs.take (q - s)).length = q - s := by simp; omega
        have hk : keepFrom (q :: Q) s xs = xs.take (q - s) ++ keepFrom Q (q + 1) (xs.drop (q - s + 1)) := by
          conv => lhs; rw [hsplit, keepFrom_append, htl, show s + (q - s) = q by omega]
          rw [keepFrom_hit (q :: Q) q _ _ (by simp), keepFrom_no (q :: Q) s _ (by
            intro a ha
            rw [htl]
            simp only [List.mem_cons] at ha
            rcases ha with rfl | ha
            · omega
            · have := hinc.1 a ha; omega)]
          rw [keepFrom_congr (q :: Q) Q (q + 1) _ (by intro i hi; simp; omega)]
        have := ih (q + 1) (xs.drop (q - s + 1)) hinc.2 (by
          intro a ha
          have h3 := hinc.1 a ha
          have h4 := hmem a (by simp [ha])
          simp; omega)
        rw [hk]
        simp only [List.length_append, htl, List.length_cons, List.length_drop] at *
        omega
    exact key P 0 v hP.1 (fun q hq => ⟨by omega, by have := hP.2 q hq; omega⟩)
  obtain ⟨r, r1, r2, r3, r4⟩ := C10_copyUnPunctured half (keep P v) d2 P (by rw [h2]; exact hP) (by omega)
  refine ⟨_, r, hm, r1, by omega, ?_⟩
  -- compare `r` with `v` erased at `P`
  let e : List α := v.zipIdx.map fun xi => if xi.2 ∈ P then half else xi.1
  have he : ∀ j, e[j]? = if j ∈ P then (v[j]?).map (fun _ => half) else v[j]? := by
    intro j
    simp only [e, List.getElem?_map, List.getElem?_zipIdx]
    cases v[j]? with
    | none => simp
    | some x => simp; split <;> simp_all
  have hke : keepFrom P 0 e = keepFrom P 0 v := by
    have : ∀ (xs : List α) (s : Nat),
        keepFrom P s ((xs.zipIdx s).map fun xi => if xi.2 ∈ P then half else xi.1) = keepFrom P s xs := by
      intro xs
      induction xs with
      | nil => intro s; rfl
      | cons x xs ih =>
        intro s
        have := ih (s + 1)
        unfold keepFrom at *
        simp only [List.zipIdx_cons, List.map_cons, List.filter_cons]
        by_cases hs : s ∈ P
        · simpa [hs] using this
        · simpa [hs] using this
    exact this v 0
  have hre : r = e := by
    apply keepFrom_ext half P 0 r e (by simp [e]; omega)
    · rw [hke]; exact r3
    · intro p hp _ _; exact r4 p hp
    · intro p hp _ _
      have := hP.2 p hp
      rw [Nat.sub_zero, he, if_pos hp, List.getElem?_eq_getElem this]; rfl
  intro j hj
  rw [hre, he, List.getElem?_eq_getElem hj]
  rfl

example : copyPunctured [10, 11, 12, 13, 14] [0, 0, 0] [1, 4] = .ok [10, 12, 13] :=
  C10_copyPunctured _ _ _ ⟨by decide, by decide⟩ rfl
example : copyUnPunctured 99 [10, 12, 13] [0, 0, 0, 0, 0] [1, 4] = .ok [10, 99, 12, 13, 99] := by decide
example : ∃ m r, copyPunctured [10, 11, 12, 13, 14] [0, 0, 0] [1, 4] = .ok m ∧
    copyUnPunctured 99 m [0, 0, 0, 0, 0] [1, 4] = .ok r ∧ r.length = 5 ∧
    ∀ j, j < 5 → r[j]? = if j ∈ [1, 4] then some 99 else [10, 11, 12, 13, 14][j]? :=
  C10_unpuncture_puncture 99 _ _ _ _ ⟨by decide, by decide⟩ rfl rfl
example : copyPunctured [10, 11, 12] [0] [2, 1] = .assertFail :=
  C10_copyPunctured_rejects _ _ _ (by unfold Legal; decide)

/-! ### C14 -/

/-- C14: slicing a soft copy of a bit vector gives back its bits (as clean 0/1 chars). -/
theorem C14_slice_of_bits (v : BitVector.Bits) :
    BitVector.Spec.bits (sliced (ofBits v)) = BitVector.Spec.bits v := by
  simp only [BitVector.Spec.bits, sliced, ofBits, List.map_map]
  apply List.map_congr_left
  intro c _
  simp only [Function.comp, BitVector.char_bit]
  cases c.getLsbD 0 <;> norm_num <;> decide

/-- C14: slicing decides 1 exactly above one half, agreeing with `SoftVector::bit`. -/
theorem C14_slice_threshold (v : List Rat) (i : Nat) (x : Rat) (h : v[i]? = some x) :
    (sliced v)[i]? = some (if 1 / 2 < x then 1 else 0) ∧
      softBit v i = .ok (decide (1 / 2 < x)) ∧ (sliced v).length = v.length := by
  refine ⟨by simp [sliced, h], by simp [softBit, h], by simp [sliced]⟩

example : sliced [1, 0, 1 / 2, 3 / 4] = [1, 0, 0, 1] := by decide +kernel

/-! ### C75: energy and SNR -/

theorem energy_bounds (x : Rat) (h0 : 0 ≤ x) (h1 : x ≤ 1) : 0 ≤ energy x ∧ energy x ≤ 1 := by
  unfold energy
  split <;> constructor <;> linarith

theorem getEnergy_fold (v : List Rat) (n : Rat) (a l : Rat) :
    v.foldl (fun (p : Rat × Rat) x =>
      let e := energy x
      (p.1 + e / n, if e < p.2 then e else p.2)) (a, l) =
      (a + (v.map energy).sum / n, v.foldl (fun l x => min l (energy x)) l) := by
  induction v generalizing a l with
  | nil => simp
  | cons x v ih =>
    simp only [List.foldl_cons, List.map_cons, List.sum_cons]
    rw [ih]
    congr 1
    · rw [add_div, add_assoc]
    · congr 1
      rw [min_def]
      split
      · rw [if_neg (by linarith)]
      · rw [if_pos (by linarith)]

/-- C75 (energy): for a non-empty vector of values in 0..1 the returned average is the mean of the
energies `2|x-1/2|` and lies in 0..1, and the lowest value is at most every bit's energy, and is one of
them or 1. -/
theorem C75_energy (v : List Rat) (hne : v ≠ []) (h : ∀ x ∈ v, 0 ≤ x ∧ x ≤ 1) :
    (getEnergy v).1 * v.length = (v.map energy).sum ∧ 0 ≤ (getEnergy v).1 ∧ (getEnergy v).1 ≤ 1 ∧
      (∀ x ∈ v, (getEnergy v).2 ≤ energy x) ∧
      (∃ x ∈ v, (getEnergy v).2 = energy x) := by
  have hfold := getEnergy_fold v v.length 0 1
  have he : getEnergy v = (0 + (v.map energy).sum / v.length, v.foldl (fun l x => min l (energy x)) 1) := hfold
  have hpos : (0 : Rat) < v.length := by
    have : 0 < v.length := List.length_pos_iff.mpr hne
    exact_mod_cast this
  have hsum : ∀ w : List Rat, (∀ x ∈ w, 0 ≤ x ∧ x ≤ 1) → 0 ≤ (w.map energy).sum ∧ (w.map energy).sum ≤ w.length := by
    intro w
    induction w with
    | nil => intro _; simp
    | cons x w ih =>
      intro hw
      have h1 := energy_bounds x (hw x (by simp)).1 (hw x (by simp)).2
      have h2 := ih (fun y hy => hw y (by simp [hy]))
      simp only [List.map_cons, List.sum_cons, List.length_cons]
      push_cast
      constructor <;> linarith [h1.1, h1.2, h2.1, h2.2]
  have hs := hsum v h
  have hmin : ∀ (w : List Rat) (l : Rat),
      (w.foldl (fun l x => min l (energy x)) l ≤ l) ∧ (∀ x ∈ w, w.foldl (fun l x => min l (energy x)) l ≤ energy x) ∧
      (w.foldl (fun l x => min l (energy x)) l = l ∨ ∃ x ∈ w, w.foldl (fun l x => min l (energy x)) l = energy x) := by
    intro w
    induction w with
    | nil => intro l; simp
    | cons y w ih =>
      intro l
      obtain ⟨i1, i2, i3⟩ := ih (min l (energy y))
      simp only [List.foldl_cons]
      refine ⟨le_trans i1 (min_le_left _ _), ?_, ?_⟩
      · intro x hx
        simp only [List.mem_cons] at hx
        rcases hx with rfl | hx
        · exact le_trans i1 (min_le_right _ _)
        · exact i2 x hx
      · rcases i3 with i3 | ⟨x, hx, i3⟩
        · rcases min_choice l (energy y) with hc | hc
          · left; rw [i3, hc]
          · right; exact ⟨y, by simp, by rw [i3, hc]⟩
        · right; exact ⟨x, by simp [hx], i3⟩
  obtain ⟨m1, m2, m3⟩ := hmin v 1
  rw [he]
  refine ⟨?_, ?_, ?_, m2, ?_⟩
  · simp only [zero_add]; field_simp
  · simp only [zero_add]; exact div_nonneg hs.1 hpos.le
  · simp only [zero_add]; rw [div_le_one hpos]; exact hs.2
  · rcases m3 with m3 | m3
    · obtain ⟨x, hx⟩ := List.exists_mem_of_ne_nil v hne
      refine ⟨x, hx, ?_⟩
      have h1 := m2 x hx
      have h2 := (energy_bounds x (h x hx).1 (h x hx).2).2
      simp only at *
      linarith
    · exact m3

theorem noiseSum_nonneg (v : List Rat) : 0 ≤ noiseSum v := by
  have : ∀ (w : List Rat) (s : Rat), 0 ≤ s →
      0 ≤ w.foldl (fun s x => if x < 1 / 2 then s + (x - 0) * (x - 0) else s + (x - 1) * (x - 1)) s := by
    intro w
    induction w with
    | nil => intro s hs; exact hs
    | cons x w ih =>
      intro s hs
      simp only [List.foldl_cons]
      apply ih
      split
      · have := mul_self_nonneg (x - 0); linarith
      · have := mul_self_nonneg (x - 1); linarith
  exact this v 0 (le_refl 0)

theorem energy_zero (x : Rat) : 0 ≤ energy x ∧ (energy x = 0 ↔ x = 1 / 2) := by
  unfold energy
  split
  · constructor
    · linarith
    · constructor <;> intro h <;> linarith
  · constructor
    · linarith
    · constructor <;> intro h <;> linarith

theorem sum_zero : ∀ l : List Rat, (l.map energy).sum = 0 → ∀ x ∈ l, x = 1 / 2
  | [], _, x, hx => by cases hx
  | y :: l, h, x, hx => by
    rw [List.map_cons, List.sum_cons] at h
    have h1 := (energy_zero y).1
    have h2 : 0 ≤ (l.map energy).sum := by
      apply List.sum_nonneg
      intro z hz
      obtain ⟨w, -, rfl⟩ := List.mem_map.1 hz
      exact (energy_zero w).1
    rcases List.mem_cons.1 hx with rfl | hx
    · exact (energy_zero _).2.1 (by linarith)
    · exact sum_zero l (by linarith) x hx

/-- C75 (unknown): a vector has no energy exactly if every bit is unknown, as after `unknown`; then the lowest energy is zero too. -/
theorem C75_unknown (v : List Rat) (hne : v ≠ []) (h : ∀ x ∈ v, 0 ≤ x ∧ x ≤ 1) :
    (unknown v).length = v.length ∧ getEnergy (unknown v) = (0, 0) ∧ ((getEnergy v).1 = 0 ↔ unknown v = v) := by
  have hu : ∀ x ∈ unknown v, x = 1 / 2 := by
    intro x hx
    obtain ⟨_, -, rfl⟩ := List.mem_map.1 hx
    rfl
  have hl : (unknown v).length = v.length := by simp [unknown]
  have hpos : (0 : Rat) < v.length := by
    have := List.length_pos_iff.2 hne
    exact_mod_cast this
  have hune : unknown v ≠ [] := by
    intro e
    rw [e] at hl
    exact hne (List.length_eq_zero_iff.1 hl.symm)
  obtain ⟨a, -, -, -, ⟨x, hx, e⟩⟩ := C75_energy (unknown v) hune (fun x hx => by rw [hu x hx]; constructor <;> norm_num)
  have hz : ((unknown v).map energy).sum = 0 := by
    have : (unknown v).map energy = List.replicate (unknown v).length 0 := by
      rw [List.eq_replicate_iff]
      refine ⟨by simp, fun y hy => ?_⟩
      obtain ⟨z, hz, rfl⟩ := List.mem_map.1 hy
      exact (energy_zero z).2.2 (hu z hz)
    rw [this]
    simp
  have h1 : (getEnergy (unknown v)).1 = 0 := by
    rw [hz, hl] at a
    rcases mul_eq_zero.1 a with a | a
    · exact a
    · exact absurd a (ne_of_gt hpos)
  refine ⟨hl, ?_, ?_, ?_⟩
  · rw [Prod.ext_iff]
    exact ⟨h1, by rw [e]; exact (energy_zero x).2.2 (hu x hx)⟩
  · intro h0
    obtain ⟨b, -⟩ := C75_energy v hne h
    rw [h0, zero_mul] at b
    have hv := sum_zero v b.symm
    unfold unknown
    conv_rhs => rw [← List.map_id v]
    exact List.map_congr_left fun x hx => (hv x hx).symm
  · intro hv
    rw [← hv]
    exact h1

example : getEnergy (unknown [0, 1, 3 / 4]) = (0, 0) ∧ (getEnergy [0, 1, 1 / 2]).1 ≠ 0 := by decide +kernel

/-- C75 (SNR), partial: the SNR never divides by zero and lies between 0 and 1000.  The comment's
claim "clamp max to 999" is false between 999 and 1000 (`C75_snr_clamp_refuted`). -/
theorem C75_snr_range_partial (v : List Rat) : 0 ≤ getSNR v ∧ getSNR v ≤ 1000 ∧
    (v ≠ [] → getSNR v ≠ 999 → 0 < noiseSum v) := by
  unfold getSNR
  by_cases hl : v.length = 0
  · rw [if_pos hl]
    refine ⟨by norm_num, by norm_num, fun hne => ?_⟩
    exact absurd (List.length_eq_zero_iff.mp hl) hne
  · rw [if_neg hl]
    have hpos : (0 : Rat) < v.length := by
      have : 0 < v.length := by omega
      exact_mod_cast this
    have hn := noiseSum_nonneg v
    simp only
    split
    · refine ⟨by norm_num, by norm_num, fun _ h => absurd rfl h⟩
    · next hc =>
      have hsig : (0 : Rat) < 1 / 2 * (1 / 2) * v.length := by positivity
      have hnp : 0 < noiseSum v := by linarith
      refine ⟨by positivity, ?_, fun _ _ => hnp⟩
      rw [div_le_iff₀ hnp]
      linarith

/-- The clamp to 999 is not a bound: a vector whose exact SNR is 1000 reports 1000. -/
theorem C75_snr_clamp_refuted : ∃ v : List Rat, 999 < getSNR v := by
  refine ⟨[1 / 20, 0, 0, 0, 0, 0, 0, 0, 0, 0], ?_⟩
  have h : getSNR [1 / 20, 0, 0, 0, 0, 0, 0, 0, 0, 0] = 1000 := by
    simp only [getSNR, noiseSum, List.foldl_cons, List.foldl_nil, List.length_cons, List.length_nil]
    norm_num
  rw [h]; norm_num

example : getEnergy [1, 0, 1 / 2] = (2 / 3, 0) := by
  simp only [getEnergy, energy, List.foldl_cons, List.foldl_nil, List.length_cons, List.length_nil]
  norm_num

end Verif.Soft
