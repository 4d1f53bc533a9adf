import Verif.Core.Double
import Verif.Utils.SmallProps
import Mathlib.Algebra.BigOperators.Group.List.Basic
import Mathlib.Data.List.Induction
import Mathlib.Algebra.Order.Group.Abs
import Mathlib.Algebra.Order.BigOperators.Group.List

/-
Property C156: the average of a `Statistic`, computed with `double`s (`Utils.h:117-139`).
-/

namespace Verif.Utils.Average
open Verif Verif.Utils

/-! ### Model -/

/-- `Statistic<Type>`, `Utils.h:118-124`, for a `Type` all of whose values are `double`s (`int`, `unsigned`, `float`, `double`); `mCurrent` is C47. -/
structure Stat where
  mMin : ℚ := 0
  mMax : ℚ := 0
  mCnt : Nat := 0
  mSum : ℚ := 0

/-- `addPoint`, `Utils.h:126-133`; `mSum += val` rounds. -/
def Stat.add (s : Stat) (v : ℚ) : Stat :=
  { mMin := if s.mCnt = 0 ∨ v < s.mMin then v else s.mMin
    mMax := if s.mCnt = 0 ∨ v > s.mMax then v else s.mMax
    mCnt := (s.mCnt + 1) % 2 ^ 32
    mSum := dfl (s.mSum + v) }

/-- `getAvg`, `Utils.h:137-139`; the quotient is rounded. -/
def Stat.avg (s : Stat) : ℚ := if s.mCnt = 0 then 0 else dfl (s.mSum / s.mCnt)

/-- After these samples. -/
def stat (l : List ℚ) : Stat := l.foldl Stat.add {}

/-! ### Lemmas -/

theorem stat_snoc (l : List ℚ) (v : ℚ) : stat (l ++ [v]) = (stat l).add v := by simp [stat]

theorem stat_cnt (l : List ℚ) : (stat l).mCnt = l.length % 2 ^ 32 := by
  induction l using List.reverseRecOn with
  | nil => rfl
  | append_singleton l v ih => rw [stat_snoc]; simp only [Stat.add, ih, List.length_append, List.length_singleton]; omega

theorem stat_avg (l : List ℚ) (h : l ≠ []) (hl : l.length < 2 ^ 32) : (stat l).avg = dfl ((stat l).mSum / l.length) := by
  have hc := stat_cnt l
  rw [Nat.mod_eq_of_lt hl] at hc
  have : l.length ≠ 0 := by simpa using h
  rw [Stat.avg, hc, if_neg this]

theorem abs_sum_le (l : List ℚ) (M : ℚ) (h : ∀ v ∈ l, |v| ≤ M) : |l.sum| ≤ l.length * M := by
  induction l with
  | nil => simp
  | cons v l ih =>
    have h1 := ih fun w hw => h w (List.mem_cons_of_mem _ hw)
    have h2 := h v (by simp)
    rw [List.sum_cons]
    refine (abs_add_le _ _).trans ?_
    push_cast [List.length_cons]
    linarith

/-- The error of the sum. -/
theorem sum_error (l : List ℚ) (M : ℚ) (hM : 0 ≤ M) (h : ∀ v ∈ l, |v| ≤ M) (hl : l.length ≤ 2 ^ 53) : |(stat l).mSum - l.sum| ≤ (l.length : ℚ) ^ 2 * M / 2 ^ 53 := by
  induction l using List.reverseRecOn with
  | nil => simp [stat]
  | append_singleton l v ih =>
    have hlen : (l ++ [v]).length = l.length + 1 := by simp
    rw [hlen] at hl ⊢
    have hi := ih (fun w hw => h w (by simp [hw])) (by omega)
    have hs := abs_sum_le (l ++ [v]) M h
    rw [hlen, List.sum_append] at hs
    simp only [List.sum_cons, List.sum_nil, add_zero] at hs
    rw [stat_snoc, List.sum_append]
    simp only [Stat.add, List.sum_cons, List.sum_nil, add_zero]
    have hr := dfl_rel ((stat l).mSum + v)
    generalize hS : (stat l).mSum = S at hi hr ⊢
    generalize hT : l.sum = T at hi hs ⊢
    generalize dfl (S + v) = D at hr ⊢
    have hk : (l.length : ℚ) + 1 ≤ 2 ^ 53 := by exact_mod_cast hl
    have hk0 : (0 : ℚ) ≤ l.length := by positivity
    push_cast at hs ⊢
    generalize (l.length : ℚ) = k at hi hs hk hk0 ⊢
    have e1 : |S + v| ≤ |T + v| + |S - T| := by
      have := abs_add_le (T + v) (S - T)
      rwa [show T + v + (S - T) = S + v by ring] at this
    have e2 : |D - (T + v)| ≤ |D - (S + v)| + |S - T| := by
      have := abs_add_le (D - (S + v)) (S - T)
      rwa [show D - (S + v) + (S - T) = D - (T + v) by ring] at this
    have hk2 : k ^ 2 ≤ k * 2 ^ 53 := by nlinarith
    have hi' : |S - T| / 2 ^ 53 ≤ k * M / 2 ^ 53 := by
      apply div_le_div_of_nonneg_right _ (by positivity)
      refine hi.trans ?_
      rw [div_le_iff₀ (by positivity)]
      nlinarith
    have : |S + v| / 2 ^ 53 ≤ (k + 1) * M / 2 ^ 53 + k * M / 2 ^ 53 := by
      have : |S + v| / 2 ^ 53 ≤ |T + v| / 2 ^ 53 + |S - T| / 2 ^ 53 := by rw [← add_div]; exact div_le_div_of_nonneg_right e1 (by positivity)
      have : |T + v| / 2 ^ 53 ≤ (k + 1) * M / 2 ^ 53 := div_le_div_of_nonneg_right hs (by positivity)
      linarith
    have e3 : (k + 1) ^ 2 * M / 2 ^ 53 = k ^ 2 * M / 2 ^ 53 + ((k + 1) * M / 2 ^ 53 + k * M / 2 ^ 53) := by ring
    rw [e3]
    linarith

/-! ### C156 -/

/-- C156: for fewer than 2^32 samples of any size the average differs from the mean by at most a millionth of the largest sample. -/
theorem C156_bound (l : List ℚ) (M : ℚ) (h : ∀ v ∈ l, |v| ≤ M) (hl : l.length < 2 ^ 32) (hne : l ≠ []) : |(stat l).avg - l.sum / l.length| ≤ M / 2 ^ 20 := by
  have hM : 0 ≤ M := by
    obtain ⟨v, r, rfl⟩ := List.exists_cons_of_ne_nil hne
    exact (abs_nonneg v).trans (h v (by simp))
  have he := sum_error l M hM h (by omega)
  rw [stat_avg l hne hl]
  have hs := abs_sum_le l M h
  have hr := dfl_rel ((stat l).mSum / l.length)
  have hn : (0 : ℚ) < l.length := by
    have : 0 < l.length := List.length_pos_iff.2 hne
    exact_mod_cast this
  have hn2 : (l.length : ℚ) ≤ 2 ^ 32 := by exact_mod_cast hl.le
  generalize (l.length : ℚ) = n at *
  generalize (stat l).mSum = S at *
  generalize l.sum = T at *
  have e1 : |S / n - T / n| ≤ n * M / 2 ^ 53 := by
    rw [← sub_div, abs_div, abs_of_pos hn, div_le_iff₀ hn]
    calc |S - T| ≤ n ^ 2 * M / 2 ^ 53 := he
      _ = n * M / 2 ^ 53 * n := by ring
  have e2 : n * M / 2 ^ 53 ≤ M / 2 ^ 21 := by
    rw [div_le_div_iff₀ (by positivity) (by positivity)]
    nlinarith
  have e3 : |T / n| ≤ M := by
    rw [abs_div, abs_of_pos hn, div_le_iff₀ hn]
    linarith
  have e4 : |S / n| ≤ 2 * M := by
    have := abs_add_le (T / n) (S / n - T / n)
    rw [show T / n + (S / n - T / n) = S / n by ring] at this
    have : M / 2 ^ 21 ≤ M := div_le_self hM (by norm_num)
    linarith
  have e5 := abs_add_le (dfl (S / n) - S / n) (S / n - T / n)
  rw [show dfl (S / n) - S / n + (S / n - T / n) = dfl (S / n) - T / n by ring] at e5
  have e6 : |S / n| / 2 ^ 53 ≤ M / 2 ^ 52 := by
    rw [div_le_div_iff₀ (by positivity) (by positivity)]
    nlinarith
  have e7 : M / 2 ^ 52 + M / 2 ^ 21 ≤ M / 2 ^ 20 := by
    have : M / 2 ^ 52 ≤ M / 2 ^ 21 := div_le_div_of_nonneg_left hM (by positivity) (by norm_num)
    have : M / 2 ^ 20 = M / 2 ^ 21 + M / 2 ^ 21 := by ring
    linarith
  linarith

/-- The samples of a `Statistic<int>`. -/
def ints (l : List ℤ) : List ℚ := l.map (Int.cast : ℤ → ℚ)

theorem ints_sum (l : List ℤ) : (ints l).sum = (l.sum : ℚ) := by
  induction l with
  | nil => rfl
  | cons x l ih => simp only [ints, List.map_cons, List.sum_cons] at ih ⊢; rw [ih]; push_cast; rfl

theorem exact_sum (l : List ℤ) (h : ∀ k, |(l.take k).sum| ≤ 2 ^ 53) : (stat (ints l)).mSum = (l.sum : ℚ) := by
  induction l using List.reverseRecOn with
  | nil => rfl
  | append_singleton l v ih =>
    have h1 := ih fun k => by
      have := h (min k l.length)
      rw [List.take_append_of_le_length (min_le_right ..)] at this
      rcases le_total k l.length with hk | hk
      · rwa [min_eq_left hk] at this
      · rw [min_eq_right hk, List.take_length] at this
        rwa [List.take_of_length_le hk]
    have h2 := h (l ++ [v]).length
    rw [List.take_length] at h2
    have e : ints (l ++ [v]) = ints l ++ [(v : ℚ)] := by simp [ints]
    rw [e, stat_snoc]
    simp only [Stat.add, h1]
    have e2 : ((l.sum : ℚ) + v) = (((l ++ [v]).sum : ℤ) : ℚ) := by rw [List.sum_append]; simp
    rw [e2]
    exact dfl_of_double _ (isDouble_int _ h2)

/-- C156, partial (whole numbers, sums of magnitude up to 2^53): the sum is exact, so that C47 holds of the `double`, and the average is the `double` nearest to the mean and lies between any two bounds of the samples. -/
theorem C156_exact_partial (l : List ℤ) (hne : l ≠ []) (hl : l.length < 2 ^ 32) (h : ∀ k, |(l.take k).sum| ≤ 2 ^ 53) :
    (stat (ints l)).mSum = ((samples l).mSum : ℚ) ∧ (stat (ints l)).avg = dfl (samples l).getAvg ∧
    |(stat (ints l)).avg - (l.sum : ℚ) / l.length| ≤ |(l.sum : ℚ) / l.length| / 2 ^ 53 ∧
    ∀ a b : ℤ, |a| ≤ 2 ^ 53 → |b| ≤ 2 ^ 53 → (∀ v ∈ l, a ≤ v ∧ v ≤ b) → (a : ℚ) ≤ (stat (ints l)).avg ∧ (stat (ints l)).avg ≤ b := by
  have hs := exact_sum l h
  have hlen : (ints l).length = l.length := by simp [ints]
  have ha := stat_avg (ints l) (by simpa [ints] using hne) (by rw [hlen]; exact hl)
  rw [hlen, hs] at ha
  have hS : (samples l).mSum = l.sum := samples_sum l
  have hC : (samples l).mCnt = l.length := by rw [samples_cnt l, Nat.mod_eq_of_lt hl]
  have hpos : 0 < l.length := List.length_pos_iff.2 hne
  refine ⟨by rw [hs, hS], ?_, ?_, ?_⟩
  · rw [ha, Statistic.getAvg, hC, hS, if_neg (by omega)]
  · rw [ha]; exact dfl_rel _
  · intro a b h1 h2 hv
    have hn : (0 : ℚ) < l.length := by exact_mod_cast hpos
    have key : ∀ l : List ℤ, (∀ v ∈ l, a ≤ v ∧ v ≤ b) → a * l.length ≤ l.sum ∧ l.sum ≤ b * l.length := by
      intro l
      induction l with
      | nil => intro _; simp
      | cons v l ih =>
        intro hv
        have h1 := ih fun w hw => hv w (List.mem_cons_of_mem _ hw)
        have h2 := hv v (by simp)
        rw [List.sum_cons]
        push_cast [List.length_cons]
        constructor <;> nlinarith
    obtain ⟨k1, k2⟩ := key l hv
    have k1' : (a : ℚ) * l.length ≤ l.sum := by exact_mod_cast k1
    have k2' : (l.sum : ℚ) ≤ b * l.length := by exact_mod_cast k2
    rw [ha]
    exact ⟨double_le_dfl _ _ (isDouble_int a h1) ((le_div_iff₀ hn).2 k1'), dfl_le_double _ _ (isDouble_int b h2) ((div_le_iff₀ hn).2 k2')⟩

/-- C156, partial: this holds for all fewer than 2^32 samples of magnitude up to 2^21. -/
theorem C156_small_partial (l : List ℤ) (hl : l.length < 2 ^ 32) (h : ∀ v ∈ l, |v| ≤ 2 ^ 21) (k : Nat) : |(l.take k).sum| ≤ 2 ^ 53 := by
  have key : ∀ l : List ℤ, (∀ v ∈ l, |v| ≤ 2 ^ 21) → |l.sum| ≤ l.length * 2 ^ 21 := by
    intro l
    induction l with
    | nil => intro _; simp
    | cons v l ih =>
      intro h
      have h1 := ih fun w hw => h w (List.mem_cons_of_mem _ hw)
      have h2 := h v (by simp)
      rw [List.sum_cons]
      push_cast [List.length_cons]
      have := abs_add_le v l.sum
      linarith
  have h1 := key (l.take k) fun v hv => h v (List.mem_of_mem_take hv)
  have h2 : ((l.take k).length : ℤ) ≤ 2 ^ 32 := by
    have : (l.take k).length ≤ l.length := List.length_take_le' ..
    omega
  linarith

theorem rne_eval (x : ℚ) (f : ℤ) (h1 : (f : ℚ) ≤ x) (h2 : x < f + 1) : rne x = if x - f < 1 / 2 then f else if 1 / 2 < x - f then f + 1 else if 2 ∣ f then f else f + 1 := by
  have : ⌊x⌋ = f := Int.floor_eq_iff.2 ⟨h1, h2⟩
  rw [rne, this]

theorem dfl_eval (x : ℚ) (k n : ℤ) (h0 : x ≠ 0) (h1 : 2 ^ (k + 52) ≤ |x|) (h2 : |x| < 2 ^ (k + 53)) (h3 : rne (x / 2 ^ k) = n) : dfl x = n * 2 ^ k := by
  rw [dfl, if_neg h0, dLastBit_eq x k h1 h2, h3]

theorem dfl_lost : dfl (-2 ^ 53 + -1) = -2 ^ 53 := by
  rw [dfl_eval _ 1 (-2 ^ 52) (by norm_num) (by norm_num) (by norm_num)]
  · norm_num
  · rw [rne_eval _ (-2 ^ 52 - 1) (by norm_num) (by norm_num)]
    norm_num

/-- C156 beyond that, refuted: once the sum is -2^53 (after 4194304 samples of the least `int`), every further sample of -1 is lost. -/
theorem C156_lost_refuted (n : Nat) : (stat (ints (List.replicate (2 ^ 22) (-2 ^ 31) ++ List.replicate n (-1)))).mSum = -2 ^ 53 := by
  induction n with
  | zero =>
    rw [List.replicate_zero, List.append_nil, exact_sum _ fun k => ?_]
    · rw [List.sum_replicate]; norm_num
    · rw [List.take_replicate, List.sum_replicate, nsmul_eq_mul, abs_mul]
      have h1 : min k (2 ^ 22) ≤ 2 ^ 22 := min_le_right ..
      have h2 : ((min k (2 ^ 22) : ℕ) : ℤ) ≤ 2 ^ 22 := by exact_mod_cast h1
      rw [abs_of_nonneg (by positivity)]
      have h3 : |(-2 ^ 31 : ℤ)| = 2 ^ 31 := by norm_num
      rw [h3]
      generalize ((min k (2 ^ 22) : ℕ) : ℤ) = m at h2 ⊢
      linarith
  | succ n ih =>
    have e : ints (List.replicate (2 ^ 22) (-2 ^ 31) ++ List.replicate (n + 1) (-1)) = ints (List.replicate (2 ^ 22) (-2 ^ 31) ++ List.replicate n (-1)) ++ [-1] := by
      rw [List.replicate_succ', ← List.append_assoc]
      simp only [ints, List.map_append, List.map_cons, List.map_nil]
      norm_num
    rw [e, stat_snoc]
    simp only [Stat.add]
    rw [ih]
    exact dfl_lost

/-- The `double` nearest to a tenth. -/
def tenth : ℚ := 3602879701896397 / 2 ^ 55

/-- C156, refuted for fractions: the average of 0.1, 0.1 and 0.1 is 0.10000000000000002, above the largest sample. -/
theorem C156_range_refuted : IsDouble tenth ∧ (stat [tenth, tenth, tenth]).mMax = tenth ∧ (stat [tenth, tenth, tenth]).avg = tenth + 1 / 2 ^ 56 := by
  have e1 : dfl (0 + tenth) = tenth := by
    rw [zero_add]
    exact dfl_of_double _ ⟨3602879701896397, -55, by norm_num, by norm_num [tenth]⟩
  have e2 : dfl (tenth + tenth) = 2 * tenth := by
    rw [← two_mul]; exact dfl_of_double _ ⟨3602879701896397, -54, by norm_num, by norm_num [tenth]⟩
  have e3 : dfl (2 * tenth + tenth) = 5404319552844596 / 2 ^ 54 := by
    rw [dfl_eval _ (-54) 5404319552844596 (by norm_num [tenth]) (by norm_num [tenth, abs_of_pos]) (by norm_num [tenth, abs_of_pos])]
    · norm_num
    · rw [rne_eval _ 5404319552844595 (by norm_num [tenth]) (by norm_num [tenth])]
      norm_num [tenth]
  have e4 : dfl (5404319552844596 / 2 ^ 54 / 3) = 7205759403792795 / 2 ^ 56 := by
    rw [dfl_eval _ (-56) 7205759403792795 (by norm_num) (by norm_num [abs_of_pos]) (by norm_num [abs_of_pos])]
    · norm_num
    · rw [rne_eval _ 7205759403792794 (by norm_num) (by norm_num)]
      norm_num
  refine ⟨⟨3602879701896397, -55, by norm_num, by norm_num [tenth]⟩, ?_, ?_⟩
  · simp [stat, Stat.add]
  · rw [stat_avg _ (by simp) (by simp)]
    simp only [stat, List.foldl_cons, List.foldl_nil, Stat.add, e1, e2, e3, List.length_cons, List.length_nil]
    norm_num [tenth] at e4 ⊢
    rw [e4]

/-- Ten samples: the average of 1 to 10 is 5.5, between 1 and 10. -/
example : (stat (ints [1, 2, 3, 4, 5, 6, 7, 8, 9, 10])).avg = 55 / 10 := by
  have h := (C156_exact_partial [1, 2, 3, 4, 5, 6, 7, 8, 9, 10] (by simp) (by simp) (C156_small_partial _ (by simp) (by decide))).2.1
  have e : (samples [1, 2, 3, 4, 5, 6, 7, 8, 9, 10]).getAvg = 55 / 10 := by norm_num [samples, Statistic.getAvg, Statistic.addPoint]
  rw [h, e]
  exact dfl_of_double _ ⟨11, -1, by norm_num, by norm_num⟩

/-- A statistic of delays below 2^21 milliseconds: nothing is lost. -/
example (l : List ℤ) (hne : l ≠ []) (hl : l.length < 2 ^ 32) (h : ∀ v ∈ l, 0 ≤ v ∧ v ≤ 60000) : 0 ≤ (stat (ints l)).avg ∧ (stat (ints l)).avg ≤ 60000 := by
  have := (C156_exact_partial l hne hl (C156_small_partial l hl fun v hv => by have := h v hv; rw [abs_of_nonneg this.1]; omega)).2.2.2 0 60000 (by norm_num) (by norm_num) h
  exact_mod_cast this

/-- Three samples of a tenth: the error allowed is about 1e-7, the actual error about 1e-17. -/
example : |(stat [tenth, tenth, tenth]).avg - (tenth + (tenth + (tenth + 0))) / 3| ≤ tenth / 2 ^ 20 := by
  have h := C156_bound [tenth, tenth, tenth] tenth (by intro v hv; simp at hv; subst hv; rw [abs_of_nonneg (by norm_num [tenth])]) (by simp) (by simp)
  simpa using h

end Verif.Utils.Average
