import Verif.Utils.Strings
import Verif.Utils.StringSpec

/-
Property C42.
-/

namespace Verif.Utils
open Verif Spec

theorem find_some {s pat : Str} {pos i : Nat} (h : find s pat pos = some i) :
    pos ≤ i ∧ i ≤ s.length ∧ OccursAt pat s i ∧ ∀ j, pos ≤ j → j < i → ¬ OccursAt pat s j := by
  unfold find at h
  rw [List.find?_range_eq_some] at h
  obtain ⟨h1, h2, h3⟩ := h
  simp only [Bool.and_eq_true, decide_eq_true_eq, List.isPrefixOf_iff_prefix] at h1
  refine ⟨h1.1, by have := List.mem_range.mp h2; omega, h1.2, ?_⟩
  intro j hj hji hocc
  have := h3 j hji
  rw [List.isPrefixOf_iff_prefix.mpr hocc] at this
  simp [hj] at this

theorem find_none {s pat : Str} {pos : Nat} (h : find s pat pos = none) :
    ∀ j, pos ≤ j → j ≤ s.length → ¬ OccursAt pat s j := by
  unfold find at h
  rw [List.find?_range_eq_none] at h
  intro j hj hjl hocc
  have := h j (by omega)
  rw [List.isPrefixOf_iff_prefix.mpr hocc] at this
  simp [hj] at this

theorem not_occurs_beyond {pat s : Str} (hp : pat ≠ []) {j : Nat} (hj : s.length ≤ j) : ¬ OccursAt pat s j := by
  unfold OccursAt
  rw [List.drop_eq_nil_of_le hj, List.prefix_nil]
  exact hp

theorem occurs_append (pat a s : Str) (j : Nat) : OccursAt pat (a ++ s) (a.length + j) ↔ OccursAt pat s j := by
  unfold OccursAt
  rw [List.drop_append, List.drop_eq_nil_of_le (by omega)]
  simp

theorem loop_correct (search rep : Str) (hs : search ≠ []) : ∀ (n : Nat) (rest done : Str), rest.length ≤ n →
    done.length + rest.length + rest.length * rep.length < 2 ^ 32 - 1 →
    ∃ t log, Replaced search rep rest t ∧
      ∀ fuel, n < fuel → replaceLoop search rep fuel (done ++ rest) done.length = some (done ++ t, log) := by
  intro n
  induction n with
  | zero =>
    intro rest done h _
    have hr : rest = [] := List.eq_nil_of_length_eq_zero (by omega)
    subst hr
    refine ⟨[], false, .done _ (fun i => not_occurs_beyond hs (by simp)), fun fuel hf => ?_⟩
    cases fuel with
    | zero => omega
    | succ fuel => simp [replaceLoop]
  | succ n ih =>
    intro rest done hlen hb
    by_cases hr : rest = []
    · subst hr
      refine ⟨[], false, .done _ (fun i => not_occurs_beyond hs (by simp)), fun fuel hf => ?_⟩
      cases fuel with
      | zero => omega
      | succ fuel => simp [replaceLoop]
    have hrl : 0 < rest.length := List.length_pos_iff.mpr hr
    have hlt : done.length < (done ++ rest).length := by rw [List.length_append]; omega
    cases hf : find (done ++ rest) search done.length with
    | none =>
      have hno := find_none hf
      refine ⟨rest, true, .done _ ?_, fun fuel hfu => ?_⟩
      · intro i hocc
        by_cases hi : i ≤ rest.length
        · exact hno (done.length + i) (by omega) (by rw [List.length_append]; omega)
            ((occurs_append ..).mpr hocc)
        · exact not_occurs_beyond hs (by omega) hocc
      · cases fuel with
        | zero => omega
        | succ fuel =>
          have hm : size_t none % 2 ^ 32 = 2 ^ 32 - 1 := by decide
          have h2 : (done ++ rest).length < 2 ^ 32 - 1 := by rw [List.length_append]; omega
          simp only [replaceLoop, if_pos hlt, hf, hm]
          rw [if_neg (by decide), if_pos h2]
    | some i =>
      obtain ⟨h1, h2, h3, h4⟩ := find_some hf
      obtain ⟨k, rfl⟩ : ∃ k, i = done.length + k := ⟨i - done.length, by omega⟩
      rw [occurs_append] at h3
      have hkl : k ≤ rest.length := by rw [List.length_append] at h2; omega
      obtain ⟨s, hs'⟩ := h3
      have hrest : rest = rest.take k ++ search ++ s := by
        rw [List.append_assoc, hs', List.take_append_drop]
      have hsl : 0 < search.length := List.length_pos_iff.mpr hs
      have hk : (rest.take k).length = k := by rw [List.length_take]; omega
      generalize rest.take k = pre at hrest hk
      subst hrest
      have hl : (pre ++ search ++ s).length = k + search.length + s.length := by
        simp [hk, Nat.add_assoc]
      rw [hl] at hb hlen
      have hmul : s.length * rep.length + rep.length ≤ (k + search.length + s.length) * rep.length := by
        have : s.length + 1 ≤ k + search.length + s.length := by omega
        calc s.length * rep.length + rep.length = (s.length + 1) * rep.length := by rw [Nat.add_mul, Nat.one_mul]
          _ ≤ _ := Nat.mul_le_mul_right _ this
      obtain ⟨t, log, ht, hrun⟩ := ih s (done ++ pre ++ rep) (by omega) (by
        simp only [List.length_append, hk]; omega)
      refine ⟨pre ++ rep ++ t, log, .step pre s t ?_ ht, fun fuel hfu => ?_⟩
      · intro i hi hocc
        exact h4 (done.length + i) (by omega) (by omega) ((occurs_append ..).mpr hocc)
      · cases fuel with
        | zero => omega
        | succ fuel =>
          have hm : size_t (some (done.length + k)) % 2 ^ 32 = done.length + k := by
            show (done.length + k) % 2 ^ 32 = _
            exact Nat.mod_eq_of_lt (by omega)
          have hm2 : (done.length + k + rep.length) % 2 ^ 32 = (done ++ pre ++ rep).length := by
            rw [Nat.mod_eq_of_lt (by omega)]; simp [hk, Nat.add_assoc]
          have hne : done.length + k ≠ 2 ^ 64 - 1 := by omega
          have hnl : ¬ (done ++ (pre ++ search ++ s)).length < done.length + k := by
            rw [List.length_append, hl]; omega
          have ht1 : (done ++ (pre ++ search ++ s)).take (done.length + k) = done ++ pre := by
            have : done ++ (pre ++ search ++ s) = (done ++ pre) ++ (search ++ s) := by simp
            rw [this, List.take_left' (by simp [hk])]
          have ht2 : (done ++ (pre ++ search ++ s)).drop (done.length + k + search.length) = s := by
            have : done ++ (pre ++ search ++ s) = (done ++ pre ++ search) ++ s := by simp
            rw [this, List.drop_left' (by simp [hk, Nat.add_assoc])]
          simp only [replaceLoop, if_pos hlt, hf, hm, if_neg hne, if_neg hnl, hm2, ht1, ht2]
          rw [hrun fuel (by omega)]
          simp [List.append_assoc]

/-- C42, partial: for a non-empty search string (and texts that stay below 4 GB) `replaceAll` ends and
returns the input with every leftmost non-overlapping occurrence replaced.  Missing: the empty search
string, see `C42_empty_search_refuted`. -/
theorem C42_replaceAll_partial (s search rep : Str) (hs : search ≠ [])
    (hb : s.length + s.length * rep.length < 2 ^ 32 - 1) :
    ∃ t log, Replaced search rep s t ∧ ∀ fuel, s.length < fuel → replaceAll fuel s search rep = some (t, log) := by
  obtain ⟨t, log, h1, h2⟩ := loop_correct search rep hs s.length s [] (Nat.le_refl _) (by simpa using hb)
  exact ⟨t, log, h1, fun fuel hf => by simpa [replaceAll] using h2 fuel hf⟩

/-- The specification determines the result. -/
theorem replaced_unique (pat rep : Str) {s t t' : Str} (h : Replaced pat rep s t)
    (h' : Replaced pat rep s t') : t = t' := by
  induction h generalizing t' with
  | done s hn =>
    generalize hs : s = s0 at h'
    cases h' with
    | done => first | rfl | exact hs
    | step pre r u h1 h2 =>
      exfalso; subst hs
      refine hn pre.length ?_
      unfold OccursAt
      rw [List.append_assoc, List.drop_left]
      exact List.prefix_append ..
  | step pre s t h1 h2 ih =>
    generalize hs : pre ++ pat ++ s = s0 at h'
    have hocc : ∀ a b : Str, OccursAt pat (a ++ pat ++ b) a.length := by
      intro a b; unfold OccursAt
      rw [List.append_assoc, List.drop_left]
      exact List.prefix_append ..
    cases h' with
    | done _ hn => exact absurd (hs ▸ hocc pre s) (hn _)
    | step pre' s' u h1' h2' =>
      have hlen : pre.length = pre'.length := by
        rcases Nat.lt_trichotomy pre.length pre'.length with hl | hl | hl
        · exact absurd (hs ▸ hocc pre s) (h1' _ hl)
        · exact hl
        · exact absurd (hs.symm ▸ hocc pre' s') (h1 _ hl)
      rw [List.append_assoc, List.append_assoc] at hs
      obtain ⟨rfl, hs2⟩ := List.append_inj hs hlen
      obtain ⟨-, rfl⟩ := List.append_inj hs2 rfl
      rw [ih h2']

/-- C42: in particular, when the search string does not occur the text is unchanged. -/
theorem C42_no_occurrence (s search rep : Str) (hs : search ≠ [])
    (hb : s.length + s.length * rep.length < 2 ^ 32 - 1) (hn : ∀ i, ¬ OccursAt search s i) :
    ∃ log, replaceAll (s.length + 1) s search rep = some (s, log) := by
  obtain ⟨t, log, h1, h2⟩ := C42_replaceAll_partial s search rep hs hb
  have := replaced_unique search rep h1 (.done s hn)
  subst this
  exact ⟨log, h2 _ (by omega)⟩

theorem find_empty (s : Str) (pos : Nat) (h : pos ≤ s.length) : find s [] pos = some pos := by
  unfold find
  rw [List.find?_range_eq_some]
  refine ⟨by simp, List.mem_range.mpr (by omega), ?_⟩
  intro j hj
  simp; omega

/-- C42 (negation): an empty search string makes `replaceAll` run for ever on every non-empty input (if
the replacement is not empty, until memory is exhausted). -/
theorem C42_empty_search_refuted (s rep : Str) (hs : s ≠ []) (fuel : Nat) : replaceAll fuel s [] rep = none := by
  have main : ∀ fuel (out : Str) (i : Nat), i < out.length → i < 2 ^ 32 → replaceLoop [] rep fuel out i = none := by
    intro fuel
    induction fuel with
    | zero => intros; rfl
    | succ fuel ih =>
      intro out i hi h32
      have hm : size_t (find out [] i) % 2 ^ 32 = i := by
        rw [find_empty out i (by omega)]
        exact Nat.mod_eq_of_lt h32
      have h1 : i ≠ 2 ^ 64 - 1 := by omega
      have h2 : ¬ out.length < i := by omega
      simp only [replaceLoop, if_pos hi, hm, if_neg h1, if_neg h2]
      apply ih
      · have : (i + rep.length) % 2 ^ 32 ≤ i + rep.length := Nat.mod_le ..
        simp only [List.length_append, List.length_take, List.length_drop, List.length_nil]
        omega
      · exact Nat.mod_lt _ (by decide)
  exact main fuel s 0 (List.length_pos_iff.mpr hs) (by decide)

/-- C42: on a 64-bit platform every call whose search runs off the end without a further occurrence logs an error,
although nothing is wrong; here for any non-empty text without an occurrence. -/
theorem C42_spurious_error_log (s search rep : Str) (hs : s ≠ []) (hb : s.length < 2 ^ 32 - 1)
    (hn : find s search 0 = none) (fuel : Nat) : replaceAll (fuel + 1) s search rep = some (s, true) := by
  have h0 : 0 < s.length := List.length_pos_iff.mpr hs
  have hm : size_t none % 2 ^ 32 = 2 ^ 32 - 1 := by decide
  simp only [replaceAll, replaceLoop, if_pos h0, hn, hm]
  rw [if_neg (by decide), if_pos hb]

example : replaceAll 10 (lit "aaa") (lit "aa") (lit "b") = some (lit "ba", true) := by decide +kernel
example : replaceAll 10 (lit "xaax") (lit "a") (lit "aa") = some (lit "xaaaax", true) := by decide +kernel
example : Replaced (lit "aa") (lit "b") (lit "aaa") (lit "ba") := by
  have h := Replaced.step (pat := lit "aa") (rep := lit "b") [] (lit "a") (lit "a") (by simp) (.done _ (by
    intro i h
    have := List.IsPrefix.length_le h
    have e : (List.drop i (lit "a")).length ≤ 1 := by rw [List.length_drop]; have : (lit "a").length = 1 := by decide +kernel
                                                      omega
    have e2 : (lit "aa").length = 2 := by decide +kernel
    omega))
  have e1 : ([] ++ lit "aa" ++ lit "a") = lit "aaa" := by decide +kernel
  have e2 : ([] ++ lit "b" ++ lit "a") = lit "ba" := by decide +kernel
  rwa [e1, e2] at h

end Verif.Utils
