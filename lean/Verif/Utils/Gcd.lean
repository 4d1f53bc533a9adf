import Verif.Core.CInt
import Mathlib.Algebra.Order.Group.Int
import Mathlib.Tactic.Linarith

/-
Model of `gcd`, `/repo/Utils.cpp:345-352`, and property C41.
-/

namespace Verif.Utils
open Verif

/-- `x % y` on `int`: undefined for a zero divisor (and for the overflowing `INT_MIN % -1`). -/
def cmod (x y : Int) : Outcome Int :=
  if y = 0 then .ub else if x = -2 ^ 31 ∧ y = -1 then .ub else .ok (Int.tmod x y)

/-- `gcd`, Utils.cpp:345-352, limited to `fuel` nested calls; `none` when that is not enough. -/
def gcd : Nat → Int → Int → Option (Outcome Int)
  | 0, _, _ => none
  | fuel + 1, x, y =>
    if x > y then
      match cmod x y with
      | .ok r => if r = 0 then some (.ok y) else gcd fuel y r
      | .ub => some .ub
      | .assertFail => some .assertFail
      | .diverge => some .diverge
    else
      match cmod y x with
      | .ok r => if r = 0 then some (.ok x) else gcd fuel x r
      | .ub => some .ub
      | .assertFail => some .assertFail
      | .diverge => some .diverge

/-- `g` is the greatest common divisor of `x` and `y`: positive, divides both, and every common
divisor divides it. -/
def IsGcd (g x y : Int) : Prop := 0 < g ∧ g ∣ x ∧ g ∣ y ∧ ∀ d : Int, d ∣ x → d ∣ y → d ∣ g

theorem isGcd_step (g x y : Int) (h : IsGcd g y (x % y)) : IsGcd g x y := by
  obtain ⟨h0, h1, h2, h3⟩ := h
  have hx : g ∣ x := by
    have := Int.dvd_add h2 (Int.dvd_mul_of_dvd_left (b := y) (c := x / y) h1)
    rwa [Int.emod_add_mul_ediv] at this
  refine ⟨h0, hx, h1, fun d hd1 hd2 => h3 d hd2 ?_⟩
  rw [Int.emod_def]
  exact Int.dvd_sub hd1 (Int.dvd_mul_of_dvd_left hd2)

theorem isGcd_symm (g x y : Int) (h : IsGcd g x y) : IsGcd g y x :=
  ⟨h.1, h.2.2.1, h.2.1, fun d h1 h2 => h.2.2.2 d h2 h1⟩

theorem isGcd_self (x y : Int) (hx : 0 < x) (h : y % x = 0) : IsGcd x x y :=
  ⟨hx, Int.dvd_refl x, Int.dvd_of_emod_eq_zero h, fun _ h1 _ => h1⟩

theorem gcd_pos (x y : Int) (hx : 0 < x) (hy : 0 < y) :
    ∃ g, IsGcd g x y ∧ ∀ fuel, (x + y).toNat < fuel → gcd fuel x y = some (.ok g) := by
  have main : ∀ n : Nat, ∀ x y : Int, 0 < x → 0 < y → (x + y).toNat ≤ n →
      ∃ g, IsGcd g x y ∧ ∀ fuel, n < fuel → gcd fuel x y = some (.ok g) := by
    intro n
    induction n with
    | zero => intro x y hx hy h; omega
    | succ n ih =>
      intro x y hx hy hn
      by_cases hgt : x > y
      · have hm : cmod x y = .ok (x % y) := by
          unfold cmod
          rw [if_neg (by omega), if_neg (by omega), Int.tmod_eq_emod_of_nonneg (by omega)]
        by_cases hz : x % y = 0
        · refine ⟨y, isGcd_symm _ _ _ (isGcd_self y x hy hz), fun fuel hf => ?_⟩
          cases fuel with
          | zero => omega
          | succ fuel => simp [gcd, hgt, hm, hz]
        · have hr0 := Int.emod_nonneg x (by omega : y ≠ 0)
          have hr1 := Int.emod_lt_of_pos x hy
          obtain ⟨g, h1, h2⟩ := ih y (x % y) hy (by omega) (by omega)
          refine ⟨g, isGcd_step g x y h1, fun fuel hf => ?_⟩
          cases fuel with
          | zero => omega
          | succ fuel =>
            simp only [gcd, if_pos hgt, hm, if_neg hz]
            exact h2 fuel (by omega)
      · have hm : cmod y x = .ok (y % x) := by
          unfold cmod
          rw [if_neg (by omega), if_neg (by omega), Int.tmod_eq_emod_of_nonneg (by omega)]
        by_cases hz : y % x = 0
        · refine ⟨x, isGcd_self x y hx hz, fun fuel hf => ?_⟩
          cases fuel with
          | zero => omega
          | succ fuel => simp [gcd, hgt, hm, hz]
        · have hr0 := Int.emod_nonneg y (by omega : x ≠ 0)
          have hr1 := Int.emod_lt_of_pos y hx
          obtain ⟨g, h1, h2⟩ := ih x (y % x) hx (by omega) (by omega)
          refine ⟨g, isGcd_symm _ _ _ (isGcd_step g y x h1), fun fuel hf => ?_⟩
          cases fuel with
          | zero => omega
          | succ fuel =>
            simp only [gcd, if_neg hgt, hm, if_neg hz]
            exact h2 fuel (by omega)
  obtain ⟨g, h1, h2⟩ := main _ x y hx hy (Nat.le_refl _)
  exact ⟨g, h1, h2⟩

/-- C41, partial: for positive arguments `gcd` terminates (with at most x+y nested calls) and returns
their greatest common divisor.  Missing: zero and negative arguments, where it traps or never
returns. -/
theorem C41_gcd_positive_partial (x y : Int) (hx : 0 < x) (hy : 0 < y) :
    ∃ g, IsGcd g x y ∧ ∀ fuel, (x + y).toNat < fuel → gcd fuel x y = some (.ok g) :=
  gcd_pos x y hx hy

/-- C41 (negation, zero): gcd(0, y) for y ≥ 0 and gcd(x, 0) for x > 0 divide by zero. -/
theorem C41_zero_refuted (fuel : Nat) (x y : Int) (hx : 0 < x) (hy : 0 ≤ y) :
    gcd (fuel + 1) 0 y = some .ub ∧ gcd (fuel + 1) x 0 = some .ub := by
  refine ⟨?_, ?_⟩
  · unfold gcd
    rw [if_neg (by omega)]
    simp [cmod]
  · unfold gcd
    rw [if_pos (by omega)]
    simp [cmod]

/-- C41 (negation, non-termination): when the second argument is smaller in absolute value than a
negative first one, and not zero, the call repeats itself for ever. -/
theorem C41_negative_diverges_refuted (fuel : Nat) (x y : Int) (hx : x < 0) (h1 : x < y) (h2 : y < -x)
    (hy : y ≠ 0) : gcd fuel x y = none := by
  induction fuel with
  | zero => rfl
  | succ fuel ih =>
    unfold gcd
    rw [if_neg (by omega)]
    have hm : cmod y x = .ok y := by
      unfold cmod
      rw [if_neg (by omega), if_neg (by omega)]
      congr 1
      rcases Int.lt_or_le y 0 with hneg | hpos
      · have : Int.tmod (-(-y)) x = -Int.tmod (-y) x := Int.neg_tmod ..
        rw [Int.neg_neg] at this
        rw [this, ← Int.tmod_neg, Int.tmod_eq_emod_of_nonneg (by omega), Int.emod_eq_of_lt (by omega) (by omega)]
        omega
      · rw [← Int.tmod_neg, Int.tmod_eq_emod_of_nonneg hpos, Int.emod_eq_of_lt hpos (by omega)]
    rw [hm]
    simp only [if_neg hy]
    exact ih

example : gcd 20 12 18 = some (.ok 6) := by decide
example : ∀ fuel, gcd fuel (-4) 2 = none := fun fuel =>
  C41_negative_diverges_refuted fuel _ _ (by decide) (by decide) (by decide) (by decide)
example : gcd 1 (-4) 6 = gcd 0 (-4) 2 := by decide

end Verif.Utils
