import Verif.F16.Props

/-
Property C135: laws of F16 arithmetic (`F16.h:88-155`), from the model in `F16/Model.lean`.  `unit` is the value of the last place, 2^-16.
-/

namespace Verif.F16
open Verif

/-- Numbers that an F16 can hold after rounding down. -/
def InRange (x : Rat) : Prop := -32768 ≤ x ∧ x < 32768

/-- C135: sums and products do not depend on the order of the operands. -/
theorem C135_commutative (a b : Int) : add a b = add b a ∧ mul a b = mul b a := by
  unfold add mul
  rw [Int.add_comm a b, Int.mul_comm a b]
  exact ⟨rfl, rfl⟩

/-- C135: sums can be regrouped when the intermediate sums fit. -/
theorem C135_associative_sum (a b c x y z : Int) (h1 : add a b = .ok x) (h2 : add x c = .ok y) (h3 : add b c = .ok z) : add a z = .ok y := by
  unfold add int32 at *
  split at h1
  · cases h1
    split at h3
    · cases h3
      rw [show a + (b + c) = a + b + c by ring]
      exact h2
    · cases h3
  · cases h1

/-- C135: what was added can be taken away again, and the other way round. -/
theorem C135_inverse (a b x : Int) (ha : Raw a) : (add a b = .ok x → sub x b = .ok a) ∧ (sub a b = .ok x → add x b = .ok a) := by
  constructor
  · intro h
    unfold add int32 at h
    split at h
    · cases h
      unfold sub
      rw [Int.add_sub_cancel]
      exact int32_of_in ha
    · cases h
  · intro h
    unfold sub int32 at h
    split at h
    · cases h
      unfold add
      rw [Int.sub_add_cancel]
      exact int32_of_in ha
    · cases h

theorem one_raw : ofInt 1 = 65536 := by decide

/-- C135: one and zero. -/
theorem C135_units (a : Int) (ha : Raw a) : mul a (ofInt 1) = a ∧ mul a (ofInt 0) = 0 ∧ div a (ofInt 1) = .ok a ∧ (a ≠ 0 → div a a = .ok (ofInt 1)) := by
  rw [one_raw]
  refine ⟨?_, ?_, ?_, fun h => ?_⟩
  · unfold mul
    rw [Int.mul_fdiv_cancel _ (by omega)]
    exact wrap32_of_inInt32 ha
  · unfold mul
    simp [show ofInt 0 = 0 by decide]
    decide
  · have e : Int.tdiv (a * 65536) 65536 = a := Int.mul_tdiv_cancel _ (by omega)
    rw [wrap_tdiv a 65536 (by rw [e]; exact ha) (by omega), e]
  · have e : Int.tdiv (a * 65536) a = 65536 := Int.mul_tdiv_cancel_left _ h
    rw [wrap_tdiv a a (by rw [e]; decide) h, e]

/-- C135: multiplication by a number that is not negative keeps the order, as long as both products fit. -/
theorem C135_monotone (a b c : Int) (h : val a ≤ val b) (hc : 0 ≤ val c) (h1 : InRange (val a * val c)) (h2 : InRange (val b * val c)) : val (mul a c) ≤ val (mul b c) := by
  obtain ⟨a1, -, -⟩ := C50_mul a c h1.1 h1.2
  obtain ⟨-, b2, -⟩ := C50_mul b c h2.1 h2.2
  have h3 : val a * val c ≤ val b * val c := mul_le_mul_of_nonneg_right h hc
  have h4 : val (mul a c) < val (mul b c) + 1 / 65536 := by linarith
  have h5 : mul a c < mul b c + 1 := by
    unfold val at h4
    have : ((mul a c : Int) : Rat) < ((mul b c + 1 : Int) : Rat) := by push_cast; linarith
    exact_mod_cast this
  have h6 : mul a c ≤ mul b c := by omega
  rcases lt_or_eq_of_le h6 with h7 | h7
  · exact le_of_lt ((val_lt _ _).2 h7)
  · rw [h7]

/-- C135: a quotient times the divisor is the dividend up to less than one unit for each unit of the divisor, and one more. -/
theorem C135_quotient (a b q : Int) (hb : b ≠ 0) (hr : Raw (Int.tdiv (a * 65536) b)) (hq : div a b = .ok q) (h : InRange (val q * val b)) :
    |val (mul q b) - val a| < (|val b| + 1) / 65536 := by
  obtain ⟨c, hc, -, he⟩ := C50_div a b hb hr
  rw [hq] at hc
  cases hc
  obtain ⟨m1, m2, -⟩ := C50_mul q b h.1 h.2
  have hvb : val b ≠ 0 := by
    unfold val
    have : (b : Rat) ≠ 0 := by exact_mod_cast hb
    positivity
  have hpos : 0 < |val b| := abs_pos.2 hvb
  have e : |val a - val q * val b| < |val b| / 65536 := by
    have : val a - val q * val b = (val a / val b - val q) * val b := by
      field_simp
    rw [this, abs_mul]
    calc |val a / val b - val q| * |val b| < 1 / 65536 * |val b| := mul_lt_mul_of_pos_right he hpos
      _ = |val b| / 65536 := by ring
  rw [abs_lt] at e ⊢
  constructor <;> linarith [e.1, e.2]

/-- C135: distributing a product over a sum changes the result by at most one unit, downwards. -/
theorem C135_distributive (a b c s : Int) (hs : add a b = .ok s) (h1 : InRange (val a * val c)) (h2 : InRange (val b * val c)) (h3 : InRange (val s * val c)) :
    mul s c - 1 ≤ mul a c + mul b c ∧ mul a c + mul b c ≤ mul s c := by
  have hsv : s = a + b := by
    unfold add int32 at hs
    split at hs
    · cases hs; rfl
    · cases hs
  obtain ⟨a1, a2, -⟩ := C50_mul a c h1.1 h1.2
  obtain ⟨b1, b2, -⟩ := C50_mul b c h2.1 h2.2
  obtain ⟨s1, s2, -⟩ := C50_mul s c h3.1 h3.2
  have e : val s = val a + val b := by rw [hsv]; unfold val; push_cast; ring
  rw [e, add_mul] at s1 s2
  unfold val at *
  have k1 : ((mul s c - 2 : Int) : Rat) < ((mul a c + mul b c : Int) : Rat) := by push_cast; linarith
  have k2 : ((mul a c + mul b c : Int) : Rat) < ((mul s c + 1 : Int) : Rat) := by push_cast; linarith
  have k1' : mul s c - 2 < mul a c + mul b c := by exact_mod_cast k1
  have k2' : mul a c + mul b c < mul s c + 1 := by exact_mod_cast k2
  omega

/-- C135: regrouping a product changes the result by less than one unit for each unit of the outer factors, and one more. -/
theorem C135_regroup (a b c : Int) (h1 : InRange (val a * val b)) (h2 : InRange (val (mul a b) * val c)) (h3 : InRange (val b * val c)) (h4 : InRange (val a * val (mul b c))) :
    |val (mul (mul a b) c) - val (mul a (mul b c))| < (|val a| + |val c| + 1) / 65536 := by
  obtain ⟨x1, x2, -⟩ := C50_mul a b h1.1 h1.2
  obtain ⟨y1, y2, -⟩ := C50_mul _ c h2.1 h2.2
  obtain ⟨z1, z2, -⟩ := C50_mul b c h3.1 h3.2
  obtain ⟨w1, w2, -⟩ := C50_mul a _ h4.1 h4.2
  have e1 : |(val a * val b - val (mul a b)) * val c| ≤ |val c| / 65536 := by
    rw [abs_mul]
    have : |val a * val b - val (mul a b)| ≤ 1 / 65536 := by rw [abs_le]; constructor <;> linarith
    calc |val a * val b - val (mul a b)| * |val c| ≤ 1 / 65536 * |val c| := mul_le_mul_of_nonneg_right this (abs_nonneg _)
      _ = |val c| / 65536 := by ring
  have e2 : |val a * (val b * val c - val (mul b c))| ≤ |val a| / 65536 := by
    rw [abs_mul]
    have : |val b * val c - val (mul b c)| ≤ 1 / 65536 := by rw [abs_le]; constructor <;> linarith
    calc |val a| * |val b * val c - val (mul b c)| ≤ |val a| * (1 / 65536) := mul_le_mul_of_nonneg_left this (abs_nonneg _)
      _ = |val a| / 65536 := by ring
  rw [abs_le] at e1 e2
  rw [abs_lt]
  constructor <;> nlinarith [e1.1, e1.2, e2.1, e2.2]

/-- C135: changing the sign of a dividend changes the sign of the quotient; for products it does so up to one unit. -/
theorem C135_signs (a b : Int) (hb : b ≠ 0) (hr : Raw (Int.tdiv (a * 65536) b)) (hn : Raw (-Int.tdiv (a * 65536) b)) (h1 : InRange (val a * val b)) (h2 : InRange (val (-a) * val b)) :
    (∃ q, div a b = .ok q ∧ div (-a) b = .ok (-q)) ∧ (mul (-a) b = -mul a b ∨ mul (-a) b = -mul a b - 1) := by
  constructor
  · refine ⟨_, wrap_tdiv a b hr hb, ?_⟩
    have e : Int.tdiv (-a * 65536) b = -Int.tdiv (a * 65536) b := by rw [Int.neg_mul, Int.neg_tdiv]
    rw [wrap_tdiv (-a) b (by rw [e]; exact hn) hb, e]
  · obtain ⟨x1, x2, -⟩ := C50_mul a b h1.1 h1.2
    obtain ⟨y1, y2, -⟩ := C50_mul (-a) b h2.1 h2.2
    have e : val (-a) = -val a := by unfold val; push_cast; ring
    rw [e, neg_mul] at y1 y2
    unfold val at *
    have k1 : ((mul (-a) b + mul a b : Int) : Rat) < ((1 : Int) : Rat) := by push_cast; linarith
    have k2 : ((-2 : Int) : Rat) < ((mul (-a) b + mul a b : Int) : Rat) := by push_cast; linarith
    have k1' : mul (-a) b + mul a b < 1 := by exact_mod_cast k1
    have k2' : -2 < mul (-a) b + mul a b := by exact_mod_cast k2
    omega

/-- C135 fails as exact laws: a third times three is not one, products are not associative, not distributive, and not symmetric in sign. -/
theorem C135_exact_refuted :
    (∃ q, div (ofInt 1) (ofInt 3) = .ok q ∧ mul q (ofInt 3) ≠ ofInt 1) ∧
    mul (mul 1 32768) (ofInt 2) ≠ mul 1 (mul 32768 (ofInt 2)) ∧
    (∃ s, add 32768 32768 = .ok s ∧ mul s 1 ≠ mul 32768 1 + mul 32768 1) ∧ mul (-1) 32768 ≠ -mul 1 32768 :=
  ⟨⟨21845, by decide, by decide⟩, by decide, ⟨65536, by decide, by decide⟩, by decide⟩

/-- C135 fails for the order when a product does not fit: 180 < 182, but 182 times 182 is less than 180 times 182. -/
theorem C135_monotone_refuted : val (ofInt 180) ≤ val (ofInt 182) ∧ val (mul (ofInt 182) (ofInt 182)) < val (mul (ofInt 180) (ofInt 182)) := by
  refine ⟨?_, ?_⟩
  · exact le_of_lt ((val_lt _ _).2 (by decide))
  · exact (val_lt _ _).2 (by decide)

example : mul (ofInt 3) (ofInt 5) = ofInt 15 ∧ div (ofInt 15) (ofInt 5) = .ok (ofInt 3) := by decide

/-- The hypotheses on ranges hold for usual numbers. -/
example : InRange (val (ofInt 100) * val (ofInt (-300))) := by
  rw [(C50_ofInt 100 (by omega)).1, (C50_ofInt (-300) (by omega)).1]
  constructor <;> norm_num

end Verif.F16
