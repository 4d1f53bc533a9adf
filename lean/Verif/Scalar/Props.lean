import Verif.Scalar.Model

/-
Property C103: initialised numbers behave like the numbers they stand for.
-/

namespace Verif.Scalar
open Verif

/-! ### Specification: integers without limits -/

/-- What the operation should do. -/
def ideal (v : Int) : Op → Int × Int
  | .set x => (x, x)
  | .preInc => (v + 1, v + 1)
  | .postInc => (v + 1, v)
  | .preDec => (v - 1, v - 1)
  | .postDec => (v - 1, v)
  | .add x => (v + x, v + x)
  | .sub x => (v - x, v - x)

/-- The sequence. -/
def idealRun : Int → List Op → Int × List Int
  | v, [] => (v, [])
  | v, op :: ops => ((idealRun (ideal v op).1 ops).1, (ideal v op).2 :: (idealRun (ideal v op).1 ops).2)

/-- The smallest and largest number each name promises. -/
def limits : Name → Int × Int
  | .int_z => (-2147483648, 2147483647)
  | .char_z => (-128, 127)
  | .int16_z => (-32768, 32767)
  | .int32_z => (-2147483648, 2147483647)
  | .uint_z => (0, 4294967295)
  | .uchar_z => (0, 255)
  | .uint16_z => (0, 65535)
  | .uint32_z => (0, 4294967295)
  | .size_t_z => (0, 18446744073709551615)

/-- A number within the limits. -/
def Fits (n : Name) (x : Int) : Prop := (limits n).1 ≤ x ∧ x ≤ (limits n).2

/-- The values of the variable on the way, and the arguments, all are within the limits. -/
def InRange (n : Name) : Int → List Op → Prop
  | _, [] => True
  | v, op :: ops => (match op with | .set x => Fits n x | .add x => Fits n x | .sub x => Fits n x | _ => True) ∧ Fits n (ideal v op).1 ∧ InRange n (ideal v op).1 ops

theorem span (ty : Ty) (h : 1 ≤ ty.bits) : ty.max - ty.min + 1 = 2 ^ ty.bits := by
  unfold Ty.max Ty.min
  obtain ⟨n, hn⟩ : ∃ n, ty.bits = n + 1 := ⟨ty.bits - 1, by omega⟩
  have : (2 : Int) ^ ty.bits = 2 * 2 ^ (ty.bits - 1) := by rw [hn, Int.pow_succ, Nat.add_sub_cancel]; omega
  split <;> omega

theorem pow_pos' (n : Nat) : (0 : Int) < 2 ^ n := Int.pow_pos (by decide)

theorem conv_range (ty : Ty) (h : 1 ≤ ty.bits) (x : Int) : ty.min ≤ ty.conv x ∧ ty.conv x ≤ ty.max := by
  have := span ty h
  have h1 := Int.emod_nonneg (x - ty.min) (Int.ne_of_gt (pow_pos' ty.bits))
  have h2 := Int.emod_lt_of_pos (x - ty.min) (pow_pos' ty.bits)
  unfold Ty.conv
  omega

theorem conv_id (ty : Ty) (h : 1 ≤ ty.bits) {x : Int} (h1 : ty.min ≤ x) (h2 : x ≤ ty.max) : ty.conv x = x := by
  have := span ty h
  unfold Ty.conv
  rw [Int.emod_eq_of_lt (by omega) (by omega)]
  omega

theorem conv_mod (ty : Ty) (x : Int) : (ty.conv x - x) % 2 ^ ty.bits = 0 := by
  unfold Ty.conv
  have : (x - ty.min) % 2 ^ ty.bits + ty.min - x = - (2 ^ ty.bits * ((x - ty.min) / 2 ^ ty.bits)) := by
    have := Int.emod_add_mul_ediv (x - ty.min) (2 ^ ty.bits)
    omega
  rw [this]
  exact Int.emod_eq_zero_of_dvd (Int.dvd_neg.2 (Int.dvd_mul_right ..))

theorem arith_in (ty : Ty) (h : 1 ≤ ty.bits) {x : Int} (h1 : ty.min ≤ x) (h2 : x ≤ ty.max) : ty.arith x = .ok x := by
  unfold Ty.arith
  rw [if_neg (by omega), conv_id ty h h1 h2]

theorem limits_ty (n : Name) : limits n = (n.ty.min, n.ty.max) := by cases n <;> decide

theorem bits_pos (n : Name) : 1 ≤ n.ty.bits := by cases n <;> decide

theorem fits_iff (n : Name) (x : Int) : Fits n x ↔ n.ty.min ≤ x ∧ x ≤ n.ty.max := by unfold Fits; rw [limits_ty]

/-- C103 (in range): as long as all values are within the limits of the type, the variable and everything it returns are those of unlimited integers, for every type of the file and every sequence of
operations; a new variable has its initial value. -/
theorem C103_exact (n : Name) (init : Int) (h0 : Fits n init) (ops : List Op) (h : InRange n init ops) : run n.ty (fresh n.ty init) ops = .ok (idealRun init ops) := by
  have hb := bits_pos n
  rw [fits_iff] at h0
  rw [fresh, conv_id n.ty hb h0.1 h0.2]
  clear h0
  induction ops generalizing init with
  | nil => rfl
  | cons op ops ih =>
    obtain ⟨ha, hl, hr⟩ := h
    rw [fits_iff] at hl
    have step : apply n.ty init op = .ok (ideal init op) := by
      cases op <;> simp only [apply, ideal, fits_iff] at ha hl ⊢ <;> simp only [conv_id n.ty hb, arith_in n.ty hb, ha, hl, Outcome.bind]
    have := ih (ideal init op).1 hr
    simp only [run, step, Outcome.bind, this, idealRun]

example : run Name.char_z.ty (fresh Name.char_z.ty (-3)) [.postInc, .add 100, .preDec] = .ok (97, [-3, 98, 97]) ∧ InRange .char_z (-3) [.postInc, .add 100, .preDec] := by
  refine ⟨by decide +kernel, ?_⟩
  simp [InRange, ideal, Fits, limits]

/-- C103 (out of range): the value always stays in the range of the type, and for all types but the signed 32-bit ones every sequence is defined and the value is the ideal one up to a
multiple of the number of values. -/
theorem C103_wrap (n : Name) (hs : n ≠ .int_z ∧ n ≠ .int32_z) (init : Int) (ops : List Op) :
    ∃ v r, run n.ty (fresh n.ty init) ops = .ok (v, r) ∧ Fits n v ∧ (v - (idealRun init ops).1) % ((limits n).2 - (limits n).1 + 1) = 0 := by
  have hb := bits_pos n
  have hsp : (limits n).2 - (limits n).1 + 1 = 2 ^ n.ty.bits := by rw [limits_ty]; exact span n.ty hb
  have hs : n.ty ≠ ⟨true, 32⟩ := by
    intro e
    cases n
    case int_z => exact absurd rfl hs.1
    case int32_z => exact absurd rfl hs.2
    all_goals exact absurd e (by decide)
  rw [hsp]
  simp only [fits_iff, and_assoc]
  clear hsp
  generalize n.ty = ty at *
  have hns : ¬ (ty.signed = true ∧ ty.bits = 32) := fun ⟨h1, h2⟩ => hs (by cases ty; simp_all)
  have ar : ∀ x, ty.arith x = .ok (ty.conv x) := fun x => by unfold Ty.arith; rw [if_neg (fun h => hns ⟨h.1, h.2.1⟩)]
  have key : ∀ (ops : List Op) (v w : Int), ty.min ≤ v → v ≤ ty.max → (v - w) % 2 ^ ty.bits = 0 →
      ∃ v' r, run ty v ops = .ok (v', r) ∧ ty.min ≤ v' ∧ v' ≤ ty.max ∧ (v' - (idealRun w ops).1) % 2 ^ ty.bits = 0 := by
    intro ops
    induction ops with
    | nil => intro v w h1 h2 h3; exact ⟨v, [], rfl, h1, h2, h3⟩
    | cons op ops ih =>
      intro v w h1 h2 h3
      have dv : (2 ^ ty.bits : Int) ∣ v - w := Int.dvd_of_emod_eq_zero h3
      have dc : ∀ x, (2 ^ ty.bits : Int) ∣ ty.conv x - x := fun x => Int.dvd_of_emod_eq_zero (conv_mod ty x)
      have st : ∃ u q, apply ty v op = .ok (ty.conv u, q) ∧ (2 ^ ty.bits : Int) ∣ u - (ideal w op).1 := by
        cases op with
        | set x => exact ⟨x, _, rfl, by simp [ideal]⟩
        | preInc => exact ⟨v + 1, _, by simp only [apply, ar, Outcome.bind]; rfl, by simp only [ideal]; rw [show v + 1 - (w + 1) = v - w by omega]; exact dv⟩
        | postInc => exact ⟨v + 1, _, by simp only [apply, ar, Outcome.bind]; rfl, by simp only [ideal]; rw [show v + 1 - (w + 1) = v - w by omega]; exact dv⟩
        | preDec => exact ⟨v - 1, _, by simp only [apply, ar, Outcome.bind]; rfl, by simp only [ideal]; rw [show v - 1 - (w - 1) = v - w by omega]; exact dv⟩
        | postDec => exact ⟨v - 1, _, by simp only [apply, ar, Outcome.bind]; rfl, by simp only [ideal]; rw [show v - 1 - (w - 1) = v - w by omega]; exact dv⟩
        | add x => exact ⟨v + ty.conv x, _, by simp only [apply, ar, Outcome.bind]; rfl, by
            simp only [ideal]; rw [show v + ty.conv x - (w + x) = (v - w) + (ty.conv x - x) by omega]; exact Int.dvd_add dv (dc x)⟩
        | sub x => exact ⟨v - ty.conv x, _, by simp only [apply, ar, Outcome.bind]; rfl, by
            simp only [ideal]; rw [show v - ty.conv x - (w - x) = (v - w) - (ty.conv x - x) by omega]; exact Int.dvd_sub dv (dc x)⟩
      obtain ⟨u, q, hu, hd⟩ := st
      obtain ⟨r1, r2⟩ := conv_range ty hb u
      have h3' : (ty.conv u - (ideal w op).1) % 2 ^ ty.bits = 0 := by
        apply Int.emod_eq_zero_of_dvd
        rw [show ty.conv u - (ideal w op).1 = (ty.conv u - u) + (u - (ideal w op).1) by omega]
        exact Int.dvd_add (dc u) hd
      obtain ⟨v', r, e1, e2, e3, e4⟩ := ih (ty.conv u) (ideal w op).1 r1 r2 h3'
      exact ⟨v', q :: r, by simp only [run, hu, Outcome.bind, e1], e2, e3, e4⟩
  obtain ⟨r1, r2⟩ := conv_range ty hb init
  exact key ops _ init r1 r2 (conv_mod ty init)

example : run Name.uint16_z.ty (fresh Name.uint16_z.ty 0) [.preDec, .add 70000] = .ok (4463, [65535, 4463]) := by decide

/-- C103 is refuted without the condition on the range: one more than 127 in a `Char_z` is -128. -/
theorem C103_narrow_refuted : ∃ v : Int, Fits .char_z v ∧ apply Name.char_z.ty v .preInc = .ok (-128, -128) := ⟨127, ⟨by decide, by decide⟩, by decide⟩

/-- C103 is refuted for `Int_z` at its limit: one more is undefined. -/
theorem C103_overflow_refuted : ∃ ops, run Name.int_z.ty (fresh Name.int_z.ty 0) ops = .ub := ⟨[.set 2147483647, .preInc], by decide⟩

/-- C103 (fields) is refuted: a field of width 4 holds and returns values of more than 4 bits. -/
theorem C103_field_refuted : ∃ ops v, fieldValue 0 ops = .ok v ∧ 2 ^ 4 ≤ v := ⟨[.set 100], 100, by decide, by decide⟩

end Verif.Scalar
