import Verif.Macros.Values

/-
Property C145: `RN_BOUND` (`Defines.h:69`), with the expressions and integer types of `Values`; and what it gives when an argument has another value each time it is evaluated.
-/

namespace Verif.Macros.Bound
open Verif Verif.Macros.Values

/-- The tokens `RN_BOUND` is replaced by. -/
def expand (v lo hi : Expr) : List Tok :=
  [.lp, .lp] ++ v.toks ++ [.rp, .op .lt, .lp] ++ lo.toks ++ [.rp, .quest, .lp] ++ lo.toks ++ [.rp, .colon, .lp] ++ v.toks ++ [.rp, .op .gt, .lp] ++ hi.toks ++ [.rp, .quest, .lp] ++ hi.toks ++
    [.rp, .colon, .lp] ++ v.toks ++ [.rp, .rp]

/-- The same for arguments that may change: the values they have the first, second and third time (`Defines.h:69`). -/
def evaluate (v lo hi : Nat → Int) : Int := if v 0 < lo 0 then lo 1 else if v 1 > hi 0 then hi 1 else v 2

/-! ### Specification -/

/-- The value next to `x` between the bounds. -/
def nearest (lo hi x : Int) : Int := max lo (min x hi)

/-- A value of the type. -/
def Ty.Holds (t : Ty) (x : Int) : Prop := t.min ≤ x ∧ x ≤ t.max

/-! ### Lemmas -/

/-- The reading. -/
def tree (v lo hi : Expr) : Expr := .paren (.cond (.bin .lt (.paren v) (.paren lo)) (.paren lo) (.cond (.bin .gt (.paren v) (.paren hi)) (.paren hi) (.paren v)))

theorem reads (v lo hi : Expr) (hw : v.Wf ∧ lo.Wf ∧ hi.Wf) : Reads (expand v lo hi) (tree v lo hi) :=
  ⟨by simp [tree, Expr.Wf, Expr.level, Bin.prec, hw], by simp [tree, expand, Expr.toks]⟩

theorem conv_id {t : Ty} {x : Int} (h : Ty.Holds t x) : t.conv x = x := by
  obtain ⟨h1, h2⟩ := h
  cases t <;> simp only [Ty.conv, Ty.min, Ty.max, Ty.isSigned, Ty.bits] at * <;> simp at * <;> first | omega | (split <;> omega)

/-- All types are signed, or all numbers at least zero. -/
def Same (a b : Ty) (x y : Int) : Prop := (a.isSigned = true ∧ b.isSigned = true) ∨ (0 ≤ x ∧ 0 ≤ y)

theorem common_min (a b : Ty) : (Ty.common a.promote b.promote).min ≤ 0 := by cases a <;> cases b <;> decide
theorem common_max (a b : Ty) : a.max ≤ (Ty.common a.promote b.promote).max ∧ b.max ≤ (Ty.common a.promote b.promote).max := by cases a <;> cases b <;> decide
theorem common_signed (a b : Ty) (h : a.isSigned = true ∧ b.isSigned = true) : (Ty.common a.promote b.promote).min ≤ a.min ∧ (Ty.common a.promote b.promote).min ≤ b.min ∧
    (Ty.common a.promote b.promote).isSigned = true := by
  revert h; cases a <;> cases b <;> decide

theorem common_holds {a b : Ty} {x y : Int} (hx : Ty.Holds a x) (hy : Ty.Holds b y) (h : Same a b x y) :
    Ty.Holds (Ty.common a.promote b.promote) x ∧ Ty.Holds (Ty.common a.promote b.promote) y := by
  have h1 := common_min a b
  have h2 := common_max a b
  unfold Ty.Holds at *
  rcases h with h | h
  · have h3 := common_signed a b h; omega
  · omega

/-- The type of a conditional. -/
def joint (a b : Ty) : Ty := if a = b then a else Ty.common a.promote b.promote

theorem joint_holds {a b : Ty} {x y : Int} (hx : Ty.Holds a x) (hy : Ty.Holds b y) (h : Same a b x y) : Ty.Holds (joint a b) x ∧ Ty.Holds (joint a b) y := by
  unfold joint
  split
  · rename_i e; subst e; exact ⟨hx, hy⟩
  · exact common_holds hx hy h

theorem joint_signed {a b : Ty} (h : a.isSigned = true ∧ b.isSigned = true) : (joint a b).isSigned = true := by
  unfold joint
  split
  · exact h.1
  · exact (common_signed a b h).2.2

theorem cond_num {E : Env} {a b c : Expr} {p : Bool} {t u : Ty} {x y : Int} (ha : IsNum E a .bool (if p then 1 else 0)) (hb : IsNum E b t x) (hc : IsNum E c u y) :
    IsNum E (.cond a b c) (joint t u) ((joint t u).conv (if p then x else y)) := by
  have hk : kind E (.cond a b c) = some (.num (joint t u)) := by simp [kind, ha.1, hb.1, hc.1, Kind.isCond, joint]
  refine ⟨hk, fun s => ?_⟩
  simp only [value, ha.2, hk, Option.bind_some]
  cases p <;> simp [Val.truth, hb.2, hc.2]

theorem lt_num {E : Env} {a b : Expr} {t u : Ty} {x y : Int} (ha : IsNum E a t x) (hb : IsNum E b u y) (hx : Ty.Holds t x) (hy : Ty.Holds u y) (h : Same t u x y) :
    IsNum E (.bin .lt a b) .bool (if decide (x < y) then 1 else 0) := by
  have hc := common_holds hx hy h
  refine ⟨by simp [kind, ha.1, hb.1, Bin.prec], fun s => ?_⟩
  simp [value, ha.2, hb.2, arith, bit, conv_id hc.1, conv_id hc.2]

theorem gt_num {E : Env} {a b : Expr} {t u : Ty} {x y : Int} (ha : IsNum E a t x) (hb : IsNum E b u y) (hx : Ty.Holds t x) (hy : Ty.Holds u y) (h : Same t u x y) :
    IsNum E (.bin .gt a b) .bool (if decide (y < x) then 1 else 0) := by
  have hc := common_holds hx hy h
  refine ⟨by simp [kind, ha.1, hb.1, Bin.prec], fun s => ?_⟩
  simp [value, ha.2, hb.2, arith, bit, conv_id hc.1, conv_id hc.2]

/-- For any expressions as arguments (`RN_BOUND` has all parentheses), if all three types are signed or all three values are at least zero, and the bounds are in order, `RN_BOUND` is the value
next to the first argument between the bounds.  (Missing: signed and unsigned numbers with a negative one among them, and arguments that change from one evaluation to the next; both are false.) -/
theorem C145_bound_partial (E : Env) (v lo hi : Expr) (hw : v.Wf ∧ lo.Wf ∧ hi.Wf) (tv tl th : Ty) (x a b : Int) (hv : IsNum E v tv x) (hl : IsNum E lo tl a) (hh : IsNum E hi th b)
    (hx : Ty.Holds tv x) (ha : Ty.Holds tl a) (hb : Ty.Holds th b) (hs : (tv.isSigned = true ∧ tl.isSigned = true ∧ th.isSigned = true) ∨ (0 ≤ x ∧ 0 ≤ a ∧ 0 ≤ b)) (hab : a ≤ b) :
    ∃ e t, Reads (expand v lo hi) e ∧ (∀ e', Reads (expand v lo hi) e' → e' = e) ∧ IsNum E e t (nearest a b x) := by
  have h1 := lt_num hv.paren hl.paren hx ha (hs.elim (fun h => .inl ⟨h.1, h.2.1⟩) fun h => .inr ⟨h.1, h.2.1⟩)
  have h2 := gt_num hv.paren hh.paren hx hb (hs.elim (fun h => .inl ⟨h.1, h.2.2⟩) fun h => .inr ⟨h.1, h.2.2⟩)
  have hi1 := joint_holds hb hx (hs.elim (fun h => .inl ⟨h.2.2, h.1⟩) fun h => .inr ⟨h.2.2, h.1⟩)
  have h3 := cond_num h2 hh.paren hv.paren
  have e3 : (joint th tv).conv (if decide (b < x) = true then b else x) = if b < x then b else x := by
    by_cases h : b < x
    · simp [h, conv_id hi1.1]
    · simp [h, conv_id hi1.2]
  rw [e3] at h3
  have hi2 : Ty.Holds (joint th tv) (if b < x then b else x) := by split; exact hi1.1; exact hi1.2
  have hi3 := joint_holds ha hi2 (by
    rcases hs with hs | hs
    · exact .inl ⟨hs.2.1, joint_signed ⟨hs.2.2, hs.1⟩⟩
    · refine .inr ⟨hs.2.1, ?_⟩
      split <;> omega)
  have h4 := cond_num h1 hl.paren h3
  have e4 : (joint tl (joint th tv)).conv (if decide (x < a) = true then a else if b < x then b else x) = nearest a b x := by
    by_cases h : x < a
    · simp only [h, decide_true, if_true, conv_id hi3.1, nearest]; omega
    · simp only [h, decide_false, Bool.false_eq_true, if_false, conv_id hi3.2, nearest]
      split <;> omega
  rw [e4] at h4
  exact ⟨_, _, reads v lo hi hw, fun e' h' => unambiguous h' (reads v lo hi hw), h4.paren⟩

/-- The value is between the bounds, and is the argument itself if that is between them. -/
theorem C145_nearest (a b x : Int) (h : a ≤ b) : a ≤ nearest a b x ∧ nearest a b x ≤ b ∧ (a ≤ x → x ≤ b → nearest a b x = x) ∧ (x < a → nearest a b x = a) ∧ (b < x → nearest a b x = b) := by
  unfold nearest; omega

/-- An argument that has the same value each time. -/
theorem C145_steady_partial (v lo hi : Nat → Int) (x a b : Int) (hv : ∀ i, v i = x) (hl : ∀ i, lo i = a) (hh : ∀ i, hi i = b) (h : a ≤ b) : evaluate v lo hi = nearest a b x := by
  simp only [evaluate, hv, hl, hh, nearest]
  split
  · omega
  · split <;> omega

/-- An `unsigned` value between the bounds -1 and 10: 5 becomes 4294967295. -/
theorem C145_unsigned_refuted : ∃ (E : Env) (v lo hi e : Expr) (x a b y : Int), v.Wf ∧ lo.Wf ∧ hi.Wf ∧ IsNum E v .uint x ∧ IsNum E lo .int a ∧ IsNum E hi .int b ∧ a ≤ x ∧ x ≤ b ∧
    Reads (expand v lo hi) e ∧ IsNum E e .uint y ∧ b < y := by
  refine ⟨⟨fun i => if i = 0 then .uint else .int, fun i => if i = 0 then 5 else if i = 1 then -1 else 10, none⟩, .leaf (.var 0), .leaf (.var 1), .leaf (.var 2), _, 5, -1, 10, 4294967295, trivial, trivial,
    trivial, ⟨by decide, fun s => by simp [value]⟩, ⟨by decide, fun s => by simp [value]⟩, ⟨by decide, fun s => by simp [value]⟩, by decide, by decide, reads _ _ _ ⟨trivial, trivial, trivial⟩,
    ⟨by decide, fun s => ?_⟩, by decide⟩
  simp [tree, value, kind, arith, bit, Val.truth, Kind.isCond, Bin.prec, Ty.common, Ty.promote, Ty.conv, Ty.min, Ty.isSigned, Ty.bits]

/-- An argument that another thread changes between the evaluations: the result is outside the bounds, whatever they are. -/
theorem C145_changing_refuted (a b : Int) (h : a ≤ b) : ∃ v : Nat → Int, (a ≤ v 0 ∧ v 0 ≤ b) ∧ (a ≤ v 1 ∧ v 1 ≤ b) ∧ b < evaluate v (fun _ => a) (fun _ => b) := by
  refine ⟨fun i => if i = 2 then b + 1 else a, ⟨by simp, by simpa using h⟩, ⟨by simp, by simpa using h⟩, ?_⟩
  simp [evaluate]
  split <;> omega

/-- `RN_BOUND(c - b, b, a ? c : b)` with the variables of `Values`, which are `int` and `short`: 5 is between 2 and 7. -/
example : ∃ e t, Reads (expand (.bin .sub v2 v1) v1 (.cond v0 v2 v1)) e ∧ (∀ e', Reads (expand (.bin .sub v2 v1) v1 (.cond v0 v2 v1)) e' → e' = e) ∧ IsNum sample e t 5 :=
  C145_bound_partial sample _ _ _ ⟨by simp [Expr.Wf, Expr.level, Bin.prec, v1, v2], by simp [Expr.Wf, v1], by simp [Expr.Wf, Expr.level, v0, v1, v2]⟩ .int .int .int 5 2 7
    ⟨by decide, fun s => by simp [value, arith, v1, v2, sample, Ty.common, Ty.promote, Ty.conv, Ty.fit, Ty.min, Ty.max, Ty.isSigned, Ty.bits]⟩
    ⟨by decide, fun s => by simp [value, v1, sample]⟩
    ⟨by decide, fun s => by simp [value, kind, v0, v1, v2, sample, Val.truth, Kind.isCond, Ty.common, Ty.promote, Ty.conv, Ty.min, Ty.isSigned, Ty.bits]⟩
    (by unfold Ty.Holds; decide) (by unfold Ty.Holds; decide) (by unfold Ty.Holds; decide) (.inl ⟨rfl, rfl, rfl⟩) (by decide)

example : evaluate (fun i => [5, 6, 700].getD i 0) (fun _ => 0) (fun _ => 10) = 700 ∧ evaluate (fun _ => 12) (fun _ => 0) (fun _ => 10) = 10 := by decide

end Verif.Macros.Bound
