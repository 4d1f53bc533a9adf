import Verif.Utils.RefCnt
import Mathlib.Algebra.BigOperators.Group.Finset.Basic
import Mathlib.Algebra.BigOperators.Intervals
import Mathlib.Algebra.Order.BigOperators.Group.Finset
import Mathlib.Logic.Relation

/-
Property C164: structures of objects that point to each other with `RefCntPointer` (`/repo/Utils.h:200-277`, `/repo/Utils.cpp:39-67`): lists, trees, graphs.

Unlike in `Verif.Utils.RefCnt`, objects have members of type `RefCntPointer`, so that deleting an object releases others, which may be deleted in turn.  One
thread.  An object counts as gone from the beginning of its destructor, so that using it from then on is undefined behaviour (in fact it would be deleted once more).
-/

namespace Verif.Utils.RefGraph
open Verif
open Verif.Utils.RefCnt (short upd upd_same upd_ne short_id)

/-! ### The model -/

/-- Objects are named by numbers (addresses never reused), pointer variables by their order of construction. -/
structure St where
  /-- the `mRefCnt` field -/
  cnt : Nat → Int
  /-- object exists (created and not deleted) -/
  live : Nat → Bool
  /-- how often `delete` ran on it -/
  freed : Nat → Nat
  /-- objects created so far are `0 .. next-1` -/
  next : Nat
  /-- the members of type `RefCntPointer` of each object: `none` is NULL -/
  flds : Nat → List (Option Nat)
  /-- `RefCntPointer` variables: `none` destroyed, `some p` holds `p` (`none` = NULL) -/
  vars : List (Option (Option Nat))

/-- Nothing exists yet. -/
def St.init : St := ⟨fun _ => 0, fun _ => false, fun _ => 0, 0, fun _ => [], []⟩

/-- `RefCntBase::incRefCnt`, Utils.cpp:60-67. -/
def inc (s : St) (o : Nat) : Outcome St :=
  if s.live o = false then .ub
  else if s.cnt o < 0 then .assertFail
  else .ok { s with cnt := upd s.cnt o (short (s.cnt o + 1)) }

/-- The destructors of the members of an object, one after the other (`~RefCntPointer`, Utils.h:248-252); `g` is `decRefCnt`. -/
def relAll (g : St → Nat → Outcome (St × Int)) : St → List (Option Nat) → Outcome St
  | s, [] => .ok s
  | s, none :: l => relAll g s l
  | s, some x :: l => (g s x).bind fun r => relAll g r.1 l

/-- `RefCntBase::decRefCnt`, Utils.cpp:41-59; deleting the object destroys its members, the last one first. The first argument bounds how deep the calls nest. -/
def dec : Nat → St → Nat → Outcome (St × Int)
  | 0, _, _ => .diverge
  | f + 1, s, o =>
    if s.live o = false then .ub
    else if s.cnt o < 0 then .assertFail
    else
      let c := short (s.cnt o - 1)
      let s := { s with cnt := upd s.cnt o c }
      if c ≤ 0 then
        (relAll (dec f) { s with live := upd s.live o false, freed := upd s.freed o (s.freed o + 1) } (s.flds o).reverse).bind fun s => .ok (s, c)
      else .ok (s, c)

/-- `rcInc`, Utils.h:237. -/
def rcInc (s : St) : Option Nat → Outcome St
  | none => .ok s
  | some o => inc s o

/-- `rcDec`, Utils.h:238-240; the new value of `rcPointer` is overwritten by all callers. Calls nest no deeper than there are objects. -/
def rcDec (s : St) : Option Nat → Outcome St
  | none => .ok s
  | some o => (dec (s.next + 1) s o).bind fun r => .ok r.1

/-- Where a pointer is: a variable, or a member of an object. -/
inductive Loc where
  | var (v : Nat)
  | cell (o k : Nat)

/-- How the program names a pointer: `v`, or `v->k`. -/
inductive Place where
  | var (v : Nat)
  | fld (v k : Nat)

/-- Which pointer a name means, `operator->`, Utils.h:264; `none` if there is no such pointer. -/
def resolve (s : St) : Place → Option Loc
  | .var v => match s.vars[v]? with
    | some (some _) => some (.var v)
    | _ => none
  | .fld v k => match s.vars[v]? with
    | some (some (some o)) => if s.live o = true ∧ k < (s.flds o).length then some (.cell o k) else none
    | _ => none

/-- The value of a pointer. -/
def read (s : St) : Loc → Option Nat
  | .var v => match s.vars[v]? with
    | some (some p) => p
    | _ => none
  | .cell o k => match (s.flds o)[k]? with
    | some p => p
    | none => none

/-- Writing a pointer; undefined if it is a member of an object that is gone. -/
def write (s : St) (p : Option Nat) : Loc → Outcome St
  | .var v => .ok { s with vars := s.vars.set v (some p) }
  | .cell o k => if s.live o = true then .ok { s with flds := upd s.flds o ((s.flds o).set k p) } else .ub

/-- Operations a program performs. -/
inductive Op where
  /-- `RefCntPointer<T> v(new T);` where `T` has `m` members of type `RefCntPointer` -/
  | newVar (m : Nat)
  /-- `RefCntPointer<T> v;` -/
  | ctor
  /-- `RefCntPointer<T> v(p);` -/
  | ctorCopy (p : Place)
  /-- `p = q;` -/
  | assign (p q : Place)
  /-- `p = NULL;` -/
  | assignNull (p : Place)
  /-- `p.free();` -/
  | free (p : Place)
  /-- end of the life of `v` -/
  | dtor (v : Nat)

/-- One operation. -/
def step (s : St) : Op → Outcome St
  -- Utils.h:217, 242, 245: the members are NULL
  | .newVar m =>
    (inc { s with cnt := upd s.cnt s.next 0, live := upd s.live s.next true, next := s.next + 1, flds := upd s.flds s.next (List.replicate m none) } s.next).bind fun s' =>
      .ok { s' with vars := s'.vars ++ [some (some s.next)] }
  -- Utils.h:242
  | .ctor => .ok { s with vars := s.vars ++ [some none] }
  -- Utils.h:243-244
  | .ctorCopy q =>
    match resolve s q with
    | some a => (rcInc s (read s a)).bind fun s' => .ok { s' with vars := s'.vars ++ [some (read s a)] }
    | none => .ub
  -- Utils.h:257: the parameter `other` is a copy (Utils.h:243), destroyed at the end (Utils.h:248-252)
  | .assign p q =>
    match resolve s p, resolve s q with
    | some a, some b =>
      let new := read s b
      let old := read s a
      (rcInc s new).bind fun s =>          -- copy construction of `other`
      (rcInc s new).bind fun s =>          -- other.rcInc()
      (rcDec s old).bind fun s =>          -- rcDec()
      (write s new a).bind fun s =>        -- rcPointer = other.rcPointer
      rcDec s new                          -- destruction of `other`
    | _, _ => .ub
  -- Utils.h:259
  | .assignNull p =>
    match resolve s p with
    | some a =>
      let old := read s a
      (write s none a).bind fun s => rcDec s old
    | none => .ub
  -- Utils.h:269-275
  | .free p =>
    match resolve s p with
    | some a =>
      let old := read s a
      (rcDec s old).bind fun s => write s none a
    | none => .ub
  -- Utils.h:248-252
  | .dtor v =>
    match s.vars[v]? with
    | some (some p) => (rcDec s p).bind fun s => .ok { s with vars := s.vars.set v none }
    | _ => .ub

/-! ### Specification -/

/-- Number of pointers to object `o`: variables, and members of objects that exist. -/
def refs (s : St) (o : Nat) : Nat := s.vars.count (some (some o)) + ∑ x ∈ Finset.range s.next, if s.live x = true then (s.flds x).count (some o) else 0

/-- Correct use: the pointers named exist. -/
def Allowed (s : St) : Op → Prop
  | .newVar _ | .ctor => True
  | .ctorCopy q => resolve s q ≠ none
  | .assign p q => resolve s p ≠ none ∧ resolve s q ≠ none
  | .assignNull p => resolve s p ≠ none
  | .free p => resolve s p ≠ none
  | .dtor v => resolve s (.var v) ≠ none

/-- States reached by correct use in which no object ever has more than 32765 references. -/
inductive Reach : St → Prop
  | init : Reach St.init
  | step {s s' : St} {op : Op} : Reach s → Allowed s op → step s op = .ok s' → (∀ o, refs s' o ≤ 32765) → Reach s'

/-- Objects that can be reached from a variable. -/
inductive Rooted (s : St) : Nat → Prop
  | var {v o : Nat} : s.vars[v]? = some (some (some o)) → Rooted s o
  | fld {o x : Nat} : Rooted s o → some x ∈ s.flds o → Rooted s x

/-- An object that exists has a member that points to another one. -/
def Link (s : St) (o x : Nat) : Prop := s.live o = true ∧ some x ∈ s.flds o

/-- No object that exists leads back to itself. -/
def Acyclic (s : St) : Prop := ∀ o, ¬ Relation.TransGen (Link s) o o

/-! ### Lemmas -/

/-- Counts agree with the number of references plus `e` references held elsewhere (or less those that are about to go). -/
structure Inv (s : St) (e : Nat → Int) : Prop where
  count : ∀ o, s.live o = true → s.cnt o = refs s o + e o
  alive : ∀ o, s.live o = true ↔ 0 < refs s o + e o
  nonneg : ∀ o, 0 ≤ refs s o + e o
  freed1 : ∀ o, s.freed o + (if s.live o = true then 1 else 0) = (if o < s.next then 1 else 0)

theorem Inv.lt {s : St} {e : Nat → Int} (h : Inv s e) {o : Nat} (ho : s.live o = true) : o < s.next := by
  have := h.freed1 o
  rw [if_pos ho] at this
  by_contra hn
  rw [if_neg hn] at this
  omega

theorem Inv.congr {s s' : St} {e e' : Nat → Int} (h : Inv s e) (hc : s'.cnt = s.cnt) (hl : s'.live = s.live) (hf : s'.freed = s.freed) (hn : s'.next = s.next)
    (hr : ∀ o, (refs s' o : Int) + e' o = refs s o + e o) : Inv s' e' := by
  refine ⟨?_, ?_, ?_, ?_⟩
  · intro o ho; rw [hl] at ho; rw [hc, h.count o ho, hr o]
  · intro o; rw [hl, hr o]; exact h.alive o
  · intro o; rw [hr o]; exact h.nonneg o
  · intro o; rw [hf, hl, hn]; exact h.freed1 o

/-- Number of objects. -/
def size (s : St) : Nat := ∑ x ∈ Finset.range s.next, if s.live x = true then 1 else 0

def one (p : Option Nat) : Nat → Int := fun x => if p = some x then 1 else 0

theorem inc_ok {s : St} {e : Nat → Int} (h : Inv s e) {o : Nat} (hl : s.live o = true) (hb : (refs s o : Int) + e o ≤ 32766) :
    ∃ s', inc s o = .ok s' ∧ s'.vars = s.vars ∧ s'.live = s.live ∧ s'.next = s.next ∧ s'.flds = s.flds ∧ Inv s' (fun x => e x + one (some o) x) := by
  have hc := h.count o hl
  have hp := (h.alive o).1 hl
  have hs : short (s.cnt o + 1) = s.cnt o + 1 := short_id (by omega) (by omega)
  refine ⟨{ s with cnt := upd s.cnt o (short (s.cnt o + 1)) }, ?_, rfl, rfl, rfl, rfl, ?_⟩
  · unfold inc
    rw [if_neg (by simp [hl]), if_neg (by omega)]
  · have hr : ∀ x, refs { s with cnt := upd s.cnt o (short (s.cnt o + 1)) } x = refs s x := fun _ => rfl
    refine ⟨fun x hx => ?_, fun x => ?_, fun x => ?_, h.freed1⟩
    · rw [hr]
      by_cases q : x = o
      · subst q
        simp only [upd_same, hs, one, if_true]
        omega
      · simp only [upd_ne _ _ q, one]
        rw [if_neg (by intro h; cases h; exact q rfl), h.count x hx]
        omega
    · rw [hr]
      by_cases q : x = o
      · subst q
        simp only [one, if_true]
        exact ⟨fun _ => by omega, fun _ => hl⟩
      · simp only [one]
        rw [if_neg (by intro h; cases h; exact q rfl)]
        have := h.alive x
        rw [show (refs s x : Int) + (e x + 0) = refs s x + e x by omega]
        exact this
    · rw [hr]
      have := h.nonneg x
      simp only [one]
      split <;> omega

theorem rcInc_ok {s : St} {e : Nat → Int} (h : Inv s e) (p : Option Nat) (hl : ∀ o, p = some o → s.live o = true) (hb : ∀ o, (refs s o : Int) + e o ≤ 32766) :
    ∃ s', rcInc s p = .ok s' ∧ s'.vars = s.vars ∧ s'.live = s.live ∧ s'.next = s.next ∧ s'.flds = s.flds ∧ Inv s' (fun x => e x + one p x) := by
  cases p with
  | none => exact ⟨s, rfl, rfl, rfl, rfl, rfl, by simpa [one] using h⟩
  | some o => exact inc_ok h (hl o rfl) (hb o)

/-- When an object goes, its members are no longer references. -/
theorem refs_die {s : St} {o : Nat} (hl : s.live o = true) (hn : o < s.next) (c : Nat → Int) (f : Nat → Nat) (x : Nat) :
    refs { s with cnt := c, live := upd s.live o false, freed := f } x + (s.flds o).count (some x) = refs s x := by
  unfold refs
  dsimp only
  rw [← Finset.add_sum_erase _ _ (Finset.mem_range.2 hn), ← Finset.add_sum_erase _ (fun y => if s.live y = true then (s.flds y).count (some x) else 0) (Finset.mem_range.2 hn)]
  have : ∑ y ∈ (Finset.range s.next).erase o, (if upd s.live o false y = true then (s.flds y).count (some x) else 0) =
      ∑ y ∈ (Finset.range s.next).erase o, (if s.live y = true then (s.flds y).count (some x) else 0) := by
    refine Finset.sum_congr rfl fun y hy => ?_
    rw [upd_ne _ _ (Finset.mem_erase.1 hy).1]
  rw [this, if_pos hl, if_neg (by simp [upd_same])]
  omega

theorem size_die {s : St} {o : Nat} (hl : s.live o = true) (hn : o < s.next) (c : Nat → Int) (f : Nat → Nat) :
    size { s with cnt := c, live := upd s.live o false, freed := f } + 1 = size s := by
  unfold size
  dsimp only
  rw [← Finset.add_sum_erase _ _ (Finset.mem_range.2 hn), ← Finset.add_sum_erase _ (fun y => if s.live y = true then 1 else 0) (Finset.mem_range.2 hn)]
  have : ∑ y ∈ (Finset.range s.next).erase o, (if upd s.live o false y = true then 1 else 0) = ∑ y ∈ (Finset.range s.next).erase o, (if s.live y = true then 1 else 0) := by
    refine Finset.sum_congr rfl fun y hy => ?_
    rw [upd_ne _ _ (Finset.mem_erase.1 hy).1]
  rw [this, if_pos hl, if_neg (by simp [upd_same])]
  omega

/-- References that stay while others are released: those of the variables, and those of one object that stays itself. -/
def kept (s : St) (P : Option Nat) (x : Nat) : Int :=
  s.vars.count (some (some x)) + match P with
    | some o => ((s.flds o).count (some x) : Int)
    | none => 0

theorem kept_le {s : St} {P : Option Nat} (hP : ∀ o, P = some o → s.live o = true ∧ o < s.next) (x : Nat) : kept s P x ≤ refs s x := by
  unfold kept refs
  cases P with
  | none => simp only; omega
  | some o =>
    obtain ⟨hl, hn⟩ := hP o rfl
    rw [← Finset.add_sum_erase _ _ (Finset.mem_range.2 hn), if_pos hl]
    simp only
    omega

/-- `e` takes away only what is kept, and not the last reference to the object that stays. -/
def Safe (s : St) (P : Option Nat) (e : Nat → Int) : Prop := (∀ x, 0 ≤ kept s P x + e x) ∧ ∀ o, P = some o → s.live o = true ∧ 1 ≤ kept s P o + e o

/-- What releasing leaves alone. -/
structure Less (s s' : St) (P : Option Nat) : Prop where
  vars : s'.vars = s.vars
  next : s'.next = s.next
  flds : s'.flds = s.flds
  size : size s' ≤ size s
  refs : ∀ x, refs s' x ≤ refs s x
  stays : ∀ o, P = some o → s.live o = true → s'.live o = true

theorem Less.rfl' (s : St) (P : Option Nat) : Less s s P := ⟨rfl, rfl, rfl, Nat.le_refl _, fun _ => Nat.le_refl _, fun _ _ h => h⟩

theorem Less.trans {a b c : St} {P : Option Nat} (h : Less a b P) (h' : Less b c P) : Less a c P :=
  ⟨h'.vars.trans h.vars, h'.next.trans h.next, h'.flds.trans h.flds, Nat.le_trans h'.size h.size, fun x => Nat.le_trans (h'.refs x) (h.refs x),
    fun o e hl => h'.stays o e (h.stays o e hl)⟩

theorem Less.kept {s s' : St} {P : Option Nat} (h : Less s s' P) (x : Nat) : kept s' P x = kept s P x := by
  unfold RefGraph.kept
  rw [h.vars, h.flds]

theorem Less.safe {s s' : St} {P : Option Nat} {e : Nat → Int} (h : Less s s' P) (hs : Safe s P e) : Safe s' P e :=
  ⟨fun x => by rw [h.kept]; exact hs.1 x, fun o ho => ⟨h.stays o ho (hs.2 o ho).1, by rw [h.kept]; exact (hs.2 o ho).2⟩⟩

theorem Safe.mono {s : St} {P : Option Nat} {e e' : Nat → Int} (h : Safe s P e) (he : ∀ x, e x ≤ e' x) : Safe s P e' :=
  ⟨fun x => by have := h.1 x; have := he x; omega, fun o ho => ⟨(h.2 o ho).1, by have := (h.2 o ho).2; have := he o; omega⟩⟩

/-- Pending references of a list of members. -/
def pend (l : List (Option Nat)) : Nat → Int := fun x => (l.count (some x) : Int)

theorem pend_nonneg (l : List (Option Nat)) (x : Nat) : 0 ≤ pend l x := Int.natCast_nonneg _

theorem one_nonneg (p : Option Nat) (x : Nat) : 0 ≤ one p x := by unfold one; split <;> omega

theorem relAll_ok (g : St → Nat → Outcome (St × Int)) (P : Option Nat) (B : Nat)
    (hg : ∀ s e o, Inv s (fun x => e x + one (some o) x) → Safe s P e → (∀ x, (refs s x : Int) + (e x + one (some o) x) ≤ 32767) → size s ≤ B →
      ∃ s' c, g s o = .ok (s', c) ∧ Less s s' P ∧ Inv s' e)
    (l : List (Option Nat)) (s : St) (e : Nat → Int) (h : Inv s (fun x => e x + pend l x)) (he : Safe s P e) (hb : ∀ x, (refs s x : Int) + (e x + pend l x) ≤ 32767)
    (hs : size s ≤ B) : ∃ s', relAll g s l = .ok s' ∧ Less s s' P ∧ Inv s' e := by
  induction l generalizing s with
  | nil => exact ⟨s, rfl, Less.rfl' s P, by simpa [pend] using h⟩
  | cons a l ih =>
    cases a with
    | none =>
      have e1 : pend (none :: l) = pend l := by funext x; simp [pend]
      rw [e1] at h hb
      exact ih s h he hb hs
    | some o =>
      have e1 : ∀ x, pend (some o :: l) x = pend l x + one (some o) x := by
        intro x
        simp only [pend, one, List.count_cons, beq_iff_eq, Option.some.injEq]
        split <;> simp
      have e2 : (fun x => e x + pend (some o :: l) x) = fun x => (e x + pend l x) + one (some o) x := by funext x; rw [e1]; omega
      rw [e2] at h
      obtain ⟨s1, c, h1, h2, h3⟩ := hg s (fun x => e x + pend l x) o h (he.mono fun x => by have := pend_nonneg l x; omega)
        (fun x => by have := hb x; rw [e1] at this; omega) hs
      obtain ⟨s2, g1, g2, g3⟩ := ih s1 h3 (h2.safe he)
        (fun x => by have := hb x; rw [e1] at this; have := h2.refs x; have := one_nonneg (some o) x; omega) (Nat.le_trans h2.size hs)
      refine ⟨s2, ?_, h2.trans g2, g3⟩
      simp only [relAll]
      rw [h1]
      exact g1

theorem dec_ok (f : Nat) (P : Option Nat) (s : St) (e : Nat → Int) (o : Nat) (h : Inv s (fun x => e x + one (some o) x)) (he : Safe s P e)
    (hb : ∀ x, (refs s x : Int) + (e x + one (some o) x) ≤ 32767) (hf : size s ≤ f) : ∃ s' c, dec (f + 1) s o = .ok (s', c) ∧ Less s s' P ∧ Inv s' e := by
  induction f using Nat.strongRecOn generalizing s e o with
  | ind f ih =>
    have hk : kept s P o ≤ refs s o := kept_le (fun p hp => ⟨(he.2 p hp).1, h.lt (he.2 p hp).1⟩) o
    have h0 := he.1 o
    have ho1 : one (some o) o = 1 := by simp [one]
    have hl : s.live o = true := (h.alive o).2 (by rw [ho1]; omega)
    have hn := h.lt hl
    have hc := h.count o hl
    have hbo := hb o
    rw [ho1] at hc hbo
    have hs : short (s.cnt o - 1) = s.cnt o - 1 := short_id (by omega) (by omega)
    rw [dec.eq_def]
    dsimp only
    rw [if_neg (by simp [hl]), if_neg (by omega), hs]
    by_cases hz : s.cnt o - 1 ≤ 0
    · rw [if_pos hz]
      have hpo : ∀ p, P = some p → p ≠ o := by
        rintro p hp rfl
        have := (he.2 p hp).2
        omega
      have hd := fun x => refs_die hl hn (upd s.cnt o (s.cnt o - 1)) (upd s.freed o (s.freed o + 1)) x
      have hz' := size_die hl hn (upd s.cnt o (s.cnt o - 1)) (upd s.freed o (s.freed o + 1))
      generalize hs1 : ({ s with cnt := upd s.cnt o (s.cnt o - 1), live := upd s.live o false, freed := upd s.freed o (s.freed o + 1) } : St) = s1 at hd hz' ⊢
      have hless : Less s s1 P := by
        subst hs1
        refine ⟨rfl, rfl, rfl, by omega, fun x => by have := hd x; omega, fun p hp hlp => ?_⟩
        dsimp only
        rw [upd_ne _ _ (hpo p hp)]
        exact hlp
      have hpend : ∀ x, pend (s.flds o).reverse x = ((s.flds o).count (some x) : Int) := fun x => by simp [pend]
      have hinv : Inv s1 (fun x => e x + pend (s.flds o).reverse x) := by
        have tot : ∀ x, (refs s1 x : Int) + (e x + pend (s.flds o).reverse x) = refs s x + e x := by
          intro x
          rw [hpend]
          have := hd x
          omega
        have hcnt : s1.cnt = upd s.cnt o (s.cnt o - 1) := by rw [← hs1]
        have hlive : s1.live = upd s.live o false := by rw [← hs1]
        have hfreed : s1.freed = upd s.freed o (s.freed o + 1) := by rw [← hs1]
        have hnext : s1.next = s.next := by rw [← hs1]
        have ho0 : (refs s o : Int) + e o = 0 := by omega
        have hne : ∀ x, x ≠ o → one (some o) x = 0 := fun x hx => by unfold one; rw [if_neg (by intro h; cases h; exact hx rfl)]
        refine ⟨fun x hx => ?_, fun x => ?_, fun x => ?_, fun x => ?_⟩
        · rw [tot]
          by_cases q : x = o
          · subst q
            rw [hlive, upd_same] at hx
            cases hx
          · rw [hlive, upd_ne _ _ q] at hx
            rw [hcnt, upd_ne _ _ q]
            have := h.count x hx
            rw [hne x q] at this
            omega
        · rw [tot, hlive]
          by_cases q : x = o
          · subst q
            rw [upd_same, ho0]
            simp
          · rw [upd_ne _ _ q]
            have := h.alive x
            rw [hne x q] at this
            rw [this]
            omega
        · rw [tot]
          by_cases q : x = o
          · subst q; omega
          · have := h.nonneg x
            rw [hne x q] at this
            omega
        · rw [hlive, hfreed, hnext]
          have := h.freed1 x
          by_cases q : x = o
          · subst q
            rw [upd_same, upd_same, if_neg (by decide)]
            rw [if_pos hl] at this
            exact this
          · rw [upd_ne _ _ q, upd_ne _ _ q]
            exact this
      have hf1 : 1 ≤ f := by omega
      obtain ⟨f', rfl⟩ : ∃ f', f = f' + 1 := ⟨f - 1, by omega⟩
      obtain ⟨s2, g1, g2, g3⟩ := relAll_ok (dec (f' + 1)) P f' (fun s e o a b c d => ih f' (by omega) s e o a b c d) (s.flds o).reverse s1 e hinv (hless.safe he)
        (fun x => by rw [hpend]; have := hd x; have := hb x; have := one_nonneg (some o) x; omega) (by omega)
      refine ⟨s2, s.cnt o - 1, ?_, hless.trans g2, g3⟩
      rw [g1]
      rfl
    · rw [if_neg hz]
      refine ⟨_, _, rfl, ⟨rfl, rfl, rfl, Nat.le_refl _, fun _ => Nat.le_refl _, fun _ _ h => h⟩, ?_⟩
      have hr : ∀ x, refs { s with cnt := upd s.cnt o (s.cnt o - 1) } x = refs s x := fun _ => rfl
      have hne : ∀ x, x ≠ o → one (some o) x = 0 := fun x hx => by unfold one; rw [if_neg (by intro h; cases h; exact hx rfl)]
      refine ⟨fun x hx => ?_, fun x => ?_, fun x => ?_, h.freed1⟩
      · rw [hr]
        dsimp only
        by_cases q : x = o
        · subst q; rw [upd_same]; omega
        · rw [upd_ne _ _ q]
          have := h.count x hx
          rw [hne x q] at this
          omega
      · rw [hr]
        by_cases q : x = o
        · subst q
          exact ⟨fun _ => by omega, fun _ => hl⟩
        · have := h.alive x
          rw [hne x q] at this
          dsimp only
          rw [this]
          omega
      · rw [hr]
        by_cases q : x = o
        · subst q; omega
        · have := h.nonneg x
          rw [hne x q] at this
          omega

theorem size_le (s : St) : size s ≤ s.next := by
  unfold size
  calc ∑ x ∈ Finset.range s.next, (if s.live x = true then 1 else 0) ≤ ∑ _x ∈ Finset.range s.next, (1 : Nat) := Finset.sum_le_sum fun x _ => by split <;> omega
    _ = s.next := by rw [Finset.sum_const, Finset.card_range]; exact Nat.mul_one _

theorem rcDec_ok (P : Option Nat) (s : St) (e : Nat → Int) (p : Option Nat) (h : Inv s (fun x => e x + one p x)) (he : Safe s P e)
    (hb : ∀ x, (refs s x : Int) + (e x + one p x) ≤ 32767) : ∃ s', rcDec s p = .ok s' ∧ Less s s' P ∧ Inv s' e := by
  cases p with
  | none => exact ⟨s, rfl, Less.rfl' s P, by simpa [one] using h⟩
  | some o =>
    obtain ⟨s', c, h1, h2, h3⟩ := dec_ok s.next P s e o h he hb (size_le s)
    exact ⟨s', by simp only [rcDec, h1]; rfl, h2, h3⟩

theorem count_set {α : Type} [BEq α] [LawfulBEq α] [DecidableEq α] (l : List α) (k : Nat) (a b x : α) (h : l[k]? = some a) :
    (l.set k b).count x + (if a = x then 1 else 0) = l.count x + (if b = x then 1 else 0) := by
  induction l generalizing k with
  | nil => simp at h
  | cons c l ih =>
    cases k with
    | zero =>
      simp at h; subst h
      simp only [List.set_cons_zero, List.count_cons, beq_iff_eq]
      omega
    | succ k =>
      simp only [List.getElem?_cons_succ] at h
      have := ih k h
      simp only [List.set_cons_succ, List.count_cons]
      omega

/-- There is such a pointer, and this is its value. -/
def Valid (s : St) (a : Loc) (old : Option Nat) : Prop :=
  match a with
  | .var v => s.vars[v]? = some (some old)
  | .cell o k => s.live o = true ∧ o < s.next ∧ (s.flds o)[k]? = some old

/-- The object a pointer is in. -/
def holder : Loc → Option Nat
  | .var _ => none
  | .cell o _ => some o

theorem resolve_valid {s : St} {e : Nat → Int} (h : Inv s e) {p : Place} {a : Loc} (hr : resolve s p = some a) :
    Valid s a (read s a) ∧ ∀ o, holder a = some o → s.live o = true ∧ ∃ v : Nat, s.vars[v]? = some (some (some o)) := by
  cases p with
  | var v =>
    simp only [resolve] at hr
    split at hr
    · next q hq =>
      cases hr
      refine ⟨?_, fun o h => nomatch h⟩
      simp only [Valid, read, hq]
    · cases hr
  | fld v k =>
    simp only [resolve] at hr
    split at hr
    · next o hq =>
      split at hr
      · next hk =>
        cases hr
        refine ⟨⟨hk.1, h.lt hk.1, ?_⟩, fun o' h => ?_⟩
        · simp only [read]
          rw [List.getElem?_eq_getElem hk.2]
        · cases h
          exact ⟨hk.1, v, hq⟩
      · cases hr
    · cases hr

theorem write_ok {s : St} {a : Loc} {old : Option Nat} (hv : Valid s a old) (p : Option Nat) :
    ∃ s', write s p a = .ok s' ∧ s'.cnt = s.cnt ∧ s'.live = s.live ∧ s'.freed = s.freed ∧ s'.next = s.next ∧ ∀ x, (refs s' x : Int) + one old x = refs s x + one p x := by
  cases a with
  | var v =>
    refine ⟨_, rfl, rfl, rfl, rfl, rfl, fun x => ?_⟩
    have := count_set s.vars v (some old) (some p) (some (some x)) hv
    simp only [Option.some.injEq] at this
    unfold refs one
    dsimp only
    by_cases q1 : old = some x <;> by_cases q2 : p = some x <;> simp only [q1, q2, if_true, if_false] at this ⊢ <;> omega
  | cell o k =>
    obtain ⟨hl, hn, hk⟩ := hv
    refine ⟨{ s with flds := upd s.flds o ((s.flds o).set k p) }, by simp only [write]; rw [if_pos hl], rfl, rfl, rfl, rfl, fun x => ?_⟩
    have := count_set (s.flds o) k old p (some x) hk
    unfold refs one
    dsimp only
    rw [← Finset.add_sum_erase _ _ (Finset.mem_range.2 hn), ← Finset.add_sum_erase _ (fun y => if s.live y = true then (s.flds y).count (some x) else 0) (Finset.mem_range.2 hn)]
    have e : ∑ y ∈ (Finset.range s.next).erase o, (if s.live y = true then (upd s.flds o ((s.flds o).set k p) y).count (some x) else 0) =
        ∑ y ∈ (Finset.range s.next).erase o, (if s.live y = true then (s.flds y).count (some x) else 0) := by
      refine Finset.sum_congr rfl fun y hy => ?_
      rw [upd_ne _ _ (Finset.mem_erase.1 hy).1]
    rw [e, if_pos hl, if_pos hl, upd_same]
    by_cases q1 : old = some x <;> by_cases q2 : p = some x <;> simp only [q1, q2, if_true, if_false] at this ⊢ <;> omega

/-- A pointer is among the references that stay while it is still there. -/
theorem kept_loc {s : St} {a : Loc} {old : Option Nat} (hv : Valid s a old) (x : Nat) : one old x ≤ kept s (holder a) x := by
  unfold one
  split
  · next e =>
    subst e
    cases a with
    | var v =>
      have := List.count_pos_iff.mpr (List.mem_iff_getElem?.mpr ⟨v, hv⟩)
      simp only [kept, holder]
      omega
    | cell o k =>
      have := List.count_pos_iff.mpr (List.mem_iff_getElem?.mpr ⟨k, hv.2.2⟩)
      simp only [kept, holder]
      omega
  · unfold kept
    split <;> omega

theorem safe_loc {s : St} {a : Loc} {old : Option Nat} (hv : Valid s a old) (hh : ∀ o, holder a = some o → s.live o = true ∧ ∃ v : Nat, s.vars[v]? = some (some (some o)))
    (e : Nat → Int) (he : ∀ x, 0 ≤ e x) : Safe s (holder a) (fun x => e x - one old x) := by
  refine ⟨fun x => ?_, fun o ho => ⟨(hh o ho).1, ?_⟩⟩
  · have := kept_loc hv x
    have := he x
    show 0 ≤ _ + (e x - one old x)
    omega
  · obtain ⟨v, hv'⟩ := (hh o ho).2
    have h1 := List.count_pos_iff.mpr (List.mem_iff_getElem?.mpr ⟨v, hv'⟩)
    have h2 := he o
    cases a with
    | var v => cases ho
    | cell o' k =>
      cases ho
      have h3 : one old o ≤ ((s.flds o).count (some o) : Int) := by
        unfold one
        split
        · next e =>
          subst e
          have := List.count_pos_iff.mpr (List.mem_iff_getElem?.mpr ⟨k, hv.2.2⟩)
          omega
        · omega
      simp only [kept, holder]
      omega

theorem safe_none (s : St) (e : Nat → Int) (he : ∀ x, 0 ≤ e x) : Safe s none e :=
  ⟨fun x => by have := he x; simp only [kept]; omega, fun o h => nomatch h⟩

theorem valid_live {s : St} {a : Loc} {o : Nat} (h : Inv s (fun _ => 0)) (hv : Valid s a (some o)) : s.live o = true := by
  have h1 := kept_loc hv o
  have h2 : kept s (holder a) o ≤ refs s o := by
    refine kept_le (fun p hp => ?_) o
    cases a with
    | var v => cases hp
    | cell o' k => cases hp; exact ⟨hv.1, hv.2.1⟩
  simp only [one, if_true] at h1
  exact (h.alive o).2 (by omega)

theorem Less.valid {s s' : St} {a : Loc} {old : Option Nat} (h : Less s s' (holder a)) (hv : Valid s a old) : Valid s' a old := by
  cases a with
  | var v => simpa only [Valid, h.vars] using hv
  | cell o k => exact ⟨h.stays o rfl hv.1, by rw [h.next]; exact hv.2.1, by rw [h.flds]; exact hv.2.2⟩

theorem refs_push (s : St) (p : Option Nat) (x : Nat) : (refs { s with vars := s.vars ++ [some p] } x : Int) = refs s x + one p x := by
  unfold refs one
  dsimp only
  rw [List.count_append]
  by_cases h : p = some x
  · subst h
    simp
    omega
  · rw [if_neg h]
    have : [some p].count (some (some x)) = 0 := by
      rw [List.count_eq_zero]
      simpa using fun e => h e.symm
    omega

theorem one_none (x : Nat) : one none x = 0 := by simp [one]

theorem bind_ok' {α β : Type} (a : α) (f : α → Outcome β) : (Outcome.ok a).bind f = f a := rfl

/-- Every operation works, and keeps the books. -/
theorem step_ok {s : St} (h : Inv s (fun _ => 0)) (hb : ∀ x, refs s x ≤ 32765) {op : Op} (ha : Allowed s op) : ∃ s', step s op = .ok s' ∧ Inv s' (fun _ => 0) := by
  have hb0 : ∀ x, (refs s x : Int) + 0 ≤ 32765 := fun x => by have := hb x; omega
  have one_le : ∀ p x, one p x ≤ 1 := fun p x => by unfold one; split <;> omega
  have zero : ∀ f : Nat → Int, (∀ x, f x = 0) → f = fun _ => 0 := fun f hf => funext hf
  -- inc twice
  cases op with
  | newVar m =>
    have hl : s.live s.next = false := by
      cases e : s.live s.next with
      | false => rfl
      | true => exact absurd (h.lt e) (by omega)
    have hr0 : refs s s.next = 0 := by
      have h1 := h.nonneg s.next
      have h2 := h.alive s.next
      rw [hl] at h2
      simp at h2
      omega
    simp only [step, inc]
    rw [if_neg (by rw [upd_same]; decide), if_neg (by rw [upd_same]; decide)]
    refine ⟨_, rfl, ?_⟩
    have hs : short (0 + 1) = 1 := by decide
    have hr : ∀ x, (refs ({ cnt := upd (upd s.cnt s.next 0) s.next (short (upd s.cnt s.next 0 s.next + 1)), live := upd s.live s.next true, freed := s.freed, next := s.next + 1, flds := upd s.flds s.next (List.replicate m none), vars := s.vars ++ [some (some s.next)] } : St) x : Int) = refs s x + one (some s.next) x := by
      intro x
      rw [← refs_push]
      unfold refs
      dsimp only
      rw [Finset.sum_range_succ]
      have e1 : ∑ y ∈ Finset.range s.next, (if upd s.live s.next true y = true then (upd s.flds s.next (List.replicate m none) y).count (some x) else 0) =
          ∑ y ∈ Finset.range s.next, (if s.live y = true then (s.flds y).count (some x) else 0) := by
        refine Finset.sum_congr rfl fun y hy => ?_
        have : y ≠ s.next := by have := Finset.mem_range.1 hy; omega
        rw [upd_ne _ _ this, upd_ne _ _ this]
      rw [e1, if_pos (by simp only [upd_same]), upd_same]
      have : (List.replicate m (none : Option Nat)).count (some x) = 0 := by
        rw [List.count_eq_zero]
        intro hm
        have := List.eq_of_mem_replicate hm
        cases this
      rw [this, Nat.add_zero]
    refine ⟨fun x hx => ?_, fun x => ?_, fun x => ?_, fun x => ?_⟩
    · rw [hr]
      by_cases q : x = s.next
      · subst q
        simp only [upd_same, hs, one, if_true]
        omega
      · have hx' : s.live x = true := by simpa only [upd_ne _ _ q] using hx
        have := h.count x hx'
        simp only [upd_ne _ _ q, one]
        rw [if_neg (by intro h; cases h; exact q rfl)]
        omega
    · rw [hr]
      by_cases q : x = s.next
      · subst q
        simp only [upd_same, one, if_true, true_iff]
        omega
      · simp only [upd_ne _ _ q, one]
        rw [if_neg (by intro h; cases h; exact q rfl), h.alive x]
        omega
    · rw [hr]
      have := one_nonneg (some s.next) x
      omega
    · have := h.freed1 x
      by_cases q : x = s.next
      · subst q
        rw [hl] at this
        simp only [upd_same, if_true]
        rw [if_pos (by omega)]
        simp at this
        omega
      · simp only [upd_ne _ _ q]
        rw [this]
        split <;> split <;> omega
  | ctor =>
    refine ⟨_, rfl, h.congr rfl rfl rfl rfl fun x => ?_⟩
    rw [refs_push]
    simp [one]
  | ctorCopy q =>
    cases hq : resolve s q with
    | none => exact absurd hq ha
    | some a =>
      obtain ⟨hv, -⟩ := resolve_valid h hq
      obtain ⟨s1, h1, v1, l1, n1, f1, i1⟩ := rcInc_ok h (read s a) (fun o e => valid_live h (by rw [← e]; exact hv)) (fun x => by have := hb x; omega)
      simp only [step, hq, h1, bind_ok']
      refine ⟨_, rfl, i1.congr rfl rfl rfl rfl fun x => ?_⟩
      rw [refs_push]
      omega
  | assign p q =>
    cases hp : resolve s p with
    | none => exact absurd hp ha.1
    | some a =>
      cases hq : resolve s q with
      | none => exact absurd hq ha.2
      | some b =>
        obtain ⟨hva, hha⟩ := resolve_valid h hp
        obtain ⟨hvb, -⟩ := resolve_valid h hq
        have hlive : ∀ o, read s b = some o → s.live o = true := fun o e => valid_live h (by rw [← e]; exact hvb)
        generalize hrb : read s b = new at *
        generalize hra : read s a = old at *
        obtain ⟨s1, h1, v1, l1, n1, f1, i1⟩ := rcInc_ok h new hlive (fun x => by have := hb x; omega)
        have r1 : ∀ x, refs s1 x = refs s x := fun x => by unfold refs; rw [v1, l1, n1, f1]
        obtain ⟨s2, h2, v2, l2, n2, f2, i2⟩ := rcInc_ok i1 new (by rw [l1]; exact hlive) (fun x => by rw [r1]; have := hb x; have := one_le new x; omega)
        have r2 : ∀ x, refs s2 x = refs s x := fun x => by unfold refs; rw [v2, l2, n2, f2, v1, l1, n1, f1]
        have hva2 : Valid s2 a old := by
          cases a with
          | var v => simpa only [Valid, v2, v1] using hva
          | cell o k => exact ⟨by rw [l2, l1]; exact hva.1, by rw [n2, n1]; exact hva.2.1, by rw [f2, f1]; exact hva.2.2⟩
        have hha2 : ∀ o, holder a = some o → s2.live o = true ∧ ∃ v : Nat, s2.vars[v]? = some (some (some o)) := by
          rw [l2, l1, v2, v1]; exact hha
        obtain ⟨s3, h3, ls3, i3⟩ := rcDec_ok (holder a) s2 (fun x => (one new x + one new x) - one old x) old
          (i2.congr rfl rfl rfl rfl fun x => by omega)
          (safe_loc hva2 hha2 _ fun x => by have := one_nonneg new x; omega)
          (fun x => by rw [r2]; have := hb x; have := one_le new x; omega)
        obtain ⟨s4, h4, c4, l4, f4, n4, r4⟩ := write_ok (ls3.valid hva2) new
        have i4 : Inv s4 (fun x => 0 + one new x) := i3.congr c4 l4 f4 n4 fun x => by have := r4 x; omega
        obtain ⟨s5, h5, -, i5⟩ := rcDec_ok none s4 (fun _ => 0) new i4 (safe_none _ _ fun _ => Int.le_refl _)
          (fun x => by
            have := r4 x; have := ls3.refs x; have := hb x; have := one_le new x; have := one_nonneg old x
            have := r2 x
            omega)
        refine ⟨s5, ?_, i5⟩
        simp only [step, hp, hq, hrb, hra]
        rw [h1, bind_ok', h2, bind_ok', h3, bind_ok', h4, bind_ok', h5]
  | assignNull p =>
    cases hp : resolve s p with
    | none => exact absurd hp ha
    | some a =>
      obtain ⟨hva, hha⟩ := resolve_valid h hp
      obtain ⟨s1, h1, c1, l1, f1, n1, r1⟩ := write_ok hva none
      have i1 : Inv s1 (fun x => 0 + one (read s a) x) := h.congr c1 l1 f1 n1 fun x => by have := r1 x; have := one_none x; omega
      obtain ⟨s2, h2, -, i2⟩ := rcDec_ok none s1 (fun _ => 0) (read s a) i1 (safe_none _ _ fun _ => Int.le_refl _)
        (fun x => by have := r1 x; have := hb x; have := one_none x; omega)
      refine ⟨s2, ?_, i2⟩
      simp only [step, hp, h1, bind_ok', h2]
  | free p =>
    cases hp : resolve s p with
    | none => exact absurd hp ha
    | some a =>
      obtain ⟨hva, hha⟩ := resolve_valid h hp
      obtain ⟨s1, h1, ls1, i1⟩ := rcDec_ok (holder a) s (fun x => 0 - one (read s a) x) (read s a)
        (h.congr rfl rfl rfl rfl fun x => by omega) (safe_loc hva hha _ fun _ => Int.le_refl _) (fun x => by have := hb x; omega)
      obtain ⟨s2, h2, c2, l2, f2, n2, r2⟩ := write_ok (ls1.valid hva) none
      refine ⟨s2, ?_, i1.congr c2 l2 f2 n2 fun x => by have := r2 x; have := one_none x; omega⟩
      simp only [step, hp, h1, bind_ok', h2]
  | dtor v =>
    simp only [Allowed, resolve] at ha
    split at ha
    · next p hp =>
      have hv : Valid s (.var v) p := hp
      obtain ⟨s1, h1, ls1, i1⟩ := rcDec_ok none s (fun x => 0 - one p x) p (h.congr rfl rfl rfl rfl fun x => by omega)
        (safe_loc hv (fun o h => nomatch h) _ fun _ => Int.le_refl _) (fun x => by have := hb x; omega)
      simp only [step, hp, h1, bind_ok']
      refine ⟨_, rfl, i1.congr rfl rfl rfl rfl fun x => ?_⟩
      have := count_set s1.vars v (some p) none (some (some x)) (by rw [ls1.vars]; exact hp)
      unfold refs one
      dsimp only
      simp only [Option.some.injEq, reduceCtorEq, if_false] at this
      by_cases q1 : p = some x <;> simp only [q1, if_true, if_false] at this ⊢ <;> omega
    · exact absurd rfl ha

/-! ### What holds in every state -/

theorem reach_inv {s : St} (h : Reach s) : Inv s (fun _ => 0) ∧ ∀ o, refs s o ≤ 32765 := by
  induction h with
  | init =>
    have hr : ∀ o, refs St.init o = 0 := fun o => rfl
    refine ⟨⟨(fun o h => nomatch h), fun o => ?_, fun o => ?_, fun o => rfl⟩, fun o => by rw [hr]; omega⟩
    · rw [hr]; simp [St.init]
    · rw [hr]; simp
  | step h ha hs hb ih =>
    obtain ⟨s', h1, h2⟩ := step_ok ih.1 ih.2 ha
    rw [hs] at h1
    cases h1
    exact ⟨h2, hb⟩

/-- An object has a reference only through a variable or a member of an object that exists. -/
theorem refs_pos (s : St) (o : Nat) : 0 < refs s o ↔ (∃ v : Nat, s.vars[v]? = some (some (some o))) ∨ ∃ y, y < s.next ∧ Link s y o := by
  unfold refs Link
  rw [Nat.add_pos_iff_pos_or_pos, List.count_pos_iff, List.mem_iff_getElem?]
  refine or_congr Iff.rfl ?_
  rw [Finset.sum_pos_iff]
  simp only [Finset.mem_range]
  refine exists_congr fun y => and_congr Iff.rfl ?_
  split
  · next h => rw [List.count_pos_iff]; exact ⟨fun g => ⟨h, g⟩, fun g => g.2⟩
  · next h => exact ⟨fun g => absurd g (by omega), fun g => absurd g.1 h⟩

theorem ancestors {s : St} [DecidableRel (Relation.TransGen (Link s))] (ha : Acyclic s) {y o : Nat} (hy : y < s.next) (h : Link s y o) :
    ((Finset.range s.next).filter fun z => Relation.TransGen (Link s) z y).card < ((Finset.range s.next).filter fun z => Relation.TransGen (Link s) z o).card := by
  refine Finset.card_lt_card ⟨fun z hz => ?_, fun g => ?_⟩
  · rw [Finset.mem_filter] at hz ⊢
    exact ⟨hz.1, hz.2.tail h⟩
  · have : y ∈ (Finset.range s.next).filter fun z => Relation.TransGen (Link s) z o := Finset.mem_filter.2 ⟨Finset.mem_range.2 hy, Relation.TransGen.single h⟩
    exact ha y (Finset.mem_filter.1 (g this)).2

/-! ### Theorems -/

/-- **C164 (safe).** Whatever structures the program builds with its pointers, every further operation completes: no object that was deleted is used again, no assertion fails, and
deleting an object along with what only it pointed to comes to an end. -/
theorem C164_safe {s : St} (h : Reach s) {op : Op} (ha : Allowed s op) : ∃ s', step s op = .ok s' := by
  obtain ⟨s', h1, -⟩ := step_ok (reach_inv h).1 (reach_inv h).2 ha
  exact ⟨s', h1⟩

/-- **C164 (counted).** After every operation exactly those objects exist to which some pointer leads, in a variable or in an object that exists; their count says how many; all others
have been deleted exactly once. -/
theorem C164_counted {s : St} (h : Reach s) (o : Nat) :
    (s.live o = true ↔ (∃ v : Nat, s.vars[v]? = some (some (some o))) ∨ ∃ y, Link s y o) ∧
    (s.live o = true → s.cnt o = refs s o) ∧
    (s.freed o = if o < s.next ∧ s.live o = false then 1 else 0) := by
  have hi := (reach_inv h).1
  refine ⟨?_, fun hl => ?_, ?_⟩
  · have h1 := refs_pos s o
    have h2 := hi.alive o
    constructor
    · intro hl
      rcases h1.1 (by have := h2.1 hl; omega) with g | ⟨y, -, g⟩
      · exact .inl g
      · exact .inr ⟨y, g⟩
    · intro g
      refine h2.2 ?_
      have : 0 < refs s o := h1.2 (g.imp id fun ⟨y, hy⟩ => ⟨y, hi.lt hy.1, hy⟩)
      omega
  · have := hi.count o hl; omega
  · have := hi.freed1 o
    cases hl : s.live o
    · simp only [hl, if_false, and_true, Nat.add_zero, Bool.false_eq_true] at this ⊢
      exact this
    · have hn := hi.lt hl
      simp only [hl, if_true, hn, Bool.true_eq_false, and_false, if_false] at this ⊢
      omega

/-- **C164 (kept).** What the program can still get at through its variables exists. -/
theorem C164_kept {s : St} (h : Reach s) {o : Nat} (hr : Rooted s o) : s.live o = true := by
  induction hr with
  | var hv => exact (C164_counted h _).1.2 (.inl ⟨_, hv⟩)
  | fld _ hx ih => exact (C164_counted h _).1.2 (.inr ⟨_, ih, hx⟩)

/-- **C164 (complete), as far as it holds.** As long as no objects point to each other in a circle, exactly what the program can get at through its variables exists; nothing else is left over.
Missing: structures with circles, see `C164_cycle_refuted`. -/
theorem C164_complete_partial {s : St} (h : Reach s) (ha : Acyclic s) (o : Nat) : s.live o = true ↔ Rooted s o := by
  classical
  refine ⟨?_, C164_kept h⟩
  generalize hn : ((Finset.range s.next).filter fun z => Relation.TransGen (Link s) z o).card = n
  induction n using Nat.strong_induction_on generalizing o with
  | _ n ih =>
    intro hl
    rcases (C164_counted h o).1.1 hl with ⟨v, hv⟩ | ⟨y, hy⟩
    · exact .var hv
    · have hlt := ancestors ha ((reach_inv h).1.lt hy.1) hy
      exact .fld (ih _ (by omega) y rfl hy.1) hy.2

/-- **C164 (nothing left).** Once the last variable is gone or NULL, nothing is left of a structure without circles. -/
theorem C164_nothing_left_partial {s : St} (h : Reach s) (ha : Acyclic s) (hv : ∀ v o : Nat, s.vars[v]? ≠ some (some (some o))) (o : Nat) : s.live o = false := by
  cases hl : s.live o with
  | false => rfl
  | true =>
    exfalso
    have hr := (C164_complete_partial h ha o).1 hl
    clear hl
    induction hr with
    | var g => exact hv _ _ g
    | fld _ _ ih => exact ih

/-! ### Running programs -/

/-- Whether a pointer of this name exists. -/
def okOp (s : St) : Op → Bool
  | .newVar _ | .ctor => true
  | .ctorCopy q => (resolve s q).isSome
  | .assign p q => (resolve s p).isSome && (resolve s q).isSome
  | .assignNull p => (resolve s p).isSome
  | .free p => (resolve s p).isSome
  | .dtor v => (resolve s (.var v)).isSome

/-- Number of pointers altogether. -/
def total (s : St) : Nat := s.vars.length + ∑ x ∈ Finset.range s.next, (s.flds x).length

/-- Runs a program that keeps to the rules. -/
def run : St → List Op → Option St
  | s, [] => some s
  | s, op :: l => if okOp s op then
      match step s op with
      | .ok s' => if total s' ≤ 32765 then run s' l else none
      | _ => none
    else none

theorem run_reach (l : List Op) (s s' : St) (h : Reach s) (hr : run s l = some s') : Reach s' := by
  induction l generalizing s with
  | nil => cases hr; exact h
  | cons op l ih =>
    simp only [run] at hr
    split at hr
    · next ho =>
      split at hr
      · next s1 h1 =>
        split at hr
        · next ht =>
          refine ih s1 (.step (op := op) h ?_ h1 fun o => ?_) hr
          · cases op <;> simp only [okOp, Bool.and_eq_true, Option.isSome_iff_ne_none] at ho <;> trivial
          · refine Nat.le_trans ?_ ht
            unfold refs total
            refine Nat.add_le_add (List.count_le_length) (Finset.sum_le_sum fun x _ => ?_)
            split
            · exact List.count_le_length
            · omega
        · cases hr
      · cases hr
    · cases hr

/-- A list of three objects: `0` points to `1`, `1` to `2`; variable 0 points to `0`. The variables used to build it are gone. -/
def list3 : List Op :=
  [.newVar 1, .newVar 1, .newVar 1, .assign (.fld 0 0) (.var 1), .assign (.fld 1 0) (.var 2), .dtor 1, .dtor 2]

-- all three exist, each with one reference
example : (run St.init list3).map (fun s => ((List.range 3).map s.live, (List.range 3).map s.cnt, (List.range 3).map s.freed)) = some ([true, true, true], [1, 1, 1], [0, 0, 0]) := by decide +kernel

-- the end of the variable deletes all three, once each
example : (run St.init (list3 ++ [.dtor 0])).map (fun s => ((List.range 3).map s.live, (List.range 3).map s.freed)) = some ([false, false, false], [1, 1, 1]) := by decide +kernel

-- `p = p->next;`: the head goes, the rest stays
example : (run St.init (list3 ++ [.assign (.var 0) (.fld 0 0)])).map (fun s => ((List.range 3).map s.live, (List.range 3).map s.cnt, s.vars[0]?)) =
    some ([false, true, true], [0, 1, 1], some (some (some 1))) := by decide +kernel

-- `p->next.free();` deletes the rest
example : (run St.init (list3 ++ [.free (.fld 0 0)])).map (fun s => ((List.range 3).map s.live, (List.range 3).map s.cnt, s.flds 0)) =
    some ([true, false, false], [1, 0, 0], [none]) := by decide +kernel

-- such states are among those the theorems are about, and have no circles
example : ∃ s, Reach s ∧ Acyclic s ∧ (∀ o, o < 3 → s.live o = true) := by
  cases h : run St.init list3 with
  | none => exact absurd h (by decide +kernel)
  | some s =>
    have hf : (run St.init list3).map (fun s => ((List.range 3).map fun x => (s.flds x, s.live x), s.next)) = some ([([some 1], true), ([some 2], true), ([none], true)], 3) := by decide +kernel
    rw [h] at hf
    simp [List.range_succ] at hf
    have hi := (reach_inv (run_reach _ _ _ .init h)).1
    refine ⟨s, run_reach _ _ _ .init h, fun o ho => ?_, fun o ho => ?_⟩
    · have key : ∀ a b, Link s a b → a < b := by
        intro a b hab
        have := hi.lt hab.1
        have : a = 0 ∨ a = 1 ∨ a = 2 := by omega
        have hm := hab.2
        rcases this with rfl | rfl | rfl
        · rw [hf.1.1.1] at hm; simp at hm; omega
        · rw [hf.1.2.1.1] at hm; simp at hm; omega
        · rw [hf.1.2.2.1] at hm; simp at hm
      have : ∀ a b, Relation.TransGen (Link s) a b → a < b := by
        intro a b hab
        induction hab with
        | single h => exact key _ _ h
        | tail _ h ih => have := key _ _ h; omega
      have := this o o ho
      omega
    · have : o = 0 ∨ o = 1 ∨ o = 2 := by omega
      rcases this with rfl | rfl | rfl
      · exact hf.1.1.2
      · exact hf.1.2.1.2
      · exact hf.1.2.2.2

/-- Two objects that point to each other, and no variables left. -/
def circle2 : List Op := [.newVar 1, .newVar 1, .assign (.fld 0 0) (.var 1), .assign (.fld 1 0) (.var 0), .dtor 0, .dtor 1]

/-- **C164 (complete) is false of structures with circles.** Two objects that point to each other are never deleted, though the program has no pointer left. -/
theorem C164_cycle_refuted : ∃ s, Reach s ∧ (∀ v o : Nat, s.vars[v]? ≠ some (some (some o))) ∧ s.live 0 = true ∧ s.live 1 = true ∧ ∀ o, ¬ Rooted s o := by
  cases h : run St.init circle2 with
  | none => exact absurd h (by decide +kernel)
  | some s =>
    have hf : (run St.init circle2).map (fun s => (s.vars, s.live 0, s.live 1)) = some ([none, none], true, true) := by decide +kernel
    rw [h] at hf
    simp at hf
    have hv : ∀ v o : Nat, s.vars[v]? ≠ some (some (some o)) := by
      intro v o
      rw [hf.1]
      rcases v with _ | _ | v <;> simp
    refine ⟨s, run_reach _ _ _ .init h, hv, hf.2.1, hf.2.2, fun o hr => ?_⟩
    induction hr with
    | var g => exact hv _ _ g
    | fld _ _ ih => exact ih

/-! ### Long lists -/

/-- A list of `n + 1` objects: `n` points to `n - 1`, and so on down to `0`; the last of the variables points to `n`. -/
def lst (n : Nat) : St :=
  ⟨fun x => if x ≤ n then 1 else 0, fun x => decide (x ≤ n), fun _ => 0, n + 1, fun x => if x = 0 then [none] else if x ≤ n then [some (x - 1)] else [],
    List.replicate n none ++ [some (some n)]⟩

theorem lst_get (n : Nat) : (lst n).vars[n]? = some (some (some n)) := by
  simp [lst]

theorem reach_small {s s' : St} {op : Op} (h : Reach s) (ha : Allowed s op) (hs : step s op = .ok s') (hc : ∀ o, s'.cnt o ≤ 32765) : Reach s' := by
  refine .step h ha hs fun o => ?_
  obtain ⟨s1, h1, h2⟩ := step_ok (reach_inv h).1 (reach_inv h).2 ha
  rw [hs] at h1
  cases h1
  have h3 := h2.alive o
  cases hl : s'.live o
  · rw [hl] at h3
    simp at h3
    omega
  · have := h2.count o hl
    have := hc o
    omega

/-- The list with one more object, not linked yet. -/
def lstA (n : Nat) : St :=
  ⟨fun x => if x ≤ n + 1 then 1 else 0, fun x => decide (x ≤ n + 1), fun _ => 0, n + 2, fun x => if x = 0 then [none] else if x ≤ n then [some (x - 1)] else if x = n + 1 then [none] else [],
    List.replicate n none ++ [some (some n)] ++ [some (some (n + 1))]⟩

/-- The same, linked. -/
def lstB (n : Nat) : St :=
  ⟨fun x => if x = n then 2 else if x ≤ n + 1 then 1 else 0, fun x => decide (x ≤ n + 1), fun _ => 0, n + 2, fun x => if x = 0 then [none] else if x ≤ n + 1 then [some (x - 1)] else [],
    List.replicate n none ++ [some (some n)] ++ [some (some (n + 1))]⟩

theorem lst_A (n : Nat) : step (lst n) (.newVar 1) = .ok (lstA n) := by
  simp only [step, inc, lst, upd_same]
  rw [if_neg (by decide), if_neg (by decide), bind_ok']
  refine congrArg Outcome.ok ?_
  simp only [lstA, St.mk.injEq, true_and, and_true]
  refine ⟨funext fun x => ?_, funext fun x => ?_, funext fun x => ?_⟩
  · simp only [upd]; split
    · next h => subst h; rw [if_pos (Nat.le_refl _)]; decide
    · split <;> split <;> omega
  · simp only [upd]; split
    · next h => subst h; simp
    · next h => exact decide_eq_decide.2 (by omega)
  · simp only [upd]; split
    · next h => subst h; rw [if_neg (by omega), if_neg (by omega)]; rfl
    · next h => rfl

theorem lstA_get (n : Nat) : (lstA n).vars[n]? = some (some (some n)) ∧ (lstA n).vars[n + 1]? = some (some (some (n + 1))) := by
  constructor
  · simp [lstA]
  · simp only [lstA]; rw [List.getElem?_append_right (by simp)]; simp

theorem lst_B (n : Nat) : step (lstA n) (.assign (.fld (n + 1) 0) (.var n)) = .ok (lstB n) := by
  have hp : resolve (lstA n) (.fld (n + 1) 0) = some (.cell (n + 1) 0) := by
    simp only [resolve, (lstA_get n).2]
    rw [if_pos (by simp [lstA])]
  have hq : resolve (lstA n) (.var n) = some (.var n) := by
    simp only [resolve, (lstA_get n).1]
  have hrb : read (lstA n) (.var n) = some n := by simp only [read, (lstA_get n).1]
  have hra : read (lstA n) (.cell (n + 1) 0) = none := by simp [read, lstA]
  have hl : (lstA n).live n = true := by simp [lstA]
  have hl' : (lstA n).live (n + 1) = true := by simp [lstA]
  have hc : (lstA n).cnt n = 1 := by simp [lstA]
  have e2 : short (1 + 1) = 2 := by decide
  have e3 : short (2 + 1) = 3 := by decide
  have e4 : short (3 - 1) = 2 := by decide
  simp only [step, hp, hq, hrb, hra, rcInc, inc, hl, hc, Bool.true_eq_false, if_false, bind_ok', upd_same, e2, e3, rcDec, write, hl', if_true, dec, e4,
    show ¬ (1 : Int) < 0 by decide, show ¬ (2 : Int) < 0 by decide, show ¬ (3 : Int) < 0 by decide, show ¬ (2 : Int) ≤ 0 by decide]
  refine congrArg Outcome.ok ?_
  simp only [lstA, lstB, St.mk.injEq, true_and, and_true]
  refine ⟨funext fun x => ?_, funext fun x => ?_⟩
  · simp only [upd]; split <;> rfl
  · simp only [upd]; split
    · next h => subst h; simp
    · next h => split <;> [rfl; (split <;> split <;> first | rfl | omega)]

theorem lst_C (n : Nat) : step (lstB n) (.dtor n) = .ok (lst (n + 1)) := by
  have hg : (lstB n).vars[n]? = some (some (some n)) := (lstA_get n).1
  simp only [step, hg, rcDec, dec]
  have h1 : (lstB n).live n = true := by simp [lstB]
  have h2 : (lstB n).cnt n = 2 := by simp [lstB]
  rw [h1, h2, if_neg (by decide), if_neg (by decide), if_neg (by decide), bind_ok', bind_ok']
  refine congrArg Outcome.ok ?_
  simp only [lst, lstB, St.mk.injEq, true_and]
  refine ⟨funext fun x => ?_, ?_⟩
  · simp only [upd]; split
    · next h => subst h; rw [if_pos (by omega)]; decide
    · rfl
  · rw [List.append_assoc, List.set_append_right _ _ (by simp), List.replicate_succ']
    simp

/-- A list as long as you like can be built. -/
theorem lst_reach (n : Nat) : Reach (lst n) := by
  induction n with
  | zero =>
    refine reach_small (op := .newVar 1) .init trivial ?_ (fun o => by simp only [lst]; split <;> omega)
    simp only [step, inc, St.init, upd_same]
    rw [if_neg (by decide), if_neg (by decide), bind_ok']
    refine congrArg Outcome.ok ?_
    simp only [lst, St.mk.injEq, true_and]
    refine ⟨funext fun x => ?_, funext fun x => ?_, funext fun x => ?_, rfl⟩
    · simp only [upd]; split
      · next h => subst h; decide
      · rw [if_neg (by omega)]
    · simp only [upd]; split
      · next h => subst h; rfl
      · next h => simpa using h
    · simp only [upd]; split
      · rfl
      · rw [if_neg (by omega)]
  | succ n ih =>
    have hA : Reach (lstA n) := reach_small (op := .newVar 1) ih trivial (lst_A n) (fun o => by simp only [lstA]; split <;> omega)
    have hB : Reach (lstB n) := by
      refine reach_small (op := .assign (.fld (n + 1) 0) (.var n)) hA ⟨?_, ?_⟩ (lst_B n) (fun o => by simp only [lstB]; split <;> [omega; split <;> omega])
      · simp only [resolve, (lstA_get n).2]; simp [lstA]
      · simp only [resolve, (lstA_get n).1]; simp
    refine reach_small (op := .dtor n) hB ?_ (lst_C n) (fun o => by simp only [lst]; split <;> omega)
    have hg : (lstB n).vars[n]? = some (some (some n)) := (lstA_get n).1
    simp only [Allowed, resolve, hg]; simp

/-- Deleting the head of a list nests the calls as deep as the list is long. -/
theorem dec_deep (f n : Nat) (s : St) (hf : f ≤ n) (hl : ∀ x, x ≤ n → s.live x = true) (hc : ∀ x, x ≤ n → s.cnt x = 1) (h : ∀ x, x < n → s.flds (x + 1) = [some x]) :
    dec f s n = .diverge := by
  induction f generalizing n s with
  | zero => rfl
  | succ f ih =>
    obtain ⟨n, rfl⟩ : ∃ m, n = m + 1 := ⟨n - 1, by omega⟩
    have hs : short (1 - 1) = 0 := by decide
    simp only [dec]
    rw [if_neg (by rw [hl _ (Nat.le_refl _)]; decide), if_neg (by rw [hc _ (Nat.le_refl _)]; decide), hc _ (Nat.le_refl _), hs, if_pos (Int.le_refl _), h n (by omega)]
    have := ih n { s with cnt := upd s.cnt (n + 1) 0, live := upd s.live (n + 1) false, freed := upd s.freed (n + 1) (s.freed (n + 1) + 1) } (by omega)
      (fun x hx => by dsimp only; rw [upd_ne _ _ (by omega)]; exact hl x (by omega))
      (fun x hx => by dsimp only; rw [upd_ne _ _ (by omega)]; exact hc x (by omega)) (fun x hx => h x (by omega))
    simp only [List.reverse_singleton, relAll]
    rw [this]
    rfl

/-- **C164 (depth), refuted.** There is no limit to how deep the calls nest when a variable goes: for every depth there is a list (built by correct use) whose deletion nests deeper, though it
completes if there is stack enough (`C164_safe`). -/
theorem C164_depth_refuted (f : Nat) : ∃ s v o, Reach s ∧ s.vars[v]? = some (some (some o)) ∧ dec f s o = .diverge ∧ ∃ s', step s (.dtor v) = .ok s' := by
  refine ⟨lst f, f, f, lst_reach f, lst_get f, dec_deep f f _ (Nat.le_refl _) (fun x hx => by simp [lst, hx]) (fun x hx => by simp [lst, hx]) (fun x hx => ?_), C164_safe (lst_reach f) ?_⟩
  · simp only [lst]
    rw [if_neg (by omega), if_pos (by omega)]
    rfl
  · simp only [Allowed, resolve, lst_get]
    exact fun h => nomatch h

end Verif.Utils.RefGraph
