import Verif.Core.Outcome
import Verif.Core.CInt

/-
Model of `RefCntBase` and `RefCntPointer`, `/repo/Utils.h:200-277` and `/repo/Utils.cpp:39-67`, and property C46.

Each operation runs as one step; the per-object mutex makes the count updates of different threads
atomic, and operations of different threads on different pointer variables are therefore some
sequence of these steps.  Not modelled: destructors of the counted objects that themselves release
other pointers, and deriving a raw pointer that outlives all counted ones (a misuse).
-/

namespace Verif.Utils.RefCnt
open Verif

/-- Objects are named by numbers (addresses never reused), pointer variables by their order of
construction. -/
structure St where
  /-- the `mRefCnt` field -/
  cnt : Nat → Int
  /-- object exists (created and not deleted) -/
  live : Nat → Bool
  /-- how often `delete` ran on it -/
  freed : Nat → Nat
  /-- objects created so far are `0 .. next-1` -/
  next : Nat
  /-- `RefCntPointer` variables: `none` destroyed, `some p` holds `p` (`none` = NULL) -/
  vars : List (Option (Option Nat))

/-- Nothing exists yet. -/
def St.init : St := ⟨fun _ => 0, fun _ => false, fun _ => 0, 0, []⟩

/-- `mRefCnt` is a `short`: a stored value is reduced to 16 bits. -/
def short (x : Int) : Int := Int.bmod x (2 ^ 16)

/-- Point update. -/
def upd {α : Type} (f : Nat → α) (i : Nat) (a : α) : Nat → α := fun j => if j = i then a else f j

/-- `RefCntBase::incRefCnt`, Utils.cpp:60-67. -/
def incRefCnt (s : St) (o : Nat) : Outcome St :=
  if s.live o = false then .ub
  else if s.cnt o < 0 then .assertFail
  else .ok { s with cnt := upd s.cnt o (short (s.cnt o + 1)) }

/-- `RefCntBase::decRefCnt`, Utils.cpp:41-59: the new state and the returned count. -/
def decRefCnt (s : St) (o : Nat) : Outcome (St × Int) :=
  if s.live o = false then .ub
  else if s.cnt o < 0 then .assertFail
  else
    let c := short (s.cnt o - 1)
    let s := { s with cnt := upd s.cnt o c }
    if c ≤ 0 then .ok ({ s with live := upd s.live o false, freed := upd s.freed o (s.freed o + 1) }, c)
    else .ok (s, c)

/-- `rcInc`, Utils.h:237. -/
def rcInc (s : St) : Option Nat → Outcome St
  | none => .ok s
  | some o => incRefCnt s o

/-- `rcDec`, Utils.h:238-240: the new state and the new value of `rcPointer`. -/
def rcDec (s : St) (p : Option Nat) : Outcome (St × Option Nat) :=
  match p with
  | none => .ok (s, none)
  | some o =>
    (decRefCnt s o).bind fun (s, c) => .ok (s, if c ≤ 0 then none else some o)

/-- Operations a program performs. -/
inductive Op where
  /-- `new T` for a class derived from `RefCntBase` -/
  | newObj
  /-- `RefCntPointer<T> v;` -/
  | ctor
  /-- `RefCntPointer<T> v(w);` -/
  | ctorCopy (w : Nat)
  /-- `RefCntPointer<T> v(o);` with a raw pointer -/
  | ctorRaw (o : Option Nat)
  /-- `v = w;` -/
  | assign (v w : Nat)
  /-- `v = o;` with a raw pointer -/
  | assignRaw (v : Nat) (o : Option Nat)
  /-- `v.free();` -/
  | free (v : Nat)
  /-- end of the life of `v` -/
  | dtor (v : Nat)

/-- One operation. -/
def step (s : St) : Op → Outcome St
  -- RefCntBase() : mRefCnt(0), Utils.h:217
  | .newObj => .ok { s with cnt := upd s.cnt s.next 0, live := upd s.live s.next true, next := s.next + 1 }
  -- Utils.h:242
  | .ctor => .ok { s with vars := s.vars ++ [some none] }
  -- Utils.h:243-244
  | .ctorCopy w =>
    match s.vars[w]? with
    | some (some p) => (rcInc s p).bind fun s => .ok { s with vars := s.vars ++ [some p] }
    | _ => .ub
  -- Utils.h:245
  | .ctorRaw o => (rcInc s o).bind fun s => .ok { s with vars := s.vars ++ [some o] }
  -- Utils.h:257: the parameter `other` is a copy (Utils.h:243), destroyed at the end (Utils.h:248-252)
  | .assign v w =>
    match s.vars[v]?, s.vars[w]? with
    | some (some old), some (some p) =>
      (rcInc s p).bind fun s =>          -- copy construction of `other`
      (rcInc s p).bind fun s =>          -- other.rcInc()
      (rcDec s old).bind fun (s, _) =>   -- rcDec()
      let s := { s with vars := s.vars.set v (some p) }
      (rcDec s p).bind fun (s, _) => .ok s -- destruction of `other`
    | _, _ => .ub
  -- Utils.h:259
  | .assignRaw v o =>
    match s.vars[v]? with
    | some (some old) =>
      let s := { s with vars := s.vars.set v (some o) }
      (rcInc s o).bind fun s =>
      match old with
      | none => .ok s
      | some q => (decRefCnt s q).bind fun (s, _) => .ok s
    | _ => .ub
  -- Utils.h:269-275
  | .free v =>
    match s.vars[v]? with
    | some (some p) => (rcDec s p).bind fun (s, _) => .ok { s with vars := s.vars.set v (some none) }
    | _ => .ub
  -- Utils.h:248-252
  | .dtor v =>
    match s.vars[v]? with
    | some (some p) => (rcDec s p).bind fun (s, _) => .ok { s with vars := s.vars.set v none }
    | _ => .ub

/-! ### Specification -/

/-- Number of pointer variables that refer to object `o`. -/
def refs (s : St) (o : Nat) : Nat := s.vars.count (some (some o))

/-- A variable that exists. -/
def Exists (s : St) (v : Nat) : Prop := ∃ p, s.vars[v]? = some (some p)

/-- Correct use: variables exist, raw pointers are NULL or point to objects that exist. -/
def Allowed (s : St) : Op → Prop
  | .newObj | .ctor => True
  | .ctorCopy w => Exists s w
  | .ctorRaw o => ∀ x, o = some x → s.live x = true
  | .assign v w => Exists s v ∧ Exists s w
  | .assignRaw v o => Exists s v ∧ ∀ x, o = some x → s.live x = true
  | .free v | .dtor v => Exists s v

/-- States reached by correct use in which no object ever has more than 32765 references. -/
inductive Reach : St → Prop
  | init : Reach St.init
  | step {s s' : St} {op : Op} : Reach s → Allowed s op → step s op = .ok s' → (∀ o, refs s' o ≤ 32765) → Reach s'

/-! ### Proof -/

theorem obind_ok {α β : Type} (a : α) (f : α → Outcome β) : (Outcome.ok a).bind f = f a := rfl


/-- Counts agree with the number of references plus `extra` references held outside the variables. -/
structure Inv (s : St) (extra : Nat → Nat) : Prop where
  count : ∀ o, s.live o = true → s.cnt o = refs s o + extra o
  alive : ∀ o, 0 < refs s o + extra o → s.live o = true
  freed1 : ∀ o, s.freed o + (if s.live o = true then 1 else 0) = (if o < s.next then 1 else 0)

theorem upd_same {α : Type} (f : Nat → α) (i : Nat) (a : α) : upd f i a i = a := by simp [upd]
theorem upd_ne {α : Type} (f : Nat → α) {i j : Nat} (a : α) (h : j ≠ i) : upd f i a j = f j := by simp [upd, h]

theorem short_id {x : Int} (h1 : -32768 ≤ x) (h2 : x ≤ 32767) : short x = x := by
  unfold short
  rw [Int.bmod_eq_iff (by omega)]
  omega

/-- One more outside reference. -/
theorem inc_ok {s : St} {e : Nat → Nat} (h : Inv s e) (o : Nat) (hl : s.live o = true) (hb : refs s o + e o ≤ 32766) :
    ∃ s', incRefCnt s o = .ok s' ∧ s'.vars = s.vars ∧ s'.live = s.live ∧ s'.freed = s.freed ∧ s'.next = s.next ∧
      Inv s' (upd e o (e o + 1)) := by
  have hc := h.count o hl
  have hs : short (s.cnt o + 1) = s.cnt o + 1 := short_id (by omega) (by omega)
  refine ⟨{ s with cnt := upd s.cnt o (short (s.cnt o + 1)) }, ?_, rfl, rfl, rfl, rfl, ?_⟩
  · unfold incRefCnt
    rw [if_neg (by simp [hl]), if_neg (by omega)]
  · refine ⟨?_, ?_, h.freed1⟩
    · intro x hx
      by_cases hxo : x = o
      · subst hxo
        simp only [upd_same, hs]; rw [hc]; simp only [refs]; omega
      · simp only [upd_ne _ _ hxo]
        exact h.count x hx
    · intro x hx
      by_cases hxo : x = o
      · subst hxo; exact hl
      · rw [upd_ne _ _ hxo] at hx; exact h.alive x hx

/-- One outside reference less. -/
theorem dec_ok {s : St} {e : Nat → Nat} (h : Inv s e) (o : Nat) (he : 0 < e o) (hb : refs s o + e o ≤ 32767) :
    ∃ s' c, decRefCnt s o = .ok (s', c) ∧ s'.vars = s.vars ∧ s'.next = s.next ∧
      s'.live = upd s.live o (decide (0 < refs s o + (e o - 1))) ∧ Inv s' (upd e o (e o - 1)) := by
  have hl := h.alive o (by omega)
  have hc := h.count o hl
  have hs : short (s.cnt o - 1) = s.cnt o - 1 := short_id (by omega) (by omega)
  unfold decRefCnt
  rw [if_neg (by simp [hl]), if_neg (by omega)]
  simp only [hs]
  by_cases h0 : s.cnt o - 1 ≤ 0
  · rw [if_pos h0]
    have hz : refs s o + (e o - 1) = 0 := by omega
    refine ⟨_, _, rfl, rfl, rfl, ?_, ?_, ?_, ?_⟩
    · simp [hz]
    · intro x hx
      by_cases hxo : x = o
      · subst hxo; simp [upd_same] at hx
      · simp only [upd_ne _ _ hxo] at hx ⊢; exact h.count x hx
    · intro x hx
      by_cases hxo : x = o
      · subst hxo
        rw [upd_same] at hx
        have : refs s x = 0 := by omega
        simp only [refs] at this hx; omega
      · simp only [upd_ne _ _ hxo] at hx ⊢; exact h.alive x hx
    · intro x
      have := h.freed1 x
      by_cases hxo : x = o
      · subst hxo
        simp only [upd_same]
        rw [hl] at this
        simpa using this
      · simpa only [upd_ne _ _ hxo] using this
  · rw [if_neg h0]
    have hz : 0 < refs s o + (e o - 1) := by omega
    refine ⟨_, _, rfl, rfl, rfl, ?_, ?_, ?_, h.freed1⟩
    · funext x
      by_cases hxo : x = o
      · subst hxo; rw [upd_same, hl]; simp [hz]
      · rw [upd_ne _ _ hxo]
    · intro x hx
      by_cases hxo : x = o
      · subst hxo; simp only [upd_same, refs] at *; omega
      · simp only [upd_ne _ _ hxo]; exact h.count x hx
    · intro x hx
      by_cases hxo : x = o
      · subst hxo; exact hl
      · rw [upd_ne _ _ hxo] at hx; exact h.alive x hx

theorem count_set (l : List (Option (Option Nat))) (v : Nat) (a b : Option (Option Nat)) (h : l[v]? = some a) (x : Option (Option Nat)) :
    (l.set v b).count x + (if a = x then 1 else 0) = l.count x + (if b = x then 1 else 0) := by
  induction l generalizing v with
  | nil => simp at h
  | cons c l ih =>
    cases v with
    | zero =>
      simp at h; subst h
      simp only [List.set_cons_zero, List.count_cons, beq_iff_eq]
      omega
    | succ v =>
      simp only [List.getElem?_cons_succ] at h
      have := ih v h
      simp only [List.set_cons_succ, List.count_cons]
      omega

theorem refs_pos {s : St} {v o : Nat} (h : s.vars[v]? = some (some (some o))) : 0 < refs s o :=
  List.count_pos_iff.mpr (List.mem_iff_getElem?.mpr ⟨v, h⟩)

/-- Extra references of a temporary pointer value. -/
def one (p : Option Nat) : Nat → Nat := fun x => if p = some x then 1 else 0

theorem rcInc_ok {s : St} {e : Nat → Nat} (h : Inv s e) (p : Option Nat) (hl : ∀ o, p = some o → s.live o = true)
    (hb : ∀ o, refs s o + e o ≤ 32766) :
    ∃ s', rcInc s p = .ok s' ∧ s'.vars = s.vars ∧ s'.live = s.live ∧ s'.freed = s.freed ∧ s'.next = s.next ∧
      Inv s' (fun x => e x + one p x) := by
  cases p with
  | none => exact ⟨s, rfl, rfl, rfl, rfl, rfl, by simpa [one] using h⟩
  | some o =>
    obtain ⟨s', h1, h2, h3, h4, h5, h6⟩ := inc_ok h o (hl o rfl) (hb o)
    refine ⟨s', h1, h2, h3, h4, h5, ?_⟩
    have : (fun x => e x + one (some o) x) = upd e o (e o + 1) := by
      funext x; unfold one upd
      by_cases hx : x = o
      · subst hx; simp
      · have : ¬ o = x := fun h => hx h.symm
        simp [hx, this]
    rw [this]; exact h6

theorem rcDec_ok {s : St} {e : Nat → Nat} (p : Option Nat) (h : Inv s (fun x => e x + one p x))
    (hb : ∀ o, refs s o + e o + one p o ≤ 32767) :
    ∃ s' q, rcDec s p = .ok (s', q) ∧ s'.vars = s.vars ∧ s'.next = s.next ∧
      (∀ x, s'.live x = (s.live x && decide (p = some x → 0 < refs s x + e x))) ∧ Inv s' e := by
  cases p with
  | none => exact ⟨s, none, rfl, rfl, rfl, by simp, by simpa [one] using h⟩
  | some o =>
    obtain ⟨s', c, h1, h2, h3, h4, h5⟩ := dec_ok h o (by simp [one]) (by simpa [Nat.add_assoc] using hb o)
    refine ⟨s', _, by simp only [rcDec, h1]; rfl, h2, h3, ?_, ?_⟩
    · intro x
      rw [h4]
      by_cases hx : x = o
      · subst hx
        have hl := h.alive x (by simp [one]; omega)
        rw [upd_same, hl]; simp [one]
      · have : ¬ o = x := fun h => hx h.symm
        rw [upd_ne _ _ hx]; simp [this]
    · have : (upd (fun x => e x + one (some o) x) o (e o + one (some o) o - 1)) = e := by
        funext x; unfold one upd
        by_cases hx : x = o
        · subst hx; simp
        · have : ¬ o = x := fun h => hx h.symm
          simp [hx, this]
      rw [this] at h5; exact h5

/-- Moving outside references into a variable. -/
theorem inv_congr {s s' : St} {e e' : Nat → Nat} (h : Inv s e) (hc : s'.cnt = s.cnt) (hl : s'.live = s.live)
    (hf : s'.freed = s.freed) (hn : s'.next = s.next) (hr : ∀ o, refs s' o + e' o = refs s o + e o) : Inv s' e' := by
  refine ⟨?_, ?_, ?_⟩
  · intro o ho; rw [hl] at ho; rw [hc, h.count o ho]; have := hr o; omega
  · intro o ho; rw [hl]; exact h.alive o (by have := hr o; omega)
  · intro o; rw [hf, hl, hn]; exact h.freed1 o

theorem refs_set {s : St} {v : Nat} {p q : Option Nat} (h : s.vars[v]? = some (some p)) (o : Nat) :
    refs { s with vars := s.vars.set v (some q) } o + one p o = refs s o + one q o := by
  have := count_set s.vars v (some p) (some q) h (some (some o))
  simp only [refs, one]
  simpa using this

theorem refs_set_none {s : St} {v : Nat} {p : Option Nat} (h : s.vars[v]? = some (some p)) (o : Nat) :
    refs { s with vars := s.vars.set v none } o + one p o = refs s o := by
  have := count_set s.vars v (some p) none h (some (some o))
  simp only [refs, one]
  simpa using this

theorem refs_push (s : St) (p : Option Nat) (o : Nat) :
    refs { s with vars := s.vars ++ [some p] } o = refs s o + one p o := by
  simp only [refs, one, List.count_append, List.count_cons, List.count_nil]
  simp

theorem refs_vars {s s' : St} (h : s'.vars = s.vars) (o : Nat) : refs s' o = refs s o := by unfold refs; rw [h]

/-- Which objects live on after an operation: those that lived (or were just created), unless the
operation took away their last reference. -/
def LiveAfter (s s' : St) : Prop :=
  ∀ x, s'.live x = true ↔ (s.live x = true ∧ (0 < refs s' x ∨ refs s x = 0)) ∨ (s.next ≤ x ∧ x < s'.next)

/-- Changing the variables and releasing a reference commute. -/
theorem rcDec_vars {s t : St} {l : List (Option (Option Nat))} {p q : Option Nat}
    (c1 : rcDec { s with vars := l } p = .ok (t, q)) :
    ∃ t', rcDec s p = .ok (t', q) ∧ { t' with vars := l } = t := by
  cases p with
  | none =>
    simp only [rcDec] at c1 ⊢
    injection c1 with c1; injection c1 with c1 c1'
    exact ⟨s, by rw [c1'], c1⟩
  | some o =>
    simp only [rcDec, decRefCnt] at c1 ⊢
    by_cases hl : s.live o = false
    · simp [hl, Outcome.bind] at c1
    · by_cases hn : s.cnt o < 0
      · simp [hl, hn, Outcome.bind] at c1
      · simp only [hl, hn, if_false] at c1 ⊢
        by_cases hz : short (s.cnt o - 1) ≤ 0
        · simp only [hz, if_true, obind_ok, reduceCtorEq, if_false] at c1 ⊢
          injection c1 with c1; injection c1 with c1 c1'
          exact ⟨_, by rw [c1'], by rw [← c1]⟩
        · simp only [hz, if_false, obind_ok, reduceCtorEq] at c1 ⊢
          injection c1 with c1; injection c1 with c1 c1'
          exact ⟨_, by rw [c1'], by rw [← c1]⟩

theorem decRefCnt_keeps {s t : St} {o : Nat} {c : Int} (h : decRefCnt s o = .ok (t, c)) :
    t.vars = s.vars ∧ t.next = s.next := by
  unfold decRefCnt at h
  by_cases hl : s.live o = false
  · simp [hl] at h
  · by_cases hn : s.cnt o < 0
    · simp [hl, hn] at h
    · rw [if_neg hl, if_neg hn] at h
      simp only at h
      split at h <;> (injection h with h; injection h with h _; rw [← h]; exact ⟨rfl, rfl⟩)

theorem rcDec_keeps {s t : St} {p q : Option Nat} (h : rcDec s p = .ok (t, q)) : t.vars = s.vars ∧ t.next = s.next := by
  cases p with
  | none => simp only [rcDec] at h; injection h with h; injection h with h _; rw [← h]; exact ⟨rfl, rfl⟩
  | some o =>
    simp only [rcDec] at h
    cases hd : decRefCnt s o with
    | ok r =>
      obtain ⟨t', c⟩ := r
      rw [hd] at h
      simp only [obind_ok] at h
      injection h with h; injection h with h _; rw [← h]; exact decRefCnt_keeps hd
    | ub => rw [hd] at h; cases h
    | assertFail => rw [hd] at h; cases h
    | diverge => rw [hd] at h; cases h

theorem rcDec_keeps_vars {s t : St} {p q : Option Nat} (h : rcDec s p = .ok (t, q)) : t.vars = s.vars := (rcDec_keeps h).1

theorem rcInc_keeps {s t : St} {p : Option Nat} (h : rcInc s p = .ok t) : t.vars = s.vars ∧ t.next = s.next := by
  cases p with
  | none => simp only [rcInc] at h; injection h with h; rw [← h]; exact ⟨rfl, rfl⟩
  | some o =>
    simp only [rcInc, incRefCnt] at h
    by_cases hl : s.live o = false
    · simp [hl] at h
    · by_cases hn : s.cnt o < 0
      · simp [hl, hn] at h
      · simp only [hl, hn, if_false] at h; injection h with h; rw [← h]; exact ⟨rfl, rfl⟩

theorem rcInc_keeps_vars {s t : St} {p : Option Nat} (h : rcInc s p = .ok t) : t.vars = s.vars := (rcInc_keeps h).1

theorem bind_eq_ok {α β : Type} {x : Outcome α} {f : α → Outcome β} {b : β} (h : x.bind f = .ok b) :
    ∃ a, x = .ok a ∧ f a = .ok b := by
  cases x with
  | ok a => exact ⟨a, rfl, h⟩
  | ub => cases h
  | assertFail => cases h
  | diverge => cases h

theorem step_next_assign {s t : St} {v w : Nat} (h : step s (.assign v w) = .ok t) : t.next = s.next := by
  simp only [step] at h
  split at h
  · obtain ⟨s1, a1, h⟩ := bind_eq_ok h
    obtain ⟨s2, a2, h⟩ := bind_eq_ok h
    obtain ⟨⟨s3, q3⟩, a3, h⟩ := bind_eq_ok h
    obtain ⟨⟨s4, q4⟩, a4, h⟩ := bind_eq_ok h
    injection h with h
    rw [← h, (rcDec_keeps a4).2]
    show s3.next = _
    rw [(rcDec_keeps a3).2, (rcInc_keeps a2).2, (rcInc_keeps a1).2]
  · cases h

theorem dead_beyond {s : St} {e : Nat → Nat} (h : Inv s e) (x : Nat) (hx : s.next ≤ x) : s.live x = false := by
  have := h.freed1 x
  rw [if_neg (show ¬ x < s.next by omega)] at this
  by_cases hl : s.live x = true
  · rw [if_pos hl] at this; omega
  · simpa using hl

theorem one_iff (p : Option Nat) (x : Nat) : (p = some x ∧ one p x = 1) ∨ (¬ p = some x ∧ one p x = 0) := by
  unfold one
  by_cases h : p = some x <;> simp [h]

theorem one_none (x : Nat) : one none x = 0 := rfl

theorem la_pure0 (L O : Prop) (r rs rset oo n x : Nat) (hO : (O ∧ oo = 1) ∨ (¬ O ∧ oo = 0))
    (hrs : rs = rset) (hset : rset + oo = r) (_hro : O → 0 < r) :
    (L ∧ (O → 0 < rset + 0)) ↔ (L ∧ (0 < rs ∨ r = 0)) ∨ (n ≤ x ∧ x < n) := by
  have hn : ¬ (n ≤ x ∧ x < n) := by omega
  by_cases hL : L
  · rcases hO with ⟨h1, h2⟩ | ⟨h1, h2⟩ <;> simp [hL, h1, hn] <;> omega
  · simp [hL, hn]

theorem la_pure1 (L P O : Prop) (r rs rset op oo n x : Nat) {r1 : Nat} (hP : (P ∧ op = 1) ∨ (¬ P ∧ op = 0))
    (hO : (O ∧ oo = 1) ∨ (¬ O ∧ oo = 0))
    (hrs : rs = rset) (hset : rset + oo = r1 + op) (hs1 : r1 = r) (_hrp : P → L) (hro : O → 0 < r) :
    (L ∧ (O → 0 < rset + 0)) ↔ (L ∧ (0 < rs ∨ r = 0)) ∨ (n ≤ x ∧ x < n) := by
  have hn : ¬ (n ≤ x ∧ x < n) := by omega
  by_cases hL : L
  · rcases hO with ⟨h1, h2⟩ | ⟨h1, h2⟩ <;> rcases hP with ⟨h3, h4⟩ | ⟨h3, h4⟩ <;> simp [hL, h1, hn] at hro ⊢ <;> omega
  · simp [hL, hn]

theorem la_pure2 (L P O : Prop) (r r4 rset op oo n x : Nat) {r3 r2 : Nat} (hP : (P ∧ op = 1) ∨ (¬ P ∧ op = 0))
    (hO : (O ∧ oo = 1) ∨ (¬ O ∧ oo = 0)) (hr4 : r4 + oo = r + op)
    (hrs : r4 = r3) (hset : rset + oo = r2 + op) (hs2 : r2 = r) (hrp : P → 0 < r) (hro : O → 0 < r) :
    ((L ∧ (O → 0 < rset + op)) ∧ (P → 0 < r3 + 0)) ↔ (L ∧ (0 < r4 ∨ r = 0)) ∨ (n ≤ x ∧ x < n) := by
  have hn : ¬ (n ≤ x ∧ x < n) := by omega
  by_cases hL : L
  · rcases hO with ⟨h1, h2⟩ | ⟨h1, h2⟩ <;> rcases hP with ⟨h3, h4⟩ | ⟨h3, h4⟩ <;> simp [hL, h1, h3, hn] at hro hrp ⊢ <;> omega
  · simp [hL, hn]

theorem step_ok {s : St} (h : Inv s (fun _ => 0)) (hb : ∀ o, refs s o ≤ 32765) (op : Op) (ha : Allowed s op) :
    ∃ s', step s op = .ok s' ∧ Inv s' (fun _ => 0) ∧ LiveAfter s s' := by
  have live_ref : ∀ v o, s.vars[v]? = some (some (some o)) → s.live o = true := fun v o hv =>
    h.alive o (by have := refs_pos hv; omega)
  cases op with
  | newObj =>
    refine ⟨_, rfl, ⟨?_, ?_, ?_⟩, ?_⟩
    · intro o ho
      by_cases hx : o = s.next
      · subst hx
        simp only [upd_same, refs]
        have : s.vars.count (some (some s.next)) = 0 := by
          rcases Nat.eq_zero_or_pos (s.vars.count (some (some s.next))) with hz | hpos
          · exact hz
          · have := h.alive s.next (by unfold refs; omega)
            rw [dead_beyond h s.next (Nat.le_refl _)] at this; cases this
        rw [this]; rfl
      · simp only [upd_ne _ _ hx] at ho ⊢; exact h.count o ho
    · intro o ho
      by_cases hx : o = s.next
      · subst hx; simp [upd_same]
      · simp only [upd_ne _ _ hx]; exact h.alive o ho
    · intro o
      have := h.freed1 o
      by_cases hx : o = s.next
      · subst hx
        rw [dead_beyond h s.next (Nat.le_refl _)] at this
        simp [upd_same] at this ⊢; exact this
      · simp only [upd_ne _ _ hx]
        rw [this]
        by_cases hlt : o < s.next
        · rw [if_pos hlt, if_pos (by omega)]
        · rw [if_neg hlt, if_neg (by omega)]
    · intro x
      by_cases hx : x = s.next
      · subst hx; simp [upd_same]
      · simp only [upd_ne _ _ hx, refs]
        constructor
        · intro hl; exact .inl ⟨hl, by omega⟩
        · rintro (⟨hl, -⟩ | hh)
          · exact hl
          · omega
  | ctor =>
    refine ⟨_, rfl, inv_congr h rfl rfl rfl rfl ?_, ?_⟩
    · intro o; rw [refs_push]; simp [one]
    · intro x; rw [refs_push]; simp [one]; constructor
      · intro hl; exact .inl ⟨hl, by omega⟩
      · rintro (⟨hl, -⟩ | hh)
        · exact hl
        · omega
  | ctorCopy w =>
    obtain ⟨p, hw⟩ := ha
    obtain ⟨s1, h1, h2, h3, h4, h5, h6⟩ := rcInc_ok h p (fun o ho => live_ref w o (by rw [hw, ho])) (fun o => by have := hb o; omega)
    refine ⟨{ s1 with vars := s1.vars ++ [some p] }, by simp [step, hw, h1, Outcome.bind], inv_congr h6 rfl rfl rfl rfl ?_, ?_⟩
    · intro o; rw [refs_push]; omega
    · intro x; rw [refs_push, refs_vars h2]; simp only [h3, h5]; constructor
      · intro hl; exact .inl ⟨hl, by omega⟩
      · rintro (⟨hl, -⟩ | hh)
        · exact hl
        · omega
  | ctorRaw p =>
    obtain ⟨s1, h1, h2, h3, h4, h5, h6⟩ := rcInc_ok h p ha (fun o => by have := hb o; omega)
    refine ⟨{ s1 with vars := s1.vars ++ [some p] }, by simp [step, h1, Outcome.bind], inv_congr h6 rfl rfl rfl rfl ?_, ?_⟩
    · intro o; rw [refs_push]; omega
    · intro x; rw [refs_push, refs_vars h2]; simp only [h3, h5]; constructor
      · intro hl; exact .inl ⟨hl, by omega⟩
      · rintro (⟨hl, -⟩ | hh)
        · exact hl
        · omega
  | assign v w =>
    obtain ⟨⟨old, hv⟩, ⟨p, hw⟩⟩ := ha
    have hone : ∀ (q : Option Nat) o, one q o ≤ 1 := fun q o => by unfold one; split <;> omega
    obtain ⟨s1, a1, a2, a3, a4, a5, a6⟩ := rcInc_ok h p (fun o ho => live_ref w o (by rw [hw, ho])) (fun o => by have := hb o; omega)
    obtain ⟨s2, b1, b2, b3, b4, b5, b6⟩ := rcInc_ok a6 p (fun o ho => by rw [a3]; exact live_ref w o (by rw [hw, ho]))
      (fun o => by rw [refs_vars a2]; have := hb o; have := hone p o; omega)
    -- put the new pointer into the variable first: its old reference becomes the outside one
    have hv2 : s2.vars[v]? = some (some old) := by rw [b2, a2]; exact hv
    have hr2 := refs_set (q := p) hv2
    have c0 : Inv { s2 with vars := s2.vars.set v (some p) } (fun x => one p x + one old x) :=
      inv_congr b6 rfl rfl rfl rfl (fun o => by have := hr2 o; omega)
    have hb2 : ∀ o, refs s2 o ≤ 32765 := fun o => by rw [refs_vars b2, refs_vars a2]; exact hb o
    obtain ⟨s3, q3, c1, c2, c3, c4, c5⟩ := rcDec_ok old c0 (fun o => by
      have := hr2 o; have := hb2 o; have := hone p o; omega)
    -- the code changes the variable after rcDec; the order does not matter
    obtain ⟨s3', d1, d2⟩ := rcDec_vars c1
    have c5' : Inv s3 (fun x => (fun _ => 0) x + one p x) := by simpa using c5
    have hr3 : ∀ o, refs s3 o + one old o = refs s o + one p o := fun o => by
      rw [refs_vars c2, hr2 o, refs_vars b2, refs_vars a2]
    obtain ⟨s4, q4, e1, e2, e3, e4, e5⟩ := rcDec_ok (e := fun _ => 0) p c5' (fun o => by
      have := hr3 o; have := hb o; have := hone p o; have := hone old o; omega)
    refine ⟨s4, ?_, e5, ?_⟩
    · simp only [step, hv, hw, a1, b1, d1, obind_ok]
      rw [rcDec_keeps_vars d1, d2, e1]; rfl
    · intro x
      have hr4 : refs s4 x + one old x = refs s x + one p x := by rw [refs_vars e2]; exact hr3 x
      have hrp : p = some x → 0 < refs s x := fun hp => refs_pos (v := w) (by rw [hw, hp])
      have hro : old = some x → 0 < refs s x := fun hp => refs_pos (v := v) (by rw [hv, hp])
      rw [e4, c4]
      have hl2 : s2.live x = s.live x := by rw [b3, a3]
      have hn4 : s4.next = s.next := by rw [e3, c3, b5, a5]
      rw [hn4]
      have hr3x := hr3 x
      have hrs := refs_vars e2 x
      have hset := hr2 x
      have hs2 : refs s2 x = refs s x := by rw [refs_vars b2, refs_vars a2]
      simp only [hl2, Bool.and_eq_true, decide_eq_true_eq]
      exact la_pure2 _ _ _ _ _ _ _ _ _ _ (one_iff p x) (one_iff old x) hr4 hrs hset hs2 hrp hro
  | assignRaw v p =>
    obtain ⟨⟨old, hv⟩, hp⟩ := ha
    have hone : ∀ (q : Option Nat) o, one q o ≤ 1 := fun q o => by unfold one; split <;> omega
    obtain ⟨s1, a1, a2, a3, a4, a5, a6⟩ := rcInc_ok h p hp (fun o => by have := hb o; omega)
    have hv1 : s1.vars[v]? = some (some old) := by rw [a2]; exact hv
    have hr1 := refs_set (q := p) hv1
    have c0 : Inv { s1 with vars := s1.vars.set v (some p) } (fun x => (fun _ => 0) x + one old x) :=
      inv_congr a6 rfl rfl rfl rfl (fun o => by have := hr1 o; simp only; omega)
    have hb1 : ∀ o, refs s1 o ≤ 32765 := fun o => by rw [refs_vars a2]; exact hb o
    obtain ⟨s2, q2, c1, c2, c3, c4, c5⟩ := rcDec_ok (e := fun _ => 0) old c0 (fun o => by
      have := hr1 o; have := hb1 o; have := hone p o; omega)
    have hinc : rcInc { s with vars := s.vars.set v (some p) } p = .ok { s1 with vars := s1.vars.set v (some p) } := by
      revert a1
      cases p with
      | none => intro a1; simp only [rcInc] at a1 ⊢; injection a1 with a1; rw [a1]
      | some o =>
        intro a1
        simp only [rcInc, incRefCnt] at a1 ⊢
        by_cases hl : s.live o = false
        · simp [hl] at a1
        · by_cases hn : s.cnt o < 0
          · simp [hl, hn] at a1
          · rw [if_neg hl, if_neg hn] at a1
            rw [if_neg hl, if_neg hn]
            injection a1 with a1; rw [← a1]
    refine ⟨s2, ?_, c5, ?_⟩
    · simp only [step, hv, hinc, obind_ok]
      revert c1
      cases old with
      | none => intro c1; simp only [rcDec] at c1 ⊢; injection c1 with c1; injection c1 with c1 _; rw [c1]
      | some o =>
        intro c1
        simp only [rcDec] at c1
        cases hd : decRefCnt { s1 with vars := s1.vars.set v (some p) } o with
        | ok r =>
          rw [hd] at c1
          simp only [obind_ok] at c1 ⊢
          injection c1 with c1; injection c1 with c1 _
          rw [hd, obind_ok, c1]
        | ub => rw [hd] at c1; cases c1
        | assertFail => rw [hd] at c1; cases c1
        | diverge => rw [hd] at c1; cases c1
    · intro x
      have hro : old = some x → 0 < refs s x := fun hp => refs_pos (v := v) (by rw [hv, hp])
      have hrp : p = some x → s.live x = true := hp x
      rw [c4]
      have hn : s2.next = s.next := by rw [c3]; exact a5
      rw [hn]
      have hrs := refs_vars c2 x
      have hset := hr1 x
      have hs1 : refs s1 x = refs s x := refs_vars a2 x
      simp only [a3, Bool.and_eq_true, decide_eq_true_eq]
      exact la_pure1 _ _ _ _ _ _ _ _ _ _ (one_iff p x) (one_iff old x) hrs hset hs1 hrp hro
  | free v =>
    obtain ⟨old, hv⟩ := ha
    have hone : ∀ (q : Option Nat) o, one q o ≤ 1 := fun q o => by unfold one; split <;> omega
    have hr1 : ∀ o, refs { s with vars := s.vars.set v (some none) } o + one old o = refs s o := fun o => by
      have := refs_set (q := none) hv o
      rwa [one_none] at this
    have c0 : Inv { s with vars := s.vars.set v (some none) } (fun x => (fun _ => 0) x + one old x) :=
      inv_congr h rfl rfl rfl rfl (fun o => by have := hr1 o; simp only; omega)
    obtain ⟨s2, q2, c1, c2, c3, c4, c5⟩ := rcDec_ok (e := fun _ => 0) old c0 (fun o => by
      have := hr1 o; have := hb o; omega)
    obtain ⟨s3, d1, d2⟩ := rcDec_vars c1
    have hvars : s3.vars = s.vars := rcDec_keeps_vars d1
    refine ⟨s2, ?_, c5, ?_⟩
    · simp only [step, hv, d1, obind_ok]
      rw [← d2, hvars]
    · intro x
      have hro : old = some x → 0 < refs s x := fun hp => refs_pos (v := v) (by rw [hv, hp])
      rw [c4]
      have hn : s2.next = s.next := c3
      rw [hn]
      have hrs := refs_vars c2 x
      have hset := hr1 x
      simp only [Bool.and_eq_true, decide_eq_true_eq]
      exact la_pure0 _ _ _ _ _ _ _ _ (one_iff old x) hrs hset hro
  | dtor v =>
    obtain ⟨old, hv⟩ := ha
    have hone : ∀ (q : Option Nat) o, one q o ≤ 1 := fun q o => by unfold one; split <;> omega
    have hr1 := refs_set_none hv
    have c0 : Inv { s with vars := s.vars.set v none } (fun x => (fun _ => 0) x + one old x) :=
      inv_congr h rfl rfl rfl rfl (fun o => by have := hr1 o; simp only; omega)
    obtain ⟨s2, q2, c1, c2, c3, c4, c5⟩ := rcDec_ok (e := fun _ => 0) old c0 (fun o => by
      have := hr1 o; have := hb o; omega)
    obtain ⟨s3, d1, d2⟩ := rcDec_vars c1
    have hvars : s3.vars = s.vars := rcDec_keeps_vars d1
    refine ⟨s2, ?_, c5, ?_⟩
    · simp only [step, hv, d1, obind_ok]
      rw [← d2, hvars]
    · intro x
      have hro : old = some x → 0 < refs s x := fun hp => refs_pos (v := v) (by rw [hv, hp])
      rw [c4]
      have hn : s2.next = s.next := c3
      rw [hn]
      have hrs := refs_vars c2 x
      have hset := hr1 x
      simp only [Bool.and_eq_true, decide_eq_true_eq]
      exact la_pure0 _ _ _ _ _ _ _ _ (one_iff old x) hrs hset hro

theorem reach_inv {s : St} (h : Reach s) : Inv s (fun _ => 0) ∧ ∀ o, refs s o ≤ 32765 := by
  induction h with
  | init => exact ⟨⟨by simp [St.init], by simp [St.init, refs], by simp [St.init]⟩, by simp [St.init, refs]⟩
  | step h1 h2 h3 h4 ih =>
    obtain ⟨s', g1, g2, -⟩ := step_ok ih.1 ih.2 _ h2
    rw [h3] at g1; injection g1 with g1; subst g1
    exact ⟨g2, h4⟩

/-! ### Theorems -/

/-- C46, partial (counts): in every state reached by correct use, the stored count of an existing object is the
number of pointer variables referring to it, every object referred to exists, and every object ever
created was deleted at most once, namely exactly if it no longer exists.  Missing: more than 32765
references to one object (`C46_overflow_refuted`). -/
theorem C46_counts_partial {s : St} (h : Reach s) (o : Nat) :
    (s.live o = true → s.cnt o = refs s o) ∧ (0 < refs s o → s.live o = true) ∧
    (o < s.next → s.freed o = if s.live o = true then 0 else 1) := by
  have hi := (reach_inv h).1
  refine ⟨fun hl => by simpa using hi.count o hl, fun hr => hi.alive o (by omega), fun hn => ?_⟩
  have := hi.freed1 o
  rw [if_pos hn] at this
  by_cases hl : s.live o = true
  · rw [if_pos hl] at this ⊢; omega
  · rw [if_neg hl] at this ⊢; omega

/-- C46, partial (progress and deletion time): every correct operation succeeds (no failed assertion, no access to a deleted
object), and it deletes an object exactly when it takes away its last reference. -/
theorem C46_step_partial {s : St} (h : Reach s) (op : Op) (ha : Allowed s op) :
    ∃ s', step s op = .ok s' ∧
      ∀ o, s.live o = true → (s'.live o = false ↔ 0 < refs s o ∧ refs s' o = 0) := by
  obtain ⟨hi, hb⟩ := reach_inv h
  obtain ⟨s', h1, h2, h3⟩ := step_ok hi hb op ha
  refine ⟨s', h1, fun o hl => ?_⟩
  have := h3 o
  have hn : ¬ s.next ≤ o := by
    intro hge
    rw [dead_beyond hi o hge] at hl; cases hl
  rw [← Bool.not_eq_true, this]
  simp only [hl, true_and]
  omega

/-- C46: `a = a` changes nothing. -/
theorem C46_self_assign {s : St} (h : Reach s) (v : Nat) (hv : Exists s v) :
    ∃ s', step s (.assign v v) = .ok s' ∧ s'.vars = s.vars ∧ s'.live = s.live := by
  obtain ⟨hi, hb⟩ := reach_inv h
  obtain ⟨s', h1, h2, h3⟩ := step_ok hi hb (.assign v v) ⟨hv, hv⟩
  obtain ⟨p, hp⟩ := hv
  have hvars : s'.vars = s.vars.set v (some p) := by
    simp only [step, hp] at h1
    obtain ⟨s1, a1, h1⟩ := bind_eq_ok h1
    obtain ⟨s2, a2, h1⟩ := bind_eq_ok h1
    obtain ⟨⟨s3, q3⟩, a3, h1⟩ := bind_eq_ok h1
    obtain ⟨⟨s4, q4⟩, a4, h1⟩ := bind_eq_ok h1
    injection h1 with h1
    rw [← h1, (rcDec_keeps a4).1]
    show s3.vars.set v (some p) = _
    rw [(rcDec_keeps a3).1, (rcInc_keeps a2).1, (rcInc_keeps a1).1]
  have hset : s.vars.set v (some p) = s.vars := by
    obtain ⟨hlt, he⟩ := List.getElem?_eq_some_iff.mp hp
    rw [← he, List.set_getElem_self]
  rw [hset] at hvars
  refine ⟨s', h1, hvars, ?_⟩
  have hnext : s'.next = s.next := step_next_assign h1
  funext x
  have hx := h3 x
  rw [hnext, refs_vars hvars] at hx
  have hnn : ¬ (s.next ≤ x ∧ x < s.next) := by omega
  have h0 : 0 < refs s x ∨ refs s x = 0 := by omega
  rw [Bool.eq_iff_iff, hx]
  simp [hnn, h0]

/-- Runs a list of operations. -/
def run (s : St) : List Op → Outcome St
  | [] => .ok s
  | op :: ops => (step s op).bind fun s => run s ops

theorem run_ctorRaw (n : Nat) : ∀ (s : St) (k : Nat), s.live 0 = true → s.cnt 0 = k → n + k ≤ 32767 →
    ∃ s', run s (List.replicate n (.ctorRaw (some 0))) = .ok s' ∧ s'.live 0 = true ∧ s'.cnt 0 = (k + n : Nat) := by
  induction n with
  | zero => intro s k hl hc _; exact ⟨s, rfl, hl, hc⟩
  | succ n ih =>
    intro s k hl hc hb
    have hstep : step s (.ctorRaw (some 0)) = .ok { s with cnt := upd s.cnt 0 (short (s.cnt 0 + 1)), vars := s.vars ++ [some (some 0)] } := by
      simp only [step, rcInc, incRefCnt]
      rw [if_neg (by simp [hl]), if_neg (by omega)]; rfl
    obtain ⟨s', h1, h2, h3⟩ := ih { s with cnt := upd s.cnt 0 (short (s.cnt 0 + 1)), vars := s.vars ++ [some (some 0)] } (k + 1)
      hl (by simp only [upd_same]; rw [short_id (by omega) (by omega), hc]; rfl) (by omega)
    refine ⟨s', ?_, h2, ?_⟩
    · rw [List.replicate_succ, run, hstep]; exact h1
    · rw [h3]; congr 1; omega

theorem run_append (s : St) (a b : List Op) : run s (a ++ b) = (run s a).bind fun s => run s b := by
  induction a generalizing s with
  | nil => rfl
  | cons op a ih =>
    rw [List.cons_append, run, run]
    cases step s op with
    | ok s' => exact ih s'
    | ub => rfl
    | assertFail => rfl
    | diverge => rfl

theorem overflow_aux (n : Nat) (hn : n = 32767) :
    run St.init (.newObj :: List.replicate (n + 2) (.ctorRaw (some 0))) = .assertFail := by
  rw [run]
  have h0 : step St.init .newObj = .ok { St.init with cnt := upd St.init.cnt 0 0, live := upd St.init.live 0 true, next := 1 } := rfl
  rw [h0, obind_ok, ← List.replicate_append_replicate, run_append]
  obtain ⟨s', h1, h2, h3⟩ := run_ctorRaw n { St.init with cnt := upd St.init.cnt 0 0, live := upd St.init.live 0 true, next := 1 } 0
    (by simp [upd_same]) (by simp [upd_same]) (by omega)
  rw [h1, obind_ok]
  have h3' : s'.cnt 0 = 32767 := by rw [h3]; omega
  have hs : short 32768 = -32768 := by decide
  have hrep : List.replicate 2 (Op.ctorRaw (some 0)) = [.ctorRaw (some 0), .ctorRaw (some 0)] := rfl
  rw [hrep]
  simp [run, step, rcInc, incRefCnt, h2, h3', hs, upd_same, Outcome.bind]

/-- C46 (negation for unlimited references): the 32769th reference to an object stops the program on an assertion. -/
theorem C46_overflow_refuted :
    run St.init (.newObj :: List.replicate 32769 (.ctorRaw (some 0))) = .assertFail :=
  overflow_aux 32767 rfl

example : ∃ s, run St.init [.newObj, .ctorRaw (some 0), .ctorCopy 0, .assign 0 1, .dtor 0] = .ok s ∧
    s.cnt 0 = 1 ∧ s.live 0 = true := ⟨_, rfl, by decide, by decide⟩
example : ∃ s, run St.init [.newObj, .ctorRaw (some 0), .ctorCopy 0, .assign 0 0, .dtor 0, .assignRaw 1 none] = .ok s ∧
    s.freed 0 = 1 ∧ s.live 0 = false := ⟨_, rfl, by decide, by decide⟩
example : ∃ s, Reach s ∧ refs s 0 = 1 ∧ s.live 0 = true := by
  have h1 : Reach _ := .step (op := .newObj) .init trivial rfl (by simp [refs, St.init])
  have h2 : Reach _ := .step (op := .ctorRaw (some 0)) h1 (by intro x hx; injection hx with hx; subst hx; rfl) rfl
    (by intro o; rw [refs_push]; simp only [refs, St.init, List.count_nil, one]; split <;> omega)
  exact ⟨_, h2, by decide, by decide⟩

end Verif.Utils.RefCnt
