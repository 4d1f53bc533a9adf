import Verif.Reporting.Props
import Mathlib.Data.List.Induction

/-
Property C146: what the statistics hold after crashes (`Reporting.cpp:41-206`).

A life is what happens between the start of a process and its end, which may come between any two steps: the batch and the copies of running commits are lost, the rows are kept.  Assumptions: SQLite does each statement wholly
or not at all, and what a statement changed survives the end of the process.  The simplifications of `Verif.Reporting.Model` apply.
-/

namespace Verif.Reporting.Crash
open Verif

/-- The rows of the table in the file. -/
abbrev Rows := Str → Option Int

/-- `mBatch[paramName]++` (`Reporting.cpp:89`) on a `std::map` with 32-bit counters, which keeps its entries in the order of the names (`Reporting.h:36`). -/
def bump (n : Str) : Batch → Batch
  | [] => [(n, 1)]
  | (k, v) :: r => if n < k then (n, 1) :: (k, v) :: r else if k = n then (k, (v + 1) % 2 ^ 32) :: r else (k, v) :: bump n r

/-- `if (mBatch.find(paramName) == mBatch.end()) mBatch[paramName] = 0` (`Reporting.cpp:69-71`). -/
def addName (n : Str) : Batch → Batch
  | [] => [(n, 0)]
  | (k, v) :: r => if n < k then (n, 0) :: (k, v) :: r else if k = n then (k, v) :: r else (k, v) :: addName n r

/-- A process and the file: `mBatch` (`Reporting.h:48`), the rows, and for each thread in `commit` the entries of `oustanding` it still has to write (`Reporting.cpp:170`). -/
structure St where
  batch : Batch := []
  db : Rows
  thr : Nat → Option Batch := fun _ => none

/-- The steps between which other threads run and the process may end; `ok` is the answer of the engine. -/
inductive Ev
  | createName (n : Str)
  | createRow (n : Str) (ok : Bool)
  | incr (n : Str)
  | max (n : Str) (v : Nat) (ok : Bool)
  | clear (n : Str) (ok : Bool)
  | clearAll (ok : Bool)
  | copy (t : Nat)
  | write (t : Nat) (ok : Bool)
  | done (t : Nat)
deriving DecidableEq, Repr

/-- One step.  `createName`, `createRow`: `create` (`Reporting.cpp:68-72,75-81`); `incr` (`Reporting.cpp:86-93`); `max` (`Reporting.cpp:97-106`); `clear` (`Reporting.cpp:109-118,122-131`);
`copy`: the first part of `commit` (`Reporting.cpp:175-185`); `write`: the statement for the next entry (`Reporting.cpp:193-200`); `done`: the return (`Reporting.cpp:205`). -/
def step (s : St) : Ev → Option St
  | .createName n => some { s with batch := addName n s.batch }
  | .createRow n ok => some (if ok then { s with db := fun x => if x = n then some ((s.db x).getD 0) else s.db x } else s)
  | .incr n => some { s with batch := bump n s.batch }
  | .max n v ok => some (if ok then { s with db := update s.db n fun x => Max.max x (v : Int) } else s)
  | .clear n ok => some (if ok then { s with db := update s.db n fun _ => 0 } else s)
  | .clearAll ok => some (if ok then { s with db := fun x => (s.db x).map fun _ => 0 } else s)
  | .copy t =>
    match s.thr t with
    | none => some { s with batch := s.batch.map fun e => (e.1, 0), thr := fun x => if x = t then some (s.batch.filter fun e => decide (e.2 > 0)) else s.thr x }
    | some _ => none
  | .write t ok =>
    match s.thr t with
    | some ((n, c) :: r) => some { s with db := if ok then update s.db n (· + (c : Int)) else s.db, thr := fun x => if x = t then some r else s.thr x }
    | _ => none
  | .done t =>
    match s.thr t with
    | some [] => some { s with thr := fun x => if x = t then none else s.thr x }
    | _ => none

/-- Some steps. -/
def run (s : St) : List Ev → Option St
  | [] => some s
  | e :: es => (step s e).bind fun t => run t es

/-- A process that starts on a file with the rows `d` and ends after these steps: what the file holds then. -/
def life (d : Rows) (l : List Ev) : Option Rows := (run { db := d } l).map (·.db)

/-- Several processes, one after the other. -/
def lives (d : Rows) : List (List Ev) → Option Rows
  | [] => some d
  | l :: ls => (life d l).bind fun d' => lives d' ls

/-! ### Specification -/

/-- How often `n` was incremented. -/
def incrs (n : Str) (l : List Ev) : Nat := l.count (.incr n)

/-- Nothing but increments and commits that succeed changes the value of `n`; only thread `c` calls `commit`. -/
def Counting (c : Nat) (n : Str) : Ev → Prop
  | .max m _ _ => m ≠ n
  | .clear m _ => m ≠ n
  | .clearAll _ => False
  | .copy t => t = c
  | .write t ok => t = c ∧ ok = true
  | .done t => t = c
  | _ => True

/-! ### Proof -/

theorem run_append (s : St) (a b : List Ev) : run s (a ++ b) = (run s a).bind fun t => run t b := by
  induction a generalizing s with
  | nil => rfl
  | cons e a ih =>
    simp only [List.cons_append, run]
    cases step s e with
    | none => rfl
    | some t => exact ih t

/-- Entries in the order of the names, each name once. -/
def Sorted (b : Batch) : Prop := b.Pairwise fun x y => x.1 < y.1

theorem lt_of_ne {a b : Str} (h : ¬ a < b) (h' : b ≠ a) : b < a := by
  by_cases h2 : b < a
  · exact h2
  · exact absurd (List.le_antisymm h h2) h'

theorem mem_bump {n : Str} {x : Str × Nat} : ∀ {b : Batch}, x ∈ bump n b → x.1 = n ∨ x ∈ b := by
  intro b
  induction b with
  | nil => intro h; rw [bump, List.mem_singleton] at h; exact .inl (by rw [h])
  | cons e b ih =>
    obtain ⟨k, v⟩ := e
    intro h
    rw [bump] at h
    split at h
    · rcases List.mem_cons.1 h with h | h
      · exact .inl (by rw [h])
      · exact .inr h
    · split at h
      · rename_i hk
        rcases List.mem_cons.1 h with h | h
        · exact .inl (by rw [h]; exact hk)
        · exact .inr (List.mem_cons_of_mem _ h)
      · rcases List.mem_cons.1 h with h | h
        · exact .inr (by rw [h]; exact List.mem_cons_self ..)
        · rcases ih h with h | h
          · exact .inl h
          · exact .inr (List.mem_cons_of_mem _ h)

theorem mem_addName {n : Str} {x : Str × Nat} : ∀ {b : Batch}, x ∈ addName n b → x.1 = n ∨ x ∈ b := by
  intro b
  induction b with
  | nil => intro h; rw [addName, List.mem_singleton] at h; exact .inl (by rw [h])
  | cons e b ih =>
    obtain ⟨k, v⟩ := e
    intro h
    rw [addName] at h
    split at h
    · rcases List.mem_cons.1 h with h | h
      · exact .inl (by rw [h])
      · exact .inr h
    · split at h
      · exact .inr h
      · rcases List.mem_cons.1 h with h | h
        · exact .inr (by rw [h]; exact List.mem_cons_self ..)
        · rcases ih h with h | h
          · exact .inl h
          · exact .inr (List.mem_cons_of_mem _ h)

theorem sorted_bump (n : Str) : ∀ {b : Batch}, Sorted b → Sorted (bump n b) := by
  intro b
  induction b with
  | nil => intro _; exact List.pairwise_singleton ..
  | cons e b ih =>
    obtain ⟨k, v⟩ := e
    intro h
    have h' := List.pairwise_cons.1 h
    rw [bump]
    split
    · rename_i hk
      refine List.pairwise_cons.2 ⟨fun x hx => ?_, h⟩
      rcases List.mem_cons.1 hx with hx | hx
      · rw [hx]; exact hk
      · exact List.lt_trans hk (h'.1 x hx)
    · rename_i hk
      split
      · exact List.pairwise_cons.2 h'
      · rename_i hne
        refine List.pairwise_cons.2 ⟨fun x hx => ?_, ih h'.2⟩
        rcases mem_bump hx with hx | hx
        · rw [hx]; exact lt_of_ne hk hne
        · exact h'.1 x hx

theorem sorted_addName (n : Str) : ∀ {b : Batch}, Sorted b → Sorted (addName n b) := by
  intro b
  induction b with
  | nil => intro _; exact List.pairwise_singleton ..
  | cons e b ih =>
    obtain ⟨k, v⟩ := e
    intro h
    have h' := List.pairwise_cons.1 h
    rw [addName]
    split
    · rename_i hk
      refine List.pairwise_cons.2 ⟨fun x hx => ?_, h⟩
      rcases List.mem_cons.1 hx with hx | hx
      · rw [hx]; exact hk
      · exact List.lt_trans hk (h'.1 x hx)
    · rename_i hk
      split
      · exact h
      · rename_i hne
        refine List.pairwise_cons.2 ⟨fun x hx => ?_, ih h'.2⟩
        rcases mem_addName hx with hx | hx
        · rw [hx]; exact lt_of_ne hk hne
        · exact h'.1 x hx

theorem total_addName (n m : Str) : ∀ b : Batch, total n (addName m b) = total n b := by
  intro b
  induction b with
  | nil => rw [addName, total_cons]; simp
  | cons e b ih =>
    obtain ⟨k, v⟩ := e
    rw [addName]
    split
    · rw [total_cons]; simp
    · split
      · rfl
      · rw [total_cons, total_cons, ih]

theorem total_bump_other {n m : Str} (h : m ≠ n) : ∀ b : Batch, total n (bump m b) = total n b := by
  intro b
  induction b with
  | nil => simp [bump, total, h]
  | cons e b ih =>
    obtain ⟨k, v⟩ := e
    rw [bump]
    split
    · rw [total_cons, if_neg h, Nat.zero_add]
    · split
      · rename_i hk
        rw [total_cons, total_cons, if_neg (by simpa [hk] using h), if_neg (by simpa [hk] using h)]
      · rw [total_cons, total_cons, ih]

theorem total_bump {n : Str} : ∀ b : Batch, total n b + 1 < 2 ^ 32 → total n (bump n b) = total n b + 1 := by
  intro b
  induction b with
  | nil => intro _; simp [bump, total]
  | cons e b ih =>
    obtain ⟨k, v⟩ := e
    intro h
    rw [bump]
    split
    · rw [total_cons, if_pos rfl, Nat.add_comm]
    · rw [total_cons] at h
      split
      · rename_i hk
        rw [if_pos hk] at h
        rw [total_cons, total_cons, if_pos hk, if_pos hk]
        simp only at h ⊢
        rw [Nat.mod_eq_of_lt (by omega)]
        omega
      · rename_i hk
        rw [if_neg hk] at h
        rw [total_cons, total_cons, ih (by omega)]
        omega

theorem total_head {n : Str} {b : Batch} (h : ∀ x ∈ b, n < x.1) : total n b = 0 := by
  induction b with
  | nil => rfl
  | cons e b ih =>
    rw [total_cons, ih fun x hx => h x (List.mem_cons_of_mem _ hx), if_neg]
    intro he
    have := h e (List.mem_cons_self ..)
    rw [he] at this
    exact List.lt_irrefl _ this

theorem incrs_snoc (n : Str) (l : List Ev) (e : Ev) : incrs n (l ++ [e]) = incrs n l + incrs n [e] := by
  simp [incrs, List.count_append]

theorem incrs_take_le (n : Str) (l : List Ev) (k : Nat) : incrs n (l.take k) ≤ incrs n l := by
  unfold incrs
  exact List.Sublist.count_le _ (List.take_sublist ..)

/-- The count of `n` in the entries a thread still has to write. -/
def leftOf (o : Option Batch) (n : Str) : Nat := total n (o.getD [])

/-- What holds for the counter `n`, with value `x` at the start, when the earlier commit copied after `p` steps and the later one after `q`; `cut`: it is written. -/
def Holds (x : Int) (n : Str) (l : List Ev) (s : St) (c p q : Nat) (cut : Str → Prop) : Prop :=
  total n s.batch + incrs n (l.take q) = incrs n l ∧
    (cut n → s.db n = some (x + incrs n (l.take q)) ∧ leftOf (s.thr c) n = 0) ∧
    (¬ cut n → s.db n = some (x + incrs n (l.take p)) ∧ incrs n (l.take p) + leftOf (s.thr c) n = incrs n (l.take q))

/-- The invariant of a life with one committer. -/
structure Inv (c : Nat) (d : Rows) (l : List Ev) (s : St) (p q : Nat) (cut : Str → Prop) : Prop where
  le : p ≤ q
  len : q ≤ l.length
  pm : p = 0 ∨ l[p]? = some (.copy c)
  qm : q = 0 ∨ l[q]? = some (.copy c)
  last : ∀ i : Nat, l[i]? = some (Ev.copy c) → i ≤ q
  idle : s.thr c = none → p = q
  kept : ∀ i j : Nat, i < j → l[i]? = some (Ev.copy c) → l[j]? = some (Ev.done c) → i ≤ p
  sorted : Sorted s.batch
  lsorted : Sorted ((s.thr c).getD [])
  down : ∀ a b, a < b → cut b → cut a
  uncut : ∀ e ∈ (s.thr c).getD [], ¬ cut e.1
  holds : ∀ n x, d n = some x → (∀ e ∈ l, Counting c n e) → incrs n l < 2 ^ 32 → Holds x n l s c p q cut

theorem get_snoc {l : List Ev} {e x : Ev} {i : Nat} (h : (l ++ [e])[i]? = some x) : l[i]? = some x ∨ (i = l.length ∧ e = x) := by
  rcases Nat.lt_trichotomy i l.length with hi | hi | hi
  · rw [List.getElem?_append_left hi] at h; exact .inl h
  · subst hi
    simp at h
    exact .inr ⟨rfl, h⟩
  · rw [List.getElem?_append_right (by omega), List.getElem?_eq_none (by simp; omega)] at h
    cases h

theorem get_left {l : List Ev} {e x : Ev} {i : Nat} (h : l[i]? = some x) : (l ++ [e])[i]? = some x := by
  rw [List.getElem?_append_left]
  · exact h
  · exact (List.getElem?_eq_some_iff.1 h).1

theorem lt_len {l : List Ev} {x : Ev} {i : Nat} (h : l[i]? = some x) : i < l.length := (List.getElem?_eq_some_iff.1 h).1

/-- A step that is no step of a commit of `c`. -/
theorem inv_other {c : Nat} {d : Rows} {l : List Ev} {s t : St} {p q : Nat} {cut : Str → Prop} {e : Ev} (h : Inv c d l s p q cut)
    (h1 : e ≠ .copy c) (h2 : e ≠ .done c) (ht : t.thr c = s.thr c) (hb : Sorted t.batch)
    (hn : ∀ n x, s.db n = some x → Counting c n e → total n s.batch + incrs n [e] < 2 ^ 32 →
      t.db n = some x ∧ total n t.batch = total n s.batch + incrs n [e]) : Inv c d (l ++ [e]) t p q cut := by
  have hpl : p ≤ l.length := Nat.le_trans h.le h.len
  refine ⟨h.le, by simp; have := h.len; omega, ?_, ?_, ?_, by rw [ht]; exact h.idle, ?_, hb, by rw [ht]; exact h.lsorted, h.down, by rw [ht]; exact h.uncut, ?_⟩
  · rcases h.pm with g | g
    · exact .inl g
    · exact .inr (get_left g)
  · rcases h.qm with g | g
    · exact .inl g
    · exact .inr (get_left g)
  · intro i hi
    rcases get_snoc hi with hi | ⟨_, hi⟩
    · exact h.last i hi
    · exact absurd hi h1
  · intro i j hij hi hj
    rcases get_snoc hi with hi | ⟨_, hi⟩
    · rcases get_snoc hj with hj | ⟨_, hj⟩
      · exact h.kept i j hij hi hj
      · exact absurd hj h2
    · exact absurd hi h1
  · intro n x hx hc hlt
    rw [incrs_snoc] at hlt
    have hh := h.holds n x hx (fun e' he' => hc e' (List.mem_append_left _ he')) (by omega)
    have hce := hc e (by simp)
    have tp : (l ++ [e]).take p = l.take p := List.take_append_of_le_length hpl
    have tq : (l ++ [e]).take q = l.take q := List.take_append_of_le_length h.len
    obtain ⟨ha, hcut, hun⟩ := hh
    unfold Holds
    rw [tp, tq, ht, incrs_snoc]
    by_cases hcn : cut n
    · have hd := (hcut hcn).1
      obtain ⟨g1, g2⟩ := hn n _ hd hce (by omega)
      exact ⟨by omega, fun _ => ⟨g1, (hcut hcn).2⟩, fun hno => absurd hcn hno⟩
    · have hd := (hun hcn).1
      obtain ⟨g1, g2⟩ := hn n _ hd hce (by omega)
      exact ⟨by omega, fun hy => absurd hy hcn, fun _ => ⟨g1, (hun hcn).2⟩⟩

theorem sorted_zero {b : Batch} (h : Sorted b) : Sorted (b.map fun e => (e.1, 0)) := List.pairwise_map.2 h

theorem inv_step {c : Nat} {d : Rows} {l : List Ev} {s t : St} {p q : Nat} {cut : Str → Prop} {e : Ev} (h : Inv c d l s p q cut)
    (hs : step s e = some t) : ∃ p' q' cut', Inv c d (l ++ [e]) t p' q' cut' := by
  have hpl : p ≤ l.length := Nat.le_trans h.le h.len
  cases e with
  | createName n =>
    cases hs
    refine ⟨p, q, cut, inv_other h (by simp) (by simp) rfl (sorted_addName n h.sorted) fun m x hm _ _ => ⟨hm, ?_⟩⟩
    simp [total_addName, incrs]
  | createRow n ok =>
    cases ok
    · cases hs
      exact ⟨p, q, cut, inv_other h (by simp) (by simp) rfl h.sorted fun m x hm _ _ => ⟨hm, by simp [incrs]⟩⟩
    · cases hs
      refine ⟨p, q, cut, inv_other h (by simp) (by simp) rfl h.sorted fun m x hm _ _ => ⟨?_, by simp [incrs]⟩⟩
      show (if m = n then some ((s.db m).getD 0) else s.db m) = some x
      split
      · rw [hm]; rfl
      · exact hm
  | incr n =>
    cases hs
    refine ⟨p, q, cut, inv_other h (by simp) (by simp) rfl (sorted_bump n h.sorted) fun m x hm _ hlt => ⟨hm, ?_⟩⟩
    by_cases hnm : n = m
    · subst hnm
      simp only [incrs, List.count_singleton, beq_self_eq_true, if_true] at hlt ⊢
      exact total_bump _ hlt
    · rw [show incrs m [Ev.incr n] = 0 by simp [incrs, hnm]]
      exact total_bump_other hnm _
  | max n v ok =>
    cases ok
    · cases hs
      exact ⟨p, q, cut, inv_other h (by simp) (by simp) rfl h.sorted fun m x hm _ _ => ⟨hm, by simp [incrs]⟩⟩
    · cases hs
      refine ⟨p, q, cut, inv_other h (by simp) (by simp) rfl h.sorted fun m x hm hc _ => ⟨?_, by simp [incrs]⟩⟩
      show (if m = n then (s.db m).map _ else s.db m) = some x
      rw [if_neg (Ne.symm hc)]
      exact hm
  | clear n ok =>
    cases ok
    · cases hs
      exact ⟨p, q, cut, inv_other h (by simp) (by simp) rfl h.sorted fun m x hm _ _ => ⟨hm, by simp [incrs]⟩⟩
    · cases hs
      refine ⟨p, q, cut, inv_other h (by simp) (by simp) rfl h.sorted fun m x hm hc _ => ⟨?_, by simp [incrs]⟩⟩
      show (if m = n then (s.db m).map _ else s.db m) = some x
      rw [if_neg (Ne.symm hc)]
      exact hm
  | clearAll ok =>
    refine ⟨p, q, cut, inv_other h (by simp) (by simp) ?_ ?_ fun m x hm hc _ => hc.elim⟩
    · cases ok <;> cases hs <;> rfl
    · cases ok <;> cases hs <;> exact h.sorted
  | copy t' =>
    simp only [step] at hs
    split at hs
    · rename_i hidle
      cases hs
      by_cases htc : t' = c
      · subst htc
        have hpq : p = q := h.idle hidle
        subst hpq
        refine ⟨p, l.length, fun _ => False, ⟨hpl, by simp, ?_, .inr (by simp), ?_, by simp, ?_, sorted_zero h.sorted, ?_, fun _ _ _ hf => hf, fun _ _ hf => hf, ?_⟩⟩
        · rcases h.pm with g | g
          · exact .inl g
          · exact .inr (get_left g)
        · intro i hi
          have := lt_len hi
          simp at this
          omega
        · intro i j hij hi hj
          have hj' := lt_len hj
          simp at hj'
          rcases get_snoc hi with hi | ⟨hi, _⟩
          · exact h.last i hi
          · omega
        · simp only [if_true, Option.getD_some]
          exact List.Pairwise.filter _ h.sorted
        · intro n x hx hc hlt
          have hin : incrs n [Ev.copy t'] = 0 := by simp [incrs]
          rw [incrs_snoc, hin] at hlt
          obtain ⟨ha, hcut, hun⟩ := h.holds n x hx (fun e' he' => hc e' (List.mem_append_left _ he')) (by omega)
          have hdb : s.db n = some (x + incrs n (l.take p)) := by
            by_cases hcn : cut n
            · exact (hcut hcn).1
            · exact (hun hcn).1
          have tp : (l ++ [Ev.copy t']).take p = l.take p := List.take_append_of_le_length hpl
          have tq : (l ++ [Ev.copy t']).take l.length = l := by simp
          unfold Holds
          rw [tp, tq, incrs_snoc, hin]
          refine ⟨by rw [total_zero]; omega, fun hf => hf.elim, fun _ => ⟨hdb, ?_⟩⟩
          simp only [leftOf, if_true, Option.getD_some, total_positive]
          omega
      · refine ⟨p, q, cut, inv_other h (by simpa using htc) (by simp) (by simp [Ne.symm htc]) (sorted_zero h.sorted) fun m x hm hc _ => absurd hc htc⟩
    · cases hs
  | write t' ok =>
    simp only [step] at hs
    split at hs
    · rename_i m k r hthr
      cases hs
      by_cases htc : t' = c
      · subst htc
        have hls := h.lsorted
        rw [hthr, Option.getD_some] at hls
        have hls' := List.pairwise_cons.1 hls
        have hmc : ¬ cut m := h.uncut (m, k) (by rw [hthr]; exact List.mem_cons_self ..)
        refine ⟨p, q, fun n => cut n ∨ ¬ m < n, ⟨h.le, by simp; have := h.len; omega, ?_, ?_, ?_, by simp, ?_, h.sorted, ?_, ?_, ?_, ?_⟩⟩
        · rcases h.pm with g | g
          · exact .inl g
          · exact .inr (get_left g)
        · rcases h.qm with g | g
          · exact .inl g
          · exact .inr (get_left g)
        · intro i hi
          rcases get_snoc hi with hi | ⟨_, hi⟩
          · exact h.last i hi
          · cases hi
        · intro i j hij hi hj
          rcases get_snoc hi with hi | ⟨_, hi⟩
          · rcases get_snoc hj with hj | ⟨_, hj⟩
            · exact h.kept i j hij hi hj
            · cases hj
          · cases hi
        · simp only [if_true, Option.getD_some]
          exact hls'.2
        · intro a b hab hb
          rcases hb with hb | hb
          · exact .inl (h.down a b hab hb)
          · exact .inr fun hma => hb (List.lt_trans hma hab)
        · simp only [if_true, Option.getD_some]
          intro e he hcut
          rcases hcut with hcut | hcut
          · exact h.uncut e (by rw [hthr]; exact List.mem_cons_of_mem _ he) hcut
          · exact hcut (hls'.1 e he)
        · intro n x hx hc hlt
          have hin : incrs n [Ev.write t' ok] = 0 := by simp [incrs]
          have hok : ok = true := (hc (.write t' ok) (by simp)).2
          subst hok
          rw [incrs_snoc, hin] at hlt
          obtain ⟨ha, hcut, hun⟩ := h.holds n x hx (fun e' he' => hc e' (List.mem_append_left _ he')) (by omega)
          have tp : (l ++ [Ev.write t' true]).take p = l.take p := List.take_append_of_le_length hpl
          have tq : (l ++ [Ev.write t' true]).take q = l.take q := List.take_append_of_le_length h.len
          have hleft : leftOf (s.thr t') n = (if m = n then k else 0) + total n r := by rw [hthr]; simp only [leftOf, Option.getD_some, total_cons]
          unfold Holds
          rw [tp, tq, incrs_snoc, hin]
          refine ⟨ha, ?_⟩
          have hl2 : leftOf ((fun x => if x = t' then some r else s.thr x) t') n = total n r := by simp [leftOf]
          simp only [if_true] at hl2 ⊢
          rw [hl2]
          by_cases hmn : m = n
          · subst hmn
            obtain ⟨g1, g2⟩ := hun hmc
            rw [if_pos rfl] at hleft
            have hr0 : total m r = 0 := total_head hls'.1
            refine ⟨fun _ => ⟨?_, hr0⟩, fun hno => absurd (.inr (List.lt_irrefl m)) hno⟩
            simp only [update, if_true, g1, Option.map_some, Option.some.injEq]
            omega
          · rw [if_neg hmn, Nat.zero_add] at hleft
            have hdb : update s.db m (fun x => x + (k : Int)) n = s.db n := by simp [update, Ne.symm hmn]
            rw [hdb, ← hleft]
            refine ⟨fun hy => ?_, fun hno => hun fun hy => hno (.inl hy)⟩
            by_cases hcn : cut n
            · exact hcut hcn
            · have hnm : n < m := by
                rcases hy with hy | hy
                · exact absurd hy hcn
                · exact lt_of_ne hy (Ne.symm hmn)
              obtain ⟨g1, g2⟩ := hun hcn
              have : total n r = 0 := total_head fun x hx => List.lt_trans hnm (hls'.1 x hx)
              have h0 : leftOf (s.thr t') n = 0 := by rw [hleft]; exact this
              refine ⟨?_, h0⟩
              rw [g1, ← g2, h0]; rfl
      · refine ⟨p, q, cut, inv_other h (by simp) (by simp) (by simp [Ne.symm htc]) h.sorted fun m x hm hc _ => absurd hc.1 htc⟩
    · cases hs
  | done t' =>
    simp only [step] at hs
    split at hs
    · rename_i hthr
      cases hs
      by_cases htc : t' = c
      · subst htc
        refine ⟨q, q, cut, ⟨Nat.le_refl _, by simp; have := h.len; omega, ?_, ?_, ?_, fun _ => rfl, ?_, h.sorted, ?_, h.down, by simp, ?_⟩⟩
        · rcases h.qm with g | g
          · exact .inl g
          · exact .inr (get_left g)
        · rcases h.qm with g | g
          · exact .inl g
          · exact .inr (get_left g)
        · intro i hi
          rcases get_snoc hi with hi | ⟨_, hi⟩
          · exact h.last i hi
          · cases hi
        · intro i j hij hi hj
          rcases get_snoc hi with hi | ⟨_, hi⟩
          · exact h.last i hi
          · cases hi
        · simp [Sorted]
        · intro n x hx hc hlt
          have hin : incrs n [Ev.done t'] = 0 := by simp [incrs]
          rw [incrs_snoc, hin] at hlt
          obtain ⟨ha, hcut, hun⟩ := h.holds n x hx (fun e' he' => hc e' (List.mem_append_left _ he')) (by omega)
          have tq : (l ++ [Ev.done t']).take q = l.take q := List.take_append_of_le_length h.len
          have hl0 : leftOf (s.thr t') n = 0 := by rw [hthr]; rfl
          unfold Holds
          rw [tq, incrs_snoc, hin]
          have hdb : s.db n = some (x + incrs n (l.take q)) := by
            by_cases hcn : cut n
            · exact (hcut hcn).1
            · obtain ⟨g1, g2⟩ := hun hcn
              rw [g1, ← g2, hl0]; rfl
          refine ⟨ha, fun _ => ⟨hdb, by simp [leftOf, total]⟩, fun _ => ⟨hdb, by simp [leftOf, total]⟩⟩
      · refine ⟨p, q, cut, inv_other h (by simp) (by simpa using htc) (by simp [Ne.symm htc]) h.sorted fun m x hm hc _ => absurd hc htc⟩
    · cases hs

theorem inv_run (c : Nat) (d : Rows) (s : St) (l : List Ev) (h : run { db := d } l = some s) : ∃ p q cut, Inv c d l s p q cut := by
  induction l using List.reverseRecOn generalizing s with
  | nil =>
    cases h
    refine ⟨0, 0, fun _ => False, ⟨Nat.le_refl _, Nat.zero_le _, .inl rfl, .inl rfl, by simp, fun _ => rfl, by simp, List.Pairwise.nil, List.Pairwise.nil,
      fun _ _ _ hf => hf, fun _ _ hf => hf, fun n x hx _ _ => ?_⟩⟩
    exact ⟨by simp [incrs, total], fun hf => hf.elim, fun _ => ⟨by simp [hx, incrs], by simp [incrs, leftOf, total]⟩⟩
  | append_singleton l e ih =>
    rw [run_append] at h
    cases hu : run { db := d } l with
    | none => rw [hu] at h; cases h
    | some u =>
      rw [hu] at h
      obtain ⟨p, q, cut, hi⟩ := ih u hu
      simp only [Option.bind_some, run] at h
      cases hs : step u e with
      | none => rw [hs] at h; cases h
      | some t =>
        rw [hs] at h
        cases h
        exact inv_step hi hs

/-! ### C146 -/

/-- C146: a process that starts on a file and ends at any point, only one thread of it committing: there are two moments, each the start of the life or of a commit, the later one the start of the last commit and the earlier one not
before the start of any commit that returned, and the names are cut in two so that every counter with a name in the front part has the value of the later moment and every other one that of the earlier moment.  The two moments are the
same when no commit was running at the end.  (Counters: rows of which nothing but fewer than 2^32 increments and successful commits change the value.) -/
theorem C146_life (c : Nat) (d : Rows) (l : List Ev) (s : St) (h : run { db := d } l = some s) :
    ∃ p q : Nat, p ≤ q ∧ q ≤ l.length ∧ (p = 0 ∨ l[p]? = some (.copy c)) ∧ (q = 0 ∨ l[q]? = some (.copy c)) ∧ (∀ i : Nat, l[i]? = some (Ev.copy c) → i ≤ q) ∧
      (∀ i j : Nat, i < j → l[i]? = some (Ev.copy c) → l[j]? = some (Ev.done c) → i ≤ p) ∧ (s.thr c = none → p = q) ∧
      ∃ front : Str → Prop, (∀ a b, a < b → front b → front a) ∧
        ∀ n x, d n = some x → (∀ e ∈ l, Counting c n e) → incrs n l < 2 ^ 32 →
          (front n → s.db n = some (x + incrs n (l.take q))) ∧ (¬ front n → s.db n = some (x + incrs n (l.take p))) := by
  obtain ⟨p, q, cut, hi⟩ := inv_run c d s l h
  refine ⟨p, q, hi.le, hi.len, hi.pm, hi.qm, hi.last, hi.kept, hi.idle, cut, hi.down, fun n x hx hc hlt => ?_⟩
  obtain ⟨_, h1, h2⟩ := hi.holds n x hx hc hlt
  exact ⟨fun hn => (h1 hn).1, fun hn => (h2 hn).1⟩

/-- A moment of a life that stored values may belong to: none of the commits that returned began later. -/
def Moment (c : Nat) (l : List Ev) (k : Nat) : Prop := k ≤ l.length ∧ ∀ i j : Nat, i < j → l[i]? = some (Ev.copy c) → l[j]? = some (Ev.done c) → i ≤ k

/-- C146, any number of lives, each ending at any point: the value of a counter is what it was at first and what was counted up to some moment of each life, no commit that returned having begun after it. -/
theorem C146_lives (c : Nat) (n : Str) (ls : List (List Ev)) (d d' : Rows) (x : Int) (h : lives d ls = some d') (hx : d n = some x)
    (hc : ∀ l ∈ ls, ∀ e ∈ l, Counting c n e) (hlt : ∀ l ∈ ls, incrs n l < 2 ^ 32) :
    ∃ ks : List Nat, List.Forall₂ (Moment c) ls ks ∧ d' n = some (x + (List.zipWith (fun l k => incrs n (l.take k)) ls ks).sum) := by
  induction ls generalizing d x with
  | nil => cases h; exact ⟨[], .nil, by simp [hx]⟩
  | cons l ls ih =>
    simp only [lives, life] at h
    cases hr : run { db := d } l with
    | none => rw [hr] at h; cases h
    | some s =>
      rw [hr] at h
      simp only [Option.map_some, Option.bind_some] at h
      obtain ⟨p, q, hpq, hq, _, _, hlast, hkept, _, front, _, hv⟩ := C146_life c d l s hr
      obtain ⟨h1, h2⟩ := hv n x hx (hc l (by simp)) (hlt l (by simp))
      have key : ∃ k, Moment c l k ∧ s.db n = some (x + incrs n (l.take k)) := by
        by_cases hf : front n
        · exact ⟨q, ⟨hq, fun i j hij hi hj => hlast i hi⟩, h1 hf⟩
        · exact ⟨p, ⟨Nat.le_trans hpq hq, hkept⟩, h2 hf⟩
      obtain ⟨k, hk, hdb⟩ := key
      obtain ⟨ks, hks, hd⟩ := ih s.db _ h hdb (fun l' hl' => hc l' (List.mem_cons_of_mem _ hl')) (fun l' hl' => hlt l' (List.mem_cons_of_mem _ hl'))
      refine ⟨k :: ks, .cons hk hks, ?_⟩
      rw [hd]
      simp only [List.zipWith_cons_cons, List.sum_cons, Option.some.injEq]
      push_cast
      omega

/-- The maxima reported for `n`. -/
def maxima (n : Str) : List Ev → List Nat
  | [] => []
  | .max m v true :: r => if m = n then v :: maxima n r else maxima n r
  | _ :: r => maxima n r

theorem max_run (n : Str) (l : List Ev) (s s' : St) (x : Int) (h : run s l = some s') (hx : s.db n = some x) (hb : total n s.batch = 0) (hthr : ∀ t, leftOf (s.thr t) n = 0)
    (hc : ∀ e ∈ l, e ≠ .incr n ∧ (∀ ok, e ≠ .clear n ok) ∧ ∀ ok, e ≠ .clearAll ok) :
    s'.db n = some ((maxima n l).foldl (fun (a : Int) (v : Nat) => Max.max a (v : Int)) x) := by
  induction l generalizing s x with
  | nil => cases h; simpa [maxima] using hx
  | cons e l ih =>
    simp only [run] at h
    have hce := hc e (by simp)
    have hcl : ∀ e ∈ l, e ≠ .incr n ∧ (∀ ok, e ≠ .clear n ok) ∧ ∀ ok, e ≠ .clearAll ok := fun e' he' => hc e' (List.mem_cons_of_mem _ he')
    cases hs : step s e with
    | none => rw [hs] at h; cases h
    | some t =>
      rw [hs] at h
      simp only [Option.bind_some] at h
      cases e with
      | createName m =>
        cases hs
        exact ih _ x h hx (by simpa [total_addName] using hb) hthr hcl
      | createRow m ok =>
        cases ok
        · cases hs
          exact ih _ x h hx hb hthr hcl
        · cases hs
          refine ih _ x h ?_ hb hthr hcl
          show (if n = m then some ((s.db n).getD 0) else s.db n) = some x
          split
          · rw [hx]; rfl
          · exact hx
      | incr m =>
        cases hs
        have hmn : m ≠ n := fun he => hce.1 (by rw [he])
        exact ih _ x h hx (by simpa [total_bump_other hmn] using hb) hthr hcl
      | max m v ok =>
        cases ok
        · cases hs
          simpa [maxima] using ih _ x h hx hb hthr hcl
        · cases hs
          by_cases hmn : m = n
          · subst hmn
            simp only [maxima, if_true, List.foldl_cons]
            refine ih _ _ h ?_ hb hthr hcl
            show (if m = m then (s.db m).map _ else s.db m) = _
            rw [if_pos rfl, hx]; rfl
          · simp only [maxima, hmn, if_false]
            refine ih _ x h ?_ hb hthr hcl
            show (if n = m then (s.db n).map _ else s.db n) = _
            rw [if_neg (Ne.symm hmn)]; exact hx
      | clear m ok =>
        have hmn : m ≠ n := fun he => hce.2.1 ok (by rw [he])
        cases ok
        · cases hs
          exact ih _ x h hx hb hthr hcl
        · cases hs
          refine ih _ x h ?_ hb hthr hcl
          show (if n = m then (s.db n).map _ else s.db n) = _
          rw [if_neg (Ne.symm hmn)]; exact hx
      | clearAll ok => exact absurd rfl (hce.2.2 ok)
      | copy t' =>
        simp only [step] at hs
        split at hs
        · cases hs
          refine ih _ x h hx (total_zero ..) (fun t2 => ?_) hcl
          by_cases ht : t2 = t'
          · simpa [leftOf, ht, total_positive] using hb
          · simpa [ht] using hthr t2
        · cases hs
      | write t' ok =>
        simp only [step] at hs
        split at hs
        · rename_i m k r hl
          cases hs
          have h0 := hthr t'
          rw [hl] at h0
          simp only [leftOf, Option.getD_some, total_cons] at h0
          refine ih _ x h ?_ hb (fun t2 => ?_) hcl
          · cases ok
            · exact hx
            · simp only [if_true, update]
              by_cases hmn : m = n
              · subst hmn
                rw [if_pos rfl] at h0
                have : k = 0 := by omega
                simp [hx, this]
              · rw [if_neg (Ne.symm hmn)]; exact hx
          · by_cases ht : t2 = t'
            · simp only [ht, if_true, leftOf, Option.getD_some]; omega
            · simpa [ht] using hthr t2
        · cases hs
      | done t' =>
        simp only [step] at hs
        split at hs
        · cases hs
          refine ih _ x h hx hb (fun t2 => ?_) hcl
          by_cases ht : t2 = t'
          · simp [leftOf, ht, total]
          · simpa [ht] using hthr t2
        · cases hs

/-- C146, maxima: they are written at once, so no end of a process loses one: for any number of threads and lives, a value that is never incremented nor cleared is the largest of the first value and everything reported
successfully. -/
theorem C146_max (n : Str) (ls : List (List Ev)) (d d' : Rows) (x : Int) (h : lives d ls = some d') (hx : d n = some x)
    (hc : ∀ l ∈ ls, ∀ e ∈ l, e ≠ .incr n ∧ (∀ ok, e ≠ .clear n ok) ∧ ∀ ok, e ≠ .clearAll ok) :
    d' n = some ((ls.flatMap (maxima n)).foldl (fun (a : Int) (v : Nat) => Max.max a (v : Int)) x) := by
  induction ls generalizing d x with
  | nil => cases h; simpa using hx
  | cons l ls ih =>
    simp only [lives, life] at h
    cases hr : run { db := d } l with
    | none => rw [hr] at h; cases h
    | some s =>
      rw [hr] at h
      simp only [Option.map_some, Option.bind_some] at h
      have := max_run n l _ s x hr hx rfl (fun _ => rfl) (hc l (by simp))
      rw [List.flatMap_cons, List.foldl_append]
      exact ih s.db _ h this fun l' hl' => hc l' (List.mem_cons_of_mem _ hl')

/-- The steps of calling `create` for each of the names, as `create(baseName,minIndex,maxIndex)` does (`Reporting.cpp:134-143`). -/
def creates (names : List Str) : List Ev := names.flatMap fun n => [.createName n, .createRow n true]

theorem creates_run (l : List Ev) (hl : ∀ e ∈ l, ∃ n, e = .createName n ∨ e = .createRow n true) (s : St) :
    ∃ s', run s l = some s' ∧ ∀ n, s'.db n = if Ev.createRow n true ∈ l then some ((s.db n).getD 0) else s.db n := by
  induction l generalizing s with
  | nil => exact ⟨s, rfl, by simp⟩
  | cons e l ih =>
    have hl' : ∀ e ∈ l, ∃ n, e = .createName n ∨ e = .createRow n true := fun e' he' => hl e' (List.mem_cons_of_mem _ he')
    obtain ⟨m, he | he⟩ := hl e (by simp)
    · subst he
      obtain ⟨s', h1, h2⟩ := ih hl' { s with batch := addName m s.batch }
      refine ⟨s', h1, fun n => ?_⟩
      rw [h2 n]
      simp
    · subst he
      obtain ⟨s', h1, h2⟩ := ih hl' { s with db := fun x => if x = m then some ((s.db x).getD 0) else s.db x }
      refine ⟨s', h1, fun n => ?_⟩
      rw [h2 n]
      by_cases hn : n = m
      · subst hn; simp
      · simp [hn]

/-- C146, creation: a process that ends in the middle of creating parameters leaves those of a front part of the list, in the order of creation; a process that then creates them again completes the table and keeps every value. -/
theorem C146_create (names : List Str) (d : Rows) (k : Nat) :
    ∃ d', life d ((creates names).take k) = some d' ∧
      (∃ j, ∀ n, d' n = if n ∈ names.take j then some ((d n).getD 0) else d n) ∧
      ∃ d'', life d' (creates names) = some d'' ∧ ∀ n, d'' n = if n ∈ names then some ((d n).getD 0) else d n := by
  have hall : ∀ ns : List Str, ∀ e ∈ creates ns, ∃ n, e = Ev.createName n ∨ e = .createRow n true := by
    intro ns e he
    simp only [creates, List.mem_flatMap] at he
    obtain ⟨n, _, he⟩ := he
    exact ⟨n, by simpa using he⟩
  have hmem : ∀ (ns : List Str) n, Ev.createRow n true ∈ creates ns ↔ n ∈ ns := by intro ns n; simp [creates]
  have htake : ∀ (ns : List Str) (k : Nat) n, Ev.createRow n true ∈ (creates ns).take k ↔ n ∈ ns.take (k / 2) := by
    intro ns
    induction ns with
    | nil => intro k n; simp [creates]
    | cons m ns ih =>
      intro k n
      match k with
      | 0 => simp
      | 1 => simp [creates]
      | k + 2 =>
        rw [show (k + 2) / 2 = k / 2 + 1 by omega]
        have := ih k n
        simp only [creates, List.flatMap_cons, List.cons_append, List.nil_append, List.take_succ_cons, List.mem_cons] at this ⊢
        rw [this]
        simp
  obtain ⟨s1, h1, h2⟩ := creates_run ((creates names).take k) (fun e he => hall names e (List.mem_of_mem_take he)) { db := d }
  obtain ⟨s2, h3, h4⟩ := creates_run (creates names) (hall names) { db := s1.db }
  refine ⟨s1.db, by simp [life, h1], ⟨k / 2, fun n => ?_⟩, s2.db, by simp [life, h3], fun n => ?_⟩
  · rw [h2 n]
    simp only [htake]
  · rw [h4 n]
    simp only [h2 n, hmem, htake]
    by_cases hn : n ∈ names
    · by_cases hk : n ∈ names.take (k / 2) <;> simp [hn, hk]
    · have hk : n ∉ names.take (k / 2) := fun hk => hn (List.mem_of_mem_take hk)
      simp [hn, hk]

/-- Two counters, each in the table with 0: attempts and successes. -/
def fresh : Rows := fun n => if n = lit "call.try" ∨ n = lit "call.ok" then some 0 else none

/-- C146 refuted for increments that returned: a process ends before the next commit, and the file has none of them. -/
theorem C146_acknowledged_refuted (k : Nat) : ∃ d', life fresh (List.replicate k (.incr (lit "call.try"))) = some d' ∧ d' (lit "call.try") = some 0 ∧
    incrs (lit "call.try") (List.replicate k (.incr (lit "call.try"))) = k := by
  have : ∀ k s, ∃ s', run s (List.replicate k (.incr (lit "call.try"))) = some s' ∧ s'.db = s.db := by
    intro k
    induction k with
    | zero => intro s; exact ⟨s, rfl, rfl⟩
    | succ k ih => intro s; obtain ⟨s', h1, h2⟩ := ih { s with batch := bump (lit "call.try") s.batch }; exact ⟨s', h1, h2⟩
  obtain ⟨s', h1, h2⟩ := this k { db := fresh }
  exact ⟨s'.db, by simp [life, h1], by rw [h2]; rfl, by simp [incrs]⟩

/-- An attempt and its success, and a commit that the end of the process interrupts after the first of its two statements. -/
def torn : List Ev := [.incr (lit "call.try"), .incr (lit "call.ok"), .copy 0, .write 0 true]

/-- C146 refuted for several counters together: at every moment there were at least as many attempts as successes; the file, and every later process, has a success without an attempt: the values belong to no moment. -/
theorem C146_torn_refuted : ∃ d', life fresh torn = some d' ∧ (∀ k, incrs (lit "call.ok") (torn.take k) ≤ incrs (lit "call.try") (torn.take k)) ∧
    d' (lit "call.ok") = some 1 ∧ d' (lit "call.try") = some 0 ∧
    ¬ ∃ k, d' (lit "call.ok") = some (incrs (lit "call.ok") (torn.take k) : Int) ∧ d' (lit "call.try") = some (incrs (lit "call.try") (torn.take k) : Int) := by
  have hle : ∀ k, incrs (lit "call.ok") (torn.take k) ≤ incrs (lit "call.try") (torn.take k) := by
    intro k
    match k with
    | 0 => decide +kernel
    | 1 => decide +kernel
    | 2 => decide +kernel
    | 3 => decide +kernel
    | k + 4 => rw [List.take_of_length_le (by simp [torn])]; decide +kernel
  have h1 : (life fresh torn).map (fun d => (d (lit "call.ok"), d (lit "call.try"))) = some (some 1, some 0) := by decide +kernel
  cases hr : life fresh torn with
  | none => rw [hr] at h1; cases h1
  | some d' =>
    rw [hr] at h1
    simp only [Option.map_some, Option.some.injEq, Prod.mk.injEq] at h1
    refine ⟨d', rfl, hle, h1.1, h1.2, fun ⟨k, g1, g2⟩ => ?_⟩
    rw [h1.1] at g1
    rw [h1.2] at g2
    have := hle k
    simp only [Option.some.injEq] at g1 g2
    omega

/-- C146 refuted when two threads call `commit`: one returned, and an increment made before it began is lost when the process ends, because the other took it and had not written it. -/
theorem C146_callers_refuted : ∃ d', life fresh [.incr (lit "call.try"), .copy 0, .copy 1, .done 1] = some d' ∧ d' (lit "call.try") = some 0 := by
  cases hr : life fresh [.incr (lit "call.try"), .copy 0, .copy 1, .done 1] with
  | none => exact absurd hr (by simp [life, run, step, bump])
  | some d' =>
    have h1 : (life fresh [.incr (lit "call.try"), .copy 0, .copy 1, .done 1]).map (fun d => d (lit "call.try")) = some (some 0) := by decide +kernel
    rw [hr] at h1
    exact ⟨d', rfl, by simpa using h1⟩

/-- A life with a whole commit, an increment after it and an interrupted commit: `C146_life` with the moments 2 and 6. -/
example : (life fresh [.incr (lit "call.try"), .incr (lit "call.ok"), .copy 0, .write 0 true, .write 0 true, .done 0, .incr (lit "call.ok"), .incr (lit "call.try"), .copy 0, .write 0 true]).map
    (fun d => (d (lit "call.ok"), d (lit "call.try"))) = some (some 2, some 1) := by decide +kernel

/-- Two lives, the first ending before its commit, the second after: only the second counts. -/
example : (lives fresh [[.incr (lit "call.try")], [.incr (lit "call.try"), .incr (lit "call.try"), .copy 0, .write 0 true]]).map (fun d => d (lit "call.try")) = some (some 2) := by decide +kernel

/-- Maxima of two lives, the first ending at once. -/
example : (lives fresh [[.max (lit "call.ok") 7 true], [.max (lit "call.ok") 5 true, .copy 0]]).map (fun d => d (lit "call.ok")) = some (some 7) := by decide +kernel

end Verif.Reporting.Crash
