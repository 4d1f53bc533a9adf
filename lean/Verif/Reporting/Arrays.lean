import Verif.Reporting.Props

/-
Property C134: arrays of counters, `incr`, `max` and `clear` with an index (`Reporting.cpp:145-166`), on the table of `Reporting/Model.lean`.
-/

namespace Verif.Reporting.Arrays
open Verif Verif.Reporting

/-- Calls with an index, and everything else that happens to the table.  `ok` is what the engine answers. -/
inductive Call
  | incr (base : Str) (index : Nat)
  | max (base : Str) (index : Nat) (v : Nat) (ok : Bool)
  | clear (base : Str) (index : Nat) (ok : Bool)
  | other (e : Ev)

/-- What a call does to the table at time `t`: the name is built, and for `max` and `clear` the command (`Reporting.cpp:145-150, 153-158, 161-166`). -/
def eventOf (t : Int) : Call → Outcome Ev
  | .incr b i => (indexedName b i).bind fun n => .ok (.incr n)
  | .max b i v ok => (indexedName b i).bind fun n => (maxCmd n v t).bind fun _ => .ok (.max n v ok)
  | .clear b i ok => (indexedName b i).bind fun n => (clearCmd n t).bind fun _ => .ok (.clear n ok)
  | .other e => .ok e

/-- Calls one after the other, each at its time. -/
def runCalls (s : State) : List (Int × Call) → Outcome State
  | [] => .ok s
  | (t, c) :: cs => (eventOf t c).bind fun e => runCalls (step s e) cs

/-! ### Specification -/

/-- The name of an element, as users see it. -/
def element (b : Str) (i : Nat) : Str := b ++ chr '.' :: natText 10 i

/-- How often an element was counted by calls with an index. -/
def counted (b : Str) (i : Nat) (cs : List (Int × Call)) : Nat :=
  (cs.filter fun c => match c.2 with | .incr b' i' => b' = b ∧ i' = i | _ => false).length

/-- Sizes for which nothing is overrun, neither now nor when a count is written (C68). -/
def Small : Call → Prop
  | .incr b i => b.length ≤ 95 ∧ i < 10 ^ 8
  | .max b i v _ => b.length ≤ 95 ∧ i < 10 ^ 8 ∧ v < 2 ^ 32
  | .clear b i _ => b.length ≤ 95 ∧ i < 10 ^ 8
  | .other (.incr n) => n.length ≤ 104
  | .other _ => True

/-- The call does not clear or maximize the element, does not use its full name, and no write fails. -/
def Apart (b : Str) (i : Nat) : Call → Prop
  | .incr _ _ => True
  | .max b' i' _ _ => ¬ (b' = b ∧ i' = i)
  | .clear b' i' _ => ¬ (b' = b ∧ i' = i)
  | .other (.incr n) => n ≠ element b i
  | .other (.max n _ _) => n ≠ element b i
  | .other (.clear n _) => n ≠ element b i
  | .other (.clearAll _) => False
  | .other (.write _ ok) => ok = true
  | .other _ => True

/-! ### Proof -/

theorem digits_no_dot (i : Nat) : chr '.' ∉ natText 10 i := by
  intro h
  have := natText_isDig (b := 10) (by omega) (by omega) i _ h
  exact absurd this (by decide)

/-- C134: the names of different elements are different, whatever characters the bases contain: digits follow the last dot. -/
theorem C134_names (b b' : Str) (i i' : Nat) (h : element b i = element b' i') : b = b' ∧ i = i' := by
  have key : ∀ (x y u v : Str), chr '.' ∉ u → chr '.' ∉ v → x ++ chr '.' :: u = y ++ chr '.' :: v → x = y ∧ u = v := by
    intro x
    induction x with
    | nil =>
      intro y u v hu _ h
      cases y with
      | nil => simpa using h
      | cons c y =>
        simp only [List.nil_append, List.cons_append, List.cons.injEq] at h
        exact absurd (by rw [h.2]; simp) hu
    | cons a x ih =>
      intro y u v hu hv h
      cases y with
      | nil =>
        simp only [List.nil_append, List.cons_append, List.cons.injEq] at h
        exact absurd (by rw [← h.2]; simp) hv
      | cons c y =>
        simp only [List.cons_append, List.cons.injEq] at h
        obtain ⟨h1, h2⟩ := ih y u v hu hv h.2
        exact ⟨by rw [h.1, h1], h2⟩
  obtain ⟨h1, h2⟩ := key b b' _ _ (digits_no_dot i) (digits_no_dot i') h
  refine ⟨h1, ?_⟩
  rw [← natText_fold (b := 10) (by omega) (by omega) i, h2, natText_fold (by omega) (by omega)]

example : element (lit "A.1") 2 = lit "A.1.2" ∧ element (lit "A") 12 = lit "A.12" := by decide +kernel

/-- The event of a small call, and that it counts for an element exactly if it names it. -/
theorem event_small (t : Int) (ht : -(2 ^ 63) ≤ t ∧ t < 2 ^ 63) (c : Call) (hs : Small c) (b : Str) (i : Nat) (ha : Apart b i c) :
    ∃ e, eventOf t c = .ok e ∧ Counting (element b i) e = true ∧ incrs (element b i) [e] = counted b i [(t, c)] := by
  have hl : ∀ (b' : Str) i', b'.length ≤ 95 → i' < 10 ^ 8 → (element b' i').length ≤ 104 := by
    intro b' i' h1 h2
    have := (natText_length i' 8 (by omega)).2 h2
    simp only [element, List.length_append, List.length_cons]
    omega
  cases c with
  | incr b' i' =>
    refine ⟨.incr (element b' i'), ?_, rfl, ?_⟩
    · simp only [eventOf]
      rw [(C68_index_partial b' i').1.1 hs.2]
      rfl
    · simp only [incrs, counted]
      by_cases h : b' = b ∧ i' = i
      · obtain ⟨rfl, rfl⟩ := h
        simp
      · have : element b' i' ≠ element b i := fun e => h (C134_names _ _ _ _ e)
        rw [if_neg this]
        simp [h]
  | max b' i' v ok =>
    obtain ⟨h1, h2, h3⟩ := hs
    obtain ⟨c, hc⟩ := (C68_commands_partial (element b' i') v t (hl _ _ h1 h2) h3 ht).2.1
    refine ⟨.max (element b' i') v ok, ?_, ?_, ?_⟩
    · simp only [eventOf]
      rw [(C68_index_partial b' i').1.1 h2]
      show (maxCmd (element b' i') v t).bind _ = _
      rw [hc]
      rfl
    · simp only [Counting, decide_eq_true_eq]
      exact fun e => ha (C134_names _ _ _ _ e)
    · simp [incrs, counted]
  | clear b' i' ok =>
    obtain ⟨h1, h2⟩ := hs
    obtain ⟨c, hc⟩ := (C68_commands_partial (element b' i') 0 t (hl _ _ h1 h2) (by omega) ht).2.2.1
    refine ⟨.clear (element b' i') ok, ?_, ?_, ?_⟩
    · simp only [eventOf]
      rw [(C68_index_partial b' i').1.1 h2]
      show (clearCmd (element b' i') t).bind _ = _
      rw [hc]
      rfl
    · simp only [Counting, decide_eq_true_eq]
      exact fun e => ha (C134_names _ _ _ _ e)
    · simp [incrs, counted]
  | other e =>
    refine ⟨e, rfl, ?_, ?_⟩
    · cases e <;> simp_all [Counting, Apart]
    · cases e <;> simp_all [incrs, counted, Apart]

theorem calls_events (b : Str) (i : Nat) : ∀ (cs : List (Int × Call)), (∀ c ∈ cs, -(2 ^ 63) ≤ c.1 ∧ c.1 < 2 ^ 63 ∧ Small c.2 ∧ Apart b i c.2) → ∀ s,
    ∃ es, runCalls s cs = .ok (run s es) ∧ (∀ e ∈ es, Counting (element b i) e = true) ∧ incrs (element b i) es = counted b i cs := by
  intro cs
  induction cs with
  | nil => exact fun _ s => ⟨[], rfl, by simp, rfl⟩
  | cons c cs ih =>
    intro h s
    obtain ⟨t, c⟩ := c
    obtain ⟨h1, h2, h3, h4⟩ := h (t, c) (by simp)
    obtain ⟨e, e1, e2, e3⟩ := event_small t ⟨h1, h2⟩ c h3 b i h4
    obtain ⟨es, r1, r2, r3⟩ := ih (fun c hc => h c (List.mem_cons_of_mem _ hc)) (step s e)
    refine ⟨e :: es, ?_, ?_, ?_⟩
    · simp only [runCalls]
      rw [e1]
      exact r1
    · intro x hx
      rcases List.mem_cons.1 hx with rfl | hx
      · exact e2
      · exact r2 x hx
    · rw [incrs_cons, e3, r3]
      unfold counted
      rw [← List.length_append, ← List.filter_append]
      rfl

/-- C134 (partial: missing are large indices and long names, C68, failing writes and clears, C67, and calls with the full name, C134_full_name_refuted): whatever calls are made for other elements and other
arrays, and whatever parts of commits come in between, a commit at the end stores for an element its former value, what was pending, and the number of its own increments. -/
theorem C134_counts_partial (b : Str) (i : Nat) (cs : List (Int × Call)) (h : ∀ c ∈ cs, -(2 ^ 63) ≤ c.1 ∧ c.1 < 2 ^ 63 ∧ Small c.2 ∧ Apart b i c.2) (s : State) (v : Int)
    (hv : s.db (element b i) = some v) (hw : pending s (element b i) + counted b i cs < 2 ^ 32) :
    ∃ s', runCalls s cs = .ok s' ∧ (commit s' true).db (element b i) = some (v + pending s (element b i) + counted b i cs) := by
  obtain ⟨es, h1, h2, h3⟩ := calls_events b i cs h s
  rw [← h3] at hw
  obtain ⟨v', h4, -, h5⟩ := C67_counts_partial (element b i) es s v hv h2 hw
  refine ⟨run s es, h1, ?_⟩
  rw [(C67_commit _ _ v' h4).1, h5, h3]

/-- Elements of two arrays whose names look alike, with a commit in between. -/
example : (match runCalls (run {} [.createRow (lit "A.1.2") true, .createRow (lit "A.12") true])
      [(0, .incr (lit "A.1") 2), (0, .incr (lit "A") 12), (0, .other .take), (0, .incr (lit "A.1") 2), (0, .other (.write 1 true)), (0, .incr (lit "A") 1)] with
    | .ok s => ((commit s true).db (lit "A.1.2"), (commit s true).db (lit "A.12")) | _ => (none, none)) = (some 2, some 1) := by decide +kernel

/-- C134 (negation): a call with the full name counts for the element, so a parameter of that name is not apart from the array. -/
theorem C134_full_name_refuted (b : Str) (i : Nat) (hi : i < 10 ^ 8) (t : Int) : eventOf t (.incr b i) = eventOf t (.other (.incr (element b i))) := by
  simp only [eventOf]
  rw [(C68_index_partial b i).1.1 hi]
  rfl

end Verif.Reporting.Arrays
