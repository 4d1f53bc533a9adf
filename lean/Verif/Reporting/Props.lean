import Verif.Reporting.Model
import Verif.Core.NumberLemmas

/-
C67, C68, C80: the reporting table.
-/

namespace Verif.Reporting

/-! ### C67 -/

/-- The counts of `n` in a batch. -/
def total (n : Str) (b : Batch) : Nat := ((b.filter fun e => decide (e.1 = n)).map (·.2)).sum

/-- Counted but not yet in the database. -/
def pending (s : State) (n : Str) : Nat := total n s.batch + total n s.flight

theorem total_append (n : Str) (a b : Batch) : total n (a ++ b) = total n a + total n b := by simp [total]

theorem total_cons (n : Str) (e : Str × Nat) (b : Batch) : total n (e :: b) = (if e.1 = n then e.2 else 0) + total n b := by
  unfold total
  rw [List.filter_cons]
  by_cases h : e.1 = n <;> simp [h]

theorem total_addName (n m : Str) (b : Batch) : total n (addName b m) = total n b := by
  unfold addName
  split
  · rfl
  · rw [total_append, total_cons]; simp [total]

theorem total_bump_other {n m : Str} (h : m ≠ n) : ∀ b : Batch, total n (bump m b) = total n b := by
  intro b
  induction b with
  | nil => simp [bump, total, h]
  | cons e b ih =>
    obtain ⟨k, v⟩ := e
    rw [bump]
    split
    · rename_i hk
      rw [total_cons, total_cons, if_neg (by simpa [hk] using h), if_neg (by simpa [hk] using h)]
    · rw [total_cons, total_cons, ih]

theorem total_bump {n : Str} : ∀ b : Batch, total n b + 1 < 2 ^ 32 → total n (bump n b) = total n b + 1 := by
  intro b
  induction b with
  | nil => intro _; simp [bump, total]
  | cons e b ih =>
    obtain ⟨k, v⟩ := e
    intro h
    rw [total_cons] at h
    rw [bump]
    split
    · rename_i hk
      rw [if_pos hk] at h
      rw [total_cons, total_cons, if_pos hk, if_pos hk]
      simp only at h ⊢
      rw [Nat.mod_eq_of_lt (by omega)]
      omega
    · rename_i hk
      rw [if_neg hk] at h
      rw [total_cons, total_cons, if_neg hk, ih (by omega)]
      omega

theorem total_zero (n : Str) (b : Batch) : total n (b.map fun e => (e.1, 0)) = 0 := by
  induction b with
  | nil => rfl
  | cons e b ih => rw [List.map_cons, total_cons, ih]; simp

theorem total_positive (n : Str) (b : Batch) : total n (b.filter fun e => decide (e.2 > 0)) = total n b := by
  induction b with
  | nil => rfl
  | cons e b ih =>
    rw [List.filter_cons]
    by_cases h : e.2 > 0
    · simp only [h, decide_true, if_true]
      rw [total_cons, total_cons, ih]
    · simp only [h, decide_false, Bool.false_eq_true, if_false]
      rw [total_cons, ih, show e.2 = 0 by omega]
      simp

theorem total_eraseIdx (n : Str) : ∀ (b : Batch) (i : Nat) (e : Str × Nat), b[i]? = some e → total n b = (if e.1 = n then e.2 else 0) + total n (b.eraseIdx i) := by
  intro b
  induction b with
  | nil => intro i e h; simp at h
  | cons x b ih =>
    intro i e h
    cases i with
    | zero =>
      simp only [List.getElem?_cons_zero, Option.some.injEq] at h
      subst h
      rw [total_cons, List.eraseIdx_cons_zero]
    | succ i =>
      rw [List.getElem?_cons_succ] at h
      rw [total_cons, List.eraseIdx_cons_succ, total_cons, ih i e h]
      omega

/-- An event that neither changes the meaning of counter `n` (`max`, `clear`) nor is a failed write. -/
def Counting (n : Str) : Ev → Bool
  | .max m _ _ => decide (m ≠ n)
  | .clear m _ => decide (m ≠ n)
  | .clearAll _ => false
  | .write _ ok => ok
  | _ => true

/-- How often `n` was incremented. -/
def incrs (n : Str) : List Ev → Nat
  | [] => 0
  | .incr m :: r => (if m = n then 1 else 0) + incrs n r
  | _ :: r => incrs n r

theorem incrs_cons (n : Str) (e : Ev) (es : List Ev) : incrs n (e :: es) = incrs n [e] + incrs n es := by
  cases e <;> simp [incrs]

theorem step_counts (n : Str) (s : State) (e : Ev) (v : Int) (hv : s.db n = some v) (he : Counting n e = true) (hw : pending s n + incrs n [e] < 2 ^ 32) :
    ∃ v', (step s e).db n = some v' ∧ v ≤ v' ∧ v' + pending (step s e) n = v + pending s n + incrs n [e] := by
  unfold pending at *
  cases e with
  | createName m => exact ⟨v, hv, Int.le_refl _, by simp only [step, total_addName, incrs]; omega⟩
  | createRow m ok =>
    cases ok
    · exact ⟨v, hv, Int.le_refl _, by simp [step, incrs]⟩
    · refine ⟨v, ?_, Int.le_refl _, by simp [step, incrs]⟩
      simp only [step, if_true]
      split
      · rw [hv]; rfl
      · exact hv
  | incr m =>
    refine ⟨v, hv, Int.le_refl _, ?_⟩
    simp only [step, incrs] at hw ⊢
    by_cases h : m = n
    · subst h
      rw [if_pos rfl] at hw
      rw [total_bump _ (by omega)]
      simp; omega
    · rw [total_bump_other h, if_neg h]
      simp
  | max m x ok =>
    have hm : m ≠ n := by simpa [Counting] using he
    cases ok
    · exact ⟨v, hv, Int.le_refl _, by simp [step, incrs]⟩
    · refine ⟨v, ?_, Int.le_refl _, by simp [step, incrs]⟩
      simp only [step, if_true, update]
      rw [if_neg (Ne.symm hm)]
      exact hv
  | clear m ok =>
    have hm : m ≠ n := by simpa [Counting] using he
    cases ok
    · exact ⟨v, hv, Int.le_refl _, by simp [step, incrs]⟩
    · refine ⟨v, ?_, Int.le_refl _, by simp [step, incrs]⟩
      simp only [step, if_true, update]
      rw [if_neg (Ne.symm hm)]
      exact hv
  | clearAll ok => simp [Counting] at he
  | take =>
    refine ⟨v, hv, Int.le_refl _, ?_⟩
    simp only [step, incrs]
    rw [total_zero, total_append, total_positive]
    omega
  | write i ok =>
    have hok : ok = true := by simpa [Counting] using he
    subst hok
    simp only [step, incrs]
    cases hf : s.flight[i]? with
    | none => exact ⟨v, hv, Int.le_refl _, by simp⟩
    | some e =>
      obtain ⟨m, c⟩ := e
      have ht := total_eraseIdx n s.flight i (m, c) hf
      simp only at ht ⊢
      by_cases h : m = n
      · subst h
        rw [if_pos rfl] at ht
        refine ⟨v + c, by simp [update, hv], by omega, by omega⟩
      · rw [if_neg h] at ht
        refine ⟨v, by simp [update, Ne.symm h, hv], Int.le_refl _, by omega⟩

/-- C67 (partial: missing are clearing and failing writes, see C67_clear_refuted and C67_failure_refuted, and 2^32 or more increments, see C67_wrap_refuted): for a counter with a row in the database and every
interleaving of the parts of all calls, nothing is lost: database value plus pending counts grow exactly by the number of increments. -/
theorem C67_counts_partial (n : Str) : ∀ (es : List Ev) (s : State) (v : Int), s.db n = some v → (∀ e ∈ es, Counting n e = true) → pending s n + incrs n es < 2 ^ 32 →
    ∃ v', (run s es).db n = some v' ∧ v ≤ v' ∧ v' + pending (run s es) n = v + pending s n + incrs n es := by
  intro es
  induction es with
  | nil => exact fun s v hv _ _ => ⟨v, hv, Int.le_refl _, by simp [run, incrs]⟩
  | cons e es ih =>
    intro s v hv he hw
    rw [incrs_cons] at hw ⊢
    obtain ⟨v1, h1, h2, h3⟩ := step_counts n s e v hv (he e (by simp)) (by omega)
    obtain ⟨v2, h4, h5, h6⟩ := ih (step s e) v1 h1 (fun x hx => he x (by simp [hx])) (by omega)
    exact ⟨v2, h4, by omega, by simp only [run, List.foldl_cons] at h6 ⊢; omega⟩

theorem writes_all (n : Str) : ∀ (k : Nat) (s : State) (v : Int), s.flight.length = k → s.db n = some v →
    (run s (List.replicate k (.write 0 true))).db n = some (v + total n s.flight) ∧ (run s (List.replicate k (.write 0 true))).flight = [] ∧
    (run s (List.replicate k (.write 0 true))).batch = s.batch := by
  intro k
  induction k with
  | zero =>
    intro s v hk hv
    have := List.length_eq_zero_iff.1 hk
    simp [run, this, total, hv]
  | succ k ih =>
    intro s v hk hv
    rw [List.replicate_succ, run, List.foldl_cons]
    cases hf : s.flight with
    | nil => rw [hf] at hk; simp at hk
    | cons e r =>
      obtain ⟨m, c⟩ := e
      have hs : step s (.write 0 true) = { s with flight := r, db := update s.db m (· + (c : Int)) } := by simp [step, hf]
      have hr : r.length = k := by rw [hf] at hk; simpa using hk
      rw [hs, total_cons]
      by_cases h : m = n
      · subst h
        obtain ⟨a, b, d⟩ := ih { s with flight := r, db := update s.db m (· + (c : Int)) } (v + c) hr (by simp [update, hv])
        refine ⟨a.trans ?_, b, d⟩
        simp only [if_true, Option.some.injEq]
        omega
      · obtain ⟨a, b, d⟩ := ih { s with flight := r, db := update s.db m (· + (c : Int)) } v hr (by simp [update, Ne.symm h, hv])
        refine ⟨a.trans ?_, b, d⟩
        simp only [if_neg h, Option.some.injEq]
        omega

/-- C67: an undisturbed commit with a working database writes everything that was pending. -/
theorem C67_commit (s : State) (n : Str) (v : Int) (hv : s.db n = some v) : (commit s true).db n = some (v + pending s n) ∧ pending (commit s true) n = 0 := by
  unfold commit
  obtain ⟨a, b, d⟩ := writes_all n _ (step s .take) v rfl hv
  rw [a]
  refine ⟨?_, ?_⟩
  · simp only [step, pending, Option.some.injEq]
    rw [total_append, total_positive]
    omega
  · unfold pending
    rw [b, d]
    simp only [step]
    rw [total_zero]
    rfl

/-- C67: a parameter that is only maximised and cleared has the maximum of the values since the last clear (`w` is the value before). -/
theorem C67_max (n : Str) (vs : List Nat) (s : State) (w : Int) (h : s.db n = some w) : (run s (vs.map fun v => .max n v true)).db n = some (vs.foldl (fun (a : Int) (v : Nat) => max a (v : Int)) w) := by
  induction vs generalizing s w with
  | nil => exact h
  | cons v vs ih => exact ih (step s (.max n v true)) _ (by simp [step, update, h])

/-- C67: a successful `clear` forgets exactly what is stored: whatever happened before, and whatever interleaving of the parts of all calls follows (without another clear or a failing write),
the stored and pending counts are those pending at the clear and the increments since.  In particular, after a commit just before, and a commit at the end, the stored value is the number of
increments since the clear. -/
theorem C67_clear (n : Str) (old new : List Ev) (v : Int) (hv : (run {} old).db n = some v) (hn : ∀ e ∈ new, Counting n e = true) (hw : pending (run {} old) n + incrs n new < 2 ^ 32) :
    (∃ v', (run {} (old ++ .clear n true :: new)).db n = some v' ∧ 0 ≤ v' ∧ v' + pending (run {} (old ++ .clear n true :: new)) n = pending (run {} old) n + incrs n new) ∧
    (incrs n new < 2 ^ 32 → (commit (run (step (commit (run {} old) true) (.clear n true)) new) true).db n = some (incrs n new : Int)) := by
  have h0 : ∀ (s : State) (v : Int), s.db n = some v → (step s (.clear n true)).db n = some 0 ∧ pending (step s (.clear n true)) n = pending s n := by
    intro s v hv
    simp [step, update, hv, pending]
  constructor
  · obtain ⟨h1, h2⟩ := h0 _ v hv
    obtain ⟨v', h3, h4, h5⟩ := C67_counts_partial n new _ 0 h1 hn (by rw [h2]; exact hw)
    have e : run {} (old ++ .clear n true :: new) = run (step (run {} old) (.clear n true)) new := by simp [run, List.foldl_append]
    rw [e]
    exact ⟨v', h3, h4, by rw [h5, h2]; omega⟩
  · intro hi
    obtain ⟨c1, c2⟩ := C67_commit (run {} old) n v hv
    obtain ⟨h1, h2⟩ := h0 _ _ c1
    obtain ⟨v', h3, h4, h5⟩ := C67_counts_partial n new _ 0 h1 hn (by rw [h2, c2]; omega)
    obtain ⟨c3, c4⟩ := C67_commit _ n v' h3
    rw [c3]
    congr 1
    rw [h5, h2, c2]
    omega

/-- C67: two increments before the clear, one of them written, and one after. -/
example : let s := run {} [.createName (lit "a"), .createRow (lit "a") true, .incr (lit "a"), .take, .write 0 true, .incr (lit "a"), .clear (lit "a") true, .incr (lit "a")]
    s.db (lit "a") = some 0 ∧ pending s (lit "a") = 2 := by decide

/-- C67: clearing one parameter leaves the stored values of the others; clearing all sets every row to 0 and makes none; nothing pending is lost; a clear that fails changes nothing stored. -/
theorem C67_clear_rows (s : State) (n m : Str) : (m ≠ n → (step s (.clear n true)).db m = s.db m) ∧ ((step s (.clearAll true)).db m = none ↔ s.db m = none) ∧
    (∀ v, (step s (.clearAll true)).db m = some v → v = 0) ∧ pending (step s (.clearAll true)) m = pending s m ∧ (step s (.clear n false)).db m = s.db m ∧ (step s (.clearAll false)).db m = s.db m := by
  refine ⟨fun h => by simp [step, update, h], by simp [step], fun v h => ?_, rfl, rfl, rfl⟩
  simp only [step, if_true, Option.map_eq_some_iff] at h
  obtain ⟨_, _, rfl⟩ := h
  rfl

/-- C67: two counters cleared together, then counted again. -/
example : let s := run {} [.createName (lit "a"), .createRow (lit "a") true, .createName (lit "b"), .createRow (lit "b") true, .max (lit "a") 7 true, .max (lit "b") 8 true, .clearAll true, .max (lit "b") 3 true]
    s.db (lit "a") = some 0 ∧ s.db (lit "b") = some 3 ∧ s.db (lit "c") = none := by decide +kernel

/-- C67 (negation): increments before a clear are counted after it. -/
theorem C67_clear_refuted (n : Str) : (commit (run {} [.createName n, .createRow n true, .incr n, .clear n true]) true).db n = some 1 := by
  have e : (run {} [.createName n, .createRow n true, .incr n, .clear n true] : State).db n = some 0 := by simp [run, step, update]
  rw [(C67_commit _ n 0 e).1]
  simp [run, step, addName, bump, pending, total]

/-- C67 (negation): an increment between `create`'s two steps is lost if a commit comes in between, and so is every increment of a name that was never created. -/
theorem C67_uncreated_refuted (n : Str) : (commit (step {} (.incr n)) true).db n = none ∧ pending (commit (step {} (.incr n)) true) n = 0 := by
  simp [commit, run, step, bump, pending, total, update]

/-- C67 (negation, database not working): when the statement fails, the counts are lost, they do not return to the batch. -/
theorem C67_failure_refuted (n : Str) : let s := commit (run {} [.createName n, .createRow n true, .incr n]) false
    s.db n = some 0 ∧ pending s n = 0 := by
  simp [commit, run, step, addName, bump, pending, total]

theorem bumps (n : Str) (k : Nat) (s : State) (h : s.batch = [(n, 0)]) : (run s (List.replicate k (.incr n))).batch = [(n, k % 2 ^ 32)] := by
  induction k with
  | zero => simpa [run] using h
  | succ k ih =>
    rw [List.replicate_succ', run, List.foldl_append]
    show bump n (run s _).batch = _
    rw [ih]
    simp [bump]

/-- C67 (negation): 2^32 increments between two commits count as none. -/
theorem C67_wrap_refuted (n : Str) : (run {} (.createName n :: .createRow n true :: List.replicate (2 ^ 32) (.incr n))).batch = [(n, 0)] := by
  rw [run, List.foldl_cons, List.foldl_cons]
  have := bumps n (2 ^ 32) (step (step {} (.createName n)) (.createRow n true)) (by simp [step, addName])
  rw [run] at this
  rw [this]
  rfl

/-- C67: a history with two counters, interrupted commits and another counter's maximum. -/
example : let es : List Ev := [.incr (lit "a"), .take, .incr (lit "a"), .max (lit "b") 5 true, .write 0 true, .incr (lit "b"), .take, .write 1 true, .write 0 true]
    let s : State := run {} [.createName (lit "a"), .createRow (lit "a") true]
    (∀ e ∈ es, Counting (lit "a") e = true) ∧ s.db (lit "a") = some 0 ∧ incrs (lit "a") es = 2 ∧ (run s es).db (lit "a") = some 2 := by decide +kernel

/-! ### C68 -/

theorem intText_length_le (t : Int) (h : -(2 ^ 63) ≤ t ∧ t < 2 ^ 63) : (intText t).length ≤ 20 := by
  unfold intText
  split
  · rw [List.length_cons]
    have := (natText_length t.natAbs 19 (by omega)).2 (by omega)
    omega
  · exact (natText_length t.natAbs 20 (by omega)).2 (by omega)

theorem sprintfTo_ok (size : Nat) (t : Str) : sprintfTo size t = .ok t ↔ t.length + 1 ≤ size := by
  unfold sprintfTo
  split
  · rename_i h; simpa using h
  · rename_i h; simpa using h

/-- C68: exactly when the texts fit.  The numbers are what the buffer of 200 bytes leaves for names and numbers. -/
theorem C68_exact (name : Str) (v : Nat) (t : Int) : ((∃ c, createCmd name t = .ok c) ↔ name.length + (intText t).length ≤ 136) ∧
    ((∃ c, maxCmd name v t = .ok c) ↔ name.length + (natText 10 v).length + (intText t).length ≤ 134) ∧
    ((∃ c, clearCmd name t = .ok c) ↔ name.length + (intText t).length ≤ 129) ∧
    ((∃ c, clearAllCmd t = .ok c) ↔ (intText t).length ≤ 143) ∧
    ((∃ c, writeCmd name v t = .ok c) ↔ name.length + (natText 10 v).length + (intText t).length ≤ 139) := by
  have k : ∀ size t, (∃ c, sprintfTo size t = .ok c) ↔ t.length + 1 ≤ size := by
    intro size t
    unfold sprintfTo
    split
    · rename_i h; simpa using h
    · rename_i h; simpa using h
  have l1 : (lit "INSERT OR IGNORE INTO REPORTING (NAME,CLEAREDTIME) VALUES (\"").length = 60 := by decide
  have l2 : (lit "\",").length = 2 := by decide
  have l3 : (lit ")").length = 1 := by decide
  have l4 : (lit "UPDATE REPORTING SET VALUE=MAX(VALUE,").length = 37 := by decide
  have l5 : (lit "), UPDATETIME=").length = 14 := by decide
  have l6 : (lit " WHERE NAME=\"").length = 13 := by decide
  have l7 : (lit "\"").length = 1 := by decide
  have l8 : (lit "UPDATE REPORTING SET VALUE=0, UPDATETIME=0, CLEAREDTIME=").length = 56 := by decide
  have l9 : (lit "UPDATE REPORTING SET VALUE=VALUE+").length = 33 := by decide
  have l10 : (lit ", UPDATETIME=").length = 13 := by decide
  unfold createCmd maxCmd clearCmd clearAllCmd writeCmd
  simp only [k, List.length_append, l1, l2, l3, l4, l5, l6, l7, l8, l9, l10]
  omega

/-- C68 (partial: missing are longer names, see C68_long_name_refuted): for names of at most 104 characters, every 32-bit value and every 64-bit time, no command overruns its buffer. -/
theorem C68_commands_partial (name : Str) (v : Nat) (t : Int) (hn : name.length ≤ 104) (hv : v < 2 ^ 32) (ht : -(2 ^ 63) ≤ t ∧ t < 2 ^ 63) :
    (∃ c, createCmd name t = .ok c) ∧ (∃ c, maxCmd name v t = .ok c) ∧ (∃ c, clearCmd name t = .ok c) ∧ (∃ c, clearAllCmd t = .ok c) ∧ (∃ c, writeCmd name v t = .ok c) := by
  have h1 := intText_length_le t ht
  have h2 := (natText_length v 10 (by omega)).2 (by omega)
  obtain ⟨a, b, c, d, e⟩ := C68_exact name v t
  exact ⟨a.2 (by omega), b.2 (by omega), c.2 (by omega), d.2 (by omega), e.2 (by omega)⟩

/-- C68 (partial: missing are indices of nine or more digits, see C68_index_refuted): indexed names fit exactly for indices below 10^8. -/
theorem C68_index_partial (base : Str) (i : Nat) : (i < 10 ^ 8 ↔ indexedName base i = .ok (base ++ chr '.' :: natText 10 i)) ∧ (10 ^ 8 ≤ i ↔ indexedName base i = .ub) := by
  have h := natText_length i 8 (by omega)
  have e : base ++ lit "." ++ natText 10 i = base ++ chr '.' :: natText 10 i := by simp [lit, chr]
  unfold indexedName
  rw [e]
  unfold sprintfTo
  simp only [List.length_append, List.length_cons]
  split
  · simp; omega
  · simp; omega

/-- C68 (negation): an index of nine digits overruns the buffer, whatever the name. -/
theorem C68_index_refuted (base : Str) : indexedName base 100000000 = .ub := (C68_index_partial base _).2.1 (by omega)

/-- C68 (negation): a name of 137 characters overruns the buffer of every command that contains it, at any time. -/
theorem C68_long_name_refuted (name : Str) (v : Nat) (t : Int) (hn : 137 ≤ name.length) : (¬ ∃ c, createCmd name t = .ok c) ∧ (¬ ∃ c, maxCmd name v t = .ok c) ∧ (¬ ∃ c, clearCmd name t = .ok c) := by
  obtain ⟨a, b, c, -, -⟩ := C68_exact name v t
  rw [a, b, c]
  omega

/-- C68: a usual name, index and time. -/
example : (lit "OpenBTS.GSM.RR.RACH.TA.Accepted").length ≤ 104 ∧ indexedName (lit "OpenBTS.GSM.RR.RACH.TA.Accepted") 63 = .ok (lit "OpenBTS.GSM.RR.RACH.TA.Accepted.63") ∧
    -(2 ^ 63) ≤ (1700000000 : Int) ∧ (1700000000 : Int) < 2 ^ 63 := by decide +kernel

/-! ### C80 -/

theorem createLoop_spec (base : Str) (maxIndex : Nat) (t : Int) (hm : maxIndex < 10 ^ 8) (hb : base.length ≤ 95) (ht : -(2 ^ 63) ≤ t ∧ t < 2 ^ 63) : ∀ (k fuel i : Nat), maxIndex + 1 - i = k → k < fuel →
    createLoop base maxIndex t fuel i = .ok ((List.range' i (maxIndex + 1 - i)).map fun j => base ++ chr '.' :: natText 10 j) := by
  intro k
  induction k with
  | zero =>
    intro fuel i hk hf
    obtain ⟨fuel, rfl⟩ : ∃ f, fuel = f + 1 := ⟨fuel - 1, by omega⟩
    rw [createLoop, if_neg (by omega), hk]
    rfl
  | succ k ih =>
    intro fuel i hk hf
    obtain ⟨fuel, rfl⟩ : ∃ f, fuel = f + 1 := ⟨fuel - 1, by omega⟩
    have hl := (natText_length i 8 (by omega)).2 (by omega)
    obtain ⟨c, hc⟩ := (C68_commands_partial (base ++ chr '.' :: natText 10 i) 0 t (by simp only [List.length_append, List.length_cons]; omega) (by omega) ht).1
    rw [createLoop, if_pos (by omega), (C68_index_partial base i).1.1 (by omega)]
    simp only [Outcome.bind]
    rw [hc, Nat.mod_eq_of_lt (by omega)]
    simp only
    rw [ih fuel (i + 1) (by omega) (by omega), hk, List.range'_succ, show maxIndex + 1 - (i + 1) = k by omega]
    rfl

/-- C80 (partial: missing are indices from 10^8 on, see C80_large_refuted, and longer names): exactly the parameters `base.min` to `base.max` are created, none if `min > max`, and the call returns. -/
theorem C80_range_partial (base : Str) (lo hi : Nat) (t : Int) (hm : hi < 10 ^ 8) (hb : base.length ≤ 95) (ht : -(2 ^ 63) ≤ t ∧ t < 2 ^ 63) :
    createIndexed base lo hi t = .ok ((List.range' lo (hi + 1 - lo)).map fun j => base ++ chr '.' :: natText 10 j) :=
  createLoop_spec base hi t hm hb ht _ _ lo rfl (by omega)

/-- C80 (negation): a range that begins with nine digits overruns the buffer. -/
theorem C80_large_refuted (base : Str) (lo hi : Nat) (t : Int) (h1 : 10 ^ 8 ≤ lo) (h2 : lo ≤ hi) : createIndexed base lo hi t = .ub := by
  unfold createIndexed
  rw [createLoop, if_pos h2, (C68_index_partial base lo).2.1 h1]
  rfl

/-- C80 (negation): with the largest index as upper end the loop never ends by itself: the counter is never greater. -/
theorem C80_endless_refuted (base : Str) (t : Int) (fuel i : Nat) (hi : i < 2 ^ 32) (r : List Str) : createLoop base (2 ^ 32 - 1) t fuel i ≠ .ok r := by
  induction fuel generalizing i r with
  | zero => simp [createLoop]
  | succ fuel ih =>
    rw [createLoop, if_pos (by omega)]
    intro h
    cases h1 : indexedName base i with
    | ok n =>
      rw [h1] at h
      simp only [Outcome.bind] at h
      cases h2 : createCmd n t with
      | ok c =>
        rw [h2] at h
        simp only at h
        cases h3 : createLoop base (2 ^ 32 - 1) t fuel ((i + 1) % 2 ^ 32) with
        | ok r' => exact ih _ (Nat.mod_lt _ (by omega)) r' h3
        | assertFail => rw [h3] at h; cases h
        | ub => rw [h3] at h; cases h
        | diverge => rw [h3] at h; cases h
      | assertFail => rw [h2] at h; cases h
      | ub => rw [h2] at h; cases h
      | diverge => rw [h2] at h; cases h
    | assertFail => rw [h1] at h; cases h
    | ub => rw [h1] at h; cases h
    | diverge => rw [h1] at h; cases h

/-- C80: two counters. -/
example : ((List.range' 9 (10 + 1 - 9)).map fun j => lit "A" ++ chr '.' :: natText 10 j) = [lit "A.9", lit "A.10"] ∧ (lit "A").length ≤ 95 := by decide +kernel

end Verif.Reporting
