import Verif.Core.Outcome

/-
Property C112: the thread that commits the reports (`Reporting.cpp:41-62,208-218`, `Reporting.h:55,96`).
-/

namespace Verif.Reporting.Committer
open Verif

/-- Where the thread is (`Reporting.cpp:209-218`): before its start, at the assignment, at the test of the loop, in `sleep` until a time, before the copy and in the writing part of `commit`, at its end. -/
inductive Pc
  | unstarted | assign | test | sleep (until_ : Nat) | copy | write | ended
deriving DecidableEq, Repr

/-- The state: the time in seconds, `mReportRunning`, and the increments of one counter of `gReports` by the times when they were made: in the batch, copied by `commit`, and in the database.
`other`: in the batch of another table.  `started`: when the thread was started. -/
structure St where
  now : Nat := 0
  pc : Pc := .unstarted
  running : Bool := false
  batch : List Nat := []
  flight : List Nat := []
  written : List Nat := []
  other : List Nat := []
  started : Nat := 0
deriving DecidableEq, Repr

/-- What happens: the constructor starts the thread, the thread does its next step, time passes, and calls of `incr`, of `incr` of another table, of `reportShutdown`. -/
inductive Ev
  | start | thread | tick | incr | incrOther | shutdown
deriving DecidableEq, Repr

/-- One event.  The thread goes on at once, except in `sleep(10)`, which can end early (signals) but not late; writing succeeds (failures are in C67).
The thread commits `gReports`, whichever table started it (`Reporting.cpp:214`). -/
def step (s : St) : Ev → Option St
  | .start => if s.pc = .unstarted then some { s with pc := .assign, started := s.now } else none
  | .thread =>
    match s.pc with
    | .unstarted => none
    | .assign => some { s with pc := .test, running := true }
    | .test => some { s with pc := if s.running then .sleep (s.now + 10) else .ended }
    | .sleep _ => some { s with pc := .copy }
    | .copy => some { s with pc := .write, flight := s.batch, batch := [] }
    | .write => some { s with pc := .test, written := s.written ++ s.flight, flight := [] }
    | .ended => none
  | .tick =>
    match s.pc with
    | .unstarted => some { s with now := s.now + 1 }
    | .ended => some { s with now := s.now + 1 }
    | .sleep w => if s.now < w then some { s with now := s.now + 1 } else none
    | _ => none
  | .incr => some { s with batch := s.batch ++ [s.now] }
  | .incrOther => some { s with other := s.other ++ [s.now] }
  | .shutdown => some { s with running := false }

/-- An execution. -/
def run (s : St) : List Ev → Option St
  | [] => some s
  | e :: es => (step s e).bind fun t => run t es

/-- The increments of an execution, with their times. -/
def increments (s : St) : List Ev → List Nat
  | [] => []
  | e :: es => (if e = .incr then [s.now] else []) ++ match step s e with
    | some t => increments t es
    | none => []

/-- What the constructor leaves: whether there is a connection, whether the thread was started, and the messages with their priorities. -/
structure Made where
  connected : Bool
  thread : Bool
  messages : List (Int × String)
deriving DecidableEq, Repr

/-- `ReportingTable::ReportingTable` (`Reporting.cpp:41-62`).  `facility`: the value of `mFacility`, to which nothing assigns: 0 in an object of static storage, indeterminate (`none`) in any other; the first statement reads it.
`opened`, `created`, `wal`: whether `sqlite3_open` and the two commands succeed. -/
def construct (facility : Option Int) (opened created wal : Bool) : Outcome Made :=
  match facility with
  | none => .ub
  | some f =>
    -- LOG_INFO is 6, LOG_EMERG is 0
    let m : List (Int × String) := [(6 + f, "opening")]
    if !opened then .ok ⟨false, false, m ++ [(0 + f, "cannot open")]⟩
    else .ok ⟨true, true, m ++ (if created then [] else [(0 + f, "cannot create")]) ++ (if wal then [] else [(0 + f, "cannot enable WAL")])⟩

/-! ### Proof -/

/-- No increment waits for long. -/
def Fresh (s : St) : Prop :=
  match s.pc with
  | .unstarted => s.flight = []
  | .assign => s.now ≤ s.started ∧ s.flight = []
  | .test => (∀ t ∈ s.batch, s.now ≤ max t s.started) ∧ s.flight = []
  | .sleep w => (s.now ≤ w ∧ w ≤ s.now + 10) ∧ (∀ t ∈ s.batch, w ≤ max t s.started + 10) ∧ s.flight = []
  | .copy => (∀ t ∈ s.batch, s.now ≤ max t s.started + 10) ∧ s.flight = []
  | .write => (∀ t ∈ s.flight, s.now ≤ max t s.started + 10) ∧ ∀ t ∈ s.batch, s.now ≤ max t s.started
  | .ended => s.flight = []

theorem fresh_step {s t : St} {e : Ev} (h : Fresh s) (hs : step s e = some t) : Fresh t := by
  obtain ⟨now, pc, running, batch, flight, written, other, started⟩ := s
  unfold Fresh at h
  cases e with
  | start =>
    simp only [step] at hs
    split at hs
    · rename_i hp
      subst hp
      cases hs
      exact ⟨Nat.le_refl _, h⟩
    · cases hs
  | thread =>
    cases pc <;> simp only [step, Option.some.injEq, reduceCtorEq] at hs <;> simp only at h
    · subst hs
      refine ⟨fun t _ => ?_, h.2⟩
      simp only; omega
    · subst hs
      cases running
      · exact h.2
      · refine ⟨by simp only; omega, fun t ht => ?_, h.2⟩
        have := h.1 t ht
        simp only; omega
    · rename_i w
      subst hs
      refine ⟨fun t ht => ?_, h.2.2⟩
      have := h.2.1 t ht
      have := h.1
      simp only; omega
    · subst hs
      exact ⟨h.1, by simp⟩
    · subst hs
      exact ⟨h.2, rfl⟩
  | tick =>
    cases pc <;> simp only [step, Option.some.injEq, reduceCtorEq] at hs <;> simp only at h
    · subst hs; exact h
    · rename_i w
      split at hs
      · cases hs
        exact ⟨by simp only; omega, h.2⟩
      · cases hs
    · subst hs; exact h
  | incr =>
    simp only [step, Option.some.injEq] at hs
    subst hs
    have hmem : ∀ (P : Nat → Prop), (∀ t ∈ batch, P t) → P now → ∀ t ∈ batch ++ [now], P t := by
      intro P h1 h2 t ht
      rcases List.mem_append.1 ht with ht | ht
      · exact h1 t ht
      · rw [List.mem_singleton.1 ht]; exact h2
    cases pc <;> simp only at h
    · exact h
    · exact h
    · exact ⟨hmem _ h.1 (by simp only; omega), h.2⟩
    · rename_i w
      exact ⟨h.1, hmem _ h.2.1 (by simp only; omega), h.2.2⟩
    · exact ⟨hmem _ h.1 (by simp only; omega), h.2⟩
    · exact ⟨h.1, hmem _ h.2 (by simp only; omega)⟩
    · exact h
  | incrOther =>
    simp only [step, Option.some.injEq] at hs
    subst hs
    exact h
  | shutdown =>
    simp only [step, Option.some.injEq] at hs
    subst hs
    exact h

theorem run_append {s t : St} {a b : List Ev} (h : run s (a ++ b) = some t) : ∃ u, run s a = some u ∧ run u b = some t := by
  induction a generalizing s with
  | nil => exact ⟨s, rfl, h⟩
  | cons e es ih =>
    simp only [List.cons_append, run, Option.bind_eq_some_iff] at h ⊢
    obtain ⟨v, h1, h2⟩ := h
    obtain ⟨u, h3, h4⟩ := ih h2
    exact ⟨u, ⟨v, h1, h3⟩, h4⟩

theorem run_inv {P : St → Prop} (hstep : ∀ s t e, P s → step s e = some t → P t) {s t : St} {es : List Ev} (h : P s)
    (hr : run s es = some t) : P t := by
  induction es generalizing s with
  | nil => cases hr; exact h
  | cons e es ih =>
    simp only [run, Option.bind_eq_some_iff] at hr
    obtain ⟨u, h1, h2⟩ := hr
    exact ih (hstep _ _ _ h h1) h2

theorem fresh_run {s : St} {es : List Ev} (h : run {} es = some s) : Fresh s :=
  run_inv (fun _ _ _ => fresh_step) (show Fresh {} from rfl) h

/-- All increments that arrived, in order. -/
def St.all (s : St) : List Nat := s.written ++ s.flight ++ s.batch

theorem all_step {s t : St} {e : Ev} (h : Fresh s) (hs : step s e = some t) :
    t.all = s.all ++ if e = .incr then [s.now] else [] := by
  obtain ⟨now, pc, running, batch, flight, written, other, started⟩ := s
  unfold Fresh at h
  cases e <;> cases pc <;> simp only [step, Option.some.injEq, reduceCtorEq, if_true, if_false] at hs <;> simp only at h
  all_goals first
    | (subst hs; simp [St.all]; done)
    | (subst hs; simp [St.all, h.2]; done)
    | (split at hs
       · cases hs; simp [St.all]
       · cases hs)

theorem all_run {s t : St} {es : List Ev} (h : Fresh s) (hr : run s es = some t) : t.all = s.all ++ increments s es := by
  induction es generalizing s with
  | nil => cases hr; simp [increments]
  | cons e es ih =>
    simp only [run, Option.bind_eq_some_iff] at hr
    obtain ⟨u, h1, h2⟩ := hr
    rw [ih (fresh_step h h1) h2, all_step h h1]
    simp only [increments, h1, List.append_assoc]

/-- After a shutdown call that found the thread asleep: what was reported up to then is `l`. -/
def Stopping (l : List Nat) (s : St) : Prop :=
  s.running = false ∧
  match s.pc with
  | .unstarted | .assign => False
  | .test => l <+: s.written
  | .sleep _ => s.flight = [] ∧ l <+: s.written ++ s.batch
  | .copy => s.flight = [] ∧ l <+: s.written ++ s.batch
  | .write => l <+: s.written ++ s.flight
  | .ended => l <+: s.written

theorem stopping_step {l : List Nat} (s t : St) (e : Ev) (h : Stopping l s) (hs : step s e = some t) : Stopping l t := by
  obtain ⟨now, pc, running, batch, flight, written, other, started⟩ := s
  obtain ⟨hr, h⟩ := h
  simp only at hr
  subst hr
  have hp : l <+: written ++ batch → l <+: written ++ (batch ++ [now]) := fun h => by
    rw [← List.append_assoc]; exact h.trans (List.prefix_append _ _)
  cases e <;> cases pc <;> simp only [step, Option.some.injEq, reduceCtorEq, if_true, if_false] at hs <;> simp only at h
  all_goals first
    | exact absurd h id
    | (subst hs; exact ⟨rfl, h⟩)
    | (subst hs; exact ⟨rfl, h.1, hp h.2⟩)
    | (subst hs; exact ⟨rfl, h.2⟩)
    | (split at hs
       · cases hs; exact ⟨rfl, h⟩
       · cases hs)

/-- After a shutdown call at time `t₀`. -/
def Ending (t₀ : Nat) (s : St) : Prop :=
  s.running = false ∧
  match s.pc with
  | .unstarted | .assign => False
  | .sleep w => s.now ≤ w ∧ w ≤ t₀ + 10
  | .test | .copy | .write => s.now ≤ t₀ + 10
  | .ended => True

theorem ending_step {t₀ : Nat} (s t : St) (e : Ev) (h : Ending t₀ s) (hs : step s e = some t) : Ending t₀ t := by
  obtain ⟨now, pc, running, batch, flight, written, other, started⟩ := s
  obtain ⟨hr, h⟩ := h
  simp only at hr
  subst hr
  cases e <;> cases pc <;> simp only [step, Option.some.injEq, reduceCtorEq, if_true, if_false] at hs <;> simp only at h
  all_goals first
    | exact absurd h id
    | (subst hs; exact ⟨rfl, h⟩)
    | (subst hs; exact ⟨rfl, trivial⟩)
    | (subst hs; exact ⟨rfl, by simp only; omega⟩)
    | (split at hs
       · cases hs; exact ⟨rfl, by simp only; omega⟩
       · cases hs)

/-! ### Property -/

/-- **C112 (nothing is lost or doubled).**  In every execution the increments made so far are, in order, those in the database, those that a commit is writing, and those in the batch. -/
theorem C112_conserved (es : List Ev) (s : St) (h : run {} es = some s) :
    s.written ++ s.flight ++ s.batch = increments {} es := by
  have := all_run (show Fresh {} from rfl) h
  simpa [St.all] using this

/-- **C112 (at most ten seconds).**  While the thread is alive, an increment that is not yet in the database was made at most ten seconds ago, or the thread was started at most ten seconds ago. -/
theorem C112_delay (es : List Ev) (s : St) (h : run {} es = some s) (ha : s.pc ≠ .unstarted ∧ s.pc ≠ .ended) (t : Nat)
    (ht : t ∈ s.flight ++ s.batch) : s.now ≤ t + 10 ∨ s.now ≤ s.started + 10 := by
  have hf := fresh_run h
  obtain ⟨now, pc, running, batch, flight, written, other, started⟩ := s
  unfold Fresh at hf
  simp only at ha ht ⊢
  cases pc <;> simp only at hf
  · exact absurd rfl ha.1
  · right; omega
  · rw [hf.2, List.nil_append] at ht
    have := hf.1 t ht
    omega
  · rw [hf.2.2, List.nil_append] at ht
    have := hf.2.1 t ht
    omega
  · rw [hf.2, List.nil_append] at ht
    have := hf.1 t ht
    omega
  · rcases List.mem_append.1 ht with ht | ht
    · have := hf.1 t ht
      omega
    · have := hf.2 t ht
      omega
  · exact absurd rfl ha.2

/-- **C112 (the thread ends).**  When `reportShutdown` is called after the thread has begun to run, the thread has ended when more than ten seconds have passed. -/
theorem C112_ends (es fs : List Ev) (s t : St) (h : run {} es = some s) (hb : s.pc ≠ .unstarted ∧ s.pc ≠ .assign)
    (h2 : run s (.shutdown :: fs) = some t) (ht : s.now + 10 < t.now) : t.pc = .ended := by
  have hf := fresh_run h
  simp only [run, step, Option.bind_some] at h2
  have h0 : Ending s.now { s with running := false } := by
    refine ⟨rfl, ?_⟩
    unfold Fresh at hf
    simp only
    split at hf <;> rename_i hp <;> simp only [hp]
    · exact absurd hp hb.1
    · exact absurd hp hb.2
    all_goals omega
  have := (run_inv (ending_step) h0 h2).2
  split at this
  · exact absurd this id
  · exact absurd this id
  · omega
  · omega
  · omega
  · omega
  · assumption

/-- **C112 (partial: what was reported before the shutdown is stored).**  When `reportShutdown` is called while the thread sleeps, all increments made before the call are in the database when the thread has ended.
Missing: calls while the thread is in `commit` (`C112_commit_refuted`) or has not begun (`C112_early_refuted`); increments after the call. -/
theorem C112_stored_partial (es fs : List Ev) (s t : St) (w : Nat) (h : run {} es = some s) (hw : s.pc = .sleep w)
    (h2 : run s (.shutdown :: fs) = some t) (ht : t.pc = .ended) : increments {} es <+: t.written := by
  have hf := fresh_run h
  have hc := C112_conserved es s h
  simp only [run, step, Option.bind_some] at h2
  have h0 : Stopping (increments {} es) { s with running := false } := by
    refine ⟨rfl, ?_⟩
    unfold Fresh at hf
    rw [hw] at hf
    simp only [hw]
    refine ⟨hf.2.2, ?_⟩
    rw [← hc, hf.2.2, List.append_nil]
    exact List.prefix_refl _
  have := (run_inv (stopping_step) h0 h2).2
  rw [ht] at this
  exact this

/-- **C112 (refuted: what was reported before the shutdown is stored).**  An increment, and then the shutdown, while the thread is writing: the thread ends after this commit, and the increment stays in the batch for ever. -/
theorem C112_commit_refuted : ∃ es s, run {} (es ++ [.incr, .shutdown, .thread, .thread]) = some s ∧ s.pc = .ended ∧ s.written = [] ∧ s.batch = [10] ∧
    ∀ fs t, run s fs = some t → t.written = [] := by
  refine ⟨[.start, .thread, .thread] ++ List.replicate 10 .tick ++ [.thread, .thread],
    { now := 10, pc := .ended, running := false, batch := [10], started := 0 }, by decide +kernel, rfl, rfl, rfl, fun fs t h => ?_⟩
  refine (run_inv (P := fun s => s.pc = .ended ∧ s.written = []) ?_ ⟨rfl, rfl⟩ h).2
  rintro ⟨now, pc, running, batch, flight, written, other, started⟩ u e ⟨h1, h2⟩ hs
  simp only at h1 h2
  subst h1 h2
  cases e <;> simp only [step, Option.some.injEq, reduceCtorEq, if_false] at hs <;> subst hs <;> exact ⟨rfl, rfl⟩

/-- **C112 (refuted: a shutdown ends the thread).**  The thread itself sets `mReportRunning`: a shutdown between the start of the thread and its first step is forgotten, and without another call the thread never ends. -/
theorem C112_early_refuted : ∃ s, run {} [.start, .shutdown] = some s ∧
    ∀ fs t, .shutdown ∉ fs → run s fs = some t → t.pc ≠ .ended := by
  refine ⟨_, rfl, fun fs t hn h => ?_⟩
  have key : ∀ (fs : List Ev) (s t : St), .shutdown ∉ fs → (s.pc = .assign ∨ (s.running = true ∧ s.pc ≠ .ended ∧ s.pc ≠ .unstarted)) → run s fs = some t → t.pc ≠ .ended := by
    intro fs
    induction fs with
    | nil =>
      intro s t _ h h2
      cases h2
      rcases h with h | h
      · rw [h]; decide
      · exact h.2.1
    | cons e es ih =>
      intro s t hn h hr
      simp only [List.mem_cons, not_or] at hn
      simp only [run, Option.bind_eq_some_iff] at hr
      obtain ⟨u, h1, h2⟩ := hr
      refine ih u t hn.2 ?_ h2
      obtain ⟨now, pc, running, batch, flight, written, other, started⟩ := s
      simp only at h
      cases e with
      | shutdown => exact absurd rfl hn.1
      | start =>
        simp only [step] at h1
        split at h1
        · rename_i hp; rcases h with h | h
          · rw [h] at hp; cases hp
          · exact absurd hp h.2.2
        · cases h1
      | thread =>
        cases pc <;> simp only [step, Option.some.injEq, reduceCtorEq] at h1 <;> subst h1 <;> right
        · exact ⟨rfl, by simp, by simp⟩
        all_goals
          rcases h with h | h
          · cases h
          · refine ⟨h.1, ?_, ?_⟩ <;> simp [h.1]
      | tick =>
        cases pc <;> simp only [step, Option.some.injEq, reduceCtorEq] at h1
        · subst h1; exact h
        · split at h1
          · cases h1; exact h
          · cases h1
        · subst h1; exact h
      | incr => simp only [step, Option.some.injEq] at h1; subst h1; exact h
      | incrOther => simp only [step, Option.some.injEq] at h1; subst h1; exact h
  exact key fs _ t hn (Or.inl rfl) h

/-- **C112 (refuted: each table is committed).**  The thread that the constructor of a table starts commits `gReports`: the increments of any other table stay in its batch in every execution. -/
theorem C112_other_refuted (es : List Ev) (s : St) (h : run {} es = some s) : s.other.length = es.count .incrOther := by
  have key : ∀ (es : List Ev) (s t : St), run s es = some t → t.other.length = s.other.length + es.count .incrOther := by
    intro es
    induction es with
    | nil => intro s t h; cases h; simp
    | cons e es ih =>
      intro s t h
      simp only [run, Option.bind_eq_some_iff] at h
      obtain ⟨u, h1, h2⟩ := h
      rw [ih u t h2]
      obtain ⟨now, pc, running, batch, flight, written, other, started⟩ := s
      cases e with
      | incrOther => simp only [step, Option.some.injEq] at h1; subst h1; simp; omega
      | start =>
        simp only [step] at h1
        split at h1
        · cases h1; simp
        · cases h1
      | thread => cases pc <;> simp only [step, Option.some.injEq, reduceCtorEq] at h1 <;> subst h1 <;> simp
      | tick =>
        cases pc <;> simp only [step, Option.some.injEq, reduceCtorEq] at h1
        · subst h1; simp
        · split at h1
          · cases h1; simp
          · cases h1
        · subst h1; simp
      | incr => simp only [step, Option.some.injEq] at h1; subst h1; simp
      | shutdown => simp only [step, Option.some.injEq] at h1; subst h1; simp
  simpa using key es {} s h

/-- **C112 (constructor).**  A table in static storage starts the thread exactly when the database could be opened, also when the table could not be created; each failure is logged as an emergency of the facility 0. -/
theorem C112_construct (opened created wal : Bool) : ∃ m, construct (some 0) opened created wal = .ok m ∧
    m.thread = opened ∧ m.connected = opened ∧
    ((0, "cannot open") ∈ m.messages ↔ opened = false) ∧
    ((0, "cannot create") ∈ m.messages ↔ opened = true ∧ created = false) ∧
    ((0, "cannot enable WAL") ∈ m.messages ↔ opened = true ∧ wal = false) := by
  cases opened <;> cases created <;> cases wal <;> exact ⟨_, rfl, rfl, rfl, by decide, by decide, by decide⟩

/-- A table that is not in static storage: the first statement reads a member that nothing has set. -/
example : construct none true true true = .ub := by decide

/-- Ten seconds after its start the thread commits what was reported after three. -/
example : run {} ([.start, .thread, .thread, .tick, .tick, .tick, .incr] ++ List.replicate 7 .tick ++ [.incrOther, .thread, .thread, .thread]) =
    some { now := 10, pc := .test, running := true, written := [3], other := [10] } := by decide +kernel

/-- After ten seconds of sleep time cannot pass without a commit. -/
example : run {} ([.start, .thread, .thread] ++ List.replicate 11 .tick) = none := by decide +kernel

/-- A shutdown at second four: one more commit, and the thread ends. -/
example : (run {} ([.start, .thread, .thread, .tick, .incr, .tick, .tick, .tick, .shutdown] ++ List.replicate 6 .tick ++ [.thread, .thread, .thread, .thread])).map
    (fun s => (s.pc, s.written, s.now)) = some (.ended, [1], 10) := by decide +kernel

end Verif.Reporting.Committer
