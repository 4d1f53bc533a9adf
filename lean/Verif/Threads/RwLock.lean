import Verif.Core.Outcome

/-
Property C101: the reader/writer lock, `RWLock` (`Threads.h:118-139`, `Threads.cpp:191-206`).

The pthread layer is not part of /repo.  It is modelled as documented: `pthread_rwlock_wrlock` waits until there is no reader and no writer and fails with EDEADLK if the calling thread is the
writer; `pthread_rwlock_rdlock` waits until there is no writer, fails with EDEADLK if the calling thread is the writer and with EAGAIN if there are already `max` readers; the trial
versions fail instead of waiting; unlocking what one does not hold is undefined.  Every call is one step (its effect is atomic); a call that cannot proceed is not a step.
Which of several waiting threads goes on first is left open.
-/

namespace Verif.Threads
open Verif

/-- The methods, `Threads.h:131-137`. -/
inductive RCall
  | wlock | rlock | trywlock | tryrlock | unlock
deriving DecidableEq, Repr

/-- What the caller sees: the empty text of `wlock`, `rlock` and `unlock`, or the truth value. -/
inductive RRes
  | text | bool (b : Bool)
deriving DecidableEq, Repr

/-- The lock: its writer, and its readers (one entry for each acquisition, the last one first). -/
structure Rw where
  writer : Option Nat := none
  readers : List Nat := []
deriving DecidableEq, Repr

/-- The methods (`Threads.h:131-137`) called by thread `t`; `none` means that the call waits.  Error numbers of `pthread_rwlock_wrlock` and `pthread_rwlock_rdlock` are ignored
(`Threads.h:131-132`). -/
def rwStep (max : Nat) (s : Rw) (t : Nat) : RCall → Option (Outcome (Rw × RRes))
  | .wlock =>
    if s.writer = some t then some (.ok (s, .text))
    else if s.writer = none ∧ s.readers = [] then some (.ok ({ s with writer := some t }, .text))
    else none
  | .rlock =>
    if s.writer = some t then some (.ok (s, .text))
    else if s.writer ≠ none then none
    else if max ≤ s.readers.length then some (.ok (s, .text))
    else some (.ok ({ s with readers := t :: s.readers }, .text))
  | .trywlock =>
    if s.writer = none ∧ s.readers = [] then some (.ok ({ s with writer := some t }, .bool true))
    else some (.ok (s, .bool false))
  | .tryrlock =>
    if s.writer = none ∧ s.readers.length < max then some (.ok ({ s with readers := t :: s.readers }, .bool true))
    else some (.ok (s, .bool false))
  | .unlock =>
    if s.writer = some t then some (.ok ({ s with writer := none }, .text))
    else if t ∈ s.readers then some (.ok ({ s with readers := s.readers.erase t }, .text))
    else some .ub

/-- A call that has returned: thread, method, result. -/
abbrev RwEv := Nat × RCall × RRes

/-- Executions of any number of threads; the last call comes first. -/
inductive RwRun (max : Nat) : List RwEv → Rw → Prop
  | init : RwRun max [] {}
  | step {tr s t c s' r} : RwRun max tr s → rwStep max s t c = some (.ok (s', r)) → RwRun max ((t, c, r) :: tr) s'

/-! ### Specification: what the callers may believe -/

/-- The sections a program has entered and not left: thread, and whether it is a writing section.  Every return of `wlock` or `rlock`, and every trial that says true, enters one; `unlock`
leaves the section the thread entered last. -/
def openSections : List RwEv → List (Nat × Bool)
  | [] => []
  | (t, .wlock, _) :: tr => (t, true) :: openSections tr
  | (t, .rlock, _) :: tr => (t, false) :: openSections tr
  | (t, .trywlock, r) :: tr => if r = .bool true then (t, true) :: openSections tr else openSections tr
  | (t, .tryrlock, r) :: tr => if r = .bool true then (t, false) :: openSections tr else openSections tr
  | (t, .unlock, _) :: tr => (openSections tr).eraseP (fun e => e.1 = t)

/-- A call is orderly if it does not lock inside a writing section of the same thread, does not unlock outside of every section, and does not add a section to `max` open ones. -/
def OrderlyCall (max : Nat) (o : List (Nat × Bool)) (t : Nat) (c : RCall) : Prop :=
  ((c = .wlock ∨ c = .rlock) → (t, true) ∉ o) ∧ (c = .rlock → o.length < max) ∧ (c = .unlock → ∃ w, (t, w) ∈ o)

/-- All calls were orderly. -/
def RwOrderly (max : Nat) : List RwEv → Prop
  | [] => True
  | (t, c, _) :: tr => OrderlyCall max (openSections tr) t c ∧ RwOrderly max tr

/-- The state of the lock says what the sections say. -/
def RwInv (s : Rw) (o : List (Nat × Bool)) : Prop :=
  (∃ t, o = [(t, true)] ∧ s.writer = some t ∧ s.readers = []) ∨ ((∀ e ∈ o, e.2 = false) ∧ s.writer = none ∧ s.readers = o.map Prod.fst)

theorem erase_map (t : Nat) : ∀ o : List (Nat × Bool), (o.map Prod.fst).erase t = (o.eraseP fun e => e.1 = t).map Prod.fst
  | [] => rfl
  | e :: o => by
    by_cases h : e.1 = t
    · simp [h]
    · simp [h, erase_map t o]

/-- One orderly call keeps the invariant. -/
theorem rw_step {max : Nat} {s : Rw} {o : List (Nat × Bool)} (hi : RwInv s o) {t : Nat} {c : RCall} (ho : OrderlyCall max o t c) {tr : List RwEv} (hv : openSections tr = o)
    {s' : Rw} {r : RRes} (h : rwStep max s t c = some (.ok (s', r))) : RwInv s' (openSections ((t, c, r) :: tr)) := by
  obtain ⟨h1, h2, h3⟩ := ho
  rcases hi with ⟨u, rfl, hw, hr⟩ | ⟨hf, hw, hr⟩
  · cases c
    · have hut : u ≠ t := fun e => h1 (Or.inl rfl) (by simp [e])
      simp [rwStep, hw, hut] at h
    · have hut : u ≠ t := fun e => h1 (Or.inr rfl) (by simp [e])
      simp [rwStep, hw, hut] at h
    · simp [rwStep, hw] at h
      obtain ⟨rfl, rfl⟩ := h
      exact Or.inl ⟨u, by simp [openSections, hv], hw, hr⟩
    · simp [rwStep, hw] at h
      obtain ⟨rfl, rfl⟩ := h
      exact Or.inl ⟨u, by simp [openSections, hv], hw, hr⟩
    · obtain ⟨w, hm⟩ := h3 rfl
      simp at hm
      obtain ⟨rfl, -⟩ := hm
      simp [rwStep, hw] at h
      obtain ⟨rfl, rfl⟩ := h
      refine Or.inr ?_
      simp [openSections, hv, hr]
  · cases c
    · by_cases he : o = []
      · subst he
        simp [rwStep, hw, hr] at h
        obtain ⟨rfl, rfl⟩ := h
        exact Or.inl ⟨t, by simp [openSections, hv], rfl, rfl⟩
      · simp [rwStep, hw, hr, he] at h
    · have := h2 rfl
      have hl : ¬ max ≤ o.length := by omega
      simp [rwStep, hw, hr, hl] at h
      obtain ⟨rfl, rfl⟩ := h
      refine Or.inr ⟨?_, rfl, ?_⟩
      · simpa [openSections, hv] using hf
      · simp [openSections, hv]
    · by_cases he : o = []
      · subst he
        simp [rwStep, hw, hr] at h
        obtain ⟨rfl, rfl⟩ := h
        exact Or.inl ⟨t, by simp [openSections, hv], rfl, rfl⟩
      · simp [rwStep, hw, hr, he] at h
        obtain ⟨rfl, rfl⟩ := h
        refine Or.inr ⟨?_, hw, ?_⟩
        · simpa [openSections, hv] using hf
        · simp [openSections, hv, hr]
    · by_cases hl : o.length < max
      · simp [rwStep, hw, hr, hl] at h
        obtain ⟨rfl, rfl⟩ := h
        refine Or.inr ⟨?_, rfl, ?_⟩
        · simpa [openSections, hv] using hf
        · simp [openSections, hv]
      · simp [rwStep, hw, hr, hl] at h
        obtain ⟨rfl, rfl⟩ := h
        refine Or.inr ⟨?_, hw, ?_⟩
        · simpa [openSections, hv] using hf
        · simp [openSections, hv, hr]
    · obtain ⟨w, hm⟩ := h3 rfl
      have hmem : t ∈ s.readers := by rw [hr]; exact List.mem_map.2 ⟨_, hm, rfl⟩
      simp only [rwStep, hw] at h
      rw [if_neg (by simp), if_pos hmem] at h
      simp only [Option.some.injEq, Outcome.ok.injEq, Prod.mk.injEq] at h
      obtain ⟨rfl, rfl⟩ := h
      refine Or.inr ⟨?_, rfl, ?_⟩
      · intro e he
        simp only [openSections, hv] at he
        exact hf e (List.mem_of_mem_eraseP he)
      · simp only [openSections, hv, hr]
        exact erase_map t o

theorem rw_inv {max : Nat} {tr : List RwEv} {s : Rw} (h : RwRun max tr s) (ho : RwOrderly max tr) : RwInv s (openSections tr) := by
  induction h with
  | init => exact Or.inr ⟨by simp [openSections], rfl, rfl⟩
  | step hr hs ih => exact rw_step (ih ho.2) ho.1 rfl hs

/-- C101 (exclusion): in any execution of any number of threads whose calls are orderly, while a thread is in a writing section no other thread is in any section, and it has no other
itself.  Not covered: calls that are not orderly, refuted below. -/
theorem C101_exclusion_partial {max : Nat} {tr : List RwEv} {s : Rw} (h : RwRun max tr s) (ho : RwOrderly max tr) (t : Nat) (ht : (t, true) ∈ openSections tr) :
    openSections tr = [(t, true)] := by
  rcases rw_inv h ho with ⟨u, hu, -, -⟩ | ⟨hf, -, -⟩
  · rw [hu] at ht ⊢
    simp at ht
    rw [ht]
  · simpa using hf _ ht

example : ∃ s, RwRun 10 [(1, .wlock, .text), (0, .unlock, .text), (2, .unlock, .text), (1, .trywlock, .bool false), (2, .tryrlock, .bool true), (0, .rlock, .text)] s ∧
    RwOrderly 10 [(1, .wlock, .text), (0, .unlock, .text), (2, .unlock, .text), (1, .trywlock, .bool false), (2, .tryrlock, .bool true), (0, .rlock, .text)] ∧ s.writer = some 1 := by
  refine ⟨_, .step (.step (.step (.step (.step (.step .init rfl) rfl) rfl) rfl) rfl) rfl, ?_, rfl⟩
  simp [RwOrderly, OrderlyCall, openSections]

/-- C101 (progress and trials): after any orderly execution, `wlock` by a thread outside of writing sections proceeds exactly when no section is open, `rlock` exactly when no writing section
is open; the trials say true in exactly these cases and never wait; `unlock` in a section succeeds.  (The last clause: no more than `max` open sections.) -/
theorem C101_progress_partial {max : Nat} {tr : List RwEv} {s : Rw} (h : RwRun max tr s) (ho : RwOrderly max tr) (t : Nat) (hm : (openSections tr).length < max) :
    ((t, true) ∉ openSections tr → ((∃ x, rwStep max s t .wlock = some x) ↔ openSections tr = [])) ∧
      ((t, true) ∉ openSections tr → ((∃ x, rwStep max s t .rlock = some x) ↔ ∀ u, (u, true) ∉ openSections tr)) ∧
      (∃ s', rwStep max s t .trywlock = some (.ok (s', .bool (decide (openSections tr = []))))) ∧
      (∃ s', rwStep max s t .tryrlock = some (.ok (s', .bool (decide (∀ e ∈ openSections tr, e.2 = false))))) ∧
      ((∃ w, (t, w) ∈ openSections tr) → ∃ s', rwStep max s t .unlock = some (.ok (s', .text))) := by
  rcases rw_inv h ho with ⟨u, hu, hw, hr⟩ | ⟨hf, hw, hr⟩
  · rw [hu]
    refine ⟨?_, ?_, ?_, ?_, ?_⟩
    · intro hn
      have : u ≠ t := fun e => hn (by simp [e])
      simp [rwStep, hw, this]
    · intro hn
      have : u ≠ t := fun e => hn (by simp [e])
      simp [rwStep, hw, this]
    · simp [rwStep, hw]
    · simp [rwStep, hw]
    · rintro ⟨w, hw2⟩
      simp at hw2
      simp [rwStep, hw, hw2.1]
  · generalize openSections tr = o at *
    have hnt : ∀ u, (u, true) ∉ o := fun u hu => by simpa using hf _ hu
    refine ⟨?_, ?_, ?_, ?_, ?_⟩
    · intro _
      by_cases he : o = []
      · simp [rwStep, hw, hr, he]
      · simp [rwStep, hw, hr, he]
    · intro _
      have hl : ¬ max ≤ o.length := by omega
      simp [rwStep, hw, hr, hl, hnt]
    · by_cases he : o = []
      · simp [rwStep, hw, hr, he]
      · simp [rwStep, hw, hr, he]
    · have : decide (∀ e ∈ o, e.2 = false) = true := decide_eq_true hf
      rw [this]
      simp [rwStep, hw, hr, hm]
    · rintro ⟨w, hw2⟩
      have hmem : t ∈ s.readers := by rw [hr]; exact List.mem_map.2 ⟨_, hw2, rfl⟩
      exact ⟨_, by simp only [rwStep, hw]; rw [if_neg (by simp), if_pos hmem]⟩

/-- C101 (upgrade): a reader that asks for the writing section waits as long as it stays a reader, whatever the others do: it waits for itself for ever. -/
theorem C101_upgrade_waits {max : Nat} {tr : List RwEv} {s : Rw} (h : RwRun max tr s) (ho : RwOrderly max tr) (t : Nat) (ht : (t, false) ∈ openSections tr) :
    rwStep max s t .wlock = none := by
  rcases rw_inv h ho with ⟨u, hu, -, -⟩ | ⟨hf, hw, hr⟩
  · rw [hu] at ht
    simp at ht
  · have : s.readers ≠ [] := by
      rw [hr]
      intro he
      rw [List.map_eq_nil_iff.1 he] at ht
      simp at ht
    simp [rwStep, hw, this]

example : RwRun 10 [(0, .rlock, .text)] ⟨none, [0]⟩ ∧ rwStep 10 ⟨none, [0]⟩ 0 .wlock = none := ⟨.step .init rfl, rfl⟩

/-- C101 is refuted for nested writing: the second `wlock` fails with an error that is ignored, so that the inner `unlock` ends the outer section, and another writer comes in. -/
theorem C101_nested_refuted (max : Nat) : ∃ tr s, RwRun max tr s ∧ openSections tr = [(1, true), (0, true)] :=
  ⟨[(1, .wlock, .text), (0, .unlock, .text), (0, .wlock, .text), (0, .wlock, .text)], _, .step (.step (.step (.step .init rfl) rfl) rfl) rfl, rfl⟩

/-- C101 is refuted for reading inside writing: the `unlock` of the reading section ends the writing section. -/
theorem C101_read_in_write_refuted (max : Nat) : ∃ tr s, RwRun max tr s ∧ openSections tr = [(1, true), (0, true)] :=
  ⟨[(1, .wlock, .text), (0, .unlock, .text), (0, .rlock, .text), (0, .wlock, .text)], _, .step (.step (.step (.step .init rfl) rfl) rfl) rfl, rfl⟩

/-- C101 is refuted for too many readers: beyond the limit `rlock` returns without the lock, and a writer comes in beside a reader. -/
theorem C101_readers_refuted (max : Nat) : ∃ tr s, RwRun max tr s ∧ (1, true) ∈ openSections tr ∧ (0, false) ∈ openSections tr := by
  have h1 : ∀ k, k ≤ max → RwRun max (List.replicate k (0, .rlock, .text)) ⟨none, List.replicate k 0⟩ := by
    intro k
    induction k with
    | zero => intro _; exact .init
    | succ k ih =>
      intro hk
      rw [List.replicate_succ, List.replicate_succ]
      refine .step (ih (by omega)) ?_
      have : ¬ max ≤ k := by omega
      simp [rwStep, this]
  have h2 : RwRun max (List.replicate (max + 1) (0, .rlock, .text)) ⟨none, List.replicate max 0⟩ := by
    rw [List.replicate_succ]
    exact .step (h1 max (Nat.le_refl _)) (by simp [rwStep])
  have h3 : ∀ j, j ≤ max → RwRun max (List.replicate j (0, .unlock, .text) ++ List.replicate (max + 1) (0, .rlock, .text)) ⟨none, List.replicate (max - j) 0⟩ := by
    intro j
    induction j with
    | zero => intro _; simpa using h2
    | succ j ih =>
      intro hj
      rw [List.replicate_succ, List.cons_append]
      refine .step (ih (by omega)) ?_
      have : max - j = (max - (j + 1)) + 1 := by omega
      rw [this, List.replicate_succ]
      simp [rwStep]
  have o1 : ∀ k, openSections (List.replicate k (0, .rlock, .text)) = List.replicate k (0, false) := by
    intro k
    induction k with
    | zero => rfl
    | succ k ih => rw [List.replicate_succ, List.replicate_succ, openSections, ih]
  have o2 : ∀ j, j ≤ max → openSections (List.replicate j (0, .unlock, .text) ++ List.replicate (max + 1) (0, .rlock, .text)) = List.replicate (max + 1 - j) (0, false) := by
    intro j
    induction j with
    | zero => intro _; simpa using o1 (max + 1)
    | succ j ih =>
      intro hj
      rw [List.replicate_succ, List.cons_append, openSections, ih (by omega)]
      have : max + 1 - j = (max + 1 - (j + 1)) + 1 := by omega
      rw [this, List.replicate_succ]
      simp
  refine ⟨(1, .wlock, .text) :: (List.replicate max (0, .unlock, .text) ++ List.replicate (max + 1) (0, .rlock, .text)), ⟨some 1, []⟩, .step (h3 max (Nat.le_refl _)) (by simp [rwStep]), ?_, ?_⟩
  · simp [openSections]
  · rw [openSections, o2 max (Nat.le_refl _), show max + 1 - max = 1 by omega]
    simp

end Verif.Threads
