import Verif.Interthread.Sleep

/-
Property C159: time limits when the clock is set meanwhile (`Interthread.h:269-283`, `Threads.cpp:271-277`).

`Timeval` reads `gettimeofday` and `pthread_cond_timedwait` waits until that clock shows its limit, so both follow the clock of the system when somebody sets it.
-/

namespace Verif.Interthread.ClockSet
open Verif Verif.Monitor Verif.Interthread

/-! ### Model -/

/-- Where the call is: about to look, sleeping until the clock shows `limit` (nanoseconds), or returned at a moment of real time. -/
inductive Ph where
  | awake
  | asleep (limit : Int)
  | back (at' : Int)
  deriving DecidableEq

/-- Real time and the time the clock shows, in microseconds. -/
structure St where
  real : Int
  clock : Int
  ph : Ph
  deriving DecidableEq

/-- `gettimeofday` when the clock shows `c` (`Timeval.h:50-51`). -/
def tv (c : Int) : Clock := ⟨c / 1000000, c % 1000000⟩

/-- One pass of `read(timeout)` on an empty queue (`Interthread.h:269-283`) called when the clock showed `c0`, in `d` microseconds: it returns NULL, goes to sleep, or looks again. -/
def look (ms : Nat) (c0 : Int) (d : Nat) (s : St) : Option St :=
  match readTimed ms ⟨tv c0, tv c0⟩ (tv s.clock) [] with
  | some (.done ..) => some ⟨s.real + d, s.clock + d, .back (s.real + d)⟩
  | some (.wait ..) => match Timeval.remaining (Timeval.future (tv c0) ms) (tv s.clock) with
    | .ok r => some ⟨s.real + d, s.clock + d, .asleep (nanos (waitLimit (tv s.clock) r))⟩
    | _ => none
  | some (.spin ..) => some ⟨s.real + d, s.clock + d, .awake⟩
  | none => none

/-- What can happen.  The thread does each thing within `lam` microseconds; a sleep does not go on when the clock shows the limit; the clock is set by at most `j` microseconds from the difference `off` it
had at first.  No item comes. -/
inductive Step (ms lam j : Nat) (c0 off : Int) : St → St → Prop
  | look {s s' : St} {d : Nat} : s.ph = .awake → d ≤ lam → look ms c0 d s = some s' → Step ms lam j c0 off s s'
  | pass {s : St} {L : Int} {d : Nat} : s.ph = .asleep L → d = 0 ∨ 1000 * (s.clock + d) ≤ L → Step ms lam j c0 off s { s with real := s.real + d, clock := s.clock + d }
  | wake {s : St} {L : Int} {d : Nat} : s.ph = .asleep L → d ≤ lam → Step ms lam j c0 off s ⟨s.real + d, s.clock + d, .awake⟩
  | set {s : St} {c : Int} : off - j ≤ c - s.real → c - s.real ≤ off + j → Step ms lam j c0 off s { s with clock := c }

/-- The call began when real time was `r0` and the clock showed `c0`. -/
inductive Reach (ms lam j : Nat) (r0 c0 : Int) : St → Prop
  | start : Reach ms lam j r0 c0 ⟨r0, c0, .awake⟩
  | step {s s'} : Reach ms lam j r0 c0 s → Step ms lam j c0 (c0 - r0) s s' → Reach ms lam j r0 c0 s'

/-! ### Lemmas -/

theorem tv_normal (c : Int) : Timeval.Normal (tv c) := by
  unfold Timeval.Normal tv; dsimp only; omega

theorem tv_micros (c : Int) : Timeval.micros (tv c) = c := by
  unfold Timeval.micros tv; dsimp only; omega

theorem near {ms : Nat} {c0 c : Int} (h : c ≤ c0 + 1000 * ms + 2147480000000) (h2 : c0 + 1000 * ms ≤ c + 2147480000000) : Near (tv c0) ms (tv c) := by
  refine ⟨tv_normal _, tv_normal _, ?_⟩
  have hx := Timeval.C34_future_exact (tv c0) ms
  have hc := tv_micros c
  have hu : 0 ≤ (Timeval.future (tv c0) ms).usec ∧ (Timeval.future (tv c0) ms).usec ≤ 1000000 := by
    have n0 := tv_normal c0
    unfold Timeval.future
    unfold Timeval.Normal at n0
    dsimp only
    split <;> dsimp only <;> omega
  rw [tv_micros] at hx
  have hn := tv_normal c
  unfold Timeval.Normal at hn
  unfold Timeval.micros at hx hc
  omega

/-- One pass, in numbers. -/
theorem look_cases {ms : Nat} (hms : ms ≠ 0) {c0 : Int} {d : Nat} {s s' : St} (h : look ms c0 d s = some s') (h1 : s.clock ≤ c0 + 1000 * ms + 2147480000000)
    (h2 : c0 + 1000 * ms ≤ s.clock + 2147480000000) :
    s'.real = s.real + d ∧ s'.clock = s.clock + d ∧
    ((s'.ph = .back (s.real + d) ∧ c0 + 1000 * ms - s.clock < 2000) ∨
     (1000 < c0 + 1000 * ms - s.clock ∧ (s'.ph = .awake ∨ ∃ L, s'.ph = .asleep L ∧ L < 1000 * (c0 + 1000 * ms) + 1000000))) := by
  have hn := near h1 h2
  obtain ⟨r, hr, h3, h4⟩ := remaining_future (tv c0) (tv s.clock) ms hn.1 hn.2.1 hn.2.2
  rw [tv_micros, tv_micros] at h3 h4
  unfold look at h
  split at h
  · rename_i hd
    rcases readTimed_cases hd with ⟨-, h0⟩ | ⟨-, -, r', hr', hcase⟩
    · simp [hms] at h0
    · rw [hr] at hr'
      cases hr'
      rcases hcase with ⟨h5, -⟩ | ⟨-, h5 | h5⟩
      · cases h
        exact ⟨rfl, rfl, Or.inl ⟨rfl, by omega⟩⟩
      · cases h5
      · cases h5
  · rename_i hd
    rw [hr] at h
    dsimp only at h
    cases h
    rcases readTimed_cases hd with ⟨h5, -⟩ | ⟨-, -, r', hr', hcase⟩
    · cases h5
    · rw [hr] at hr'
      cases hr'
      rcases hcase with ⟨-, h5⟩ | ⟨h5, -⟩
      · cases h5
      · refine ⟨rfl, rfl, Or.inr ⟨by omega, Or.inr ⟨_, rfl, ?_⟩⟩⟩
        obtain ⟨r2, hr2, -, -, -, h6⟩ := C130_limit (tv c0) (tv s.clock) ms hn (by unfold left; rw [tv_micros, tv_micros]; omega)
        rw [hr] at hr2
        cases hr2
        rw [tv_micros] at h6
        omega
  · rename_i hd
    cases h
    rcases readTimed_cases hd with ⟨h5, -⟩ | ⟨-, -, r', hr', hcase⟩
    · cases h5
    · rw [hr] at hr'
      cases hr'
      rcases hcase with ⟨-, h5⟩ | ⟨h5, -⟩
      · cases h5
      · exact ⟨rfl, rfl, Or.inr ⟨by omega, Or.inl rfl⟩⟩
  · cases h

/-- What holds during the call. -/
structure Inv (ms lam j : Nat) (r0 c0 : Int) (s : St) : Prop where
  later : r0 ≤ s.real
  off : c0 - r0 - j ≤ s.clock - s.real ∧ s.clock - s.real ≤ c0 - r0 + j
  awake : s.ph = .awake → s.real ≤ r0 + 1000 * ms + j + 1000 + 2 * lam
  asleep : ∀ L, s.ph = .asleep L → s.real ≤ r0 + 1000 * ms + j + 1000 + lam ∧ L < 1000 * (c0 + 1000 * ms) + 1000000
  back : ∀ a, s.ph = .back a → r0 + 1000 * ms - j - 2000 < a ∧ a ≤ r0 + 1000 * ms + j + 1000 + 3 * lam

theorem inv {ms lam j : Nat} {r0 c0 : Int} (hms : ms ≠ 0) (hbig : 1000 * ms + 2 * j + 2 * lam ≤ 2147470000000) {s : St} (h : Reach ms lam j r0 c0 s) : Inv ms lam j r0 c0 s := by
  induction h with
  | start => exact ⟨Int.le_refl _, by dsimp only; omega, (fun _ => by dsimp only; omega), (fun _ h => (nomatch h)), (fun _ h => (nomatch h))⟩
  | @step s s' _ st ih =>
    obtain ⟨i1, i2, i3, i4, i5⟩ := ih
    cases st with
    | look h1 h2 h3 =>
      have hr := i3 h1
      obtain ⟨e1, e2, e3⟩ := look_cases hms h3 (by omega) (by omega)
      refine ⟨by omega, by omega, fun h => ?_, fun L h => ?_, fun a h => ?_⟩
      · rcases e3 with ⟨e3, -⟩ | ⟨e3, -⟩
        · rw [e3] at h; cases h
        · omega
      · rcases e3 with ⟨e3, -⟩ | ⟨e3, e4 | ⟨L', e4, e5⟩⟩
        · rw [e3] at h; cases h
        · rw [e4] at h; cases h
        · rw [e4] at h; cases h
          exact ⟨by omega, e5⟩
      · rcases e3 with ⟨e3, e4⟩ | ⟨e3, e4 | ⟨L', e4, e5⟩⟩
        · rw [e3] at h; cases h
          omega
        · rw [e4] at h; cases h
        · rw [e4] at h; cases h
    | @pass L d h1 h2 =>
      obtain ⟨a1, a2⟩ := i4 L h1
      refine ⟨by dsimp only; omega, by dsimp only; omega, fun h => ?_, fun L' h => ?_, fun a h => ?_⟩
      · rw [show s.ph = _ from h] at h1; cases h1
      · have h : s.ph = .asleep L' := h
        rw [h1] at h; cases h
        dsimp only
        exact ⟨by omega, a2⟩
      · have h : s.ph = .back a := h
        rw [h1] at h; cases h
    | @wake L d h1 h2 =>
      obtain ⟨a1, a2⟩ := i4 L h1
      exact ⟨by dsimp only; omega, by dsimp only; omega, (fun _ => by dsimp only; omega), (fun _ h => (nomatch h)), (fun _ h => (nomatch h))⟩
    | @set c h1 h2 => exact ⟨i1, by dsimp only; omega, i3, i4, i5⟩

/-! ### C159 -/

/-- C159, partial: when the clock is set by at most `j` microseconds during the call, `read(timeout)` on a queue that stays empty returns at most that much, two milliseconds early, or one millisecond and three times the
time the thread needs for anything late; and it does not stay longer. -/
theorem C159_limit_partial (ms lam j : Nat) (r0 c0 : Int) (hms : ms ≠ 0) (hbig : 1000 * ms + 2 * j + 2 * lam ≤ 2147470000000) (s : St) (h : Reach ms lam j r0 c0 s) :
    (∀ a, s.ph = .back a → r0 + 1000 * ms - j - 2000 < a ∧ a ≤ r0 + 1000 * ms + j + 1000 + 3 * lam) ∧
    ((∀ a, s.ph ≠ .back a) → s.real ≤ r0 + 1000 * ms + j + 1000 + 2 * lam) := by
  obtain ⟨i1, i2, i3, i4, i5⟩ := inv hms hbig h
  refine ⟨i5, fun hb => ?_⟩
  cases hp : s.ph with
  | awake => exact i3 hp
  | asleep L => have := (i4 L hp).1; omega
  | back a => exact absurd hp (hb a)

/-- C159, partial: the call is never stuck: when it is its turn it can look at the clock and go on, as long as the clock is within 24 days of its limit. -/
theorem C159_goes_on_partial (ms lam j : Nat) (r0 c0 : Int) (hms : ms ≠ 0) (hbig : 1000 * ms + 2 * j + 2 * lam ≤ 2147470000000) (s : St) (h : Reach ms lam j r0 c0 s) (hp : s.ph = .awake) :
    ∃ s', look ms c0 0 s = some s' ∧ Reach ms lam j r0 c0 s' ∧ (c0 + 1000 * ms - s.clock ≤ 1000 → s'.ph = .back s.real) := by
  obtain ⟨i1, i2, i3, -, -⟩ := inv hms hbig h
  have hr := i3 hp
  have hn : Near (tv c0) ms (tv s.clock) := near (by omega) (by omega)
  obtain ⟨r, hr, h3, h4⟩ := remaining_future (tv c0) (tv s.clock) ms hn.1 hn.2.1 hn.2.2
  have hs : ∃ s', look ms c0 0 s = some s' := by
    unfold look readTimed
    simp only [hms, if_false, List.length_nil, if_true, hr]
    by_cases h5 : r < 2
    · simp [h5]
    · simp only [h5, if_false]
      unfold timedWait
      by_cases h6 : r ≤ 0
      · simp [h6]
      · simp only [h6, if_false]
        by_cases h7 : 0 ≤ (waitLimit (tv s.clock) r).nsec ∧ (waitLimit (tv s.clock) r).nsec < 1000000000
        · simp [h7]
        · simp [h7]
  obtain ⟨s', hs⟩ := hs
  refine ⟨s', hs, .step h (.look hp (Nat.zero_le _) hs), fun hl => ?_⟩
  obtain ⟨-, -, ⟨e, -⟩ | ⟨e, -⟩⟩ := look_cases hms hs (by omega) (by omega)
  · simpa using e
  · omega

/-- C159: setting the clock back during a read with one second as its limit makes it last as much longer, whatever that is. -/
theorem C159_back_refuted (h : Nat) : ∃ s, Reach 1000 0 h 0 5 s ∧ s.real = 1000000 + h ∧ ∀ a, s.ph ≠ .back a := by
  have l : look 1000 5 0 ⟨0, 5, .awake⟩ = some ⟨0, 5, .asleep 1000005000⟩ := by decide +kernel
  have s1 : Reach 1000 0 h 0 5 ⟨0, 5, .asleep 1000005000⟩ := .step .start (.look rfl (Nat.le_refl _) l)
  have s2 : Reach 1000 0 h 0 5 ⟨0, 5 - h, .asleep 1000005000⟩ := .step s1 (.set (s := ⟨0, 5, .asleep 1000005000⟩) (c := 5 - h) (by dsimp only; omega) (by dsimp only; omega))
  have s3 := Reach.step s2 (.pass (lam := 0) (d := 1000000 + h) rfl (Or.inr (by dsimp only; omega)))
  exact ⟨_, s3, by dsimp only; omega, fun a ha => nomatch ha⟩

/-- C159: setting the clock on by the limit ends the read at once. -/
theorem C159_forward_refuted : ∃ s, Reach 1000 0 1000000 0 5 s ∧ s.ph = .back 0 := by
  have s1 : Reach 1000 0 1000000 0 5 ⟨0, 1000005, .awake⟩ := .step .start (.set (s := ⟨0, 5, .awake⟩) (c := 1000005) (by decide) (by decide))
  exact ⟨⟨0, 1000005, .back 0⟩, .step s1 (.look rfl (Nat.le_refl _) (by decide +kernel)), rfl⟩

/-- Undisturbed, the read of the examples sleeps for its second and then returns. -/
example : ∃ s, Reach 1000 0 0 0 5 s ∧ s.ph = .back 1000000 := by
  have l : look 1000 5 0 ⟨0, 5, .awake⟩ = some ⟨0, 5, .asleep 1000005000⟩ := by decide +kernel
  have s1 : Reach 1000 0 0 0 5 ⟨0, 5, .asleep 1000005000⟩ := .step .start (.look rfl (Nat.le_refl _) l)
  have s2 := Reach.step s1 (.pass (lam := 0) (d := 1000000) rfl (Or.inr (by decide)))
  have s3 := Reach.step s2 (.wake (lam := 0) (d := 0) rfl (Nat.le_refl _))
  exact ⟨⟨1000000, 1000005, .back 1000000⟩, .step s3 (.look rfl (Nat.le_refl _) (by decide +kernel)), rfl⟩

/-- Looked at 998.001 milliseconds after the call, it returns already. -/
example : look 1000 500000 0 ⟨998001, 1498001, .awake⟩ = some ⟨998001, 1498001, .back 998001⟩ := by decide +kernel

end Verif.Interthread.ClockSet
