import Verif.Interthread.PairProps
import Verif.Interthread.MapProps
import Verif.Interthread.PriorityQueueProps
import Verif.Interthread.WithWaitProps

/-
Property C130: calls with a time limit sleep, with the lock released, until they are notified or the limit has come (`/repo/Interthread.h:220-232, 269-283,
382-400, 504-520, 701-714`, `/repo/Threads.cpp:271-277`).

Specification: the lock has no owner and the thread waits; the sleep ends at an instant, in nanoseconds.
-/

namespace Verif.Interthread
open Verif Verif.Monitor

/-- The instant denoted by a `timespec`, in nanoseconds. -/
def nanos (t : Timeval.TS) : Int := 1000000000 * t.sec + t.nsec

/-- What is left of a time limit of `ms` milliseconds from `t0`, in microseconds. -/
def left (t0 : Clock) (ms : Nat) (now : Clock) : Int := Timeval.micros t0 + 1000 * ms - Timeval.micros now

/-- The clock does not show a whole number of milliseconds. -/
def Between (now : Clock) : Prop := now.usec % 1000 ≠ 0

theorem timedWait_iff {σ C R : Type} (now : Clock) (r : Int) (d : σ) (c : C) (hn : Timeval.Normal now) (hr : 0 < r) :
    timedWait (R := R) now r d c = .wait d c ↔ now.usec + 1000 * (r % 1000) ≠ 1000000 := by
  have hm : ((r.toNat % 1000 : Nat) : Int) = r % 1000 := by omega
  obtain ⟨h0, h1⟩ := Timeval.C34_future_normal_partial now r.toNat hn
  unfold Timeval.Normal at h1
  rw [hm] at h1
  unfold timedWait
  rw [if_neg (by omega)]
  have e : (0 ≤ (waitLimit now r).nsec ∧ (waitLimit now r).nsec < 1000000000) ↔ now.usec + 1000 * (r % 1000) ≠ 1000000 := by
    rw [← h1]
    show (0 ≤ 1000 * (Timeval.future now r.toNat).usec ∧ 1000 * (Timeval.future now r.toNat).usec < 1000000000) ↔ _
    omega
  dsimp only
  by_cases h : 0 ≤ (waitLimit now r).nsec ∧ (waitLimit now r).nsec < 1000000000
  · rw [if_pos h]; exact ⟨fun _ => e.1 h, fun _ => rfl⟩
  · rw [if_neg h]; exact Iff.intro (fun h' => by cases h') (fun h' => absurd (e.2 h') h)

theorem timedWait_between {σ C R : Type} {now : Clock} {r : Int} (d : σ) (c : C) (hn : Timeval.Normal now) (hr : 0 < r) (hb : Between now) :
    timedWait (R := R) now r d c = .wait d c := by
  refine (timedWait_iff now r d c hn hr).2 ?_
  unfold Between at hb
  omega

/-- C130: the sleep of a call with a time limit ends within a millisecond of the limit, whenever it is begun. -/
theorem C130_limit (t0 now : Clock) (ms : Nat) (hn : Near t0 ms now) (hl : 1000 ≤ left t0 ms now) :
    ∃ r, Timeval.remaining (Timeval.future t0 ms) now = .ok r ∧ 0 < r ∧ r ≤ 2 ^ 32 ∧
      -1000000 < nanos (waitLimit now r) - 1000 * (Timeval.micros t0 + 1000 * ms) ∧
      nanos (waitLimit now r) - 1000 * (Timeval.micros t0 + 1000 * ms) < 1000000 := by
  obtain ⟨n0, nn, hr⟩ := hn
  obtain ⟨r, hr2, h3, h4⟩ := remaining_future t0 now ms n0 nn hr
  unfold left at hl
  have hx := Timeval.C34_future_exact now r.toNat
  have hy := (Timeval.C34_timespec (Timeval.future now r.toNat)).1
  have hz := Timeval.C34_future_exact t0 ms
  have hu : 0 ≤ (Timeval.future t0 ms).usec ∧ (Timeval.future t0 ms).usec ≤ 1000000 := by
    unfold Timeval.future
    unfold Timeval.Normal at n0
    dsimp only
    split <;> dsimp only <;> omega
  refine ⟨r, hr2, by omega, ?_, ?_, ?_⟩
  · unfold Timeval.micros at *
    unfold Timeval.Normal at nn
    omega
  · unfold nanos waitLimit; omega
  · unfold nanos waitLimit; omega

/-- Sleeping: the lock is free, the thread waits on `c` and the data are as before. -/
def Asleep {n : Nat} {σ C Op R : Type} (s s' : St n σ C Op R) (t : Fin n) (op : Op) (t0 : Stamp) (c : C) : Prop :=
  s'.owner = none ∧ s'.th t = .waiting op t0 c ∧ s'.data = s.data

theorem asleep {n : Nat} {σ C Op R : Type} [DecidableEq C] {M : Mon σ C Op R} {s s' : St n σ C Op R} {t : Fin n} {op : Op} {t0 : Stamp} {c : C}
    (he : s.th t = .holding op t0) (hb : ∀ a, M.body op t0 s.now s.data a → a = .wait s.data c) (st : Step M s (.body t) s') : Asleep s s' t op t0 c := by
  cases st with
  | bodyDone _ op' t0' d r i o e ho hbd => rw [he] at e; cases e; cases hb _ hbd
  | bodyWait _ op' t0' d c' e ho hbd =>
    rw [he] at e; cases e
    cases hb _ hbd
    exact ⟨rfl, by simp, rfl⟩
  | bodySpin _ op' t0' d e ho hbd => rw [he] at e; cases e; cases hb _ hbd

theorem remaining_two {t0 now : Clock} {ms : Nat} (hn : Near t0 ms now) (hl : 2000 ≤ left t0 ms now) :
    ∃ r, Timeval.remaining (Timeval.future t0 ms) now = .ok r ∧ 2 ≤ r := by
  obtain ⟨n0, nn, hr⟩ := hn
  obtain ⟨r, hr2, h3, h4⟩ := remaining_future t0 now ms n0 nn hr
  unfold left at hl
  exact ⟨r, hr2, by omega⟩

/-- C130 (InterthreadQueue::read): with two milliseconds or more left, a timed read that finds the queue empty sleeps with the lock released.  Missing: clock
readings that are whole milliseconds. -/
theorem C130_read_partial {n : Nat} {s s' : St n (List Val) WS QOp QRes} {t : Fin n} {ms : Nat} {t0 : Stamp} (he : s.th t = .holding (.readT ms) t0)
    (hd : s.data = []) (hms : ms ≠ 0) (hn : Near t0.call ms s.now) (hl : 2000 ≤ left t0.call ms s.now) (hb : Between s.now)
    (st : Step queue s (.body t) s') : Asleep s s' t (.readT ms) t0 () := by
  obtain ⟨r, hr, h2⟩ := remaining_two hn hl
  refine asleep he ?_ st
  intro a ha
  have ha : readTimed ms t0 s.now s.data = some a := ha
  unfold readTimed at ha
  rw [if_neg hms, hd, if_pos List.length_nil, hr] at ha
  dsimp only at ha
  rw [if_neg (by omega), timedWait_between _ _ hn.2.1 (by omega) hb] at ha
  rw [hd]; cases ha; rfl

/-- C130 (InterthreadQueueWithWait::read). -/
theorem C130_readW_partial {n : Nat} {s s' : St n (List Val) WC WOp QRes} {t : Fin n} {ms : Nat} {t0 : Stamp} (he : s.th t = .holding (.readT ms) t0)
    (hd : s.data = []) (hms : ms ≠ 0) (hn : Near t0.call ms s.now) (hl : 2000 ≤ left t0.call ms s.now) (hb : Between s.now)
    (st : Step queueW s (.body t) s') : Asleep s s' t (.readT ms) t0 .writeSignal := by
  obtain ⟨r, hr, h2⟩ := remaining_two hn hl
  refine asleep he ?_ st
  intro a ha
  have ha : readTimedW ms t0 s.now s.data = some a := ha
  unfold readTimedW at ha
  rw [if_neg hms, hd, if_pos List.length_nil, hr] at ha
  dsimp only at ha
  rw [if_neg (by omega), timedWait_between _ _ hn.2.1 (by omega) hb] at ha
  rw [hd]; cases ha; rfl

/-- C130 (InterthreadMap::get): the key is not in the map; the limit counts from the acquisition of the lock. -/
theorem C130_map_partial {n : Nat} {s s' : St n KV WS MOp MRes} {t : Fin n} {k ms : Nat} {rm : Bool} {t0 : Stamp} (he : s.th t = .holding (.getT k ms rm) t0)
    (hd : s.data.lookup k = none) (hms : ms ≠ 0) (hn : Near t0.locked ms s.now) (hl : 2000 ≤ left t0.locked ms s.now) (hb : Between s.now)
    (st : Step imap s (.body t) s') : Asleep s s' t (.getT k ms rm) t0 () := by
  obtain ⟨r, hr, h2⟩ := remaining_two hn hl
  refine asleep he ?_ st
  intro a ha
  have ha : mbody (.getT k ms rm) t0 s.now s.data = some a := ha
  simp only [mbody, find, hd, hr] at ha
  rw [if_neg hms, if_neg (by omega), timedWait_between _ _ hn.2.1 (by omega) hb] at ha
  cases ha; rfl

/-- C130 (InterthreadPriorityQueue::read). -/
theorem C130_priority_partial {n : Nat} {gt : Nat → Nat → Prop} {s s' : St n (List Nat) WS PQOp PQRes} {t : Fin n} {ms : Nat} {t0 : Stamp}
    (he : s.th t = .holding (.readT ms) t0) (hd : s.data = []) (hms : ms ≠ 0) (hn : Near t0.call ms s.now) (hl : 2000 ≤ left t0.call ms s.now)
    (hb : Between s.now) (st : Step (pqueue gt) s (.body t) s') : Asleep s s' t (.readT ms) t0 () := by
  obtain ⟨r, hr, h2⟩ := remaining_two hn hl
  refine asleep he ?_ st
  intro a ha
  have ha : pqbody gt (.readT ms) t0 s.now s.data a := ha
  simp only [pqbody] at ha
  rw [if_pos ⟨hms, by rw [hd]; rfl⟩] at ha
  obtain ⟨r', hr', ha⟩ := ha
  rw [hr] at hr'; cases hr'
  rw [if_neg (by omega), timedWait_between _ _ hn.2.1 (by omega) hb] at ha
  exact ha

/-- C130 (iqWaitForEither), while a millisecond or more is left; what happens later is `C25_timeout_refuted`. -/
theorem C130_either_partial {n : Nat} {s s' : St n Both WS POp QRes} {t : Fin n} {ms : Nat} {t0 : Stamp} (he : s.th t = .holding (.waitEither ms) t0)
    (hd : s.data = ([], [])) (hms : ms ≠ 0) (hn : Near t0.locked ms s.now) (hl : 1000 ≤ left t0.locked ms s.now) (hb : Between s.now)
    (st : Step pair s (.body t) s') : Asleep s s' t (.waitEither ms) t0 () := by
  obtain ⟨r, hr, h2, -⟩ := C130_limit t0.locked s.now ms hn hl
  refine asleep he ?_ st
  intro a ha
  have ha : eitherBody ms t0 s.now s.data = some a := ha
  unfold eitherBody at ha
  rw [if_pos (by rw [hd]; exact ⟨rfl, rfl⟩), if_pos hms, hr] at ha
  dsimp only at ha
  rw [timedWait_between _ _ hn.2.1 h2 hb] at ha
  cases ha; rfl

/-- C130 fails when the clock shows a whole number of milliseconds and the end of the sleep a whole second: the system rejects the limit, the call keeps the
lock and looks again at once. -/
theorem C130_refuted : ∃ (t0 : Stamp) (now : Clock) (ms : Nat), Near t0.call ms now ∧ 2000 ≤ left t0.call ms now ∧
    ∀ a, queue.body (.readT ms) t0 now [] a → a = .spin [] := by
  refine ⟨⟨⟨5, 0⟩, ⟨5, 0⟩⟩, ⟨5, 990000⟩, 1000, by unfold Near; decide, by decide, ?_⟩
  intro a ha
  have ha : readTimed 1000 ⟨⟨5, 0⟩, ⟨5, 0⟩⟩ ⟨5, 990000⟩ [] = some a := ha
  have e : readTimed 1000 ⟨⟨5, 0⟩, ⟨5, 0⟩⟩ ⟨5, 990000⟩ [] = some (.spin []) := by rfl
  rw [e] at ha; cases ha; rfl

/-- A read of three seconds, looked at after a quarter of a second: asleep until the limit. -/
example : Near ⟨5, 17⟩ 3000 ⟨5, 250017⟩ ∧ left ⟨5, 17⟩ 3000 ⟨5, 250017⟩ = 2750000 ∧ Between ⟨5, 250017⟩ ∧
    Timeval.remaining (Timeval.future ⟨5, 17⟩ 3000) ⟨5, 250017⟩ = .ok 2750 ∧ waitLimit ⟨5, 250017⟩ 2750 = ⟨8, 17000⟩ := by
  refine ⟨by unfold Near; decide, by decide, by unfold Between; decide, by decide, by decide⟩

end Verif.Interthread
