import Verif.Monitor.Steps
import Verif.Interthread.QueueProps
import Verif.Interthread.WithWaitProps
import Verif.Interthread.MapProps
import Verif.Interthread.PairProps
import Verif.Interthread.PriorityQueueProps
import Verif.Interthread.Semaphore

/-
C165: how many steps the calls on a queue, a map or a semaphore take (`/repo/Interthread.h:113-772`).

The counted steps are those of `Verif.Monitor`: taking the lock, a pass through the critical section up to its end or to the wait in it, taking the lock again after a wakeup, sending a notification,
unlocking, returning.  Counted apart are new calls, wakeups out of turn (spurious ones and those by the end of a time limit), and looks that change nothing (a timed read that looks again just
before its limit; `waitEither` after its limit, the error of C25).
-/

namespace Verif.Interthread

open Verif Verif.Monitor

/-! ### What the notifications of a call can cause -/

theorem timedWait_not_done {σ C R : Type} {now : Clock} {r : Int} {d d' : σ} {c : C} {x : R} {i o : List (Sig C)} : (timedWait now r d c : Act σ C R) ≠ .done d' x i o := by
  intro h
  simp only [timedWait] at h
  split at h
  · cases h
  · split at h <;> cases h

theorem queue_cheap (n : Nat) : Cheap queue n 3 := by
  intro op t0 now d d' r i o hb
  have hb : qbody op t0 now d = some (.done d' r i o) := hb
  cases op with
  | readT ms =>
    rcases readTimed_cases (show readTimed ms t0 now d = some _ from hb) with ⟨e, -⟩ | ⟨-, -, r', -, ⟨-, e⟩ | ⟨-, e | e⟩⟩
    · cases e; simp [costs]
    · cases e; simp [costs]
    · cases e
    · cases e
  | read =>
    simp only [qbody] at hb
    split at hb
    · cases hb
    · cases hb; simp [costs]
  | _ => simp only [qbody] at hb; cases hb; simp [costs, Sig.cost]

theorem pair_cheap (n : Nat) : Cheap pair n 3 := by
  intro op t0 now d d' r i o hb
  have hb : pbody op t0 now d = some (.done d' r i o) := hb
  cases op with
  | on w op =>
    simp only [pbody] at hb
    split at hb
    · next h => cases hb; exact queue_cheap n op t0 now _ _ _ _ _ h
    · cases hb
    · cases hb
    · cases hb
  | waitEither ms =>
    rcases eitherBody_cases (show eitherBody ms t0 now d = some _ from hb) with ⟨e, -⟩ | ⟨-, ⟨e, -⟩ | ⟨e, -⟩⟩
    · cases e; simp [costs]
    · cases e
    · cases e

theorem queueW_cheap (n : Nat) : Cheap queueW n 3 := by
  intro op t0 now d d' r i o hb
  rcases w_done hb with ⟨v, -, -, rfl, rfl⟩ | ⟨-, rfl, -, -, rfl, -⟩ | ⟨-, -, rfl, rfl⟩ | ⟨-, -, rfl, rfl⟩ | ⟨_, -, -, -, rfl, rfl⟩
  · simp [costs, Sig.cost]
  · simp only [readSig]; split <;> simp [costs, Sig.cost]
  · simp [costs]
  · simp [costs, Sig.cost]
  · simp [costs]

theorem imap_cheap (n : Nat) : Cheap imap n (2 * n + 1) := by
  intro op t0 now d d' r i o hb
  rcases m_done hb with ⟨_, _, -, -, -, rfl, rfl⟩ | ⟨_, _, _, -, -, -, -, rfl, rfl⟩ | ⟨_, _, -, -, -, -, rfl, rfl⟩ | ⟨_, -, -, -, -, rfl, rfl⟩ <;> simp [costs, Sig.cost]

theorem pqueue_cheap (gt : Nat → Nat → Prop) (n : Nat) : Cheap (pqueue gt) n 3 := by
  intro op t0 now d d' r i o hb
  have hb : pqbody gt op t0 now d (.done d' r i o) := hb
  cases op with
  | write v => simp only [pqbody] at hb; cases hb; simp [costs, Sig.cost]
  | read =>
    simp only [pqbody] at hb
    rcases hb with ⟨-, hb⟩ | ⟨-, _, _, -, hb⟩
    · cases hb
    · cases hb; simp [costs]
  | readT ms =>
    simp only [pqbody] at hb
    split at hb
    · obtain ⟨x, -, hb⟩ := hb
      split at hb
      · cases hb; simp [costs]
      · exact absurd hb.symm timedWait_not_done
    · obtain ⟨_, _, -, hb⟩ := hb; cases hb; simp [costs]
  | readNoBlock => simp only [pqbody] at hb; obtain ⟨_, _, -, hb⟩ := hb; cases hb; simp [costs]
  | peek =>
    simp only [pqbody] at hb
    rcases hb with ⟨-, hb⟩ | ⟨_, -, hb⟩ <;> cases hb <;> simp [costs]
  | size => simp only [pqbody] at hb; cases hb; simp [costs]
  | clear => simp only [pqbody] at hb; obtain ⟨_, -, hb⟩ := hb; cases hb; simp [costs]

theorem semaphore_cheap (n : Nat) : Cheap semaphore n 3 := by
  intro op t0 now d d' r i o hb
  rcases s_done hb with ⟨-, -, -, rfl, rfl⟩ | ⟨-, -, -, -, rfl, rfl⟩ | ⟨-, -, -, rfl, rfl⟩ <;> simp [costs, Sig.cost]

/-! ### C165 -/

theorem init_toGo {n : Nat} {σ C Op R : Type} [DecidableEq C] (S : Nat) (now : Clock) (d : σ) : total (toGo n S) (init n now d : St n σ C Op R).th = 0 := by
  rw [total_zero]; intro t; rfl

theorem from_start {n : Nat} {σ C Op R : Type} [DecidableEq C] {M : Mon σ C Op R} {ok : Fin n → Op → Prop} {S : Nat} (hM : Cheap M n S) {now : Clock} {d : σ} {s : St n σ C Op R}
    {a b k i : Nat} (h : Steps M ok (init n now d) s a b k i) : i ≤ (S + 4) * a + 2 * b := by
  have := steps_bound hM h
  rw [init_toGo] at this
  omega

/-- C165: whatever the schedule and the number of threads, the calls made on an InterthreadQueue take, taken together, at most 7 steps for each of them and 2 for each wakeup out of turn. -/
theorem C165_queue {n : Nat} {ok : Fin n → QOp → Prop} {now : Clock} {q : List Val} {s : St n (List Val) WS QOp QRes} {a b k i : Nat} (h : Steps queue ok (init n now q) s a b k i) :
    i ≤ 7 * a + 2 * b := from_start (queue_cheap n) h

/-- C165: likewise for an InterthreadQueueWithWait. -/
theorem C165_with_wait {n : Nat} {ok : Fin n → WOp → Prop} {now : Clock} {q : List Val} {s : St n (List Val) WC WOp QRes} {a b k i : Nat} (h : Steps queueW ok (init n now q) s a b k i) :
    i ≤ 7 * a + 2 * b := from_start (queueW_cheap n) h

/-- C165: likewise for an InterthreadPriorityQueue, whatever the comparison. -/
theorem C165_priority {n : Nat} {gt : Nat → Nat → Prop} {ok : Fin n → PQOp → Prop} {now : Clock} {q : List Nat} {s : St n (List Nat) WS PQOp PQRes} {a b k i : Nat}
    (h : Steps (pqueue gt) ok (init n now q) s a b k i) : i ≤ 7 * a + 2 * b := from_start (pqueue_cheap gt n) h

/-- C165: likewise for two connected queues. -/
theorem C165_pair {n : Nat} {ok : Fin n → POp → Prop} {now : Clock} {q : Both} {s : St n Both WS POp QRes} {a b k i : Nat} (h : Steps pair ok (init n now q) s a b k i) :
    i ≤ 7 * a + 2 * b := from_start (pair_cheap n) h

/-- C165: likewise for a Semaphore. -/
theorem C165_semaphore {n : Nat} {ok : Fin n → SOp → Prop} {now : Clock} {f : Bool} {s : St n Bool Unit SOp SRes} {a b k i : Nat} (h : Steps semaphore ok (init n now f) s a b k i) :
    i ≤ 7 * a + 2 * b := from_start (semaphore_cheap n) h

/-- C165: an InterthreadMap wakes all waiting threads at each write, so the bound for a call grows with the number of threads. -/
theorem C165_map {n : Nat} {ok : Fin n → MOp → Prop} {now : Clock} {m : KV} {s : St n KV WS MOp MRes} {a b k i : Nat} (h : Steps imap ok (init n now m) s a b k i) :
    i ≤ (2 * n + 5) * a + 2 * b := from_start (imap_cheap n) h

/-- C165: from any state on, as long as no call is begun and nobody wakes out of turn, the threads that are in calls on an InterthreadQueue take at most 7 steps each, taken together. -/
theorem C165_under_way {n : Nat} {ok : Fin n → QOp → Prop} {now : Clock} {q : List Val} {s s' : St n (List Val) WS QOp QRes} (hr : Reach queue ok (init n now q) s) {k i : Nat}
    (h : Steps queue ok s s' 0 0 k i) : i ≤ 7 * underWay s := steps_under_way (queue_cheap n) hr h

/-- C165: likewise for an InterthreadMap. -/
theorem C165_under_way_map {n : Nat} {ok : Fin n → MOp → Prop} {now : Clock} {m : KV} {s s' : St n KV WS MOp MRes} (hr : Reach imap ok (init n now m) s) {k i : Nat}
    (h : Steps imap ok s s' 0 0 k i) : i ≤ (2 * n + 5) * underWay s := steps_under_way (imap_cheap n) hr h

/-- Callers use no time limits and write no NULL. -/
def Untimed : QOp → Prop
  | .readT _ => False
  | op => NonNull op

theorem untimed_nonnull {op : QOp} (h : Untimed op) : NonNull op := by
  cases op with
  | readT _ => exact h.elim
  | _ => exact h

theorem untimed_holding {n : Nat} {now : Clock} {s : St n (List Val) WS QOp QRes} (hr : Reach queue (fun _ op => Untimed op) (init n now []) s) (t : Fin n) (ms : Nat) (t0 : Stamp) :
    s.th t ≠ .holding (.readT ms) t0 := by
  intro e
  exact (show Untimed (.readT ms) from reach_ok hr t _ (by rw [e]; rfl))

theorem untimed_body {n : Nat} {now : Clock} {s s' : St n (List Val) WS QOp QRes} (hr : Reach queue (fun _ op => Untimed op) (init n now []) s) {t : Fin n} (st : Step queue s (.body t) s') :
    s'.th ≠ s.th := by
  intro e
  cases st with
  | bodyDone t op t0 d r i o h1 h2 h3 => have := congrFun e t; dsimp only at this; rw [upd_same, h1] at this; cases this
  | bodyWait t op t0 d c h1 h2 h3 => have := congrFun e t; dsimp only at this; rw [upd_same, h1] at this; cases this
  | bodySpin t op t0 d h1 h2 h3 =>
    have h3 : qbody op t0 s.now s.data = some (.spin d) := h3
    cases op with
    | readT ms => exact untimed_holding hr t ms t0 h1
    | read => simp only [qbody] at h3; split at h3 <;> cases h3
    | _ => simp only [qbody] at h3; cases h3

theorem untimed_moves {n : Nat} {now : Clock} {s : St n (List Val) WS QOp QRes} (hr : Reach queue (fun _ op => Untimed op) (init n now []) s) (hs : ¬ Settled s) :
    ∃ l s', Step queue s l s' ∧ l.internal ∧ s'.th ≠ s.th := by
  obtain ⟨l, s', st, hi⟩ := C23_progress (hr.mono fun _ _ => untimed_nonnull) hs (fun t ms t0 e => absurd e (untimed_holding hr t ms t0))
  refine ⟨l, s', st, hi, fun e => ?_⟩
  by_cases hb : ∃ t, l = .body t
  · obtain ⟨t, rfl⟩ := hb
    exact untimed_body hr st e
  · exact internal_moves st hi (fun t h => hb ⟨t, h⟩) e

/-- C165: without time limits there are no looks that change nothing: every step counts. -/
theorem C165_no_spins {n : Nat} {now : Clock} {s s' : St n (List Val) WS QOp QRes} (hr : Reach queue (fun _ op => Untimed op) (init n now []) s) {a b k i : Nat}
    (h : Steps queue (fun _ op => Untimed op) s s' a b k i) : k = 0 := by
  induction h with
  | nil => rfl
  | call _ _ _ ih => exact ih
  | unasked _ _ ih => exact ih
  | tick _ _ ih => exact ih
  | own _ _ _ _ ih => exact ih
  | spin h st e ih => exact absurd e (untimed_body (h.reach hr) st)

/-- C165: so reads without time limits come to an end: from any state on, letting the threads go on in whatever order, without new calls, leads after at most 7 steps for each thread in a call to
a state in which everybody is outside of calls or asleep on an empty queue; until then some thread can go on. -/
theorem C165_settles {n : Nat} {now : Clock} {s s' : St n (List Val) WS QOp QRes} (hr : Reach queue (fun _ op => Untimed op) (init n now []) s) {k i : Nat}
    (h : Steps queue (fun _ op => Untimed op) s s' 0 0 k i) :
    i ≤ 7 * underWay s ∧
      ((∃ l s'', Step queue s' l s'' ∧ l.internal ∧ s''.th ≠ s'.th) ∨
        ∀ t, s'.th t = .idle ∨ (∃ op t0 c, s'.th t = .waiting op t0 c) ∧ s'.data = []) := by
  refine ⟨C165_under_way hr h, ?_⟩
  have hr' := h.reach hr
  by_cases hs : Settled s'
  · right
    intro t
    rcases hs t with e | ⟨op, t0, c, e⟩
    · exact .inl e
    · exact .inr ⟨⟨op, t0, c, e⟩, C23_settled (hr'.mono fun _ _ => untimed_nonnull) hs ⟨t, op, t0, e⟩⟩
  · exact .inl (untimed_moves hr' hs)

/-- C165: and such a state is always reached. -/
theorem C165_comes_to_rest {n : Nat} {now : Clock} {s : St n (List Val) WS QOp QRes} (hr : Reach queue (fun _ op => Untimed op) (init n now []) s) :
    ∃ s' i, Steps queue (fun _ op => Untimed op) s s' 0 0 0 i ∧ i ≤ 7 * underWay s ∧ ∀ t, s'.th t = .idle ∨ (∃ op t0 c, s'.th t = .waiting op t0 c) ∧ s'.data = [] := by
  by_contra hno
  have key : ∀ m, ∃ s', Steps queue (fun _ op => Untimed op) s s' 0 0 0 m := by
    intro m
    induction m with
    | zero => exact ⟨s, .nil s⟩
    | succ m ih =>
      obtain ⟨s', h⟩ := ih
      rcases (C165_settles hr h).2 with ⟨l, s'', st, hi, hth⟩ | hset
      · exact ⟨s'', .own h st hi hth⟩
      · exact absurd ⟨s', m, h, (C165_settles hr h).1, hset⟩ hno
  obtain ⟨s', h⟩ := key (7 * underWay s + 1)
  have := C165_under_way hr h
  omega

/-- A reader waits, a writer writes, both return: 11 steps of the threads, 2 calls. -/
def meet : List (Cmd 2 QOp) := [.start 0 .read, .lock 0, .body 0, .start 1 (.write (some 7)), .lock 1, .body 1, .unlock 1, .notify 1 (some 0), .ret 1, .relock 0, .body 0, .unlock 0, .ret 0]

example : ∃ s, Steps queue (fun _ op => Untimed op) (init 2 ⟨5, 0⟩ []) s 2 0 0 11 ∧ 11 ≤ 7 * 2 + 2 * 0 ∧ ∀ t, s.th t = .idle := by
  have h : (match exec qbody (init 2 ⟨5, 0⟩ []) meet with
    | some s => (match s.th 0, s.th 1 with
      | .idle, .idle => true
      | _, _ => false)
    | none => false) = true := by decide
  split at h
  · next s hs =>
    obtain ⟨k, i, h1, h2⟩ := exec_steps (ok := fun _ op => Untimed op) hs (.nil _) (by intro t op hm; simp [meet] at hm; rcases hm with ⟨-, rfl⟩ | ⟨-, rfl⟩ <;> simp [Untimed, NonNull])
    have hk := C165_no_spins .refl h1
    have e1 : meet.countP Cmd.isCall = 2 := by decide
    have e2 : meet.countP Cmd.isUnasked = 0 := by decide
    have e3 : meet.countP Cmd.isTick = 0 := by decide
    have e4 : meet.length = 13 := by decide
    rw [e1, e2, e3, e4] at h2
    rw [e1, e2, show 0 + k = 0 by omega, show 0 + i = 11 by omega] at h1
    refine ⟨s, h1, by omega, fun t => ?_⟩
    split at h
    · next h0 h1 => match t with
      | 0 => exact h0
      | 1 => exact h1
    · cases h
  · cases h

end Verif.Interthread
