import Verif.Interthread.Pair
import Verif.Interthread.QueueProps

/-
Properties C25 and C33.
-/

namespace Verif.Interthread
open Verif Verif.Monitor

/-- What one pass of `iqWaitForEither` can do. -/
theorem eitherBody_cases {ms : Nat} {t0 : Stamp} {now : Clock} {d : Both} {a : Act Both WS QRes} (h : eitherBody ms t0 now d = some a) :
    (a = .done d .unit [] [] ∧ (d.1 ≠ [] ∨ d.2 ≠ [])) ∨
    (d = ([], []) ∧ ((a = .wait d () ∧ (ms ≠ 0 → ∃ r, Timeval.remaining (Timeval.future t0.locked ms) now = .ok r ∧ 0 < r)) ∨
      (a = .spin d ∧ ms ≠ 0))) := by
  unfold eitherBody at h
  split at h
  · next he =>
    have hd : d = ([], []) := by
      obtain ⟨a, b⟩ := d
      have h1 : a = [] := List.eq_nil_of_length_eq_zero he.1
      have h2 : b = [] := List.eq_nil_of_length_eq_zero he.2
      rw [h1, h2]
    right
    refine ⟨hd, ?_⟩
    split at h
    · next hm =>
      split at h
      · next r hr =>
        cases h
        by_cases hr0 : r ≤ 0
        · right
          exact ⟨by unfold timedWait; rw [if_pos hr0], hm⟩
        · rcases timedWait_cases (R := QRes) now r d () with e | e
          · rw [e]; left; exact ⟨rfl, fun _ => ⟨r, hr, by omega⟩⟩
          · rw [e]; right; exact ⟨rfl, hm⟩
      · cases h
    · next hm => cases h; left; exact ⟨rfl, fun h => absurd h hm⟩
  · next he =>
    cases h
    left
    refine ⟨rfl, ?_⟩
    by_contra hn
    apply he
    constructor
    · by_cases h1 : d.1 = []
      · rw [h1]; rfl
      · exact absurd (.inl h1) hn
    · by_cases h2 : d.2 = []
      · rw [h2]; rfl
      · exact absurd (.inr h2) hn

/-! ### C25 -/

/-- C25: `iqWaitForEither` returns only at an instant at which one of the queues is not empty (any threads, any interleaving). -/
theorem C25_returns_only_nonempty {n : Nat} {now : Clock} {ok : Fin n → POp → Prop} {s : St n Both WS POp QRes} (h : Reach pair ok (init n now ([], [])) s)
    {t : Fin n} {ms : Nat} {t0 : Stamp} {nw : Clock} {d : Both} {r : QRes} (he : Ev.lin t (.waitEither ms) t0 nw d r ∈ s.tr) : d.1 ≠ [] ∨ d.2 ≠ [] := by
  have key := lin_invariant (fun op t0 nw d r => ∀ ms, op = .waitEither ms → d.1 ≠ [] ∨ d.2 ≠ []) ?_ h he ms rfl
  · exact key
  · rintro s hs op t0 d' r i o hb ms rfl
    rcases eitherBody_cases (show eitherBody ms t0 s.now s.data = some _ from hb) with ⟨-, e⟩ | ⟨-, ⟨e, -⟩ | ⟨e, -⟩⟩
    · exact e
    · cases e
    · cases e

/-- C25, partial: whenever it looks and finds something in either queue, it returns.  Missing: the timeout, see `C25_timeout_refuted`. -/
theorem C25_returns_when_nonempty_partial {n : Nat} {s s' : St n Both WS POp QRes} {t : Fin n} {ms : Nat} {t0 : Stamp}
    (he : s.th t = .holding (.waitEither ms) t0) (hq : s.data.1 ≠ [] ∨ s.data.2 ≠ []) (st : Step pair s (.body t) s') :
    s'.th t = .inLock (.waitEither ms) .unit [] [] ∧ s'.data = s.data := by
  have hb : ∀ a, pair.body (.waitEither ms) t0 s.now s.data a → a = .done s.data .unit [] [] := by
    intro a ha
    rcases eitherBody_cases (show eitherBody ms t0 s.now s.data = some _ from ha) with ⟨e, -⟩ | ⟨e, -⟩
    · exact e
    · rw [e] at hq; rcases hq with h | h <;> exact absurd rfl h
  cases st with
  | bodyDone _ op t0' d r i o e ho hbd =>
    rw [he] at e; cases e
    cases hb _ hbd
    exact ⟨by simp, rfl⟩
  | bodyWait _ op t0' d c e ho hbd => rw [he] at e; cases e; cases hb _ hbd
  | bodySpin _ op t0' d e ho hbd => rw [he] at e; cases e; cases hb _ hbd

/-- C25: an execution meeting the hypotheses of both theorems: thread 1 writes to the second queue, thread 0 then waits for either, looks, and returns. -/
example : ∃ s : St 2 Both WS POp QRes, Reach pair (fun _ op => PNonNull op) (init 2 ⟨5, 0⟩ ([], [])) s ∧ s.data = ([], [some 3]) ∧
    s.th 0 = .inLock (.waitEither 10) .unit [] [] := by
  have h : (match exec pbody (init 2 ⟨5, 0⟩ ([], [])) ([.start 1 (.on true (.write (some 3))), .lock 1, .body 1, .unlock 1, .notify 1 none, .ret 1,
      .start 0 (.waitEither 10), .lock 0, .body 0] : List (Cmd 2 POp)) with
    | some s => (match s.th 0 with
      | .inLock (.waitEither ms) .unit [] [] => decide (ms = 10 ∧ s.data = ([], [some 3]))
      | _ => false)
    | none => false) = true := by decide
  split at h
  · next s hs =>
    split at h
    · next e0 =>
      obtain ⟨rfl, hd⟩ := of_decide_eq_true h
      refine ⟨s, exec_reach hs .refl ?_, hd, e0⟩
      intro t op hm
      simp at hm
      rcases hm with ⟨-, rfl⟩ | ⟨-, rfl⟩ <;> simp [PNonNull, NonNull]
    · cases h
  · cases h

/-- Executions in which the clock does not go backwards and stays within 24 days of the deadline of a wait of `ms` milliseconds that got the lock at `t1`. -/
inductive Runs {n : Nat} (t1 : Clock) (ms : Nat) (s0 : St n Both WS POp QRes) : St n Both WS POp QRes → Prop where
  | refl : Runs t1 ms s0 s0
  | step {s l s'} : Runs t1 ms s0 s → Step pair s l s' → Timeval.micros s.now ≤ Timeval.micros s'.now → Near t1 ms s'.now → Runs t1 ms s0 s'

/-- Stuck in `iqWaitForEither`: holds the lock, both queues empty, deadline passed. -/
def Spinning {n : Nat} (t : Fin n) (ms : Nat) (t0 : Stamp) (s : St n Both WS POp QRes) : Prop :=
  s.th t = .holding (.waitEither ms) t0 ∧ s.owner = some t ∧ s.data = ([], []) ∧ Near t0.locked ms s.now ∧
    Timeval.micros t0.locked + 1000 * ms ≤ Timeval.micros s.now

theorem spinning_step {n : Nat} {t : Fin n} {ms : Nat} {t0 : Stamp} {s s' : St n Both WS POp QRes} {l : Lbl n POp} (hm : ms ≠ 0) (h : Spinning t ms t0 s)
    (st : Step pair s l s') (hle : Timeval.micros s.now ≤ Timeval.micros s'.now) (hnear : Near t0.locked ms s'.now) : Spinning t ms t0 s' := by
  obtain ⟨h1, h2, h3, ⟨n0, nn, hr⟩, h5⟩ := h
  have other : ∀ t' x, s.th t' ≠ .holding (.waitEither ms) t0 → Function.update s.th t' x t = .holding (.waitEither ms) t0 := by
    intro t' x hne
    have q : t ≠ t' := by rintro rfl; exact hne h1
    rw [upd_ne _ _ _ _ q]; exact h1
  have hb : ∀ a, pair.body (.waitEither ms) t0 s.now s.data a → a = .spin s.data := by
    intro a ha
    obtain ⟨r2, hr2, h3', h4'⟩ := remaining_future t0.locked s.now ms n0 nn hr
    rcases eitherBody_cases (show eitherBody ms t0 s.now s.data = some _ from ha) with ⟨-, e⟩ | ⟨-, ⟨-, e⟩ | ⟨e, -⟩⟩
    · rw [h3] at e; rcases e with e | e <;> exact absurd rfl e
    · obtain ⟨r, hr', hpos⟩ := e hm
      rw [hr2] at hr'; cases hr'; omega
    · exact e
  have fin : ∀ s'' : St n Both WS POp QRes, s''.now = s.now → s''.th t = .holding (.waitEither ms) t0 → s''.owner = some t → s''.data = ([], []) → Spinning t ms t0 s'' := by
    intro s'' e1 e2 e3 e4
    exact ⟨e2, e3, e4, by rw [e1]; exact ⟨n0, nn, hr⟩, by rw [e1]; exact h5⟩
  cases st with
  | start t' op e => exact fin _ rfl (other t' _ (by rw [e]; intro q; cases q)) h2 h3
  | lock t' op t0' e ho => rw [h2] at ho; cases ho
  | bodyDone t' op t0' d r i o e ho hbd =>
    rw [h2] at ho; cases ho
    rw [h1] at e; cases e
    cases hb _ hbd
  | bodyWait t' op t0' d c e ho hbd =>
    rw [h2] at ho; cases ho
    rw [h1] at e; cases e
    cases hb _ hbd
  | bodySpin t' op t0' d e ho hbd =>
    rw [h2] at ho; cases ho
    rw [h1] at e; cases e
    cases hb _ hbd
    exact fin _ rfl h1 h2 h3
  | spurious t' op t0' c e => exact fin _ rfl (other t' _ (by rw [e]; intro q; cases q)) h2 h3
  | relock t' op t0' e ho => rw [h2] at ho; cases ho
  | signalIn t' op r c i o u op' t0' e eu =>
    have q : t ≠ u := by rintro rfl; rw [h1] at eu; cases eu
    refine fin _ rfl ?_ h2 h3
    show Function.update _ u _ t = _
    rw [upd_ne _ _ _ _ q]; exact other t' _ (by rw [e]; intro q; cases q)
  | signalInNone t' op r c i o e eu => exact fin _ rfl (other t' _ (by rw [e]; intro q; cases q)) h2 h3
  | bcastIn t' op r c i o e =>
    have q : t ≠ t' := by rintro rfl; rw [h1] at e; cases e
    refine fin _ rfl ?_ h2 h3
    show Function.update (fun u => (s.th u).wake c) t' _ t = _
    rw [upd_ne _ _ _ _ q, h1]; rfl
  | unlock t' op r o e ho =>
    rw [h2] at ho; cases ho
    rw [h1] at e; cases e
  | signalOut t' op r c o u op' t0' e eu =>
    have q : t ≠ u := by rintro rfl; rw [h1] at eu; cases eu
    refine fin _ rfl ?_ h2 h3
    show Function.update _ u _ t = _
    rw [upd_ne _ _ _ _ q]; exact other t' _ (by rw [e]; intro q; cases q)
  | signalOutNone t' op r c o e eu => exact fin _ rfl (other t' _ (by rw [e]; intro q; cases q)) h2 h3
  | bcastOut t' op r c o e =>
    have q : t ≠ t' := by rintro rfl; rw [h1] at e; cases e
    refine fin _ rfl ?_ h2 h3
    show Function.update (fun u => (s.th u).wake c) t' _ t = _
    rw [upd_ne _ _ _ _ q, h1]; rfl
  | ret t' op r e => exact fin _ rfl (other t' _ (by rw [e]; intro q; cases q)) h2 h3
  | tick now => exact ⟨h1, h2, h3, hnear, by have : Timeval.micros s.now ≤ Timeval.micros now := hle; show _ ≤ Timeval.micros now; omega⟩

/-- The execution: thread 0 waits for at most 10 ms; after 20 ms it looks again. -/
def lateSchedule : List (Cmd 2 POp) :=
  [.start 0 (.waitEither 10), .lock 0, .body 0, .tick ⟨5, 20000⟩, .spurious 0, .relock 0, .body 0]

/-- C25 (negation of the timeout part): there is an execution in which the deadline of `iqWaitForEither` passes and from then on, whatever the other threads do,
the call does not return: it loops holding the lock, so that no writer can ever add an item either. -/
theorem C25_timeout_refuted : ∃ s : St 2 Both WS POp QRes, Reach pair (fun _ op => PNonNull op) (init 2 ⟨5, 0⟩ ([], [])) s ∧
    Timeval.micros ⟨5, 0⟩ + 1000 * 10 < Timeval.micros s.now ∧
    ∀ s', Runs ⟨5, 0⟩ 10 s s' → s'.th 0 = .holding (.waitEither 10) ⟨⟨5, 0⟩, ⟨5, 0⟩⟩ ∧ s'.owner = some 0 ∧ s'.data = ([], []) := by
  have h : (match exec pbody (init 2 ⟨5, 0⟩ ([], [])) lateSchedule with
    | some s => (match s.th 0 with
      | .holding (.waitEither ms) t0 => decide (ms = 10 ∧ t0 = ⟨⟨5, 0⟩, ⟨5, 0⟩⟩ ∧ s.now = ⟨5, 20000⟩ ∧ s.owner = some 0 ∧ s.data = ([], []))
      | _ => false)
    | none => false) = true := by decide
  split at h
  · next s hs =>
    split at h
    · next ms t0 e =>
      obtain ⟨rfl, rfl, hn, ho, hd⟩ := of_decide_eq_true h
      refine ⟨s, exec_reach hs .refl ?_, by rw [hn]; decide, ?_⟩
      · intro t op hm
        simp [lateSchedule] at hm
        rw [hm.2]; trivial
      · intro s' hr
        have : Spinning (0 : Fin 2) 10 ⟨⟨5, 0⟩, ⟨5, 0⟩⟩ s' := by
          induction hr with
          | refl => exact ⟨e, ho, hd, by rw [hn]; exact ⟨by decide, by decide, by decide, by decide⟩, by rw [hn]; decide⟩
          | step _ st hle hnear ih => exact spinning_step (by decide) ih st hle hnear
        exact ⟨this.1, this.2.1, this.2.2.1⟩
    · cases h
  · cases h

/-! ### C33 -/

/-- C33 (negation): after `a.iqConnect(b)` the lock handed out by `a.qGetLock()` is not the one readers and writers take; holding it excludes nobody. -/
theorem C33_client_lock_refuted (ma mb : Nat) (h : ma ≠ mb) :
    ((Locks.new ma).connect (Locks.new mb)).qGetLock ≠ ((Locks.new ma).connect (Locks.new mb)).used := h

/-- C33 (negation): connecting is not symmetric or permanent: if `b` is connected elsewhere afterwards, `a` and `b` use different locks. -/
theorem C33_reconnect_refuted (ma mb mc : Nat) (h : mb ≠ mc) :
    ((Locks.new ma).connect (Locks.new mb)).used ≠ ((Locks.new mb).connect (Locks.new mc)).used := h

/-- The queues (named by numbers, each with its own mutex) after the calls `a.iqConnect(b)` of a history, newest first. -/
def connected : List (Nat × Nat) → Nat → Locks
  | [] => Locks.new
  | (a, b) :: old => fun q => if q = a then (connected old a).connect (connected old b) else connected old q

/-- Specification: no queue is connected after it took part in an earlier connection, so every group grows from its first member. -/
def Orderly : List (Nat × Nat) → Prop
  | [] => True
  | (a, b) :: old => a ≠ b ∧ (∀ c ∈ old, a ≠ c.1 ∧ a ≠ c.2) ∧ Orderly old

/-- C33, partial: with any number of queues, if every queue is connected before others are connected to it, the methods of all queues of a group use one lock.
Missing: other orders, see `C33_reconnect_refuted`. -/
theorem C33_group_partial (h : List (Nat × Nat)) (ho : Orderly h) : ∀ c ∈ h, (connected h c.1).used = (connected h c.2).used := by
  induction h with
  | nil => simp
  | cons e old ih =>
    obtain ⟨a, b⟩ := e
    obtain ⟨h1, h2, h3⟩ := ho
    intro c hc
    rcases List.mem_cons.1 hc with rfl | hc
    · simp only [connected, if_true, if_neg (Ne.symm h1)]
      rfl
    · obtain ⟨n1, n2⟩ := h2 c hc
      simp only [connected, if_neg (Ne.symm n1), if_neg (Ne.symm n2)]
      exact ih h3 c hc

theorem connected_fixed {h : List (Nat × Nat)} {q : Nat} (hq : ∀ c ∈ h, c.1 ≠ q) : connected h q = Locks.new q := by
  induction h with
  | nil => rfl
  | cons e old ih =>
    have h1 := hq e (List.mem_cons_self ..)
    simp only [connected, if_neg (Ne.symm h1)]
    exact ih fun c hc => hq c (List.mem_cons_of_mem _ hc)

theorem connected_mLock (h : List (Nat × Nat)) (q : Nat) : (connected h q).mLock = q := by
  induction h with
  | nil => rfl
  | cons e old ih =>
    simp only [connected]
    split
    · next e1 => subst e1; exact ih
    · exact ih

/-- The lock a queue uses is its own or that of a queue which took part in a connection. -/
theorem connected_used (h : List (Nat × Nat)) (q : Nat) : (connected h q).used = q ∨ ∃ c ∈ h, (connected h q).used = c.1 ∨ (connected h q).used = c.2 := by
  induction h generalizing q with
  | nil => exact .inl rfl
  | cons e old ih =>
    simp only [connected]
    split
    · have : ((connected old e.1).connect (connected old e.2)).used = (connected old e.2).used := rfl
      rw [this]
      rcases ih e.2 with h | ⟨c, hc, h⟩
      · exact .inr ⟨e, List.mem_cons_self .., .inr h⟩
      · exact .inr ⟨c, List.mem_cons_of_mem _ hc, h⟩
    · rcases ih q with h | ⟨c, hc, h⟩
      · exact .inl h
      · exact .inr ⟨c, List.mem_cons_of_mem _ hc, h⟩

/-- C33, partial: after any calls of `iqConnect`, the lock handed out by `qGetLock` of a queue on which `iqConnect` was never called is the one its methods use, and
its own.  If every queue is connected before others are connected to it, these are the only queues of which it is: missing are the others, see `C33_client_lock_refuted`. -/
theorem C33_client_lock_partial (h : List (Nat × Nat)) (q : Nat) :
    ((∀ c ∈ h, c.1 ≠ q) → (connected h q).qGetLock = (connected h q).used ∧ (connected h q).used = q) ∧
    (Orderly h → ((connected h q).qGetLock = (connected h q).used ↔ ∀ c ∈ h, c.1 ≠ q)) := by
  have first : (∀ c ∈ h, c.1 ≠ q) → (connected h q).qGetLock = (connected h q).used ∧ (connected h q).used = q := by
    intro hq
    rw [connected_fixed hq]
    exact ⟨rfl, rfl⟩
  refine ⟨first, fun ho => ⟨fun e => ?_, fun hq => (first hq).1⟩⟩
  replace e : (connected h q).used = q := by rw [← e]; exact connected_mLock h q
  clear first
  induction h with
  | nil => simp
  | cons x old ih =>
    obtain ⟨a, b⟩ := x
    obtain ⟨h1, h2, h3⟩ := ho
    by_cases hqa : q = a
    · subst hqa
      simp only [connected, if_true] at e
      have e : (connected old b).used = q := e
      rcases connected_used old b with h | ⟨c, hc, h⟩
      · exact absurd (e.symm.trans h) h1
      · obtain ⟨n1, n2⟩ := h2 c hc
        rcases h with h | h
        · exact absurd (e.symm.trans h) n1
        · exact absurd (e.symm.trans h) n2
    · simp only [connected, if_neg hqa] at e
      intro c hc
      rcases List.mem_cons.1 hc with rfl | hc
      · exact fun h => hqa h.symm
      · exact ih h3 e c hc

/-- C33: three queues on one lock. -/
example : Orderly [(3, 2), (2, 1)] ∧ (connected [(3, 2), (2, 1)] 3).used = 1 := by
  refine ⟨⟨by decide, by decide, by decide, by decide, trivial⟩, by decide⟩

/-- Reader 0 waits on the first queue, reader 1 on the second; an item for the second queue wakes reader 0. -/
def wrongReader : List (Cmd 3 POp) :=
  [.start 0 (.on false .read), .lock 0, .body 0, .start 1 (.on true .read), .lock 1, .body 1,
   .start 2 (.on true (.write (some 9))), .lock 2, .body 2, .unlock 2, .notify 2 (some 0), .ret 2, .relock 0, .body 0]

/-- C33 (negation of the wakeup part): with readers blocked on both queues the one signal may wake the wrong reader; the other one then waits forever (no thread
is active) although an item is in its queue. -/
theorem C33_wakeup_refuted : ∃ s : St 3 Both WS POp QRes, Reach pair (fun _ op => PNonNull op) (init 3 ⟨5, 0⟩ ([], [])) s ∧ Settled s ∧
    s.th 1 = .waiting (.on true .read) ⟨⟨5, 0⟩, ⟨5, 0⟩⟩ () ∧ s.data.2 = [some 9] := by
  have h : (match exec pbody (init 3 ⟨5, 0⟩ ([], [])) wrongReader with
    | some s => (match s.th 0, s.th 1, s.th 2 with
      | .waiting _ _ (), .waiting (.on true .read) t0 (), .idle => decide (t0 = ⟨⟨5, 0⟩, ⟨5, 0⟩⟩ ∧ s.data = ([], [some 9]))
      | _, _, _ => false)
    | none => false) = true := by decide
  split at h
  · next s hs =>
    split at h
    · next e0 e1 e2 =>
      obtain ⟨rfl, hd⟩ := of_decide_eq_true h
      refine ⟨s, exec_reach hs .refl ?_, ?_, e1, by rw [hd]⟩
      · intro t op hm
        simp [wrongReader] at hm
        rcases hm with ⟨-, rfl⟩ | ⟨-, rfl⟩ | ⟨-, rfl⟩ <;> simp [PNonNull, NonNull]
      · intro t
        have : t = 0 ∨ t = 1 ∨ t = 2 := by omega
        rcases this with rfl | rfl | rfl
        · exact .inr ⟨_, _, _, e0⟩
        · exact .inr ⟨_, _, _, e1⟩
        · exact .inl e2
    · cases h
  · cases h

/-- Calls that can block. -/
def PBlocks : POp → Prop
  | .on _ op => consumes op = true
  | .waitEither _ => True

/-- Has the call something to return with? -/
def PReady : POp → Both → Prop
  | .on i _, d => d.get i ≠ []
  | .waitEither _, d => d.1 ≠ [] ∨ d.2 ≠ []

theorem both_set_get (d : Both) (i j : Bool) (q : List Val) : (d.set i q).get j = if j = i then q else d.get j := by
  cases i <;> cases j <;> rfl

/-- No NULL in the queues. -/
def PClean (d : Both) : Prop := ∃ q q' : List Nat, d = (q.map some, q'.map some)

theorem PClean.get {d : Both} (h : PClean d) (i : Bool) : ∃ q : List Nat, d.get i = q.map some := by
  obtain ⟨q, q', rfl⟩ := h
  cases i
  · exact ⟨q, rfl⟩
  · exact ⟨q', rfl⟩

theorem PClean.set {d : Both} (h : PClean d) (i : Bool) (q : List Nat) : PClean (d.set i (q.map some)) := by
  obtain ⟨a, b, rfl⟩ := h
  cases i
  · exact ⟨q, b, rfl⟩
  · exact ⟨a, q, rfl⟩

/-- A pass of a queue operation keeps the queue free of NULL. -/
theorem qclean {op : QOp} {t0 : Stamp} {nw : Clock} {q : List Nat} {d' : List Val} {r : QRes} {i o : List (Sig WS)} (hk : NonNull op)
    (hb : qbody op t0 nw (q.map some) = some (.done d' r i o)) : ∃ q' : List Nat, d' = q'.map some := by
  cases op with
  | write v =>
    cases v with
    | none => exact absurd rfl hk
    | some v => cases hb; exact ⟨q ++ [v], by simp⟩
  | writeFront v =>
    cases v with
    | none => exact absurd rfl hk
    | some v => cases hb; exact ⟨v :: q, by simp⟩
  | read =>
    simp only [qbody] at hb
    split at hb
    · cases hb
    · rw [getQ_map] at hb; cases hb; exact ⟨q.tail, rfl⟩
  | readT ms =>
    rcases readTimed_cases (show readTimed ms t0 nw (q.map some) = some _ from hb) with ⟨e, -⟩ | ⟨e0, -, r', -, ⟨-, e⟩ | ⟨-, e | e⟩⟩
    · rw [getQ_map] at e; cases e; exact ⟨q.tail, rfl⟩
    · cases e; exact ⟨q, rfl⟩
    · cases e
    · cases e
  | readNoBlock => simp only [qbody, getQ_map] at hb; cases hb; exact ⟨q.tail, rfl⟩
  | front => simp only [qbody] at hb; cases hb; exact ⟨q, rfl⟩
  | size => simp only [qbody] at hb; cases hb; exact ⟨q, rfl⟩
  | clear => simp only [qbody] at hb; cases hb; exact ⟨[], rfl⟩
  | flush => simp only [qbody] at hb; cases hb; exact ⟨[], rfl⟩

/-- The possible passes on one of the queues. -/
theorem on_cases {i : Bool} {op : QOp} {t0 : Stamp} {nw : Clock} {d : Both} {a : Act Both WS QRes} (h : pair.body (.on i op) t0 nw d a) :
    (∃ q r inner outer, qbody op t0 nw (d.get i) = some (.done q r inner outer) ∧ a = .done (d.set i q) r inner outer) ∨
    (∃ q c, qbody op t0 nw (d.get i) = some (.wait q c) ∧ a = .wait (d.set i q) c) ∨
    (∃ q, qbody op t0 nw (d.get i) = some (.spin q) ∧ a = .spin (d.set i q)) := by
  have h : pbody (.on i op) t0 nw d = some a := h
  simp only [pbody] at h
  split at h
  · next q r inner outer e => cases h; exact .inl ⟨_, _, _, _, e, rfl⟩
  · next q c e => cases h; exact .inr (.inl ⟨_, _, e, rfl⟩)
  · next q e => cases h; exact .inr (.inr ⟨_, e, rfl⟩)
  · cases h

theorem both_set_self (d : Both) (i : Bool) : d.set i (d.get i) = d := by
  cases i <;> rfl

theorem pair_clean {n : Nat} {now : Clock} {ok : Fin n → POp → Prop} (hok : ∀ t op, ok t op → PNonNull op) {s : St n Both WS POp QRes}
    (h : Reach pair ok (init n now ([], [])) s) : PClean s.data := by
  refine data_invariant (fun d _ => PClean d) ⟨[], [], rfl⟩ ?_ ?_ ?_ h
  · rintro t op t0 nw d d' r i o es hk hp hb
    cases op with
    | on j op =>
      rcases on_cases hb with ⟨q, r, inner, outer, hq, e⟩ | ⟨q, c, -, e⟩ | ⟨q, -, e⟩
      · cases e
        obtain ⟨p, hp'⟩ := hp.get j
        rw [hp'] at hq
        obtain ⟨q', rfl⟩ := qclean (hok _ _ hk) hq
        exact hp.set j q'
      · cases e
      · cases e
    | waitEither ms =>
      rcases eitherBody_cases (show eitherBody ms t0 nw d = some _ from hb) with ⟨e, -⟩ | ⟨-, ⟨e, -⟩ | ⟨e, -⟩⟩
      · cases e; exact hp
      · cases e
      · cases e
  · rintro t op t0 nw d d' c es hk hp hb
    cases op with
    | on j op =>
      rcases on_cases hb with ⟨q, r, inner, outer, hq, e⟩ | ⟨q, c, hq, e⟩ | ⟨q, -, e⟩
      · cases e
      · cases e
        obtain ⟨p, hp'⟩ := hp.get j
        have := (wait_same hp' hq).2.1
        rw [this]; exact hp.set j []
      · cases e
    | waitEither ms =>
      rcases eitherBody_cases (show eitherBody ms t0 nw d = some _ from hb) with ⟨e, -⟩ | ⟨-, ⟨e, -⟩ | ⟨e, -⟩⟩
      · cases e
      · cases e; exact hp
      · cases e
  · rintro t op t0 nw d d' es hk hp hb
    cases op with
    | on j op =>
      rcases on_cases hb with ⟨q, r, inner, outer, hq, e⟩ | ⟨q, c, hq, e⟩ | ⟨q, hq, e⟩
      · cases e
      · cases e
      · cases e
        rw [spin_same hq, both_set_self]; exact hp
    | waitEither ms =>
      rcases eitherBody_cases (show eitherBody ms t0 nw d = some _ from hb) with ⟨e, -⟩ | ⟨-, ⟨e, -⟩ | ⟨e, -⟩⟩
      · cases e
      · cases e
      · cases e; exact hp

/-- C33 (wakeup), partial: if only one thread `w` makes calls that can block (it reads from either queue or waits for either), no wakeup is lost: when all other
activity has ended, the queue it waits on is empty.  Missing: several blocked threads, see `C33_wakeup_refuted`. -/
theorem C33_wakeup_partial {n : Nat} {now : Clock} (w : Fin n) {s : St n Both WS POp QRes}
    (h : Reach pair (fun t op => PNonNull op ∧ (PBlocks op → t = w)) (init n now ([], [])) s) (hs : Settled s) {op : POp} {t0 : Stamp}
    (hw : s.th w = .waiting op t0 ()) : ¬ PReady op s.data := by
  have hinv : Announced () True PReady s := by
    refine no_lost_broadcast () True PReady PClean (fun s hs => pair_clean (fun t op h => h.1) hs) ?_ ?_ ?_ ?_ h
    · -- only `w` waits
      intro _ s hs v v' a b a' b' e e'
      have key : ∀ v a b, s.th v = .waiting a b () → PBlocks a := by
        intro v a b e
        refine waiting_invariant () PBlocks ?_ hs e
        intro s hs op t0 d' hb
        cases op with
        | on j op =>
          rcases on_cases hb with ⟨q, r, inner, outer, hq, e⟩ | ⟨q, c, hq, e⟩ | ⟨q, -, e⟩
          · cases e
          · obtain ⟨p, hp'⟩ := (pair_clean (fun t op h => h.1) hs).get j
            rcases (wait_same hp' hq).2.2 with rfl | ⟨ms, hm, rfl⟩
            · rfl
            · simp [PBlocks, consumes, hm]
          · cases e
        | waitEither ms => trivial
      have h1 := (reach_ok hs v a (by rw [e]; rfl)).2 (key v a b e)
      have h2 := (reach_ok hs v' a' (by rw [e']; rfl)).2 (key v' a' b' e')
      rw [h1, h2]
    · -- whatever makes somebody ready sends a signal
      rintro t op t0 nw d d' r i o hk hcl hb
      have sub : ∀ (j : Bool) (q : List Val), (q ≠ [] → d.get j ≠ []) → ∀ op', PReady op' (d.set j q) → PReady op' d := by
        intro j q hq op' hrd
        cases op' with
        | on k op' =>
          have hrd' : (d.set j q).get k ≠ [] := hrd
          rw [both_set_get] at hrd'
          show d.get k ≠ []
          by_cases e : k = j
          · rw [if_pos e] at hrd'; rw [e]; exact hq hrd'
          · rw [if_neg e] at hrd'; exact hrd'
        | waitEither ms =>
          cases j with
          | false =>
            rcases hrd with hrd | hrd
            · exact .inl (hq hrd)
            · exact .inr hrd
          | true =>
            rcases hrd with hrd | hrd
            · exact .inl hrd
            · exact .inr (hq hrd)
      cases op with
      | on j op =>
        rcases on_cases hb with ⟨q, r, inner, outer, hq, e⟩ | ⟨q, c, -, e⟩ | ⟨q, -, e⟩
        · cases e
          have tl : ∀ p : List Val, (getQ p).2 ≠ [] → p ≠ [] := by intro p h; rintro rfl; exact h rfl
          cases op with
          | write v => cases hq; exact .inl ⟨.one (), by simp, ⟨rfl, trivial⟩⟩
          | writeFront v => cases hq; exact .inl ⟨.one (), by simp, ⟨rfl, trivial⟩⟩
          | read =>
            simp only [qbody] at hq
            split at hq
            · cases hq
            · cases hq; exact .inr (sub j _ (tl _))
          | readT ms =>
            rcases readTimed_cases (show readTimed ms t0 nw (d.get j) = some _ from hq) with ⟨e, -⟩ | ⟨e0, -, r', -, ⟨-, e⟩ | ⟨-, e | e⟩⟩
            · cases e; exact .inr (sub j _ (tl _))
            · cases e; exact .inr (sub j _ (fun h => h))
            · cases e
            · cases e
          | readNoBlock => simp only [qbody] at hq; cases hq; exact .inr (sub j _ (tl _))
          | front => simp only [qbody] at hq; cases hq; exact .inr (sub j _ (fun h => h))
          | size => simp only [qbody] at hq; cases hq; exact .inr (sub j _ (fun h => h))
          | clear => simp only [qbody] at hq; cases hq; exact .inr (sub j _ (fun h => absurd rfl h))
          | flush => simp only [qbody] at hq; cases hq; exact .inr (sub j _ (fun h => absurd rfl h))
        · cases e
        · cases e
      | waitEither ms =>
        rcases eitherBody_cases (show eitherBody ms t0 nw d = some _ from hb) with ⟨e, -⟩ | ⟨-, ⟨e, -⟩ | ⟨e, -⟩⟩
        · cases e; exact .inr (fun _ h => h)
        · cases e
        · cases e
    · -- nobody waits while ready
      rintro t op t0 nw d d' c hk hcl hb
      cases op with
      | on j op =>
        rcases on_cases hb with ⟨q, r, inner, outer, hq, e⟩ | ⟨q, c, hq, e⟩ | ⟨q, -, e⟩
        · cases e
        · cases e
          obtain ⟨p, hp'⟩ := hcl.get j
          obtain ⟨h1, h2, -⟩ := wait_same hp' hq
          have hset : d.set j q = d := by rw [h2, ← h1, both_set_self]
          rw [hset]
          exact ⟨fun _ h => h h1, fun _ h => h⟩
        · cases e
      | waitEither ms =>
        rcases eitherBody_cases (show eitherBody ms t0 nw d = some _ from hb) with ⟨e, -⟩ | ⟨he, ⟨e, -⟩ | ⟨e, -⟩⟩
        · cases e
        · cases e
          refine ⟨fun _ h => ?_, fun _ h => h⟩
          rw [he] at h; rcases h with h | h <;> exact h rfl
        · cases e
    · rintro t op t0 nw d d' hk hcl hb op' hrd
      cases op with
      | on j op =>
        rcases on_cases hb with ⟨q, r, inner, outer, hq, e⟩ | ⟨q, c, hq, e⟩ | ⟨q, hq, e⟩
        · cases e
        · cases e
        · cases e
          rw [spin_same hq, both_set_self] at hrd; exact hrd
      | waitEither ms =>
        rcases eitherBody_cases (show eitherBody ms t0 nw d = some _ from hb) with ⟨e, -⟩ | ⟨-, ⟨e, -⟩ | ⟨e, -⟩⟩
        · cases e
        · cases e
        · cases e; exact hrd
  exact settled_announced hinv hs hw

/-- C33: an execution meeting the hypotheses: thread 0 waits for either queue, thread 1 writes to the second. -/
example : ∃ s : St 2 Both WS POp QRes, Reach pair (fun t op => PNonNull op ∧ (PBlocks op → t = 0)) (init 2 ⟨5, 0⟩ ([], [])) s ∧ Settled s ∧
    s.th 0 = .waiting (.waitEither 0) ⟨⟨5, 0⟩, ⟨5, 0⟩⟩ () := by
  have h : (match exec pbody (init 2 ⟨5, 0⟩ ([], [])) ([.start 1 (.on true (.write (some 3))), .lock 1, .body 1, .unlock 1, .notify 1 none, .ret 1,
      .start 0 (.on true .read), .lock 0, .body 0, .unlock 0, .ret 0, .start 0 (.waitEither 0), .lock 0, .body 0] : List (Cmd 2 POp)) with
    | some s => (match s.th 0, s.th 1 with
      | .waiting (.waitEither ms) t0 (), .idle => decide (ms = 0 ∧ t0 = ⟨⟨5, 0⟩, ⟨5, 0⟩⟩)
      | _, _ => false)
    | none => false) = true := by decide
  split at h
  · next s hs =>
    split at h
    · next e0 e1 =>
      obtain ⟨rfl, rfl⟩ := of_decide_eq_true h
      refine ⟨s, exec_reach hs .refl ?_, ?_, e0⟩
      · intro t op hm
        simp at hm
        rcases hm with ⟨rfl, rfl⟩ | ⟨rfl, rfl⟩ | ⟨rfl, rfl⟩ <;> simp [PNonNull, NonNull, PBlocks, consumes]
      · intro t
        have : t = 0 ∨ t = 1 := by omega
        rcases this with rfl | rfl
        · exact .inr ⟨_, _, _, e0⟩
        · exact .inl e1
    · cases h
  · cases h

end Verif.Interthread
