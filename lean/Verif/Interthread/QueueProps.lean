import Verif.Monitor.Wakeup
import Verif.Interthread.Queue
import Verif.Timeval.Props

/-
Properties C22, C23, C24.
-/

namespace Verif.Interthread
open Verif Verif.Monitor

/-! ### Specification: an ideal queue of items -/

/-- One call on an ideal queue: the contents afterwards, if the result is the one an ideal queue gives. -/
def idealStep (q : List Nat) : QOp × QRes → Option (List Nat)
  | (.write (some v), .unit) => some (q ++ [v])
  | (.writeFront (some v), .unit) => some (v :: q)
  | (.read, .ptr (some v)) => if q.head? = some v then some q.tail else none
  | (.readT _, .ptr p) => if p = q.head? then some q.tail else none
  | (.readNoBlock, .ptr p) => if p = q.head? then some q.tail else none
  | (.front, .ptr p) => if p = q.head? then some q else none
  | (.size, .num k) => if k = q.length then some q else none
  | (.clear, .removed l) => if l = q.map some then some [] else none
  | (.flush, .removed l) => if l = q.map some then some [] else none
  | _ => none

/-- A sequence of calls on an ideal queue. -/
def ideal (q : List Nat) : List (QOp × QRes) → Option (List Nat)
  | [] => some q
  | e :: es => match idealStep q e with
    | some q' => ideal q' es
    | none => none

theorem ideal_append (q q' : List Nat) (es : List (QOp × QRes)) (e : QOp × QRes) (h : ideal q es = some q') : ideal q (es ++ [e]) = idealStep q' e := by
  induction es generalizing q with
  | nil => cases h; simp only [ideal, List.nil_append]; split <;> simp_all
  | cons a es ih =>
    simp only [ideal, List.cons_append] at h ⊢
    cases h1 : idealStep q a with
    | none => rw [h1] at h; cases h
    | some q1 => rw [h1] at h; exact ih q1 h

theorem getQ_map (q : List Nat) : getQ (q.map some) = (q.head?, q.tail.map some) := by
  cases q <;> rfl

/-- The data of the queue is the ideal queue's contents after the effects so far. -/
def Refines (d : List Val) (es : List (QOp × QRes)) : Prop := ∃ q, ideal [] es = some q ∧ d = q.map some

theorem timedWait_cases {σ C R : Type} (now : Clock) (r : Int) (d : σ) (c : C) :
    timedWait (R := R) now r d c = .wait d c ∨ timedWait (R := R) now r d c = .spin d := by
  unfold timedWait
  split
  · exact .inr rfl
  · dsimp only
    split
    · exact .inl rfl
    · exact .inr rfl

/-- What one pass of `read(timeout)` can do. -/
theorem readTimed_cases {ms : Nat} {t0 : Stamp} {now : Clock} {q : List Val} {a : Act (List Val) WS QRes} (h : readTimed ms t0 now q = some a) :
    (a = .done (getQ q).2 (.ptr (getQ q).1) [] [] ∧ (ms = 0 ∨ q ≠ [])) ∨
    (q = [] ∧ ms ≠ 0 ∧ ∃ r, Timeval.remaining (Timeval.future t0.call ms) now = .ok r ∧
      ((r < 2 ∧ a = .done q (.ptr none) [] []) ∨ (2 ≤ r ∧ (a = .wait q () ∨ a = .spin q)))) := by
  unfold readTimed at h
  split at h
  · next h0 => cases h; exact .inl ⟨rfl, .inl h0⟩
  · next h0 =>
    split at h
    · next hl =>
      have hq : q = [] := List.eq_nil_of_length_eq_zero hl
      split at h
      · next r hr =>
        refine .inr ⟨hq, h0, r, hr, ?_⟩
        split at h
        · next h2 => cases h; exact .inl ⟨h2, rfl⟩
        · next h2 =>
          cases h
          exact .inr ⟨by omega, timedWait_cases now r q ()⟩
      · cases h
    · next hl => cases h; exact .inl ⟨rfl, .inr (by rintro rfl; exact hl rfl)⟩

theorem refines_done {op : QOp} {t0 : Stamp} {nw : Clock} {d d' : List Val} {r : QRes} {i o : List (Sig WS)} {es : List (QOp × QRes)} (hk : NonNull op)
    (h : Refines d es) (hb : queue.body op t0 nw d (.done d' r i o)) : Refines d' (es ++ [(op, r)]) := by
  obtain ⟨q, hq, rfl⟩ := h
  have hb : qbody op t0 nw (q.map some) = some (.done d' r i o) := hb
  unfold Refines
  rw [ideal_append _ _ _ _ hq]
  cases op with
  | write v =>
    cases v with
    | none => exact absurd rfl hk
    | some v => cases hb; exact ⟨_, rfl, by simp⟩
  | writeFront v =>
    cases v with
    | none => exact absurd rfl hk
    | some v => cases hb; exact ⟨_, rfl, by simp⟩
  | read =>
    simp only [qbody] at hb
    split at hb
    · cases hb
    · next hne =>
      rw [getQ_map] at hb hne
      cases q with
      | nil => exact absurd rfl hne
      | cons v q => cases hb; exact ⟨q, by simp [idealStep], rfl⟩
  | readT ms =>
    rcases readTimed_cases (show readTimed ms t0 nw (q.map some) = some _ from hb) with ⟨e, -⟩ | ⟨e0, -, r', -, ⟨-, e⟩ | ⟨-, e | e⟩⟩
    · rw [getQ_map] at e; cases e; exact ⟨q.tail, by simp [idealStep], rfl⟩
    · cases e
      have : q = [] := List.map_eq_nil_iff.mp e0
      subst this
      exact ⟨[], by simp [idealStep], rfl⟩
    · cases e
    · cases e
  | readNoBlock =>
    simp only [qbody, getQ_map] at hb
    cases hb; exact ⟨q.tail, by simp [idealStep], rfl⟩
  | front =>
    simp only [qbody, getQ_map] at hb
    cases hb; exact ⟨q, by simp [idealStep], rfl⟩
  | size =>
    simp only [qbody] at hb
    cases hb; exact ⟨q, by simp [idealStep], rfl⟩
  | clear =>
    simp only [qbody] at hb
    cases hb; exact ⟨[], by simp [idealStep], rfl⟩
  | flush =>
    simp only [qbody] at hb
    cases hb; exact ⟨[], by simp [idealStep], rfl⟩

/-- A pass that waits or spins does not change the queue. -/
theorem wait_same {op : QOp} {t0 : Stamp} {nw : Clock} {d d' : List Val} {c : WS} {q : List Nat} (hd : d = q.map some)
    (hb : queue.body op t0 nw d (.wait d' c)) : d = [] ∧ d' = [] ∧ (op = .read ∨ ∃ ms, ms ≠ 0 ∧ op = .readT ms) := by
  subst hd
  have hb : qbody op t0 nw (q.map some) = some (.wait d' c) := hb
  cases op with
  | read =>
    simp only [qbody] at hb
    split at hb
    · next hne =>
      rw [getQ_map] at hb hne
      cases q with
      | nil => cases hb; exact ⟨rfl, rfl, .inl rfl⟩
      | cons v q => cases hne
    · cases hb
  | readT ms =>
    rcases readTimed_cases (show readTimed ms t0 nw (q.map some) = some _ from hb) with ⟨e, -⟩ | ⟨e0, hm, r', -, ⟨-, e⟩ | ⟨-, e | e⟩⟩
    · cases e
    · cases e
    · cases e; exact ⟨e0, e0, .inr ⟨ms, hm, rfl⟩⟩
    · cases e
  | write _ | writeFront _ | readNoBlock | front | size | clear | flush => simp [qbody] at hb

theorem spin_same {op : QOp} {t0 : Stamp} {nw : Clock} {d d' : List Val} (hb : queue.body op t0 nw d (.spin d')) : d' = d := by
  have hb : qbody op t0 nw d = some (.spin d') := hb
  cases op with
  | read =>
    simp only [qbody] at hb
    split at hb <;> cases hb
  | readT ms =>
    rcases readTimed_cases (show readTimed ms t0 nw d = some _ from hb) with ⟨e, -⟩ | ⟨e0, hm, r', -, ⟨-, e⟩ | ⟨-, e | e⟩⟩
    · cases e
    · cases e
    · cases e
    · cases e; rfl
  | write _ | writeFront _ | readNoBlock | front | size | clear | flush => simp [qbody] at hb

/-! ### C22 -/

/-- Reachable states of `n` threads using the queue, never writing NULL. -/
abbrev QReach (n : Nat) (now : Clock) : St n (List Val) WS QOp QRes → Prop := Reach queue (fun _ op => NonNull op) (init n now [])

/-- C22: with any number of threads and any interleaving, the calls take effect one after the other exactly as on an ideal queue: the effects so far,
performed on an ideal queue in the order in which they happened, give the results that the calls return and leave what is in the queue now. -/
theorem C22_linearizable {n : Nat} {now : Clock} {s : St n (List Val) WS QOp QRes} (h : QReach n now s) :
    ∃ q, ideal [] (effects s.tr) = some q ∧ s.data = q.map some := by
  refine data_invariant Refines ⟨[], rfl, rfl⟩ (fun t op t0 nw d d' r i o es hk hp hb => refines_done hk hp hb) ?_ ?_ h
  · rintro t op t0 nw d d' c es hk ⟨q, hq, hd⟩ hb
    obtain ⟨h1, h2, -⟩ := wait_same hd hb
    exact ⟨q, hq, by rw [h2, ← hd, h1]⟩
  · rintro t op t0 nw d d' es hk ⟨q, hq, hd⟩ hb
    exact ⟨q, hq, by rw [spin_same hb, hd]⟩

/-- C22: every call takes effect exactly once, between its call and its return, and returns the result of that effect (per thread: call, effect, return, call, ...). -/
theorem C22_real_time {n : Nat} {now : Clock} {s : St n (List Val) WS QOp QRes} (h : QReach n now s) (t : Fin n) :
    Seq (s.tr.filter fun e => e.thread = t) (s.th t).phase := reach_lin h t

/-- Items written, in the order in which the writes took effect. -/
def written : List (QOp × QRes) → List Nat
  | [] => []
  | (.write (some v), _) :: es => v :: written es
  | (.writeFront (some v), _) :: es => v :: written es
  | _ :: es => written es

/-- Items handed to readers, in order. -/
def delivered : List (QOp × QRes) → List Nat
  | [] => []
  | (.read, .ptr (some v)) :: es => v :: delivered es
  | (.readT _, .ptr (some v)) :: es => v :: delivered es
  | (.readNoBlock, .ptr (some v)) :: es => v :: delivered es
  | _ :: es => delivered es

/-- Items removed by `clear` and `flushNoDelete`. -/
def discarded : List (QOp × QRes) → List Val
  | [] => []
  | (.clear, .removed l) :: es => l ++ discarded es
  | (.flush, .removed l) :: es => l ++ discarded es
  | _ :: es => discarded es

/-- No `write_front`, `clear` or `flushNoDelete` among the effects. -/
def Plain : List (QOp × QRes) → Prop
  | [] => True
  | (.writeFront _, _) :: _ => False
  | (.clear, _) :: _ => False
  | (.flush, _) :: _ => False
  | _ :: es => Plain es

theorem ideal_plain (es : List (QOp × QRes)) (q q' : List Nat) (h : ideal q es = some q') (hp : Plain es) : delivered es ++ q' = q ++ written es := by
  induction es generalizing q with
  | nil => cases h; simp [delivered, written]
  | cons e es ih =>
    simp only [ideal] at h
    cases h1 : idealStep q e with
    | none => rw [h1] at h; cases h
    | some q1 =>
      rw [h1] at h
      have h2 := ih q1 h
      obtain ⟨op, r⟩ := e
      cases op with
      | write v =>
        cases v with
        | none => simp [idealStep] at h1
        | some v =>
          cases r with
          | unit =>
            simp [idealStep] at h1; subst h1
            have := h2 hp
            simp only [delivered, written]
            rw [this]; simp
          | _ => simp [idealStep] at h1
      | writeFront v => exact hp.elim
      | read =>
        cases r with
        | ptr p =>
          cases p with
          | none => simp [idealStep] at h1
          | some v =>
            simp only [idealStep] at h1
            split at h1
            · next hv =>
              cases h1
              have := h2 hp
              cases q with
              | nil => cases hv
              | cons a q => cases hv; simpa [delivered, written] using this
            · cases h1
        | _ => simp [idealStep] at h1
      | readT ms =>
        cases r with
        | ptr p =>
          simp only [idealStep] at h1
          split at h1
          · next hv =>
            cases h1
            have := h2 hp
            cases q with
            | nil => subst hv; simpa [delivered, written] using this
            | cons a q => subst hv; simpa [delivered, written] using this
          · cases h1
        | _ => simp [idealStep] at h1
      | readNoBlock =>
        cases r with
        | ptr p =>
          simp only [idealStep] at h1
          split at h1
          · next hv =>
            cases h1
            have := h2 hp
            cases q with
            | nil => subst hv; simpa [delivered, written] using this
            | cons a q => subst hv; simpa [delivered, written] using this
          · cases h1
        | _ => simp [idealStep] at h1
      | front =>
        cases r with
        | ptr p =>
          simp only [idealStep] at h1
          split at h1
          · cases h1; have := h2 hp; simpa [delivered, written] using this
          · cases h1
        | _ => simp [idealStep] at h1
      | size =>
        cases r with
        | num k =>
          simp only [idealStep] at h1
          split at h1
          · cases h1; have := h2 hp; simpa [delivered, written] using this
          · cases h1
        | _ => simp [idealStep] at h1
      | clear => exact hp.elim
      | flush => exact hp.elim

/-- C22: the items returned by reads, followed by what is still queued, are exactly the items written, in the order in which the writes took effect. -/
theorem C22_fifo {n : Nat} {now : Clock} {s : St n (List Val) WS QOp QRes} (h : QReach n now s) (hp : Plain (effects s.tr)) :
    (delivered (effects s.tr)).map some ++ s.data = (written (effects s.tr)).map some := by
  obtain ⟨q, h1, h2⟩ := C22_linearizable h
  have := ideal_plain _ _ _ h1 hp
  rw [h2, ← List.map_append, this]; simp

theorem ideal_perm (es : List (QOp × QRes)) (q q' : List Nat) (h : ideal q es = some q') :
    ((delivered es).map some ++ discarded es ++ q'.map some).Perm (q.map some ++ (written es).map some) := by
  induction es generalizing q with
  | nil => cases h; simp [delivered, written, discarded]
  | cons e es ih =>
    simp only [ideal] at h
    cases h1 : idealStep q e with
    | none => rw [h1] at h; cases h
    | some q1 =>
      rw [h1] at h
      have h2 := ih q1 h
      -- a read of the head
      have hd : ∀ p, p = q.head? → q1 = q.tail →
          (((match p with | some v => [v] | none => []) ++ delivered es).map some ++ discarded es ++ q'.map some).Perm (q.map some ++ (written es).map some) := by
        rintro p rfl rfl
        cases q with
        | nil => simpa using h2
        | cons a q => simpa using h2
      obtain ⟨op, r⟩ := e
      cases op with
      | write v =>
        cases v with
        | none => simp [idealStep] at h1
        | some v =>
          cases r with
          | unit =>
            simp [idealStep] at h1; subst h1
            simpa [delivered, written, discarded] using h2
          | _ => simp [idealStep] at h1
      | writeFront v =>
        cases v with
        | none => simp [idealStep] at h1
        | some v =>
          cases r with
          | unit =>
            simp [idealStep] at h1; subst h1
            simp only [delivered, written, discarded, List.map_cons]
            refine h2.trans ?_
            simp only [List.map_cons, List.cons_append]
            exact List.perm_middle.symm
          | _ => simp [idealStep] at h1
      | read =>
        cases r with
        | ptr p =>
          cases p with
          | none => simp [idealStep] at h1
          | some v =>
            simp only [idealStep] at h1
            split at h1
            · next hv => cases h1; simpa [delivered, written, discarded] using hd (some v) hv.symm rfl
            · cases h1
        | _ => simp [idealStep] at h1
      | readT ms =>
        cases r with
        | ptr p =>
          simp only [idealStep] at h1
          split at h1
          · next hv =>
            cases h1
            have := hd p hv rfl
            cases p <;> simpa [delivered, written, discarded] using this
          · cases h1
        | _ => simp [idealStep] at h1
      | readNoBlock =>
        cases r with
        | ptr p =>
          simp only [idealStep] at h1
          split at h1
          · next hv =>
            cases h1
            have := hd p hv rfl
            cases p <;> simpa [delivered, written, discarded] using this
          · cases h1
        | _ => simp [idealStep] at h1
      | front =>
        cases r with
        | ptr p =>
          simp only [idealStep] at h1
          split at h1
          · cases h1; simpa [delivered, written, discarded] using h2
          · cases h1
        | _ => simp [idealStep] at h1
      | size =>
        cases r with
        | num k =>
          simp only [idealStep] at h1
          split at h1
          · cases h1; simpa [delivered, written, discarded] using h2
          · cases h1
        | _ => simp [idealStep] at h1
      | clear =>
        cases r with
        | removed l =>
          simp only [idealStep] at h1
          split at h1
          · next hl =>
            cases h1; subst hl
            simp only [delivered, written, discarded]
            have h3 : ((delivered es).map some ++ discarded es ++ q'.map some).Perm ((written es).map some) := by simpa using h2
            refine List.Perm.trans ?_ (h3.append_left (q.map some))
            rw [← List.append_assoc, ← List.append_assoc, ← List.append_assoc]
            exact ((List.perm_append_comm.append_right _).append_right _)
          · cases h1
        | _ => simp [idealStep] at h1
      | flush =>
        cases r with
        | removed l =>
          simp only [idealStep] at h1
          split at h1
          · next hl =>
            cases h1; subst hl
            simp only [delivered, written, discarded]
            have h3 : ((delivered es).map some ++ discarded es ++ q'.map some).Perm ((written es).map some) := by simpa using h2
            refine List.Perm.trans ?_ (h3.append_left (q.map some))
            rw [← List.append_assoc, ← List.append_assoc, ← List.append_assoc]
            exact ((List.perm_append_comm.append_right _).append_right _)
          · cases h1
        | _ => simp [idealStep] at h1

/-- C22: nothing is lost or duplicated: items delivered, items discarded by `clear`/`flushNoDelete` and items queued are together exactly the items written. -/
theorem C22_conservation {n : Nat} {now : Clock} {s : St n (List Val) WS QOp QRes} (h : QReach n now s) :
    ((delivered (effects s.tr)).map some ++ discarded (effects s.tr) ++ s.data).Perm ((written (effects s.tr)).map some) := by
  obtain ⟨q, h1, h2⟩ := C22_linearizable h
  simpa [h2] using ideal_perm _ _ _ h1

/-- A concrete execution: thread 0 waits, thread 1 writes two items and wakes it, thread 2 steals the first. -/
def demo : List (Cmd 3 QOp) :=
  [.start 0 .read, .lock 0, .body 0, .start 1 (.write (some 7)), .lock 1, .body 1, .unlock 1, .notify 1 (some 0), .start 2 .readNoBlock, .lock 2, .body 2,
   .unlock 2, .ret 2, .relock 0, .body 0, .ret 1] ++ [.start 1 (.write (some 8)), .lock 1, .body 1, .unlock 1, .notify 1 (some 0), .relock 0, .body 0, .unlock 0, .ret 0]

example : ∃ s, QReach 3 ⟨5, 0⟩ s ∧ Plain (effects s.tr) ∧ delivered (effects s.tr) = [7, 8] ∧ written (effects s.tr) = [7, 8] := by
  have h : (match exec qbody (init 3 ⟨5, 0⟩ []) demo with
    | some s => decide (effects s.tr = [(.write (some 7), .unit), (.readNoBlock, .ptr (some 7)), (.write (some 8), .unit), (.read, .ptr (some 8))])
    | none => false) = true := by decide
  split at h
  · next s hs =>
    have h := of_decide_eq_true h
    refine ⟨s, exec_reach hs .refl ?_, ?_⟩
    · intro t op hm
      simp [demo] at hm
      rcases hm with ⟨-, rfl⟩ | ⟨-, rfl⟩ | ⟨-, rfl⟩ | ⟨-, rfl⟩ <;> simp [NonNull]
    · rw [h]; exact ⟨trivial, rfl, rfl⟩
  · cases h

/-! ### C23 -/

/-- The calls that can block: they take an item when there is one. -/
def consumes : QOp → Bool
  | .read => true
  | .readT ms => ms != 0
  | _ => false

theorem queue_covered {n : Nat} {now : Clock} {s : St n (List Val) WS QOp QRes} (h : QReach n now s) : Covered () consumes List.length s := by
  refine no_lost_wakeup () consumes List.length (fun d => ∃ q : List Nat, d = q.map some) (fun s hs => ?_) ?_ ?_ ?_ h
  · obtain ⟨q, -, h2⟩ := C22_linearizable hs; exact ⟨q, h2⟩
  · rintro t op t0 nw d d' r i o hk ⟨q, rfl⟩ hb
    have hb : qbody op t0 nw (q.map some) = some (.done d' r i o) := hb
    cases op with
    | write v => cases hb; left; simp [consumes, ones]
    | writeFront v => cases hb; left; simp [consumes, ones]
    | read =>
      simp only [qbody] at hb
      split at hb
      · cases hb
      · next hne =>
        rw [getQ_map] at hb hne
        cases q with
        | nil => exact absurd rfl hne
        | cons v q => cases hb; left; simp [consumes, ones]
    | readT ms =>
      rcases readTimed_cases (show readTimed ms t0 nw (q.map some) = some _ from hb) with ⟨e, hm⟩ | ⟨e0, -, r', -, ⟨-, e⟩ | ⟨-, e | e⟩⟩
      · rw [getQ_map] at e; cases e
        left
        cases q with
        | nil =>
          rcases hm with hm | hm
          · simp [consumes, hm]
          · exact absurd rfl hm
        | cons a q => simp only [List.map_cons, List.tail_cons, List.length_cons]; split <;> omega
      · cases e; right; rw [e0]; simp
      · cases e
      · cases e
    | readNoBlock =>
      simp only [qbody, getQ_map] at hb
      cases hb; left; simp [consumes, ones]
    | front => simp only [qbody] at hb; cases hb; left; simp [consumes, ones]
    | size => simp only [qbody] at hb; cases hb; left; simp [consumes, ones]
    | clear => simp only [qbody] at hb; cases hb; right; simp
    | flush => simp only [qbody] at hb; cases hb; right; simp
  · rintro t op t0 nw d d' c' hk ⟨q, hd⟩ hb
    obtain ⟨-, h2, h3⟩ := wait_same hd hb
    rw [if_pos rfl]
    refine ⟨?_, by rw [h2]; rfl⟩
    rcases h3 with rfl | ⟨ms, hm, rfl⟩
    · rfl
    · simp [consumes, hm]
  · rintro t op t0 nw d d' hk - hb
    rw [spin_same hb]

/-- C23: no wakeup is lost.  In every reachable state, while a reader waits, the number of queued items is at most the number of outstanding
notifications plus the number of readers that are awake (`weight` counts them for one thread). -/
theorem C23_covered {n : Nat} {now : Clock} {s : St n (List Val) WS QOp QRes} (h : QReach n now s)
    (hw : ∃ u op t0, s.th u = .waiting op t0 ()) : s.data.length ≤ ∑ t, weight () consumes (s.th t) := (queue_covered h).2 hw

/-- C23: when a reader waits and an item is queued, somebody is on the way: a reader that is awake, or a notification not yet sent. -/
theorem C23_no_lost_wakeup {n : Nat} {now : Clock} {s : St n (List Val) WS QOp QRes} (h : QReach n now s)
    (hw : ∃ u op t0, s.th u = .waiting op t0 ()) (hq : s.data ≠ []) :
    ∃ t, (∃ op t0, consumes op = true ∧ (s.th t = .waking op t0 ∨ s.th t = .holding op t0)) ∨
      (∃ op r i o, s.th t = .inLock op r i o ∧ Sig.one () ∈ i ++ o) ∨ (∃ op r o, s.th t = .after op r o ∧ Sig.one () ∈ o) := by
  have hc := (queue_covered h).2 hw
  have hpos : total (weight () consumes) s.th ≠ 0 := by
    have : 0 < s.data.length := List.length_pos_of_ne_nil hq
    omega
  rw [Ne, total_zero] at hpos
  obtain ⟨t, ht⟩ := not_forall.mp hpos
  have hones : ∀ l : List (Sig WS), ones () l ≠ 0 → Sig.one () ∈ l := by
    intro l
    induction l with
    | nil => intro h; exact absurd rfl h
    | cons g l ih =>
      intro h
      cases g with
      | one c => simp
      | all c => exact List.mem_cons_of_mem _ (ih h)
  refine ⟨t, ?_⟩
  cases e : s.th t with
  | idle => rw [e] at ht; exact absurd rfl ht
  | entering => rw [e] at ht; exact absurd rfl ht
  | waiting => rw [e] at ht; exact absurd rfl ht
  | waking op t0 =>
    rw [e] at ht
    refine .inl ⟨op, t0, ?_, .inl rfl⟩
    by_contra hn; exact ht (by simp [weight, hn])
  | holding op t0 =>
    rw [e] at ht
    refine .inl ⟨op, t0, ?_, .inr rfl⟩
    by_contra hn; exact ht (by simp [weight, hn])
  | inLock op r i o =>
    rw [e] at ht
    exact .inr (.inl ⟨op, r, i, o, rfl, hones _ (by rw [ones_append]; exact ht)⟩)
  | after op r o =>
    rw [e] at ht
    exact .inr (.inr ⟨op, r, o, rfl, hones _ ht⟩)

/-- C23: when all activity has ended (every thread is idle or waiting), no reader waits on a non-empty queue. -/
theorem C23_settled {n : Nat} {now : Clock} {s : St n (List Val) WS QOp QRes} (h : QReach n now s) (hs : Settled s)
    (hw : ∃ u op t0, s.th u = .waiting op t0 ()) : s.data = [] :=
  List.eq_nil_of_length_eq_zero (settled_covered (queue_covered h) hs hw)

/-- C23: as long as some thread is neither idle nor waiting, some thread can proceed without outside help (no new calls, no spurious wakeups); the
hypothesis excludes clock values for which the remaining time overflows. -/
theorem C23_progress {n : Nat} {now : Clock} {s : St n (List Val) WS QOp QRes} (h : QReach n now s) (hs : ¬ Settled s)
    (hd : ∀ t ms t0, s.th t = .holding (.readT ms) t0 → ∃ r, Timeval.remaining (Timeval.future t0.call ms) s.now = .ok r) :
    ∃ l s', Step queue s l s' ∧ l.internal := by
  refine progress (reach_excl h) (fun t op t0 e => ?_) hs
  show ∃ a, qbody op t0 s.now s.data = some a
  cases op with
  | readT ms =>
    obtain ⟨r, hr⟩ := hd t ms t0 e
    simp only [qbody, readTimed]
    split
    · exact ⟨_, rfl⟩
    · split
      · rw [hr]; dsimp only; split <;> exact ⟨_, rfl⟩
      · exact ⟨_, rfl⟩
  | read => simp only [qbody]; split <;> exact ⟨_, rfl⟩
  | _ => exact ⟨_, rfl⟩

/-- Two writers and a reader. -/
def nullSchedule : List (Cmd 3 QOp) :=
  [.start 0 .read, .lock 0, .body 0, .start 1 (.write none), .lock 1, .body 1, .unlock 1, .notify 1 (some 0), .ret 1,
   .start 2 (.write (some 5)), .lock 2, .body 2, .unlock 2, .notify 2 none, .ret 2, .relock 0, .body 0]

/-- C23, why NULL must not be written: `read` takes the NULL and waits again, although another item is queued for which it will not be notified. -/
theorem C23_nonnull_needed : ∃ s, Reach queue (fun _ _ => True) (init 3 ⟨5, 0⟩ []) s ∧ Settled s ∧ s.th 0 = .waiting .read ⟨⟨5, 0⟩, ⟨5, 0⟩⟩ () ∧ s.data = [some 5] := by
  have h : (match exec qbody (init 3 ⟨5, 0⟩ []) nullSchedule with
    | some s => (match s.th 0, s.th 1, s.th 2 with
      | .waiting .read t0 (), .idle, .idle => decide (t0 = ⟨⟨5, 0⟩, ⟨5, 0⟩⟩ ∧ s.data = [some 5])
      | _, _, _ => false)
    | none => false) = true := by decide
  split at h
  · next s hs =>
    split at h
    · next e0 e1 e2 =>
      obtain ⟨rfl, hd⟩ := of_decide_eq_true h
      refine ⟨s, exec_reach hs .refl (fun _ _ _ => trivial), ?_, e0, hd⟩
      intro t
      have : t = 0 ∨ t = 1 ∨ t = 2 := by omega
      rcases this with rfl | rfl | rfl
      · exact .inr ⟨_, _, _, e0⟩
      · exact .inl e1
      · exact .inl e2
    · cases h
  · cases h

/-! ### C24 -/

open Timeval in
/-- `remaining` of a deadline made by `future`, also when `future` leaves exactly 1000000 microseconds. -/
theorem remaining_future (t0 now : TV) (ms : Nat) (h0 : Normal t0) (hn : Normal now)
    (hr : -2147481 ≤ now.sec - (future t0 ms).sec ∧ now.sec - (future t0 ms).sec ≤ 2147481) :
    ∃ r, remaining (future t0 ms) now = .ok r ∧ 1000 * r < micros t0 + 1000 * ms - micros now + 1000 ∧
      micros t0 + 1000 * ms - micros now < 1000 * r + 1000 := by
  have he := C34_future_exact t0 ms
  have hu : 0 ≤ (future t0 ms).usec ∧ (future t0 ms).usec ≤ 1000000 := by
    unfold future
    unfold Normal at h0
    dsimp only
    split <;> simp only <;> omega
  obtain ⟨q, hq, hq2⟩ := tdiv1000 (now.usec - (future t0 ms).usec)
  unfold remaining elapsed
  rw [future_zero now hn]
  unfold Normal at hn
  have hd : delta (future t0 ms) now = .ok (1000 * (now.sec - (future t0 ms).sec) + q) := by
    unfold delta
    rw [sec_diff _ _ (by unfold InInt32; omega), usec_diff _ _ (by omega) (by omega)]
    simp only
    rw [hq, int32_of_in (by unfold InInt32; omega), Outcome.bind_ok, int32_of_in (by unfold InInt32; omega)]
  rw [hd]
  refine ⟨-(1000 * (now.sec - (future t0 ms).sec) + q), rfl, ?_, ?_⟩
  · unfold micros at *; omega
  · unfold micros at *; omega

/-- The instant `t0 + ms` is less than 24 days away from `now` (so that `remaining` does not overflow). -/
def Near (t0 : Clock) (ms : Nat) (now : Clock) : Prop :=
  Timeval.Normal t0 ∧ Timeval.Normal now ∧ -2147481 ≤ now.sec - (Timeval.future t0 ms).sec ∧ now.sec - (Timeval.future t0 ms).sec ≤ 2147481

/-- C24: whenever a timed read gives up (takes effect with result NULL), the queue is empty at that instant and less than 2 ms of its timeout, counted from its
call, remain.  Every reachable history, every number of threads. -/
theorem C24_null_only_near_deadline_partial {n : Nat} {now : Clock} {s : St n (List Val) WS QOp QRes} (h : QReach n now s) {t : Fin n} {ms : Nat} {t0 : Stamp} {nw : Clock} {d : List Val}
    (he : Ev.lin t (.readT ms) t0 nw d (.ptr none) ∈ s.tr) (hms : ms ≠ 0) (hnear : Near t0.call ms nw) :
    d = [] ∧ Timeval.micros t0.call + 1000 * ms - Timeval.micros nw < 2000 := by
  have key := lin_invariant (fun op t0 nw d r => ∀ ms, op = .readT ms → r = .ptr none → ms ≠ 0 → Near t0.call ms nw →
      d = [] ∧ Timeval.micros t0.call + 1000 * ms - Timeval.micros nw < 2000) ?_ h he ms rfl rfl hms hnear
  · exact key
  · rintro s hs op t0 d' r i o hb ms rfl rfl hms ⟨n0, nn, hr⟩
    obtain ⟨q, -, hq⟩ := C22_linearizable hs
    rcases readTimed_cases (show readTimed ms t0 s.now s.data = some _ from hb) with ⟨e, hm⟩ | ⟨e0, -, r', hr', ⟨h2, e⟩ | ⟨-, e | e⟩⟩
    · rw [hq, getQ_map] at e
      rcases hm with hm | hm
      · exact absurd hm hms
      · cases q with
        | nil => exact absurd hq hm
        | cons a q => cases e
    · obtain ⟨r2, hr2, h3, h4⟩ := remaining_future t0.call s.now ms n0 nn hr
      rw [hr'] at hr2; cases hr2
      exact ⟨e0, by omega⟩
    · cases e
    · cases e

/-- C24: a timed read that finds an item when it looks takes the first one. -/
theorem C24_takes_item {n : Nat} {now : Clock} {s s' : St n (List Val) WS QOp QRes} (h : QReach n now s) {t : Fin n} {ms : Nat} {t0 : Stamp}
    (he : s.th t = .holding (.readT ms) t0) (hq : s.data ≠ []) (st : Step queue s (.body t) s') :
    ∃ v, s.data = some v :: s'.data ∧ s'.th t = .inLock (.readT ms) (.ptr (some v)) [] [] := by
  obtain ⟨q, -, hd⟩ := C22_linearizable h
  cases q with
  | nil => exact absurd hd hq
  | cons v q =>
    have hb : ∀ a, queue.body (.readT ms) t0 s.now s.data a → a = .done (q.map some) (.ptr (some v)) [] [] := by
      intro a ha
      rcases readTimed_cases (show readTimed ms t0 s.now s.data = some _ from ha) with ⟨e, -⟩ | ⟨e0, -⟩
      · rw [hd, getQ_map] at e; exact e
      · exact absurd e0 hq
    cases st with
    | bodyDone _ op t0' d r i o e ho hbd =>
      rw [he] at e; cases e
      cases hb _ hbd
      exact ⟨v, hd, by simp⟩
    | bodyWait _ op t0' d c e ho hbd => rw [he] at e; cases e; cases hb _ hbd
    | bodySpin _ op t0' d e ho hbd => rw [he] at e; cases e; cases hb _ hbd

/-- C24: once less than 1 ms remains, the next pass of a timed read returns (with an item, or NULL). -/
theorem C24_returns_at_deadline_partial {n : Nat} {s s' : St n (List Val) WS QOp QRes} {t : Fin n} {ms : Nat} {t0 : Stamp}
    (he : s.th t = .holding (.readT ms) t0) (hnear : Near t0.call ms s.now) (hd : Timeval.micros t0.call + 1000 * ms - Timeval.micros s.now ≤ 1000)
    (st : Step queue s (.body t) s') : ∃ p, s'.th t = .inLock (.readT ms) (.ptr p) [] [] := by
  obtain ⟨n0, nn, hr⟩ := hnear
  obtain ⟨r2, hr2, h3, h4⟩ := remaining_future t0.call s.now ms n0 nn hr
  have hb : ∀ a, queue.body (.readT ms) t0 s.now s.data a → ∃ d p, a = .done d (.ptr p) [] [] := by
    intro a ha
    rcases readTimed_cases (show readTimed ms t0 s.now s.data = some _ from ha) with ⟨e, -⟩ | ⟨e0, -, r', hr', ⟨h2, e⟩ | ⟨h2, e⟩⟩
    · exact ⟨_, _, e⟩
    · exact ⟨_, _, e⟩
    · rw [hr2] at hr'; cases hr'; omega
  cases st with
  | bodyDone _ op t0' d r i o e ho hbd =>
    rw [he] at e; cases e
    obtain ⟨d, p, ha⟩ := hb _ hbd
    cases ha; exact ⟨p, by simp⟩
  | bodyWait _ op t0' d c e ho hbd =>
    rw [he] at e; cases e
    obtain ⟨d, p, ha⟩ := hb _ hbd
    cases ha
  | bodySpin _ op t0' d e ho hbd =>
    rw [he] at e; cases e
    obtain ⟨d, p, ha⟩ := hb _ hbd
    cases ha

/-- C24 (negation for very long timeouts): with a timeout of about 24.9 days or more the computation of the remaining time overflows. -/
theorem C24_long_timeout_refuted : ∃ ms, ms < 2 ^ 32 ∧ Timeval.remaining (Timeval.future ⟨0, 0⟩ ms) ⟨0, 0⟩ = .ub ∧
    qbody (.readT ms) ⟨⟨0, 0⟩, ⟨0, 0⟩⟩ ⟨0, 0⟩ [] = none := ⟨2147484000, by decide, by decide, by decide⟩

/-- C24: an execution in which a timed read gives up. -/
example : ∃ s, QReach 1 ⟨5, 0⟩ s ∧ Ev.lin 0 (.readT 10) ⟨⟨5, 0⟩, ⟨5, 0⟩⟩ ⟨5, 9000⟩ [] (.ptr none) ∈ s.tr ∧ Near ⟨5, 0⟩ 10 ⟨5, 9000⟩ := by
  have h : (match exec qbody (init 1 ⟨5, 0⟩ []) [.start 0 (.readT 10), .lock 0, .body 0, .tick ⟨5, 9000⟩, .spurious 0, .relock 0, .body 0] with
    | some s => s.tr.getLast? = some (.lin 0 (.readT 10) ⟨⟨5, 0⟩, ⟨5, 0⟩⟩ ⟨5, 9000⟩ [] (.ptr none))
    | none => False) := by rfl
  split at h
  · next s hs =>
    refine ⟨s, exec_reach hs .refl ?_, List.mem_of_getLast? h, ⟨by decide, by decide, by decide, by decide⟩⟩
    intro t op hm
    simp at hm; rw [hm.2]; trivial
  · exact h.elim

end Verif.Interthread
