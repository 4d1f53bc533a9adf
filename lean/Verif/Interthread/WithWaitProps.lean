import Verif.Interthread.WithWait
import Verif.Interthread.QueueProps

/-
Property C26.
-/

namespace Verif.Interthread
open Verif Verif.Monitor

/-- What one pass of `read(timeout)` can do. -/
theorem readTimedW_cases {ms : Nat} {t0 : Stamp} {now : Clock} {q : List Val} {a : Act (List Val) WC QRes} (h : readTimedW ms t0 now q = some a) :
    a = takeW q ∨ (q = [] ∧ ms ≠ 0 ∧ (a = .done q (.ptr none) [] [] ∨ a = .wait q .writeSignal ∨ a = .spin q)) := by
  unfold readTimedW at h
  split at h
  · cases h; exact .inl rfl
  · next h0 =>
    split at h
    · next hl =>
      have hq : q = [] := List.eq_nil_of_length_eq_zero hl
      split at h
      · next r hr =>
        refine .inr ⟨hq, h0, ?_⟩
        split at h
        · cases h; exact .inl rfl
        · cases h; exact .inr (timedWait_cases now r q _)
      · cases h
    · cases h; exact .inl rfl

/-- No NULL in the queue. -/
def WClean (d : List Val) : Prop := ∃ q : List Nat, d = q.map some

theorem wclean_get {d : List Val} (h : WClean d) : WClean (getQ d).2 := by
  obtain ⟨q, rfl⟩ := h
  exact ⟨q.tail, by rw [getQ_map]⟩

/-- With no NULL in the queue: what a pass that goes to sleep does. -/
theorem w_wait {op : WOp} {t0 : Stamp} {nw : Clock} {d d' : List Val} {c : WC} (hd : WClean d) (hb : queueW.body op t0 nw d (.wait d' c)) :
    d' = d ∧ ((c = .writeSignal ∧ d = [] ∧ (op = .read ∨ ∃ ms, ms ≠ 0 ∧ op = .readT ms)) ∨ (c = .readSignal ∧ ∃ sz, op = .waitLow sz ∧ sz < d.length)) := by
  have hb : wbody op t0 nw d = some (.wait d' c) := hb
  cases op with
  | read =>
    simp only [wbody] at hb
    split at hb
    · next hne =>
      cases hb
      obtain ⟨q, rfl⟩ := hd
      rw [getQ_map] at hne ⊢
      cases q with
      | nil => exact ⟨rfl, .inl ⟨rfl, rfl, .inl rfl⟩⟩
      | cons v q => cases hne
    · cases hb
  | readT ms =>
    rcases readTimedW_cases (show readTimedW ms t0 nw d = some _ from hb) with e | ⟨e0, hm, e | e | e⟩
    · cases e
    · cases e
    · cases e; exact ⟨rfl, .inl ⟨rfl, e0, .inr ⟨ms, hm, rfl⟩⟩⟩
    · cases e
  | waitLow sz =>
    simp only [wbody] at hb
    split at hb
    · next h => cases hb; exact ⟨rfl, .inr ⟨rfl, sz, rfl, h⟩⟩
    · cases hb
  | write _ | readNoBlock | size | clear => simp [wbody, takeW] at hb

theorem w_spin {op : WOp} {t0 : Stamp} {nw : Clock} {d d' : List Val} (hb : queueW.body op t0 nw d (.spin d')) : d' = d := by
  have hb : wbody op t0 nw d = some (.spin d') := hb
  cases op with
  | read =>
    simp only [wbody] at hb
    split at hb <;> cases hb
  | readT ms =>
    rcases readTimedW_cases (show readTimedW ms t0 nw d = some _ from hb) with e | ⟨e0, hm, e | e | e⟩
    · cases e
    · cases e
    · cases e
    · cases e; rfl
  | waitLow sz =>
    simp only [wbody] at hb
    split at hb <;> cases hb
  | write _ | readNoBlock | size | clear => simp [wbody, takeW] at hb

/-- What a completed pass does to the queue, and which signals it sends. -/
theorem w_done {op : WOp} {t0 : Stamp} {nw : Clock} {d d' : List Val} {r : QRes} {i o : List (Sig WC)} (hb : queueW.body op t0 nw d (.done d' r i o)) :
    (∃ v, op = .write v ∧ d' = d ++ [v] ∧ i = [] ∧ o = [.one .writeSignal]) ∨
    ((op = .read ∨ op = .readNoBlock ∨ ∃ ms, op = .readT ms) ∧ o = [] ∧ r = .ptr (getQ d).1 ∧ d' = (getQ d).2 ∧ i = readSig (getQ d).1 ∧ (op = .read → (getQ d).1 ≠ none)) ∨
    (op = .size ∧ d' = d ∧ i = [] ∧ o = []) ∨
    (op = .clear ∧ d' = [] ∧ i = [.one .readSignal] ∧ o = []) ∨
    (∃ sz, op = .waitLow sz ∧ d' = d ∧ d.length ≤ sz ∧ i = [] ∧ o = []) := by
  have hb : wbody op t0 nw d = some (.done d' r i o) := hb
  cases op with
  | write v => cases hb; exact .inl ⟨v, rfl, rfl, rfl, rfl⟩
  | read =>
    simp only [wbody] at hb
    split at hb
    · cases hb
    · next hne => cases hb; exact .inr (.inl ⟨.inl rfl, rfl, rfl, rfl, by simp [readSig, hne], fun _ => hne⟩)
  | readT ms =>
    rcases readTimedW_cases (show readTimedW ms t0 nw d = some _ from hb) with e | ⟨e0, hm, e | e | e⟩
    · cases e; exact .inr (.inl ⟨.inr (.inr ⟨ms, rfl⟩), rfl, rfl, rfl, rfl, fun h => by cases h⟩)
    · cases e; subst e0; exact .inr (.inl ⟨.inr (.inr ⟨ms, rfl⟩), rfl, rfl, rfl, rfl, fun h => by cases h⟩)
    · cases e
    · cases e
  | readNoBlock => simp only [wbody, takeW] at hb; cases hb; exact .inr (.inl ⟨.inr (.inl rfl), rfl, rfl, rfl, rfl, fun h => by cases h⟩)
  | size => simp only [wbody] at hb; cases hb; exact .inr (.inr (.inl ⟨rfl, rfl, rfl, rfl⟩))
  | clear => simp only [wbody] at hb; cases hb; exact .inr (.inr (.inr (.inl ⟨rfl, rfl, rfl, rfl⟩)))
  | waitLow sz =>
    simp only [wbody] at hb
    split at hb
    · cases hb
    · next h => cases hb; exact .inr (.inr (.inr (.inr ⟨sz, rfl, rfl, by omega, rfl, rfl⟩)))

theorem w_clean {n : Nat} {now : Clock} {ok : Fin n → WOp → Prop} (hok : ∀ t op, ok t op → WNonNull op) {s : St n (List Val) WC WOp QRes}
    (h : Reach queueW ok (init n now []) s) : WClean s.data := by
  refine data_invariant (fun d _ => WClean d) ⟨[], rfl⟩ ?_ ?_ ?_ h
  · rintro t op t0 nw d d' r i o es hk hp hb
    rcases w_done hb with ⟨v, rfl, rfl, -⟩ | ⟨-, -, -, rfl, -⟩ | ⟨-, rfl, -⟩ | ⟨-, rfl, -⟩ | ⟨sz, -, rfl, -⟩
    · obtain ⟨q, rfl⟩ := hp
      cases v with
      | none => exact absurd rfl (hok _ _ hk)
      | some v => exact ⟨q ++ [v], by simp⟩
    · exact wclean_get hp
    · exact hp
    · exact ⟨[], rfl⟩
    · exact hp
  · rintro t op t0 nw d d' c es hk hp hb
    rw [(w_wait hp hb).1]; exact hp
  · rintro t op t0 nw d d' es hk hp hb
    rw [w_spin hb]; exact hp

/-- C26: `wait(sz)` returns only at an instant at which the queue holds at most `sz` items (any threads, any interleaving). -/
theorem C26_returns_only_low {n : Nat} {now : Clock} {ok : Fin n → WOp → Prop} {s : St n (List Val) WC WOp QRes} (h : Reach queueW ok (init n now []) s)
    {t : Fin n} {sz : Nat} {t0 : Stamp} {nw : Clock} {d : List Val} {r : QRes} (he : Ev.lin t (.waitLow sz) t0 nw d r ∈ s.tr) : d.length ≤ sz := by
  refine lin_invariant (fun op t0 nw d r => ∀ sz, op = .waitLow sz → d.length ≤ sz) ?_ h he sz rfl
  rintro s hs op t0 d' r i o hb sz rfl
  rcases w_done hb with ⟨v, e, -⟩ | ⟨e, -⟩ | ⟨e, -⟩ | ⟨e, -⟩ | ⟨sz', e, -, h, -⟩
  · cases e
  · rcases e with e | e | ⟨ms, e⟩ <;> cases e
  · cases e
  · cases e
  · cases e; exact h

/-- Calls that take an item and may sleep until there is one. -/
def consumesW : WOp → Bool
  | .read => true
  | .readT ms => decide (ms ≠ 0)
  | _ => false

/-- C26 (readers): as with `InterthreadQueue`, no reader is left asleep when items are available. -/
theorem C26_readers_settled {n : Nat} {now : Clock} {s : St n (List Val) WC WOp QRes} (h : Reach queueW (fun _ op => WNonNull op) (init n now []) s)
    (hs : Settled s) {t : Fin n} {op : WOp} {t0 : Stamp} (hw : s.th t = .waiting op t0 .writeSignal) : s.data = [] := by
  have key : Covered .writeSignal consumesW (fun d : List Val => d.length) s := by
    refine no_lost_wakeup .writeSignal _ _ WClean (fun s hs => w_clean (fun t op h => h) hs) ?_ ?_ ?_ h
    · rintro t op t0 nw d d' r i o hk hp hb
      rcases w_done hb with ⟨v, rfl, rfl, rfl, rfl⟩ | ⟨hop, rfl, -, rfl, rfl, hne⟩ | ⟨rfl, rfl, rfl, rfl⟩ | ⟨rfl, rfl, rfl, rfl⟩ | ⟨sz, rfl, rfl, h, rfl, rfl⟩
      · left; simp [ones, consumesW]
      · obtain ⟨q, rfl⟩ := hp
        cases q with
        | nil => right; simp [getQ]
        | cons a q =>
          left
          have h1 : ∀ b : Bool, (if b = true then 1 else 0) ≤ 1 := by decide
          have h2 := h1 (consumesW op)
          simp only [List.map_cons, getQ, List.length_cons]
          omega
      · left; simp [consumesW]
      · right; simp
      · left; simp [consumesW]
    · rintro t op t0 nw d d' c hk hp hb
      obtain ⟨rfl, ⟨rfl, rfl, e⟩ | ⟨rfl, sz, rfl, hlt⟩⟩ := w_wait hp hb
      · rw [if_pos rfl]
        refine ⟨?_, rfl⟩
        rcases e with rfl | ⟨ms, hm, rfl⟩
        · rfl
        · simp [consumesW, hm]
      · rw [if_neg (by decide)]; simp [consumesW]
    · rintro t op t0 nw d d' hk hp hb
      rw [w_spin hb]
  exact List.eq_nil_of_length_eq_zero (settled_covered key hs ⟨t, op, t0, hw⟩)

/-- The condition a low-water waiter is waiting for. -/
def WReady : WOp → List Val → Prop
  | .waitLow sz, d => d.length ≤ sz
  | _, _ => False

/-- C26 (wakeup), partial: if only one thread `w` uses the low-water wait, it is never left asleep once the size is at most its bound.
Missing: several waiters, see `C26_two_waiters_refuted` and `C26_bounds_refuted`. -/
theorem C26_one_waiter_partial {n : Nat} {now : Clock} (w : Fin n) {s : St n (List Val) WC WOp QRes}
    (h : Reach queueW (fun t op => WNonNull op ∧ (∀ sz, op = .waitLow sz → t = w)) (init n now []) s) (hs : Settled s) {sz : Nat} {t0 : Stamp}
    (hw : s.th w = .waiting (.waitLow sz) t0 .readSignal) : sz < s.data.length := by
  have hinv : Announced .readSignal True WReady s := by
    refine no_lost_broadcast .readSignal True WReady WClean (fun s hs => w_clean (fun t op h => h.1) hs) ?_ ?_ ?_ ?_ h
    · intro _ s hs v v' a b a' b' e e'
      have key : ∀ v a b, s.th v = .waiting a b .readSignal → ∃ sz, a = .waitLow sz := by
        intro v a b e
        refine waiting_invariant .readSignal (fun a => ∃ sz, a = .waitLow sz) ?_ hs e
        intro s hs op t0 d' hb
        rcases (w_wait (w_clean (fun t op h => h.1) hs) hb).2 with ⟨e, -⟩ | ⟨-, sz, e, -⟩
        · cases e
        · exact ⟨sz, e⟩
      obtain ⟨sz, e1⟩ := key v a b e
      obtain ⟨sz', e2⟩ := key v' a' b' e'
      have h1 := (reach_ok hs v a (by rw [e]; rfl)).2 sz e1
      have h2 := (reach_ok hs v' a' (by rw [e']; rfl)).2 sz' e2
      rw [h1, h2]
    · rintro t op t0 nw d d' r i o hk hp hb
      rcases w_done hb with ⟨v, rfl, rfl, rfl, rfl⟩ | ⟨hop, rfl, -, rfl, rfl, hne⟩ | ⟨rfl, rfl, rfl, rfl⟩ | ⟨rfl, rfl, rfl, rfl⟩ | ⟨sz, rfl, rfl, h, rfl, rfl⟩
      · right
        intro op' hr
        cases op' with
        | waitLow sz => simp only [WReady, List.length_append] at hr ⊢; omega
        | _ => exact hr
      · obtain ⟨q, rfl⟩ := hp
        cases q with
        | nil => exact .inr (fun _ h => h)
        | cons a q => exact .inl ⟨.one .readSignal, by simp [getQ, readSig], ⟨rfl, trivial⟩⟩
      · exact .inr (fun _ h => h)
      · exact .inl ⟨.one .readSignal, by simp, ⟨rfl, trivial⟩⟩
      · exact .inr (fun _ h => h)
    · rintro t op t0 nw d d' c hk hp hb
      obtain ⟨rfl, h⟩ := w_wait hp hb
      refine ⟨fun hc hr => ?_, fun _ h => h⟩
      rcases h with ⟨e, -⟩ | ⟨-, sz, rfl, hlt⟩
      · rw [hc] at e; cases e
      · simp only [WReady] at hr; omega
    · rintro t op t0 nw d d' hk hp hb op' hr
      rw [w_spin hb] at hr; exact hr
  have := settled_announced hinv hs hw
  simp only [WReady] at this
  omega

/-- C26 (negation): two threads wait for the empty queue; the one read that empties it wakes only one of them; the other sleeps on although the queue is empty. -/
def twoWaiters : List (Cmd 3 WOp) :=
  [.start 2 (.write (some 9)), .lock 2, .body 2, .unlock 2, .notify 2 none, .ret 2,
   .start 0 (.waitLow 0), .lock 0, .body 0, .start 1 (.waitLow 0), .lock 1, .body 1,
   .start 2 .read, .lock 2, .body 2, .notify 2 (some 0), .unlock 2, .ret 2, .relock 0, .body 0, .unlock 0, .ret 0]

theorem C26_two_waiters_refuted : ∃ s : St 3 (List Val) WC WOp QRes, Reach queueW (fun _ op => WNonNull op) (init 3 ⟨5, 0⟩ []) s ∧ Settled s ∧
    s.th 1 = .waiting (.waitLow 0) ⟨⟨5, 0⟩, ⟨5, 0⟩⟩ .readSignal ∧ s.data = [] := by
  have h : (match exec wbody (init 3 ⟨5, 0⟩ []) twoWaiters with
    | some s => (match s.th 0, s.th 1, s.th 2 with
      | .idle, .waiting (.waitLow sz) t0 .readSignal, .idle => decide (sz = 0 ∧ t0 = ⟨⟨5, 0⟩, ⟨5, 0⟩⟩ ∧ s.data = [])
      | _, _, _ => false)
    | none => false) = true := by decide
  split at h
  · next s hs =>
    split at h
    · next e0 e1 e2 =>
      obtain ⟨rfl, rfl, hd⟩ := of_decide_eq_true h
      refine ⟨s, exec_reach hs .refl ?_, ?_, e1, hd⟩
      · intro t op hm
        simp [twoWaiters] at hm
        rcases hm with ⟨-, rfl⟩ | ⟨-, rfl⟩ | ⟨-, rfl⟩ | ⟨-, rfl⟩ <;> simp [WNonNull]
      · intro t
        have : t = 0 ∨ t = 1 ∨ t = 2 := by omega
        rcases this with rfl | rfl | rfl
        · exact .inl e0
        · exact .inr ⟨_, _, _, e1⟩
        · exact .inl e2
    · cases h
  · cases h

/-- C26 (negation): waiters with different bounds; two items, one is read; the signal wakes the thread waiting for the empty queue, which sleeps again, while
the thread waiting for at most one item sleeps on. -/
def mixedBounds : List (Cmd 3 WOp) :=
  [.start 2 (.write (some 8)), .lock 2, .body 2, .unlock 2, .notify 2 none, .ret 2, .start 2 (.write (some 9)), .lock 2, .body 2, .unlock 2, .notify 2 none, .ret 2,
   .start 0 (.waitLow 0), .lock 0, .body 0, .start 1 (.waitLow 1), .lock 1, .body 1,
   .start 2 .read, .lock 2, .body 2, .notify 2 (some 0), .unlock 2, .ret 2, .relock 0, .body 0]

theorem C26_bounds_refuted : ∃ s : St 3 (List Val) WC WOp QRes, Reach queueW (fun _ op => WNonNull op) (init 3 ⟨5, 0⟩ []) s ∧ Settled s ∧
    s.th 1 = .waiting (.waitLow 1) ⟨⟨5, 0⟩, ⟨5, 0⟩⟩ .readSignal ∧ s.data.length ≤ 1 := by
  have h : (match exec wbody (init 3 ⟨5, 0⟩ []) mixedBounds with
    | some s => (match s.th 0, s.th 1, s.th 2 with
      | .waiting _ _ .readSignal, .waiting (.waitLow sz) t0 .readSignal, .idle => decide (sz = 1 ∧ t0 = ⟨⟨5, 0⟩, ⟨5, 0⟩⟩ ∧ s.data = [some 9])
      | _, _, _ => false)
    | none => false) = true := by decide
  split at h
  · next s hs =>
    split at h
    · next e0 e1 e2 =>
      obtain ⟨rfl, rfl, hd⟩ := of_decide_eq_true h
      refine ⟨s, exec_reach hs .refl ?_, ?_, e1, by rw [hd]; decide⟩
      · intro t op hm
        simp [mixedBounds] at hm
        rcases hm with ⟨-, rfl⟩ | ⟨-, rfl⟩ | ⟨-, rfl⟩ | ⟨-, rfl⟩ | ⟨-, rfl⟩ <;> simp [WNonNull]
      · intro t
        have : t = 0 ∨ t = 1 ∨ t = 2 := by omega
        rcases this with rfl | rfl | rfl
        · exact .inr ⟨_, _, _, e0⟩
        · exact .inr ⟨_, _, _, e1⟩
        · exact .inl e2
    · cases h
  · cases h

/-- C26: an execution meeting the hypotheses of the theorems: the waiter is released and has returned; a reader sleeps on the empty queue; then an item
arrives for a waiter that goes to sleep. -/
example : ∃ s : St 2 (List Val) WC WOp QRes, Reach queueW (fun t op => WNonNull op ∧ (∀ sz, op = .waitLow sz → t = 0)) (init 2 ⟨5, 0⟩ []) s ∧ Settled s ∧
    s.th 0 = .waiting (.waitLow 0) ⟨⟨5, 0⟩, ⟨5, 0⟩⟩ .readSignal ∧ s.data = [some 4] := by
  have h : (match exec wbody (init 2 ⟨5, 0⟩ []) ([.start 0 (.waitLow 0), .lock 0, .body 0, .unlock 0, .ret 0, .start 1 (.write (some 4)), .lock 1, .body 1, .unlock 1,
      .notify 1 none, .ret 1, .start 0 (.waitLow 0), .lock 0, .body 0] : List (Cmd 2 WOp)) with
    | some s => (match s.th 0, s.th 1 with
      | .waiting (.waitLow sz) t0 .readSignal, .idle => decide (sz = 0 ∧ t0 = ⟨⟨5, 0⟩, ⟨5, 0⟩⟩ ∧ s.data = [some 4])
      | _, _ => false)
    | none => false) = true := by decide
  split at h
  · next s hs =>
    split at h
    · next e0 e1 =>
      obtain ⟨rfl, rfl, hd⟩ := of_decide_eq_true h
      refine ⟨s, exec_reach hs .refl ?_, ?_, e0, hd⟩
      · intro t op hm
        simp at hm
        rcases hm with ⟨rfl, rfl⟩ | ⟨rfl, rfl⟩ | ⟨rfl, rfl⟩ <;> simp [WNonNull]
      · intro t
        have : t = 0 ∨ t = 1 := by omega
        rcases this with rfl | rfl
        · exact .inr ⟨_, _, _, e0⟩
        · exact .inl e1
    · cases h
  · cases h

end Verif.Interthread
