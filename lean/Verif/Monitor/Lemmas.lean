import Mathlib.Algebra.Order.BigOperators.Group.Finset
import Verif.Monitor.Model

/-
General facts about monitors: mutual exclusion, progress, each call takes effect once between its call and its return, counting threads.
-/

namespace Verif.Monitor
open Verif

set_option linter.unusedSectionVars false

variable {n : Nat} {σ C Op R : Type} [DecidableEq C]

theorem Reach.induct {M : Mon σ C Op R} {ok : Fin n → Op → Prop} {s0 : St n σ C Op R} (P : St n σ C Op R → Prop) (h0 : P s0)
    (hs : ∀ s l s', Reach M ok s0 s → P s → Step M s l s' → (∀ t op, l = .start t op → ok t op) → P s') :
    ∀ {s}, Reach M ok s0 s → P s := by
  intro s h
  induction h with
  | refl => exact h0
  | step hr hst hok ih => exact hs _ _ _ hr ih hst hok

theorem Reach.mono {M : Mon σ C Op R} {ok ok' : Fin n → Op → Prop} {s0 : St n σ C Op R} (hk : ∀ t op, ok t op → ok' t op) {s : St n σ C Op R}
    (h : Reach M ok s0 s) : Reach M ok' s0 s := by
  induction h with
  | refl => exact .refl
  | step _ hst hok ih => exact .step ih hst (fun t op e => hk _ _ (hok t op e))

/-! ### Thread states -/

/-- Does the thread hold the lock? -/
def TS.holds : TS C Op R → Bool
  | .holding .. => true
  | .inLock .. => true
  | _ => false

/-- Is the thread waiting on `c`? -/
def TS.isWaiting : TS C Op R → Bool
  | .waiting .. => true
  | _ => false

theorem upd_same {α : Type} {β : α → Type} [DecidableEq α] (f : ∀ a, β a) (a : α) (b : β a) : Function.update f a b a = b := Function.update_self ..
theorem upd_ne {α β : Type} [DecidableEq α] (f : α → β) (a a' : α) (b : β) (h : a' ≠ a) : Function.update f a b a' = f a' :=
  Function.update_of_ne h ..

theorem wake_holds (c : C) (x : TS C Op R) : (x.wake c).holds = x.holds := by
  cases x <;> simp only [TS.wake]
  split <;> rfl

/-! ### Mutual exclusion -/

/-- Mutual exclusion: the owner of the lock is the one and only thread that is inside the critical section. -/
def Excl (s : St n σ C Op R) : Prop := ∀ t, (s.th t).holds = true ↔ s.owner = some t

theorem step_excl {M : Mon σ C Op R} {s s' : St n σ C Op R} {l : Lbl n Op} (h : Excl s) (st : Step M s l s') : Excl s' := by
  intro t'
  have ht := h t'
  cases st with
  | start t op e =>
    by_cases q : t' = t
    · subst q; rw [e] at ht; simpa [TS.holds] using ht
    · simpa [upd_ne _ _ _ _ q] using ht
  | lock t op t0 e ho =>
    by_cases q : t' = t
    · subst q; simp [TS.holds]
    · rw [ho] at ht; simp [upd_ne _ _ _ _ q, Ne.symm q]; simpa using ht
  | bodyDone t op t0 d r inner outer e ho hb =>
    by_cases q : t' = t
    · subst q; simp [TS.holds, ho]
    · simpa [upd_ne _ _ _ _ q] using ht
  | bodyWait t op t0 d c e ho hb =>
    by_cases q : t' = t
    · subst q; simp [TS.holds]
    · rw [ho] at ht; simp [upd_ne _ _ _ _ q]; simpa [Ne.symm q] using ht
  | bodySpin t op t0 d e ho hb => exact ht
  | spurious t op t0 c e =>
    by_cases q : t' = t
    · subst q; rw [e] at ht; simpa [TS.holds] using ht
    · simpa [upd_ne _ _ _ _ q] using ht
  | relock t op t0 e ho =>
    by_cases q : t' = t
    · subst q; simp [TS.holds]
    · rw [ho] at ht; simp [upd_ne _ _ _ _ q, Ne.symm q]; simpa using ht
  | signalIn t op r c inner outer u op' t0 e eu =>
    by_cases q : t' = u
    · subst q; rw [eu] at ht; simpa [TS.holds] using ht
    · by_cases q' : t' = t
      · subst q'; rw [e] at ht; simpa [upd_ne _ _ _ _ q, TS.holds] using ht
      · simpa [upd_ne _ _ _ _ q, upd_ne _ _ _ _ q'] using ht
  | signalInNone t op r c inner outer e eu =>
    by_cases q' : t' = t
    · subst q'; rw [e] at ht; simpa [TS.holds] using ht
    · simpa [upd_ne _ _ _ _ q'] using ht
  | bcastIn t op r c inner outer e =>
    by_cases q' : t' = t
    · subst q'; rw [e] at ht; simpa [TS.holds] using ht
    · simpa [upd_ne _ _ _ _ q', wake_holds] using ht
  | unlock t op r outer e ho =>
    by_cases q : t' = t
    · subst q; simp [TS.holds]
    · rw [ho] at ht; simp [upd_ne _ _ _ _ q]; simpa [Ne.symm q] using ht
  | signalOut t op r c outer u op' t0 e eu =>
    by_cases q : t' = u
    · subst q; rw [eu] at ht; simpa [TS.holds] using ht
    · by_cases q' : t' = t
      · subst q'; rw [e] at ht; simpa [upd_ne _ _ _ _ q, TS.holds] using ht
      · simpa [upd_ne _ _ _ _ q, upd_ne _ _ _ _ q'] using ht
  | signalOutNone t op r c outer e eu =>
    by_cases q' : t' = t
    · subst q'; rw [e] at ht; simpa [TS.holds] using ht
    · simpa [upd_ne _ _ _ _ q'] using ht
  | bcastOut t op r c outer e =>
    by_cases q' : t' = t
    · subst q'; rw [e] at ht; simpa [TS.holds] using ht
    · simpa [upd_ne _ _ _ _ q', wake_holds] using ht
  | ret t op r e =>
    by_cases q : t' = t
    · subst q; rw [e] at ht; simpa [TS.holds] using ht
    · simpa [upd_ne _ _ _ _ q] using ht
  | tick now => exact ht

theorem reach_excl {M : Mon σ C Op R} {ok : Fin n → Op → Prop} {now : Clock} {d : σ} {s : St n σ C Op R} (h : Reach M ok (init n now d) s) : Excl s :=
  Reach.induct Excl (by intro t; simp [init, TS.holds]) (fun _ _ _ _ hp st _ => step_excl hp st) h

/-- Mutual exclusion, as a statement about two threads. -/
theorem mutual_exclusion {M : Mon σ C Op R} {ok : Fin n → Op → Prop} {now : Clock} {d : σ} {s : St n σ C Op R} (h : Reach M ok (init n now d) s)
    {t u : Fin n} (ht : (s.th t).holds = true) (hu : (s.th u).holds = true) : t = u := by
  have := (reach_excl h t).mp ht
  rw [(reach_excl h u).mp hu] at this
  cases this; rfl

/-! ### Progress -/

/-- Steps that a thread takes by itself: not starting calls, not spurious wakeups, not the clock. -/
def Lbl.internal : Lbl n Op → Prop
  | .start .. => False
  | .spurious .. => False
  | .tick => False
  | _ => True

/-- Unless all threads are idle or waiting, some thread can take a step (provided the critical section that is about to run is defined). -/
theorem progress {M : Mon σ C Op R} {s : St n σ C Op R} (hx : Excl s)
    (hb : ∀ t op t0, s.th t = .holding op t0 → ∃ a, M.body op t0 s.now s.data a) (h : ¬ Settled s) :
    ∃ l s', Step M s l s' ∧ l.internal := by
  classical
  -- a thread that holds the lock can go on
  have hold : ∀ t, (s.th t).holds = true → ∃ l s', Step M s l s' ∧ l.internal := by
    intro t ht
    have ho := (hx t).mp ht
    cases e : s.th t with
    | idle => rw [e] at ht; cases ht
    | entering op t0 => rw [e] at ht; cases ht
    | waiting op t0 c => rw [e] at ht; cases ht
    | waking op t0 => rw [e] at ht; cases ht
    | after op r o => rw [e] at ht; cases ht
    | holding op t0 =>
      obtain ⟨a, ha⟩ := hb t op t0 e
      cases a with
      | done d r i o => exact ⟨_, _, .bodyDone s t op t0 d r i o e ho ha, trivial⟩
      | wait d c => exact ⟨_, _, .bodyWait s t op t0 d c e ho ha, trivial⟩
      | spin d => exact ⟨_, _, .bodySpin s t op t0 d e ho ha, trivial⟩
    | inLock op r i o =>
      cases i with
      | nil => exact ⟨_, _, .unlock s t op r o e ho, trivial⟩
      | cons g i =>
        cases g with
        | all c => exact ⟨_, _, .bcastIn s t op r c i o e, trivial⟩
        | one c =>
          by_cases hw : ∃ u op' t0, s.th u = .waiting op' t0 c
          · obtain ⟨u, op', t0, hu⟩ := hw
            exact ⟨_, _, .signalIn s t op r c i o u op' t0 e hu, trivial⟩
          · exact ⟨_, _, .signalInNone s t op r c i o e (fun u op' t0 hu => hw ⟨u, op', t0, hu⟩), trivial⟩
  unfold Settled at h
  obtain ⟨t, ht⟩ := not_forall.mp h
  cases ho : s.owner with
  | some u => exact hold u ((hx u).mpr ho)
  | none =>
    cases e : s.th t with
    | idle => exact absurd (.inl e) ht
    | waiting op t0 c => exact absurd (.inr ⟨op, t0, c, e⟩) ht
    | entering op t0 => exact ⟨_, _, .lock s t op t0 e ho, trivial⟩
    | waking op t0 => exact ⟨_, _, .relock s t op t0 e ho, trivial⟩
    | holding op t0 => exact hold t (by rw [e]; rfl)
    | inLock op r i o => exact hold t (by rw [e]; rfl)
    | after op r o =>
      cases o with
      | nil => exact ⟨_, _, .ret s t op r e, trivial⟩
      | cons g o =>
        cases g with
        | all c => exact ⟨_, _, .bcastOut s t op r c o e, trivial⟩
        | one c =>
          by_cases hw : ∃ u op' t0, s.th u = .waiting op' t0 c
          · obtain ⟨u, op', t0, hu⟩ := hw
            exact ⟨_, _, .signalOut s t op r c o u op' t0 e hu, trivial⟩
          · exact ⟨_, _, .signalOutNone s t op r c o e (fun u op' t0 hu => hw ⟨u, op', t0, hu⟩), trivial⟩

/-! ### Each call takes effect once, between its call and its return -/

/-- The events of thread `t`. -/
def Ev.thread : Ev n σ Op R → Fin n
  | .call t _ _ => t
  | .lin t _ _ _ _ _ => t
  | .ret t _ _ => t

/-- The events of one thread: complete calls (call, effect, return, with the same operation and result), and perhaps one that is not complete. -/
inductive Seq : List (Ev n σ Op R) → TS C Op R → Prop where
  | nil : Seq [] .idle
  | call {l t op t0} : Seq l (.idle : TS C Op R) → Seq (l ++ [.call t op t0]) (.entering op ⟨t0, t0⟩)
  | lin {l t op t0 now d r} : Seq l (.entering op ⟨t0.call, t0.call⟩ : TS C Op R) → Seq (l ++ [.lin t op t0 now d r]) (.after op r [])
  | ret {l t op r} : Seq l (.after op r [] : TS C Op R) → Seq (l ++ [.ret t op r]) .idle

/-- The part of the thread state that matters for `Seq`. -/
def TS.phase : TS C Op R → TS C Op R
  | .idle => .idle
  | .entering op t0 => .entering op ⟨t0.call, t0.call⟩
  | .holding op t0 => .entering op ⟨t0.call, t0.call⟩
  | .waiting op t0 _ => .entering op ⟨t0.call, t0.call⟩
  | .waking op t0 => .entering op ⟨t0.call, t0.call⟩
  | .inLock op r _ _ => .after op r []
  | .after op r _ => .after op r []

theorem wake_phase (c : C) (x : TS C Op R) : (x.wake c).phase = x.phase := by
  cases x <;> simp only [TS.wake]
  split <;> rfl

def Lin (s : St n σ C Op R) : Prop := ∀ t, Seq (s.tr.filter fun e => e.thread = t) (s.th t).phase

theorem step_lin {M : Mon σ C Op R} {s s' : St n σ C Op R} {l : Lbl n Op} (h : Lin s) (st : Step M s l s') : Lin s' := by
  intro t'
  have ht := h t'
  cases st with
  | start t op e =>
    by_cases q : t' = t
    · subst q; rw [e] at ht; simpa [Ev.thread, TS.phase] using Seq.call (t := t') (op := op) (t0 := s.now) ht
    · simpa [upd_ne _ _ _ _ q, Ev.thread, Ne.symm q] using ht
  | lock t op t0 e ho =>
    by_cases q : t' = t
    · subst q; rw [e] at ht; simpa [TS.phase] using ht
    · simpa [upd_ne _ _ _ _ q] using ht
  | bodyDone t op t0 d r inner outer e ho hb =>
    by_cases q : t' = t
    · subst q; rw [e] at ht; simpa [Ev.thread, TS.phase] using Seq.lin (t := t') (now := s.now) (d := s.data) (r := r) ht
    · simpa [upd_ne _ _ _ _ q, Ev.thread, Ne.symm q] using ht
  | bodyWait t op t0 d c e ho hb =>
    by_cases q : t' = t
    · subst q; rw [e] at ht; simpa [TS.phase] using ht
    · simpa [upd_ne _ _ _ _ q] using ht
  | bodySpin t op t0 d e ho hb => exact ht
  | spurious t op t0 c e =>
    by_cases q : t' = t
    · subst q; rw [e] at ht; simpa [TS.phase] using ht
    · simpa [upd_ne _ _ _ _ q] using ht
  | relock t op t0 e ho =>
    by_cases q : t' = t
    · subst q; rw [e] at ht; simpa [TS.phase] using ht
    · simpa [upd_ne _ _ _ _ q] using ht
  | signalIn t op r c inner outer u op' t0 e eu =>
    by_cases q : t' = u
    · subst q; rw [eu] at ht; simpa [TS.phase] using ht
    · by_cases q' : t' = t
      · subst q'; rw [e] at ht; simpa [upd_ne _ _ _ _ q, TS.phase] using ht
      · simpa [upd_ne _ _ _ _ q, upd_ne _ _ _ _ q'] using ht
  | signalInNone t op r c inner outer e eu =>
    by_cases q' : t' = t
    · subst q'; rw [e] at ht; simpa [TS.phase] using ht
    · simpa [upd_ne _ _ _ _ q'] using ht
  | bcastIn t op r c inner outer e =>
    by_cases q' : t' = t
    · subst q'; rw [e] at ht; simpa [TS.phase] using ht
    · simpa [upd_ne _ _ _ _ q', wake_phase] using ht
  | unlock t op r outer e ho =>
    by_cases q : t' = t
    · subst q; rw [e] at ht; simpa [TS.phase] using ht
    · simpa [upd_ne _ _ _ _ q] using ht
  | signalOut t op r c outer u op' t0 e eu =>
    by_cases q : t' = u
    · subst q; rw [eu] at ht; simpa [TS.phase] using ht
    · by_cases q' : t' = t
      · subst q'; rw [e] at ht; simpa [upd_ne _ _ _ _ q, TS.phase] using ht
      · simpa [upd_ne _ _ _ _ q, upd_ne _ _ _ _ q'] using ht
  | signalOutNone t op r c outer e eu =>
    by_cases q' : t' = t
    · subst q'; rw [e] at ht; simpa [TS.phase] using ht
    · simpa [upd_ne _ _ _ _ q'] using ht
  | bcastOut t op r c outer e =>
    by_cases q' : t' = t
    · subst q'; rw [e] at ht; simpa [TS.phase] using ht
    · simpa [upd_ne _ _ _ _ q', wake_phase] using ht
  | ret t op r e =>
    by_cases q : t' = t
    · subst q; rw [e] at ht; simpa [Ev.thread, TS.phase] using Seq.ret (t := t') ht
    · simpa [upd_ne _ _ _ _ q, Ev.thread, Ne.symm q] using ht
  | tick now => exact ht

/-- Every thread's events are complete calls, each taking effect exactly once between call and return with the result that is returned, followed by at
most one incomplete call. -/
theorem reach_lin {M : Mon σ C Op R} {ok : Fin n → Op → Prop} {now : Clock} {d : σ} {s : St n σ C Op R} (h : Reach M ok (init n now d) s) : Lin s :=
  Reach.induct Lin (by intro t; exact Seq.nil) (fun _ _ _ _ hp st _ => step_lin hp st) h

/-- The effects in the order in which they happened. -/
def effects : List (Ev n σ Op R) → List (Op × R)
  | [] => []
  | .lin _ op _ _ _ r :: l => (op, r) :: effects l
  | _ :: l => effects l

theorem effects_append (a b : List (Ev n σ Op R)) : effects (a ++ b) = effects a ++ effects b := by
  induction a with
  | nil => rfl
  | cons e a ih => cases e <;> simp [effects, ih]

/-! ### Invariants on data and threads -/

/-- The call a thread is inside of. -/
def TS.op? : TS C Op R → Option Op
  | .idle => none
  | .entering op _ => some op
  | .holding op _ => some op
  | .waiting op _ _ => some op
  | .waking op _ => some op
  | .inLock op _ _ _ => some op
  | .after op _ _ => some op

theorem wake_op (c : C) (x : TS C Op R) : (x.wake c).op? = x.op? := by
  cases x <;> simp only [TS.wake]
  split <;> rfl

/-- All calls in progress are allowed ones. -/
def AllOk (ok : Fin n → Op → Prop) (th : Fin n → TS C Op R) : Prop := ∀ t op, (th t).op? = some op → ok t op

theorem AllOk.update {ok : Fin n → Op → Prop} {th : Fin n → TS C Op R} (h : AllOk ok th) (t : Fin n) (x : TS C Op R) (hx : ∀ op, x.op? = some op → ok t op) :
    AllOk ok (Function.update th t x) := by
  intro t' op hh
  by_cases q : t' = t
  · subst q; rw [upd_same] at hh; exact hx op hh
  · rw [upd_ne _ _ _ _ q] at hh; exact h t' op hh

theorem AllOk.same {ok : Fin n → Op → Prop} {th : Fin n → TS C Op R} (h : AllOk ok th) (t : Fin n) (x : TS C Op R) (hx : x.op? = (th t).op?) :
    AllOk ok (Function.update th t x) := h.update t x (fun op e => h t op (hx ▸ e))

theorem AllOk.wake {ok : Fin n → Op → Prop} {th : Fin n → TS C Op R} (h : AllOk ok th) (c : C) : AllOk ok (fun t => (th t).wake c) := by
  intro t op hh
  rw [wake_op] at hh
  exact h t op hh

theorem reach_ok {M : Mon σ C Op R} {ok : Fin n → Op → Prop} {now : Clock} {d : σ} {s : St n σ C Op R} (h : Reach M ok (init n now d) s) : AllOk ok s.th := by
  refine Reach.induct (fun s => AllOk ok s.th) (by intro t op hh; cases hh) ?_ h
  intro s l s' _ hq st hok
  cases st with
  | start t op e => exact hq.update _ _ (fun op' e' => by cases e'; exact hok t op rfl)
  | lock t op t0 e ho => exact hq.same t _ (by rw [e]; rfl)
  | bodyDone t op t0 d r inner outer e ho hb => exact hq.same t _ (by rw [e]; rfl)
  | bodyWait t op t0 d c e ho hb => exact hq.same t _ (by rw [e]; rfl)
  | bodySpin t op t0 d e ho hb => exact hq
  | spurious t op t0 c e => exact hq.same t _ (by rw [e]; rfl)
  | relock t op t0 e ho => exact hq.same t _ (by rw [e]; rfl)
  | signalIn t op r c inner outer u op' t0 e eu =>
    exact (hq.same t _ (by rw [e]; rfl)).update u _ (fun op e' => hq u op (by rw [eu]; exact e'))
  | signalInNone t op r c inner outer e eu => exact hq.same t _ (by rw [e]; rfl)
  | bcastIn t op r c inner outer e => exact (hq.wake c).update _ _ (fun op e' => hq t op (by rw [e]; exact e'))
  | unlock t op r outer e ho => exact hq.same t _ (by rw [e]; rfl)
  | signalOut t op r c outer u op' t0 e eu =>
    exact (hq.same t _ (by rw [e]; rfl)).update u _ (fun op e' => hq u op (by rw [eu]; exact e'))
  | signalOutNone t op r c outer e eu => exact hq.same t _ (by rw [e]; rfl)
  | bcastOut t op r c outer e => exact (hq.wake c).update _ _ (fun op e' => hq t op (by rw [e]; exact e'))
  | ret t op r e => exact hq.update _ _ (fun op' e' => by cases e')
  | tick now => exact hq

/-- An invariant of the data and the effects is preserved if every pass through a critical section preserves it. -/
theorem data_invariant {M : Mon σ C Op R} {ok : Fin n → Op → Prop} {now : Clock} {d : σ} (P : σ → List (Op × R) → Prop) (h0 : P d [])
    (hdone : ∀ t op t0 nw d d' r i o es, ok t op → P d es → M.body op t0 nw d (.done d' r i o) → P d' (es ++ [(op, r)]))
    (hwait : ∀ t op t0 nw d d' c es, ok t op → P d es → M.body op t0 nw d (.wait d' c) → P d' es)
    (hspin : ∀ t op t0 nw d d' es, ok t op → P d es → M.body op t0 nw d (.spin d') → P d' es)
    {s : St n σ C Op R} (h : Reach M ok (init n now d) s) : P s.data (effects s.tr) := by
  refine Reach.induct (fun s => P s.data (effects s.tr)) h0 ?_ h
  intro s l s' hr hp st _
  have hq := reach_ok hr
  cases st with
  | start t op e => simpa [effects_append, effects] using hp
  | lock t op t0 e ho => exact hp
  | bodyDone t op t0 d r inner outer e ho hb =>
    have := hdone _ _ _ _ _ _ _ _ _ _ (hq t op (by rw [e]; rfl)) hp hb
    simpa [effects_append, effects] using this
  | bodyWait t op t0 d c e ho hb => exact hwait _ _ _ _ _ _ _ _ (hq t op (by rw [e]; rfl)) hp hb
  | bodySpin t op t0 d e ho hb => exact hspin _ _ _ _ _ _ _ (hq t op (by rw [e]; rfl)) hp hb
  | spurious t op t0 c e => exact hp
  | relock t op t0 e ho => exact hp
  | signalIn t op r c inner outer u op' t0 e eu => exact hp
  | signalInNone t op r c inner outer e eu => exact hp
  | bcastIn t op r c inner outer e => exact hp
  | unlock t op r outer e ho => exact hp
  | signalOut t op r c outer u op' t0 e eu => exact hp
  | signalOutNone t op r c outer e eu => exact hp
  | bcastOut t op r c outer e => exact hp
  | ret t op r e => simpa [effects_append, effects] using hp
  | tick now => exact hp

/-- A property of all effects: it holds for every event of a reachable history if it holds whenever a critical section completes. -/
theorem lin_invariant {M : Mon σ C Op R} {ok : Fin n → Op → Prop} {now : Clock} {d : σ} (Q : Op → Stamp → Clock → σ → R → Prop)
    (hdone : ∀ s : St n σ C Op R, Reach M ok (init n now d) s → ∀ op t0 d' r i o, M.body op t0 s.now s.data (.done d' r i o) → Q op t0 s.now s.data r)
    {s : St n σ C Op R} (h : Reach M ok (init n now d) s) {t : Fin n} {op : Op} {t0 : Stamp} {nw : Clock} {dd : σ} {r : R}
    (he : Ev.lin t op t0 nw dd r ∈ s.tr) : Q op t0 nw dd r := by
  refine Reach.induct (fun s => ∀ t op t0 nw dd r, Ev.lin t op t0 nw dd r ∈ s.tr → Q op t0 nw dd r) (by intro _ _ _ _ _ _ h; cases h) ?_ h t op t0 nw dd r he
  intro s l s' hr hp st _ t' op' t0' nw' dd' r' he
  cases st with
  | start t op e =>
    rcases List.mem_append.mp he with he | he
    · exact hp _ _ _ _ _ _ he
    · simp at he
  | bodyDone t op t0 d r inner outer e ho hb =>
    rcases List.mem_append.mp he with he | he
    · exact hp _ _ _ _ _ _ he
    · simp only [List.mem_singleton] at he
      cases he
      exact hdone s hr _ _ _ _ _ _ hb
  | ret t op r e =>
    rcases List.mem_append.mp he with he | he
    · exact hp _ _ _ _ _ _ he
    · simp at he
  | lock | bodyWait | bodySpin | spurious | relock | signalIn | signalInNone | bcastIn | unlock | signalOut | signalOutNone | bcastOut | tick =>
    exact hp _ _ _ _ _ _ he

/-! ### Counting threads -/

/-- Sum of a weight over the threads. -/
def total (w : TS C Op R → Nat) (th : Fin n → TS C Op R) : Nat := ∑ t, w (th t)

theorem total_update (w : TS C Op R → Nat) (th : Fin n → TS C Op R) (t : Fin n) (x : TS C Op R) :
    total w (Function.update th t x) + w (th t) = total w th + w x := by
  unfold total
  have h1 : ∑ u, w (Function.update th t x u) = w x + ∑ u ∈ Finset.univ \ {t}, w (th u) := by
    have : (fun u => w (Function.update th t x u)) = Function.update (fun u => w (th u)) t (w x) := by
      funext u
      by_cases q : u = t
      · subst q; simp
      · simp [upd_ne _ _ _ _ q]
    rw [this, Finset.sum_update_of_mem (Finset.mem_univ t)]
  have h2 : ∑ u, w (th u) = w (th t) + ∑ u ∈ Finset.univ \ {t}, w (th u) := by
    have := Finset.sum_update_of_mem (s := Finset.univ) (Finset.mem_univ t) (fun u => w (th u)) (w (th t))
    rw [Function.update_eq_self] at this
    exact this
  rw [h1, h2]; omega

theorem total_zero {w : TS C Op R → Nat} {th : Fin n → TS C Op R} : total w th = 0 ↔ ∀ t, w (th t) = 0 := by
  unfold total; rw [Finset.sum_eq_zero_iff]; simp

theorem total_le {w w' : TS C Op R → Nat} {th : Fin n → TS C Op R} (h : ∀ t, w (th t) ≤ w' (th t)) : total w th ≤ total w' th :=
  Finset.sum_le_sum fun t _ => h t

theorem total_mem (w : TS C Op R → Nat) (th : Fin n → TS C Op R) (t : Fin n) : w (th t) ≤ total w th :=
  Finset.single_le_sum (f := fun t => w (th t)) (fun _ _ => Nat.zero_le _) (Finset.mem_univ t)

theorem total_wake_le (w : TS C Op R → Nat) (th : Fin n → TS C Op R) (c : C) (h : ∀ x : TS C Op R, w x ≤ w (x.wake c)) :
    total w th ≤ total w (fun t => (th t).wake c) := Finset.sum_le_sum fun t _ => h (th t)

end Verif.Monitor
