import Verif.Monitor.Lemmas

/-
Two general arguments against lost wakeups.

* `no_lost_wakeup` counts: as long as somebody waits, the items available are covered by notifications on their way and threads already awake.
* `no_lost_broadcast`: if every change that could satisfy a waiter is followed by a broadcast (or by a signal, when there is at most one waiter), no
  waiter is left behind.
-/

namespace Verif.Monitor
open Verif

set_option linter.unusedSectionVars false

variable {n : Nat} {σ C Op R : Type} [DecidableEq C]

/-- Signals on `c` in a list of notifications. -/
def ones (c : C) : List (Sig C) → Nat
  | [] => 0
  | .one c' :: l => (if c' = c then 1 else 0) + ones c l
  | .all _ :: l => ones c l

theorem ones_append (c : C) (a b : List (Sig C)) : ones c (a ++ b) = ones c a + ones c b := by
  induction a with
  | nil => simp [ones]
  | cons g a ih => cases g <;> simp [ones, ih]; omega

/-- What a thread contributes: signals it is going to send, and itself if it is awake and going to consume. -/
def weight (c : C) (cons : Op → Bool) : TS C Op R → Nat
  | .waking op _ => if cons op then 1 else 0
  | .holding op _ => if cons op then 1 else 0
  | .inLock _ _ i o => ones c i + ones c o
  | .after _ _ o => ones c o
  | _ => 0

theorem weight_wake (c c' : C) (cons : Op → Bool) (x : TS C Op R) : weight c cons x ≤ weight c cons (x.wake c') := by
  cases x <;> simp only [TS.wake] <;> try exact Nat.le_refl _
  split <;> simp [weight]

/-- The invariant: waiters on `c` are consumers, and while there is one, what is available is covered. -/
def Covered (c : C) (cons : Op → Bool) (need : σ → Nat) (s : St n σ C Op R) : Prop :=
  (∀ u op t0, s.th u = .waiting op t0 c → cons op = true) ∧
  ((∃ u op t0, s.th u = .waiting op t0 c) → need s.data ≤ total (weight c cons) s.th)

theorem waiting_update {c : C} {th : Fin n → TS C Op R} {t u : Fin n} {x : TS C Op R} {op : Op} {t0 : Stamp} (hx : ∀ op t0, x ≠ .waiting op t0 c)
    (h : Function.update th t x u = .waiting op t0 c) : u ≠ t ∧ th u = .waiting op t0 c := by
  by_cases q : u = t
  · subst q; rw [upd_same] at h; exact absurd h (hx _ _)
  · rw [upd_ne _ _ _ _ q] at h; exact ⟨q, h⟩

theorem waiting_wake {c c' : C} {x : TS C Op R} {op : Op} {t0 : Stamp} (h : x.wake c' = .waiting op t0 c) : x = .waiting op t0 c ∧ c ≠ c' := by
  cases x <;> simp only [TS.wake] at h <;> try cases h
  next op' t0' c'' =>
    split at h
    · cases h
    · next hc => cases h; exact ⟨rfl, hc⟩

theorem no_lost_wakeup {M : Mon σ C Op R} {ok : Fin n → Op → Prop} {now : Clock} {d : σ} (c : C) (cons : Op → Bool) (need : σ → Nat)
    (I : σ → Prop) (hI : ∀ s : St n σ C Op R, Reach M ok (init n now d) s → I s.data)
    (hdone : ∀ t op t0 nw d d' r i o, ok t op → I d → M.body op t0 nw d (.done d' r i o) →
      need d' + (if cons op then 1 else 0) ≤ need d + ones c (i ++ o) ∨ need d' ≤ ones c (i ++ o))
    (hwait : ∀ t op t0 nw d d' c', ok t op → I d → M.body op t0 nw d (.wait d' c') →
      if c' = c then cons op = true ∧ need d' = 0 else need d' + (if cons op then 1 else 0) ≤ need d)
    (hspin : ∀ t op t0 nw d d', ok t op → I d → M.body op t0 nw d (.spin d') → need d' ≤ need d)
    {s : St n σ C Op R} (h : Reach M ok (init n now d) s) : Covered c cons need s := by
  refine Reach.induct (Covered c cons need) ⟨(by intro u op t0 h; cases h), (by rintro ⟨u, op, t0, h⟩; cases h)⟩ ?_ h
  rintro s l s' hr ⟨hc, hn⟩ st -
  have hok := reach_ok hr
  -- replacing a thread state that is not waiting on c by one of at least the same weight, also not waiting
  have triv : ∀ (t : Fin n) (x : TS C Op R), (∀ op t0, x ≠ .waiting op t0 c) → weight c cons (s.th t) ≤ weight c cons x →
      (∀ u op t0, Function.update s.th t x u = .waiting op t0 c → cons op = true) ∧
      ((∃ u op t0, Function.update s.th t x u = .waiting op t0 c) → need s.data ≤ total (weight c cons) (Function.update s.th t x)) := by
    intro t x hx hw
    refine ⟨fun u op t0 e => hc u op t0 (waiting_update hx e).2, ?_⟩
    rintro ⟨u, op, t0, e⟩
    have h1 := hn ⟨u, op, t0, (waiting_update hx e).2⟩
    have h2 := total_update (weight c cons) s.th t x
    omega
  -- signal on c' with a waiter
  have sgl : ∀ (t u : Fin n) (x : TS C Op R) (c' : C) (op' : Op) (t0' : Stamp), (∀ op t0, x ≠ .waiting op t0 c) → s.th u = .waiting op' t0' c' →
      (∀ op t0 c', s.th t ≠ .waiting op t0 c') → weight c cons (s.th t) ≤ weight c cons x + (if c' = c then 1 else 0) →
      (∀ v op t0, Function.update (Function.update s.th t x) u (.waking op' t0') v = .waiting op t0 c → cons op = true) ∧
      ((∃ v op t0, Function.update (Function.update s.th t x) u (.waking op' t0') v = .waiting op t0 c) →
        need s.data ≤ total (weight c cons) (Function.update (Function.update s.th t x) u (.waking op' t0'))) := by
    intro t u x c' op' t0' hx eu hnt hw
    have hk : ∀ op t0, (TS.waking op' t0' : TS C Op R) ≠ .waiting op t0 c := by intro op t0 e; cases e
    refine ⟨fun v op t0 e => hc v op t0 (waiting_update hx (waiting_update hk e).2).2, ?_⟩
    rintro ⟨v, op, t0, e⟩
    have h1 := hn ⟨v, op, t0, (waiting_update hx (waiting_update hk e).2).2⟩
    have h2 := total_update (weight c cons) s.th t x
    have h3 := total_update (weight c cons) (Function.update s.th t x) u (.waking op' t0')
    have hut : u ≠ t := fun q => hnt op' t0' c' (q ▸ eu)
    rw [upd_ne _ _ _ _ hut, eu] at h3
    have h4 : weight c cons (TS.waiting op' t0' c' : TS C Op R) = 0 := rfl
    have h5 : (if c' = c then 1 else 0) ≤ weight c cons (TS.waking op' t0' : TS C Op R) := by
      split
      · next q => subst q; simp [weight, hc u op' t0' eu]
      · exact Nat.zero_le _
    omega
  have bca : ∀ (t : Fin n) (x : TS C Op R) (c' : C), (∀ op t0, x ≠ .waiting op t0 c) → weight c cons (s.th t) ≤ weight c cons x →
      (∀ op t0 c', s.th t ≠ .waiting op t0 c') →
      (∀ v op t0, Function.update (fun u => (s.th u).wake c') t x v = .waiting op t0 c → cons op = true) ∧
      ((∃ v op t0, Function.update (fun u => (s.th u).wake c') t x v = .waiting op t0 c) →
        need s.data ≤ total (weight c cons) (Function.update (fun u => (s.th u).wake c') t x)) := by
    intro t x c' hx hw hnt
    refine ⟨fun v op t0 e => hc v op t0 (waiting_wake (waiting_update hx e).2).1, ?_⟩
    rintro ⟨v, op, t0, e⟩
    have h1 := hn ⟨v, op, t0, (waiting_wake (waiting_update hx e).2).1⟩
    have h2 := total_update (weight c cons) (fun u => (s.th u).wake c') t x
    have h3 := total_wake_le (weight c cons) s.th c' (weight_wake c c' cons)
    have h4 : (s.th t).wake c' = s.th t := by
      cases e : s.th t <;> simp only [TS.wake]
      next a b f => exact absurd e (hnt a b f)
    simp only [h4] at h2
    omega
  cases st with
  | start t op e => exact triv t _ (by intro a b q; cases q) (by rw [e]; exact Nat.zero_le _)
  | lock t op t0 e ho => exact triv t _ (by intro a b q; cases q) (by rw [e]; exact Nat.zero_le _)
  | bodyDone t op t0 d r inner outer e ho hb =>
    have hx : ∀ a b, (TS.inLock op r inner outer : TS C Op R) ≠ .waiting a b c := by intro a b q; cases q
    refine ⟨fun u op t0 e => hc u op t0 (waiting_update hx e).2, ?_⟩
    rintro ⟨u, op', t0', e'⟩
    have h1 := hn ⟨u, op', t0', (waiting_update hx e').2⟩
    have h2 := total_update (weight c cons) s.th t (.inLock op r inner outer)
    have h3 := hdone t op t0 s.now s.data d r inner outer (hok t op (by rw [e]; rfl)) (hI s hr) hb
    have h4 := total_mem (weight c cons) s.th t
    rw [ones_append] at h3
    rw [e] at h2 h4
    simp only [weight] at h2 h4
    show need d ≤ total (weight c cons) (Function.update s.th t (.inLock op r inner outer))
    omega
  | bodyWait t op t0 d c' e ho hb =>
    have h3 := hwait t op t0 s.now s.data d c' (hok t op (by rw [e]; rfl)) (hI s hr) hb
    by_cases q : c' = c
    · subst q
      rw [if_pos rfl] at h3
      refine ⟨?_, fun _ => by show need d ≤ _; omega⟩
      intro u op' t0' e'
      have e' : Function.update s.th t (.waiting op t0 c') u = .waiting op' t0' c' := e'
      by_cases qu : u = t
      · subst qu; rw [upd_same] at e'; cases e'; exact h3.1
      · rw [upd_ne _ _ _ _ qu] at e'; exact hc u op' t0' e'
    · rw [if_neg q] at h3
      have hx : ∀ a b, (TS.waiting op t0 c' : TS C Op R) ≠ .waiting a b c := by intro a b q'; cases q'; exact q rfl
      refine ⟨fun u op t0 e => hc u op t0 (waiting_update hx e).2, ?_⟩
      rintro ⟨u, op', t0', e'⟩
      have h1 := hn ⟨u, op', t0', (waiting_update hx e').2⟩
      have h2 := total_update (weight c cons) s.th t (.waiting op t0 c')
      rw [e] at h2
      simp only [weight] at h2
      show need d ≤ total (weight c cons) (Function.update s.th t (.waiting op t0 c'))
      have h4 : total (weight c cons) (Function.update s.th t (TS.waiting op t0 c')) + (if cons op then 1 else 0) = total (weight c cons) s.th := by
        simpa using h2
      omega
  | bodySpin t op t0 d e ho hb =>
    refine ⟨hc, fun hh => ?_⟩
    exact Nat.le_trans (hspin t op t0 s.now s.data d (hok t op (by rw [e]; rfl)) (hI s hr) hb) (hn hh)
  | spurious t op t0 c' e => exact triv t _ (by intro a b q; cases q) (by rw [e]; exact Nat.zero_le _)
  | relock t op t0 e ho => exact triv t _ (by intro a b q; cases q) (by rw [e]; exact Nat.le_refl _)
  | signalIn t op r c' inner outer u op' t0 e eu =>
    exact sgl t u _ c' op' t0 (by intro a b q; cases q) eu (by intro a b f q; rw [e] at q; cases q) (by rw [e]; simp only [weight, ones]; omega)
  | signalInNone t op r c' inner outer e eu =>
    have hx : ∀ a b, (TS.inLock op r inner outer : TS C Op R) ≠ .waiting a b c := by intro a b q; cases q
    refine ⟨fun u op t0 e => hc u op t0 (waiting_update hx e).2, ?_⟩
    rintro ⟨u, op', t0', e'⟩
    by_cases q : c' = c
    · subst q; exact absurd (waiting_update hx e').2 (eu _ _ _)
    · refine (triv t _ hx ?_).2 ⟨u, op', t0', e'⟩
      rw [e]; simp [weight, ones, q]
  | bcastIn t op r c' inner outer e =>
    exact bca t _ c' (by intro a b q; cases q) (by rw [e]; simp [weight, ones]) (by intro a b f q; rw [e] at q; cases q)
  | unlock t op r outer e ho => exact triv t _ (by intro a b q; cases q) (by rw [e]; simp [weight, ones])
  | signalOut t op r c' outer u op' t0 e eu =>
    exact sgl t u _ c' op' t0 (by intro a b q; cases q) eu (by intro a b f q; rw [e] at q; cases q) (by rw [e]; simp only [weight, ones]; omega)
  | signalOutNone t op r c' outer e eu =>
    have hx : ∀ a b, (TS.after op r outer : TS C Op R) ≠ .waiting a b c := by intro a b q; cases q
    refine ⟨fun u op t0 e => hc u op t0 (waiting_update hx e).2, ?_⟩
    rintro ⟨u, op', t0', e'⟩
    by_cases q : c' = c
    · subst q; exact absurd (waiting_update hx e').2 (eu _ _ _)
    · refine (triv t _ hx ?_).2 ⟨u, op', t0', e'⟩
      rw [e]; simp [weight, ones, q]
  | bcastOut t op r c' outer e =>
    exact bca t _ c' (by intro a b q; cases q) (by rw [e]; simp [weight, ones]) (by intro a b f q; rw [e] at q; cases q)
  | ret t op r e => exact triv t _ (by intro a b q; cases q) (by rw [e]; simp [weight, ones])
  | tick now => exact ⟨hc, hn⟩

/-- In a settled state nothing is on its way, so nobody waits while something is available. -/
theorem settled_covered {c : C} {cons : Op → Bool} {need : σ → Nat} {s : St n σ C Op R} (h : Covered c cons need s) (hs : Settled s)
    (hw : ∃ u op t0, s.th u = .waiting op t0 c) : need s.data = 0 := by
  have h1 := h.2 hw
  have h2 : total (weight c cons) s.th = 0 := by
    rw [total_zero]
    intro t
    rcases hs t with e | ⟨op, t0, c', e⟩ <;> rw [e] <;> rfl
  omega

/-! ### Broadcasts -/

/-- A notification that is enough: a broadcast, or a signal if there is at most one waiter. -/
def Sig.good (c : C) (u : Prop) : Sig C → Prop
  | .all c' => c' = c
  | .one c' => c' = c ∧ u

/-- A thread is going to send a sufficient notification. -/
def TS.sends (c : C) (u : Prop) : TS C Op R → Prop
  | .inLock _ _ i o => ∃ g, g ∈ i ++ o ∧ g.good c u
  | .after _ _ o => ∃ g, g ∈ o ∧ g.good c u
  | _ => False

/-- The invariant: a waiter on `c` whose condition holds is about to be notified. -/
def Announced (c : C) (u : Prop) (ready : Op → σ → Prop) (s : St n σ C Op R) : Prop :=
  (∃ v op t0, s.th v = .waiting op t0 c ∧ ready op s.data) → ∃ t, (s.th t).sends c u

theorem no_lost_broadcast {M : Mon σ C Op R} {ok : Fin n → Op → Prop} {now : Clock} {d : σ} (c : C) (u : Prop) (ready : Op → σ → Prop)
    (I : σ → Prop) (hI : ∀ s : St n σ C Op R, Reach M ok (init n now d) s → I s.data)
    (hu : u → ∀ s : St n σ C Op R, Reach M ok (init n now d) s → ∀ v w a b a' b', s.th v = .waiting a b c → s.th w = .waiting a' b' c → v = w)
    (hdone : ∀ t op t0 nw d d' r i o, ok t op → I d → M.body op t0 nw d (.done d' r i o) →
      (∃ g, g ∈ i ++ o ∧ g.good c u) ∨ ∀ op', ready op' d' → ready op' d)
    (hwait : ∀ t op t0 nw d d' c', ok t op → I d → M.body op t0 nw d (.wait d' c') →
      (c' = c → ¬ ready op d') ∧ ∀ op', ready op' d' → ready op' d)
    (hspin : ∀ t op t0 nw d d', ok t op → I d → M.body op t0 nw d (.spin d') → ∀ op', ready op' d' → ready op' d)
    {s : St n σ C Op R} (h : Reach M ok (init n now d) s) : Announced c u ready s := by
  refine Reach.induct (Announced c u ready) (by rintro ⟨v, op, t0, h, -⟩; cases h) ?_ h
  intro s l s' hr ha st hst
  have hok := reach_ok hr
  have hr' : Reach M ok (init n now d) s' := hr.step st hst
  -- the sender goes on sending
  have keep : ∀ (t : Fin n) (x : TS C Op R) (th' : Fin n → TS C Op R), (∀ v, v ≠ t → (s.th v).sends c u → (th' v).sends c u) →
      ((s.th t).sends c u → (th' t).sends c u) → (∃ t, (s.th t).sends c u) → ∃ t, (th' t).sends c u := by
    rintro t x th' h1 h2 ⟨v, hv⟩
    by_cases q : v = t
    · subst q; exact ⟨v, h2 hv⟩
    · exact ⟨v, h1 v q hv⟩
  have up : ∀ (t : Fin n) (x : TS C Op R), (∀ op t0, x ≠ .waiting op t0 c) → ((s.th t).sends c u → x.sends c u) →
      Announced c u ready { s with th := Function.update s.th t x } := by
    rintro t x hx hs ⟨v, op, t0, e, hrd⟩
    refine keep t x _ (fun v q hv => ?_) (fun hv => ?_) (ha ⟨v, op, t0, (waiting_update hx e).2, hrd⟩)
    · show (Function.update s.th t x v).sends c u
      rw [upd_ne _ _ _ _ q]; exact hv
    · show (Function.update s.th t x t).sends c u
      rw [upd_same]; exact hs hv
  have sgl : ∀ (t w : Fin n) (x : TS C Op R) (c' : C) (op' : Op) (t0' : Stamp), (∀ op t0, x ≠ .waiting op t0 c) → s.th w = .waiting op' t0' c' →
      (∀ op t0 c', s.th t ≠ .waiting op t0 c') → ((s.th t).sends c u → x.sends c u ∨ (c' = c ∧ u)) →
      Announced c u ready { s with th := Function.update (Function.update s.th t x) w (.waking op' t0') } := by
    rintro t w x c' op' t0' hx ew hnt hs ⟨v, op, t0, e, hrd⟩
    have hk : ∀ op t0, (TS.waking op' t0' : TS C Op R) ≠ .waiting op t0 c := by intro op t0 e; cases e
    obtain ⟨hvw, e1⟩ := waiting_update hk e
    obtain ⟨hvt, e2⟩ := waiting_update hx e1
    have hwt : w ≠ t := fun q => hnt op' t0' c' (q ▸ ew)
    obtain ⟨z, hz⟩ := ha ⟨v, op, t0, e2, hrd⟩
    have hzw : z ≠ w := by rintro rfl; rw [ew] at hz; exact hz
    by_cases q : z = t
    · subst q
      rcases hs hz with h1 | ⟨h1, h2⟩
      · refine ⟨z, ?_⟩
        show (Function.update (Function.update s.th z x) w _ z).sends c u
        rw [upd_ne _ _ _ _ hzw, upd_same]; exact h1
      · subst h1
        exact absurd (hu h2 s hr v w _ _ _ _ e2 ew) hvw
    · refine ⟨z, ?_⟩
      show (Function.update (Function.update s.th t x) w _ z).sends c u
      rw [upd_ne _ _ _ _ hzw, upd_ne _ _ _ _ q]; exact hz
  have wsend : ∀ (x : TS C Op R) c', x.sends c u → (x.wake c').sends c u := by
    intro x c' hx
    cases x <;> first | exact hx | cases hx
  have bca : ∀ (t : Fin n) (x : TS C Op R) (c' : C), (∀ op t0, x ≠ .waiting op t0 c) → ((s.th t).sends c u → x.sends c u ∨ c' = c) →
      Announced c u ready { s with th := Function.update (fun u => (s.th u).wake c') t x } := by
    rintro t x c' hx hs ⟨v, op, t0, e, hrd⟩
    have e : Function.update (fun u => (s.th u).wake c') t x v = .waiting op t0 c := e
    obtain ⟨hvt, e1⟩ := waiting_update hx e
    obtain ⟨e2, hcc⟩ := waiting_wake e1
    obtain ⟨z, hz⟩ := ha ⟨v, op, t0, e2, hrd⟩
    by_cases q : z = t
    · subst q
      rcases hs hz with h1 | h1
      · refine ⟨z, ?_⟩
        show (Function.update (fun u => (s.th u).wake c') z x z).sends c u
        rw [upd_same]; exact h1
      · exact absurd h1.symm hcc
    · refine ⟨z, ?_⟩
      show (Function.update (fun u => (s.th u).wake c') t x z).sends c u
      rw [upd_ne _ _ _ _ q]; exact wsend _ _ hz
  cases st with
  | start t op e =>
    have := up t (.entering op ⟨s.now, s.now⟩) (by intro a b q; cases q) (by rw [e]; exact False.elim)
    exact this
  | lock t op t0 e ho =>
    have := up t (.holding op ⟨t0.call, s.now⟩) (by intro a b q; cases q) (by rw [e]; exact False.elim)
    exact this
  | bodyDone t op t0 d r inner outer e ho hb =>
    rintro ⟨v, op', t0', e', hrd⟩
    have hx : ∀ a b, (TS.inLock op r inner outer : TS C Op R) ≠ .waiting a b c := by intro a b q; cases q
    rcases hdone t op t0 s.now s.data d r inner outer (hok t op (by rw [e]; rfl)) (hI s hr) hb with h1 | h1
    · refine ⟨t, ?_⟩
      show (Function.update s.th t _ t).sends c u
      rw [upd_same]; exact h1
    · have := up t (.inLock op r inner outer) hx (by rw [e]; exact False.elim)
      exact this ⟨v, op', t0', e', h1 _ hrd⟩
  | bodyWait t op t0 d c' e ho hb =>
    rintro ⟨v, op', t0', e', hrd⟩
    obtain ⟨h1, h2⟩ := hwait t op t0 s.now s.data d c' (hok t op (by rw [e]; rfl)) (hI s hr) hb
    have hvt : v ≠ t := by
      rintro rfl
      have e' : Function.update s.th v (.waiting op t0 c') v = .waiting op' t0' c := e'
      rw [upd_same] at e'; cases e'; exact h1 rfl hrd
    have e'' : s.th v = .waiting op' t0' c := by
      have e' : Function.update s.th t (.waiting op t0 c') v = .waiting op' t0' c := e'
      rwa [upd_ne _ _ _ _ hvt] at e'
    refine keep t (.waiting op t0 c') _ (fun v q hv => ?_) (fun hv => ?_) (ha ⟨v, op', t0', e'', h2 _ hrd⟩)
    · show (Function.update s.th t _ v).sends c u
      rw [upd_ne _ _ _ _ q]; exact hv
    · rw [e] at hv; exact hv.elim
  | bodySpin t op t0 d e ho hb =>
    rintro ⟨v, op', t0', e', hrd⟩
    exact ha ⟨v, op', t0', e', hspin t op t0 s.now s.data d (hok t op (by rw [e]; rfl)) (hI s hr) hb _ hrd⟩
  | spurious t op t0 c' e =>
    have := up t (.waking op t0) (by intro a b q; cases q) (by rw [e]; exact False.elim)
    exact this
  | relock t op t0 e ho =>
    have := up t (.holding op t0) (by intro a b q; cases q) (by rw [e]; exact False.elim)
    exact this
  | signalIn t op r c' inner outer w op' t0 e ew =>
    refine sgl t w _ c' op' t0 (by intro a b q; cases q) ew (by intro a b f q; rw [e] at q; cases q) ?_
    rw [e]
    rintro ⟨g, hg, hgood⟩
    rcases List.mem_cons.mp hg with rfl | hg
    · exact .inr hgood
    · exact .inl ⟨g, hg, hgood⟩
  | signalInNone t op r c' inner outer e ew =>
    rintro ⟨v, op', t0', e', hrd⟩
    have hx : ∀ a b, (TS.inLock op r inner outer : TS C Op R) ≠ .waiting a b c := by intro a b q; cases q
    have e2 := (waiting_update hx e').2
    have hcc : c' ≠ c := by rintro rfl; exact ew _ _ _ e2
    have := up t (.inLock op r inner outer) hx (by
      rw [e]
      rintro ⟨g, hg, hgood⟩
      rcases List.mem_cons.mp hg with rfl | hg
      · exact absurd hgood.1 hcc
      · exact ⟨g, hg, hgood⟩)
    exact this ⟨v, op', t0', e', hrd⟩
  | bcastIn t op r c' inner outer e =>
    refine bca t _ c' (by intro a b q; cases q) ?_
    rw [e]
    rintro ⟨g, hg, hgood⟩
    rcases List.mem_cons.mp hg with rfl | hg
    · exact .inr hgood
    · exact .inl ⟨g, hg, hgood⟩
  | unlock t op r outer e ho =>
    have := up t (.after op r outer) (by intro a b q; cases q) (by rw [e]; exact fun h => h)
    exact this
  | signalOut t op r c' outer w op' t0 e ew =>
    refine sgl t w _ c' op' t0 (by intro a b q; cases q) ew (by intro a b f q; rw [e] at q; cases q) ?_
    rw [e]
    rintro ⟨g, hg, hgood⟩
    rcases List.mem_cons.mp hg with rfl | hg
    · exact .inr hgood
    · exact .inl ⟨g, hg, hgood⟩
  | signalOutNone t op r c' outer e ew =>
    rintro ⟨v, op', t0', e', hrd⟩
    have hx : ∀ a b, (TS.after op r outer : TS C Op R) ≠ .waiting a b c := by intro a b q; cases q
    have e2 := (waiting_update hx e').2
    have hcc : c' ≠ c := by rintro rfl; exact ew _ _ _ e2
    have := up t (.after op r outer) hx (by
      rw [e]
      rintro ⟨g, hg, hgood⟩
      rcases List.mem_cons.mp hg with rfl | hg
      · exact absurd hgood.1 hcc
      · exact ⟨g, hg, hgood⟩)
    exact this ⟨v, op', t0', e', hrd⟩
  | bcastOut t op r c' outer e =>
    refine bca t _ c' (by intro a b q; cases q) ?_
    rw [e]
    rintro ⟨g, hg, hgood⟩
    rcases List.mem_cons.mp hg with rfl | hg
    · exact .inr hgood
    · exact .inl ⟨g, hg, hgood⟩
  | ret t op r e =>
    have := up t .idle (by intro a b q; cases q) (by rw [e]; rintro ⟨g, hg, -⟩; cases hg)
    exact this
  | tick now => exact ha

/-- In a settled state nobody waits on `c` with its condition true. -/
theorem settled_announced {c : C} {u : Prop} {ready : Op → σ → Prop} {s : St n σ C Op R} (h : Announced c u ready s) (hs : Settled s)
    {v : Fin n} {op : Op} {t0 : Stamp} (hw : s.th v = .waiting op t0 c) : ¬ ready op s.data := by
  intro hrd
  obtain ⟨t, ht⟩ := h ⟨v, op, t0, hw, hrd⟩
  rcases hs t with e | ⟨op, t0, c', e⟩ <;> rw [e] at ht <;> exact ht

/-- Only calls that can go to sleep on `c` are found asleep on `c`. -/
theorem waiting_invariant {M : Mon σ C Op R} {ok : Fin n → Op → Prop} {now : Clock} {d : σ} (c : C) (W : Op → Prop)
    (hwait : ∀ s : St n σ C Op R, Reach M ok (init n now d) s → ∀ op t0 d', M.body op t0 s.now s.data (.wait d' c) → W op)
    {s : St n σ C Op R} (h : Reach M ok (init n now d) s) {v : Fin n} {op : Op} {t0 : Stamp} (e : s.th v = .waiting op t0 c) : W op := by
  have key : ∀ v a b, s.th v = .waiting a b c → W a := by
    refine Reach.induct (fun s => ∀ v a b, s.th v = .waiting a b c → W a) (by intro v a b e; cases e) ?_ h
    intro s l s' hr ih st hok v a b e
    have upd1 : ∀ (t : Fin n) (x : TS C Op R), (∀ a b, x ≠ .waiting a b c) → Function.update s.th t x v = .waiting a b c → W a :=
      fun t x hx e => ih v a b (waiting_update hx e).2
    cases st with
    | start t op e' => exact upd1 t _ (by intro a b q; cases q) e
    | lock t op t0 e' ho => exact upd1 t _ (by intro a b q; cases q) e
    | bodyDone t op t0 d r i o e' ho hb => exact upd1 t _ (by intro a b q; cases q) e
    | bodyWait t op t0 d c' e' ho hb =>
      have e : Function.update s.th t (.waiting op t0 c') v = .waiting a b c := e
      by_cases q : v = t
      · subst q
        rw [upd_same] at e; cases e
        exact hwait s hr _ _ _ hb
      · rw [upd_ne _ _ _ _ q] at e; exact ih v a b e
    | bodySpin t op t0 d e' ho hb => exact ih v a b e
    | spurious t op t0 c e' => exact upd1 t _ (by intro a b q; cases q) e
    | relock t op t0 e' ho => exact upd1 t _ (by intro a b q; cases q) e
    | signalIn t op r c i o u op' t0 e' eu =>
      exact upd1 t _ (by intro a b q; cases q) (waiting_update (by intro a b q; cases q) e).2
    | signalInNone t op r c i o e' eu => exact upd1 t _ (by intro a b q; cases q) e
    | bcastIn t op r c' i o e' =>
      have e : Function.update (fun u => (s.th u).wake c') t (.inLock op r i o) v = .waiting a b c := e
      exact ih v a b (waiting_wake (waiting_update (by intro a b q; cases q) e).2).1
    | unlock t op r o e' ho => exact upd1 t _ (by intro a b q; cases q) e
    | signalOut t op r c o u op' t0 e' eu =>
      exact upd1 t _ (by intro a b q; cases q) (waiting_update (by intro a b q; cases q) e).2
    | signalOutNone t op r c o e' eu => exact upd1 t _ (by intro a b q; cases q) e
    | bcastOut t op r c' o e' =>
      have e : Function.update (fun u => (s.th u).wake c') t (.after op r o) v = .waiting a b c := e
      exact ih v a b (waiting_wake (waiting_update (by intro a b q; cases q) e).2).1
    | ret t op r e' => exact upd1 t _ (by intro a b q; cases q) e
    | tick now => exact ih v a b e
  exact key v op t0 e

end Verif.Monitor
