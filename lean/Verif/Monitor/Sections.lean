import Verif.Monitor.Lemmas

/-
Property C171, general part: sections of code under a `Mutex` (`/repo/Threads.h:72-115`) held by a `ScopedLock` (`/repo/Threads.h:167-175`) may be regarded as
indivisible.

In `Verif.Monitor` one pass through the code between acquiring the lock and waiting or leaving is one step.  Here a pass consists of any number of steps, each
of which makes at most one access to the data, and between which the other threads go on (they begin calls, reach the lock, notify after leaving, wake up,
return) and the clock changes.  The control point of the pass under way is kept beside the data: by mutual exclusion there is at most one.
-/

namespace Verif.Monitor
open Verif

set_option linter.unusedSectionVars false

variable {n : Nat} {σ C Op R K : Type}

/-- How a pass ends: leaving with a result and notifications before and after the unlock, waiting, or another pass without releasing the lock. -/
inductive Ending (C R : Type) where
  | done (r : R) (inner outer : List (Sig C))
  | wait (c : C)
  | again

/-- The ending on data `d`. -/
def Ending.act (d : σ) : Ending C R → Act σ C R
  | .done r i o => .done d r i o
  | .wait c => .wait d c
  | .again => .spin d

/-- The code of the sections of a class, with control points `K`: where a pass begins, what one step may do, and where a pass ends. -/
structure Sections (σ C Op R K : Type) where
  enter : Op → Stamp → K
  step : K → Clock → σ → K → σ → Prop
  ends : K → Ending C R → Prop

namespace Sections

/-- The class with single steps: each step is a turn of its own, so that other threads can come in between. -/
def fine (S : Sections σ C Op R K) : Mon (σ × Option K) C Op R where
  body op t0 now x a := match x.2 with
    | none => a = .spin (x.1, some (S.enter op t0))
    | some k => (∃ k' d', S.step k now x.1 k' d' ∧ a = .spin (d', some k')) ∨ (∃ e, S.ends k e ∧ a = e.act (x.1, none))

/-- Steps made in one go, while the clock shows `now`. -/
inductive Run (S : Sections σ C Op R K) (now : Clock) (k : K) (d : σ) : K → σ → Prop where
  | refl : Run S now k d k d
  | step {k' d' k'' d''} : Run S now k d k' d' → S.step k' now d' k'' d'' → Run S now k d k'' d''

/-- The class with whole passes: a pass is made in one go. -/
def whole (S : Sections σ C Op R K) : Mon σ C Op R where
  body op t0 now d a := ∃ k d' e, S.Run now (S.enter op t0) d k d' ∧ S.ends k e ∧ a = e.act d'

/-- In each pass the clock is read at most once: a pass begins at control points (`early`) from which each step either does not depend on the clock and leads to
another such point, or leads to one (`late`) after which the clock is not read any more. -/
def Once (S : Sections σ C Op R K) : Prop :=
  ∃ early late : K → Prop, (∀ op t0, early (S.enter op t0)) ∧
    (∀ k now d k' d', early k → S.step k now d k' d' → late k' ∨ early k' ∧ ∀ now', S.step k now' d k' d') ∧
    ∀ k now d k' d', late k → S.step k now d k' d' → late k' ∧ ∀ now', S.step k now' d k' d'

end Sections

/-- What the callers see: the calls and returns, in order. -/
def Ev.visible {n : Nat} {σ Op R : Type} : Ev n σ Op R → Option (Fin n × Op × (Clock ⊕ R))
  | .call t op c => some (t, op, .inl c)
  | .lin .. => none
  | .ret t op r => some (t, op, .inr r)

/-- Calls and returns of an execution. -/
def visible {n : Nat} {σ Op R : Type} (tr : List (Ev n σ Op R)) : List (Fin n × Op × (Clock ⊕ R)) := tr.filterMap Ev.visible

theorem visible_append {n : Nat} {σ Op R : Type} (a b : List (Ev n σ Op R)) : visible (a ++ b) = visible a ++ visible b := List.filterMap_append ..

variable [DecidableEq C]

/-- The state with whole passes that belongs to a state with single steps: the same clock, owner and threads, the same calls and returns; the same data, unless a
thread is in the middle of a pass: then the data with which it began. -/
structure Matches (S : Sections σ C Op R K) (s : St n (σ × Option K) C Op R) (s' : St n σ C Op R) : Prop where
  now : s'.now = s.now
  owner : s'.owner = s.owner
  th : s'.th = s.th
  tr : visible s'.tr = visible s.tr
  rest : s.data.2 = none → s'.data = s.data.1
  mid : ∀ k, s.data.2 = some k → ∃ t op t0, s.owner = some t ∧ s.th t = .holding op t0 ∧ ∃ now, S.Run now (S.enter op t0) s'.data k s.data.1

/-- Invariant for a pass under way. -/
private def Under (S : Sections σ C Op R K) (early late : K → Prop) (k0 : K) (d0 : σ) (k : K) (d : σ) : Prop :=
  (early k ∧ ∀ now, S.Run now k0 d0 k d) ∨ (late k ∧ ∃ now, S.Run now k0 d0 k d)

private structure Sim (S : Sections σ C Op R K) (early late : K → Prop) (s : St n (σ × Option K) C Op R) (s' : St n σ C Op R) : Prop where
  now : s'.now = s.now
  owner : s'.owner = s.owner
  th : s'.th = s.th
  tr : visible s'.tr = visible s.tr
  rest : s.data.2 = none → s'.data = s.data.1
  mid : ∀ k, s.data.2 = some k → ∃ t op t0, s.owner = some t ∧ s.th t = .holding op t0 ∧ Under S early late (S.enter op t0) s'.data k s.data.1

private theorem under_run {S : Sections σ C Op R K} {early late : K → Prop} {k0 k : K} {d0 d : σ} (h : Under S early late k0 d0 k d) : ∃ now, S.Run now k0 d0 k d := by
  rcases h with h | h
  · exact ⟨⟨0, 0⟩, h.2 _⟩
  · exact h.2

private theorem under_step {S : Sections σ C Op R K} {early late : K → Prop}
    (h1 : ∀ k now d k' d', early k → S.step k now d k' d' → late k' ∨ early k' ∧ ∀ now', S.step k now' d k' d')
    (h2 : ∀ k now d k' d', late k → S.step k now d k' d' → late k' ∧ ∀ now', S.step k now' d k' d')
    {k0 k k' : K} {d0 d d' : σ} {now : Clock} (h : Under S early late k0 d0 k d) (hs : S.step k now d k' d') : Under S early late k0 d0 k' d' := by
  rcases h with ⟨he, h⟩ | ⟨hq, τ, h⟩
  · rcases h1 _ _ _ _ _ he hs with hq | ⟨he', hn⟩
    · exact .inr ⟨hq, now, (h now).step hs⟩
    · exact .inl ⟨he', fun τ => (h τ).step (hn τ)⟩
  · have := h2 _ _ _ _ _ hq hs
    exact .inr ⟨this.1, τ, h.step (this.2 τ)⟩

/-- A step with single steps is matched by steps with whole passes. -/
private theorem sim_step {S : Sections σ C Op R K} {early late : K → Prop} (hi : ∀ op t0, early (S.enter op t0))
    (h1 : ∀ k now d k' d', early k → S.step k now d k' d' → late k' ∨ early k' ∧ ∀ now', S.step k now' d k' d')
    (h2 : ∀ k now d k' d', late k → S.step k now d k' d' → late k' ∧ ∀ now', S.step k now' d k' d')
    {ok : Fin n → Op → Prop} {s0 : St n σ C Op R} {s u : St n (σ × Option K) C Op R} {l : Lbl n Op} {s' : St n σ C Op R} (hr : Reach S.whole ok s0 s') (h : Sim S early late s s')
    (st : Step S.fine s l u) (hok : ∀ t op, l = .start t op → ok t op) : ∃ u', Reach S.whole ok s0 u' ∧ Sim S early late u u' := by
  obtain ⟨now', d', owner', th', tr'⟩ := s'
  obtain ⟨e1, e2, e3, e4, e5, e6⟩ := h
  dsimp only at e1 e2 e3 e4 e5 e6
  subst e1 e2 e3
  have no : ∀ {l : Lbl n Op}, (∀ t op, l ≠ .start t op) → ∀ t op, l = .start t op → ok t op := fun h t op e => absurd e (h t op)
  have keep : ∀ (t : Fin n) (x : TS C Op R), (∀ op t0, s.th t ≠ .holding op t0) → ∀ k, s.data.2 = some k → ∃ v op t0, s.owner = some v ∧
      Function.update s.th t x v = .holding op t0 ∧ Under S early late (S.enter op t0) d' k s.data.1 := by
    intro t x hx k hk
    obtain ⟨v, op, t0, a, b, c⟩ := e6 k hk
    refine ⟨v, op, t0, a, ?_, c⟩
    rw [upd_ne]
    · exact b
    · rintro rfl
      exact hx _ _ b
  have keep2 : ∀ (t w : Fin n) (x y : TS C Op R), (∀ op t0, s.th t ≠ .holding op t0) → (∀ op t0, s.th w ≠ .holding op t0) → ∀ k, s.data.2 = some k → ∃ v op t0,
      s.owner = some v ∧ Function.update (Function.update s.th t x) w y v = .holding op t0 ∧ Under S early late (S.enter op t0) d' k s.data.1 := by
    intro t w x y hx hy k hk
    obtain ⟨v, op, t0, a, b, c⟩ := e6 k hk
    refine ⟨v, op, t0, a, ?_, c⟩
    rw [upd_ne, upd_ne]
    · exact b
    · rintro rfl
      exact hx _ _ b
    · rintro rfl
      exact hy _ _ b
  have keepAll : ∀ (c : C) (t : Fin n) (x : TS C Op R), (∀ op t0, s.th t ≠ .holding op t0) → ∀ k, s.data.2 = some k → ∃ v op t0, s.owner = some v ∧
      Function.update (fun u => (s.th u).wake c) t x v = .holding op t0 ∧ Under S early late (S.enter op t0) d' k s.data.1 := by
    intro c t x hx k hk
    obtain ⟨v, op, t0, a, b, c⟩ := e6 k hk
    refine ⟨v, op, t0, a, ?_, c⟩
    rw [upd_ne]
    · rw [b]
      rfl
    · rintro rfl
      exact hx _ _ b
  have free : s.owner = none → s.data.2 = none := by
    intro ho
    by_contra hk
    obtain ⟨k, hk⟩ := Option.ne_none_iff_exists'.mp hk
    obtain ⟨v, _, _, a, _⟩ := e6 k hk
    rw [ho] at a
    cases a
  have other : ∀ t, s.owner = some t → (∀ op t0, s.th t ≠ .holding op t0) → s.data.2 = none := by
    intro t ho hx
    by_contra hk
    obtain ⟨k, hk⟩ := Option.ne_none_iff_exists'.mp hk
    obtain ⟨v, op, t0, a, b, _⟩ := e6 k hk
    rw [ho] at a
    cases a
    exact hx _ _ b
  cases st with
  | start t op e =>
    refine ⟨_, hr.step (Step.start _ t op e) hok, rfl, rfl, rfl, ?_, e5, keep t _ (by rw [e]; exact fun _ _ h => nomatch h)⟩
    dsimp only
    rw [visible_append, visible_append, e4]
    rfl
  | lock t op t0 e ho =>
    refine ⟨_, hr.step (Step.lock _ t op t0 e ho) (no fun _ _ h => nomatch h), rfl, rfl, rfl, e4, e5, ?_⟩
    intro k hk
    rw [show _ = none from free ho] at hk
    cases hk
  | bodyDone t op t0 d r inner outer e ho hb =>
    simp only [Sections.fine] at hb
    split at hb
    · cases hb
    · rename_i k hk
      rcases hb with ⟨_, _, _, hb⟩ | ⟨en, hen, hb⟩
      · cases hb
      · obtain ⟨t', op', t0', a, b, c⟩ := e6 k hk
        rw [ho] at a
        cases a
        rw [e] at b
        cases b
        obtain ⟨τ, hrun⟩ := under_run c
        cases en with
        | done r' i' o' =>
          cases hb
          refine ⟨_, ((hr.step (Step.tick _ τ) (no fun _ _ h => nomatch h)).step (Step.bodyDone _ t op t0 s.data.1 r inner outer e ho ⟨k, _, _, hrun, hen, rfl⟩)
            (no fun _ _ h => nomatch h)).step (Step.tick _ s.now) (no fun _ _ h => nomatch h), rfl, rfl, rfl, ?_, fun _ => rfl, fun k hk => nomatch hk⟩
          dsimp only
          rw [visible_append, visible_append, e4]
          rfl
        | wait c => cases hb
        | again => cases hb
  | bodyWait t op t0 d c e ho hb =>
    simp only [Sections.fine] at hb
    split at hb
    · cases hb
    · rename_i k hk
      rcases hb with ⟨_, _, _, hb⟩ | ⟨en, hen, hb⟩
      · cases hb
      · obtain ⟨t', op', t0', a, b, c⟩ := e6 k hk
        rw [ho] at a
        cases a
        rw [e] at b
        cases b
        obtain ⟨τ, hrun⟩ := under_run c
        cases en with
        | wait c' =>
          cases hb
          exact ⟨_, ((hr.step (Step.tick _ τ) (no fun _ _ h => nomatch h)).step (Step.bodyWait _ t op t0 s.data.1 _ e ho ⟨k, _, _, hrun, hen, rfl⟩)
            (no fun _ _ h => nomatch h)).step (Step.tick _ s.now) (no fun _ _ h => nomatch h), rfl, rfl, rfl, e4, fun _ => rfl, fun k hk => nomatch hk⟩
        | done r' i' o' => cases hb
        | again => cases hb
  | bodySpin t op t0 d e ho hb =>
    simp only [Sections.fine] at hb
    split at hb
    · rename_i hk
      cases hb
      refine ⟨_, hr, rfl, rfl, rfl, e4, (fun h => nomatch h), ?_⟩
      intro k hk'
      cases hk'
      have := e5 hk
      subst this
      exact ⟨t, op, t0, ho, e, .inl ⟨hi op t0, fun _ => .refl⟩⟩
    · rename_i k hk
      obtain ⟨t', op', t0', a, b, c⟩ := e6 k hk
      rw [ho] at a
      cases a
      rw [e] at b
      cases b
      rcases hb with ⟨k', d', hs, hb⟩ | ⟨en, hen, hb⟩
      · cases hb
        refine ⟨_, hr, rfl, rfl, rfl, e4, (fun h => nomatch h), ?_⟩
        intro k hk'
        cases hk'
        exact ⟨t, op, t0, ho, e, under_step h1 h2 c hs⟩
      · obtain ⟨τ, hrun⟩ := under_run c
        cases en with
        | again =>
          cases hb
          exact ⟨_, ((hr.step (Step.tick _ τ) (no fun _ _ h => nomatch h)).step (Step.bodySpin _ t op t0 s.data.1 e ho ⟨k, _, _, hrun, hen, rfl⟩)
            (no fun _ _ h => nomatch h)).step (Step.tick _ s.now) (no fun _ _ h => nomatch h), rfl, rfl, rfl, e4, fun _ => rfl, fun k hk => nomatch hk⟩
        | done r' i' o' => cases hb
        | wait c' => cases hb
  | spurious t op t0 c e =>
    exact ⟨_, hr.step (Step.spurious _ t op t0 c e) (no fun _ _ h => nomatch h), rfl, rfl, rfl, e4, e5, keep t _ (by rw [e]; exact fun _ _ h => nomatch h)⟩
  | relock t op t0 e ho =>
    refine ⟨_, hr.step (Step.relock _ t op t0 e ho) (no fun _ _ h => nomatch h), rfl, rfl, rfl, e4, e5, ?_⟩
    intro k hk
    rw [show _ = none from free ho] at hk
    cases hk
  | signalIn t op r c inner outer w op' t0 e e' =>
    exact ⟨_, hr.step (Step.signalIn _ t op r c inner outer w op' t0 e e') (no fun _ _ h => nomatch h), rfl, rfl, rfl, e4, e5,
      keep2 t w _ _ (by rw [e]; exact fun _ _ h => nomatch h) (by rw [e']; exact fun _ _ h => nomatch h)⟩
  | signalInNone t op r c inner outer e e' =>
    exact ⟨_, hr.step (Step.signalInNone _ t op r c inner outer e e') (no fun _ _ h => nomatch h), rfl, rfl, rfl, e4, e5,
      keep t _ (by rw [e]; exact fun _ _ h => nomatch h)⟩
  | bcastIn t op r c inner outer e =>
    exact ⟨_, hr.step (Step.bcastIn _ t op r c inner outer e) (no fun _ _ h => nomatch h), rfl, rfl, rfl, e4, e5,
      keepAll c t _ (by rw [e]; exact fun _ _ h => nomatch h)⟩
  | unlock t op r outer e ho =>
    refine ⟨_, hr.step (Step.unlock _ t op r outer e ho) (no fun _ _ h => nomatch h), rfl, rfl, rfl, e4, e5, ?_⟩
    intro k hk
    rw [show _ = none from other t ho (by rw [e]; exact fun _ _ h => nomatch h)] at hk
    cases hk
  | signalOut t op r c outer w op' t0 e e' =>
    exact ⟨_, hr.step (Step.signalOut _ t op r c outer w op' t0 e e') (no fun _ _ h => nomatch h), rfl, rfl, rfl, e4, e5,
      keep2 t w _ _ (by rw [e]; exact fun _ _ h => nomatch h) (by rw [e']; exact fun _ _ h => nomatch h)⟩
  | signalOutNone t op r c outer e e' =>
    exact ⟨_, hr.step (Step.signalOutNone _ t op r c outer e e') (no fun _ _ h => nomatch h), rfl, rfl, rfl, e4, e5,
      keep t _ (by rw [e]; exact fun _ _ h => nomatch h)⟩
  | bcastOut t op r c outer e =>
    exact ⟨_, hr.step (Step.bcastOut _ t op r c outer e) (no fun _ _ h => nomatch h), rfl, rfl, rfl, e4, e5,
      keepAll c t _ (by rw [e]; exact fun _ _ h => nomatch h)⟩
  | ret t op r e =>
    refine ⟨_, hr.step (Step.ret _ t op r e) (no fun _ _ h => nomatch h), rfl, rfl, rfl, ?_, e5, keep t _ (by rw [e]; exact fun _ _ h => nomatch h)⟩
    dsimp only
    rw [visible_append, visible_append, e4]
    rfl
  | tick now => exact ⟨_, hr.step (Step.tick _ now) (no fun _ _ h => nomatch h), rfl, rfl, rfl, e4, e5, e6⟩

/-- **C171** Sections under a lock may be regarded as indivisible: whatever a program does in which other threads come in between any two steps of a section,
there is an execution with whole passes, from the same start, in which the callers have seen the same calls and returns in the same order and all threads are
in the same places, with the same data (while a thread is in the middle of a pass: with the data from which it began, and that pass leads from there to the
present data).  So every theorem on the calls, returns, places and (outside of sections) data of a class modelled with whole passes holds for single steps. -/
theorem C171_indivisible (S : Sections σ C Op R K) (hS : S.Once) {ok : Fin n → Op → Prop} {now : Clock} {d : σ} {s : St n (σ × Option K) C Op R}
    (h : Reach S.fine ok (init n now (d, none)) s) : ∃ s', Reach S.whole ok (init n now d) s' ∧ Matches S s s' := by
  obtain ⟨early, late, hi, h1, h2⟩ := hS
  have : ∃ s', Reach S.whole ok (init n now d) s' ∧ Sim S early late s s' := by
    induction h with
    | refl => exact ⟨_, .refl, rfl, rfl, rfl, rfl, fun _ => rfl, fun _ h => nomatch h⟩
    | step _ st hok ih =>
      obtain ⟨s', hr, hs⟩ := ih
      exact sim_step hi h1 h2 hr hs st hok
  obtain ⟨s', hr, hs⟩ := this
  refine ⟨s', hr, hs.now, hs.owner, hs.th, hs.tr, hs.rest, ?_⟩
  intro k hk
  obtain ⟨t, op, t0, a, b, c⟩ := hs.mid k hk
  exact ⟨t, op, t0, a, b, under_run c⟩

private theorem run_fine {S : Sections σ C Op R K} {ok : Fin n → Op → Prop} {s0 s : St n (σ × Option K) C Op R} {t : Fin n} {op : Op} {t0 : Stamp} {k k' : K} {d d' : σ}
    (hr : Reach S.fine ok s0 { s with data := (d, some k) }) (ho : s.owner = some t) (he : s.th t = .holding op t0) (h : S.Run s.now k d k' d') :
    Reach S.fine ok s0 { s with data := (d', some k') } := by
  induction h with
  | refl => exact hr
  | step _ hs ih => exact ih.step (Step.bodySpin _ t op t0 _ he ho (.inl ⟨_, _, hs, rfl⟩)) (fun _ _ h => nomatch h)

private theorem pass_fine {S : Sections σ C Op R K} {ok : Fin n → Op → Prop} {s0 s : St n (σ × Option K) C Op R} {t : Fin n} {op : Op} {t0 : Stamp} {k : K} {d d' : σ}
    (hr : Reach S.fine ok s0 s) (hd : s.data = (d, none)) (ho : s.owner = some t) (he : s.th t = .holding op t0) (h : S.Run s.now (S.enter op t0) d k d') :
    Reach S.fine ok s0 { s with data := (d', some k) } := by
  refine run_fine (hr.step (Step.bodySpin _ t op t0 (d, some (S.enter op t0)) he ho ?_) (fun _ _ h => nomatch h)) ho he h
  simp only [Sections.fine, hd]

/-- **C171** Whole passes lose nothing: every execution with whole passes is possible with single steps. -/
theorem C171_exact (S : Sections σ C Op R K) {ok : Fin n → Op → Prop} {now : Clock} {d : σ} {s' : St n σ C Op R} (h : Reach S.whole ok (init n now d) s') :
    ∃ s, Reach S.fine ok (init n now (d, none)) s ∧ s.data = (s'.data, none) ∧ Matches S s s' := by
  have : ∃ s : St n (σ × Option K) C Op R, Reach S.fine ok (init n now (d, none)) s ∧ s.data = (s'.data, none) ∧ s.now = s'.now ∧ s.owner = s'.owner ∧ s.th = s'.th ∧
      visible s.tr = visible s'.tr := by
    induction h with
    | refl => exact ⟨_, .refl, rfl, rfl, rfl, rfl, rfl⟩
    | @step s1 l s2 _ st hok ih =>
      obtain ⟨⟨now', d', owner', th', tr'⟩, hr, e0, e1, e2, e3, e4⟩ := ih
      dsimp only at e0 e1 e2 e3 e4
      subst e0 e1 e2 e3
      have no : ∀ {l : Lbl n Op}, (∀ t op, l ≠ .start t op) → ∀ t op, l = .start t op → ok t op := fun h t op e => absurd e (h t op)
      cases st with
      | start t op e =>
        refine ⟨_, hr.step (Step.start _ t op e) hok, rfl, rfl, rfl, rfl, ?_⟩
        dsimp only
        rw [visible_append, visible_append, e4]
        rfl
      | lock t op t0 e ho => exact ⟨_, hr.step (Step.lock _ t op t0 e ho) (no fun _ _ h => nomatch h), rfl, rfl, rfl, rfl, e4⟩
      | bodyDone t op t0 d r inner outer e ho hb =>
        obtain ⟨k, d2, en, hrun, hen, ha⟩ := hb
        have hp := pass_fine hr rfl ho e hrun
        cases en with
        | done r' i' o' =>
          cases ha
          refine ⟨_, hp.step (Step.bodyDone _ t op t0 (d, none) r inner outer e ho (.inr ⟨_, hen, rfl⟩)) (no fun _ _ h => nomatch h), rfl, rfl, rfl, rfl, ?_⟩
          dsimp only
          rw [visible_append, visible_append, e4]
          rfl
        | wait c => cases ha
        | again => cases ha
      | bodyWait t op t0 d c e ho hb =>
        obtain ⟨k, d2, en, hrun, hen, ha⟩ := hb
        have hp := pass_fine hr rfl ho e hrun
        cases en with
        | wait c =>
          cases ha
          exact ⟨_, hp.step (Step.bodyWait _ t op t0 (d, none) c e ho (.inr ⟨_, hen, rfl⟩)) (no fun _ _ h => nomatch h), rfl, rfl, rfl, rfl, e4⟩
        | done r' i' o' => cases ha
        | again => cases ha
      | bodySpin t op t0 d e ho hb =>
        obtain ⟨k, d2, en, hrun, hen, ha⟩ := hb
        have hp := pass_fine hr rfl ho e hrun
        cases en with
        | again =>
          cases ha
          exact ⟨_, hp.step (Step.bodySpin _ t op t0 (d, none) e ho (.inr ⟨_, hen, rfl⟩)) (no fun _ _ h => nomatch h), rfl, rfl, rfl, rfl, e4⟩
        | done r' i' o' => cases ha
        | wait c => cases ha
      | spurious t op t0 c e => exact ⟨_, hr.step (Step.spurious _ t op t0 c e) (no fun _ _ h => nomatch h), rfl, rfl, rfl, rfl, e4⟩
      | relock t op t0 e ho => exact ⟨_, hr.step (Step.relock _ t op t0 e ho) (no fun _ _ h => nomatch h), rfl, rfl, rfl, rfl, e4⟩
      | signalIn t op r c inner outer w op' t0 e e' =>
        exact ⟨_, hr.step (Step.signalIn _ t op r c inner outer w op' t0 e e') (no fun _ _ h => nomatch h), rfl, rfl, rfl, rfl, e4⟩
      | signalInNone t op r c inner outer e e' =>
        exact ⟨_, hr.step (Step.signalInNone _ t op r c inner outer e e') (no fun _ _ h => nomatch h), rfl, rfl, rfl, rfl, e4⟩
      | bcastIn t op r c inner outer e => exact ⟨_, hr.step (Step.bcastIn _ t op r c inner outer e) (no fun _ _ h => nomatch h), rfl, rfl, rfl, rfl, e4⟩
      | unlock t op r outer e ho => exact ⟨_, hr.step (Step.unlock _ t op r outer e ho) (no fun _ _ h => nomatch h), rfl, rfl, rfl, rfl, e4⟩
      | signalOut t op r c outer w op' t0 e e' =>
        exact ⟨_, hr.step (Step.signalOut _ t op r c outer w op' t0 e e') (no fun _ _ h => nomatch h), rfl, rfl, rfl, rfl, e4⟩
      | signalOutNone t op r c outer e e' =>
        exact ⟨_, hr.step (Step.signalOutNone _ t op r c outer e e') (no fun _ _ h => nomatch h), rfl, rfl, rfl, rfl, e4⟩
      | bcastOut t op r c outer e => exact ⟨_, hr.step (Step.bcastOut _ t op r c outer e) (no fun _ _ h => nomatch h), rfl, rfl, rfl, rfl, e4⟩
      | ret t op r e =>
        refine ⟨_, hr.step (Step.ret _ t op r e) (no fun _ _ h => nomatch h), rfl, rfl, rfl, rfl, ?_⟩
        dsimp only
        rw [visible_append, visible_append, e4]
        rfl
      | tick now => exact ⟨_, hr.step (Step.tick _ now) (no fun _ _ h => nomatch h), rfl, rfl, rfl, rfl, e4⟩
  obtain ⟨s, hr, e0, e1, e2, e3, e4⟩ := this
  exact ⟨s, hr, e0, e1.symm, e2.symm, e3.symm, e4.symm, fun _ => by rw [e0], fun k hk => by rw [e0] at hk; cases hk⟩

/-! ### Examples -/

/-- A counter: `x = n; n = x + 1; return x;` under a lock. -/
private inductive CountK where
  | load
  | store (x : Nat)
  | leave (x : Nat)

private def counter : Sections Nat Unit Unit Nat CountK where
  enter _ _ := .load
  step k _ d k' d' := match k with
    | .load => k' = .store d ∧ d' = d
    | .store x => k' = .leave x ∧ d' = x + 1
    | .leave _ => False
  ends k e := ∃ x, k = .leave x ∧ e = .done x [] []

/-- In one go the counter goes up by one and its old value is returned ... -/
private theorem counter_whole {now : Clock} {t0 : Stamp} {d : Nat} {a : Act Nat Unit Nat} (h : counter.whole.body () t0 now d a) : a = .done (d + 1) d [] [] := by
  obtain ⟨k, d', e, hr, ⟨x, rfl, rfl⟩, rfl⟩ := h
  have : ∀ {k d'}, counter.Run now .load d k d' → (k = .load ∧ d' = d) ∨ (k = .store d ∧ d' = d) ∨ (k = .leave d ∧ d' = d + 1) := by
    intro k d' h
    induction h with
    | refl => exact .inl ⟨rfl, rfl⟩
    | step _ hs ih =>
      rcases ih with ⟨rfl, rfl⟩ | ⟨rfl, rfl⟩ | ⟨rfl, rfl⟩
      · exact .inr (.inl hs)
      · exact .inr (.inr hs)
      · exact hs.elim
  rcases this hr with ⟨h, _⟩ | ⟨h, _⟩ | ⟨h, rfl⟩
  · cases h
  · cases h
  · cases h
    rfl

/- ... so with any number of threads that interrupt each other between loading and storing, no result is ever too large, and no increment is lost: the counter
is the number of calls that have taken effect. -/
example {n : Nat} {ok : Fin n → Unit → Prop} {now : Clock} {s : St n (Nat × Option CountK) Unit Unit Nat} (h : Reach counter.fine ok (init n now (0, none)) s)
    (hn : s.data.2 = none) : ∃ s', Reach counter.whole ok (init n now 0) s' ∧ s'.th = s.th ∧ s.data.1 = (effects s'.tr).length := by
  obtain ⟨s', hr, m⟩ := C171_indivisible counter ⟨fun _ => True, fun _ => False, fun _ _ => trivial, fun k _ _ _ _ _ hs => .inr ⟨trivial, fun _ => hs⟩,
    fun _ _ _ _ _ hf => hf.elim⟩ h
  refine ⟨s', hr, m.th, ?_⟩
  rw [← m.rest hn]
  refine data_invariant (fun d es => d = es.length) rfl ?_ ?_ ?_ hr
  · rintro t op t0 nw d d' r i o es _ hd hb
    cases counter_whole hb
    rw [hd]
    simp
  · rintro t op t0 nw d d' c es _ hd hb
    cases counter_whole hb
  · rintro t op t0 nw d d' es _ hd hb
    cases counter_whole hb

/-- A section that reads the clock twice and returns whether the readings agree. -/
private inductive TwiceK where
  | first
  | second (c : Clock)
  | leave (b : Bool)

private def twice : Sections Unit Unit Unit Bool TwiceK where
  enter _ _ := .first
  step k now _ k' _ := match k with
    | .first => k' = .second now
    | .second c => k' = .leave (decide (c = now))
    | .leave _ => False
  ends k e := ∃ b, k = .leave b ∧ e = .done b [] []

/- The condition that the clock is read once is needed: with whole passes the readings always agree, with single steps they need not. -/
example {now : Clock} {t0 : Stamp} {a : Act Unit Unit Bool} (h : twice.whole.body () t0 now () a) : a = .done () true [] [] := by
  obtain ⟨k, d', e, hr, ⟨x, rfl, rfl⟩, rfl⟩ := h
  have : ∀ {k d'}, twice.Run now .first () k d' → k = .first ∨ k = .second now ∨ k = .leave true := by
    intro k d' h
    induction h with
    | refl => exact .inl rfl
    | step _ hs ih =>
      rcases ih with rfl | rfl | rfl
      · exact .inr (.inl hs)
      · exact .inr (.inr (hs.trans (by simp)))
      · exact hs.elim
  rcases this hr with h | h | h
  · cases h
  · cases h
  · cases h
    rfl

example : ∃ s : St 1 (Unit × Option TwiceK) Unit Unit Bool, Reach twice.fine (fun _ _ => True) (init 1 ⟨5, 0⟩ ((), none)) s ∧ s.th 0 = .inLock () false [] [] := by
  have no : ∀ {l : Lbl 1 Unit}, ∀ t op, l = .start t op → True := fun _ _ _ => trivial
  refine ⟨_, ((((((Reach.refl.step (Step.start _ 0 () rfl) no).step (Step.lock _ 0 () _ rfl rfl) no).step (Step.bodySpin _ 0 () _ ((), some .first) rfl rfl rfl) no).step
    (Step.bodySpin _ 0 () _ ((), some (.second ⟨5, 0⟩)) rfl rfl (by exact Or.inl ⟨_, (), rfl, rfl⟩)) no).step (Step.tick _ ⟨6, 0⟩) no).step
    (Step.bodySpin _ 0 () _ ((), some (.leave false)) rfl rfl (by exact Or.inl ⟨_, (), by rfl, rfl⟩)) no).step
    (Step.bodyDone _ 0 () _ ((), none) false [] [] rfl rfl (by exact Or.inr ⟨.done false [] [], ⟨_, rfl, rfl⟩, rfl⟩)) no, rfl⟩

/-! ### Other data -/

/-- The same act on related data. -/
inductive ActRel {σ' : Type} (ρ : σ → σ' → Prop) : Act σ C R → Act σ' C R → Prop where
  | done {d d'} (r i o) : ρ d d' → ActRel ρ (.done d r i o) (.done d' r i o)
  | wait {d d'} (c) : ρ d d' → ActRel ρ (.wait d c) (.wait d' c)
  | spin {d d'} : ρ d d' → ActRel ρ (.spin d) (.spin d')

/-- If each pass of one class on its data is a pass of another one on related data, executions of the first are, seen from outside, executions of the second;
as long as the calls and returns satisfy `P`. -/
theorem refine_data {σ' : Type} {M : Mon σ C Op R} {M' : Mon σ' C Op R} {ρ : σ → σ' → Prop} {P : List (Fin n × Op × (Clock ⊕ R)) → Prop} {ok : Fin n → Op → Prop}
    {now : Clock} {d0 : σ} {d0' : σ'} (hP : ∀ a b, P (a ++ b) → P a) (h0 : ρ d0 d0')
    (hb : ∀ (s : St n σ C Op R) (s' : St n σ' C Op R), Reach M ok (init n now d0) s → Reach M' ok (init n now d0') s' → P (visible s.tr) → visible s'.tr = visible s.tr →
      ρ s.data s'.data → ∀ op t0 nw a, M.body op t0 nw s.data a → ∃ a', M'.body op t0 nw s'.data a' ∧ ActRel ρ a a')
    {s : St n σ C Op R} (h : Reach M ok (init n now d0) s) (hp : P (visible s.tr)) :
    ∃ s', Reach M' ok (init n now d0') s' ∧ s'.now = s.now ∧ s'.owner = s.owner ∧ s'.th = s.th ∧ visible s'.tr = visible s.tr ∧ ρ s.data s'.data := by
  induction h with
  | refl => exact ⟨_, .refl, rfl, rfl, rfl, rfl, h0⟩
  | @step s1 l s2 hr st hok ih =>
    have no : ∀ {l : Lbl n Op}, (∀ t op, l ≠ .start t op) → ∀ t op, l = .start t op → ok t op := fun h t op e => absurd e (h t op)
    cases st with
    | start t op e =>
      rw [visible_append] at hp
      obtain ⟨⟨now', d', owner', th', tr'⟩, hr', e1, e2, e3, e4, e5⟩ := ih (hP _ _ hp)
      dsimp only at e1 e2 e3 e4 e5
      subst e1 e2 e3
      refine ⟨_, hr'.step (Step.start _ t op e) hok, rfl, rfl, rfl, ?_, e5⟩
      dsimp only
      rw [visible_append, visible_append, e4]
      rfl
    | bodyDone t op t0 d r inner outer e ho ha =>
      rw [visible_append] at hp
      obtain ⟨⟨now', d', owner', th', tr'⟩, hr', e1, e2, e3, e4, e5⟩ := ih (hP _ _ hp)
      dsimp only at e1 e2 e3 e4 e5
      subst e1 e2 e3
      obtain ⟨a', ha', hrel⟩ := hb _ _ hr hr' (hP _ _ hp) e4 e5 _ _ _ _ ha
      cases hrel with
      | done _ _ _ hd =>
        refine ⟨_, hr'.step (Step.bodyDone _ t op t0 _ r inner outer e ho ha') (no fun _ _ h => nomatch h), rfl, rfl, rfl, ?_, hd⟩
        dsimp only
        rw [visible_append, visible_append, e4]
        rfl
    | ret t op r e =>
      rw [visible_append] at hp
      obtain ⟨⟨now', d', owner', th', tr'⟩, hr', e1, e2, e3, e4, e5⟩ := ih (hP _ _ hp)
      dsimp only at e1 e2 e3 e4 e5
      subst e1 e2 e3
      refine ⟨_, hr'.step (Step.ret _ t op r e) (no fun _ _ h => nomatch h), rfl, rfl, rfl, ?_, e5⟩
      dsimp only
      rw [visible_append, visible_append, e4]
      rfl
    | _ =>
      obtain ⟨⟨now', d', owner', th', tr'⟩, hr', e1, e2, e3, e4, e5⟩ := ih hp
      dsimp only at e1 e2 e3 e4 e5
      subst e1 e2 e3
      first
        | exact ⟨_, hr'.step (Step.lock _ _ _ _ ‹_› ‹_›) (no fun _ _ h => nomatch h), rfl, rfl, rfl, e4, e5⟩
        | exact ⟨_, hr'.step (Step.spurious _ _ _ _ _ ‹_›) (no fun _ _ h => nomatch h), rfl, rfl, rfl, e4, e5⟩
        | exact ⟨_, hr'.step (Step.relock _ _ _ _ ‹_› ‹_›) (no fun _ _ h => nomatch h), rfl, rfl, rfl, e4, e5⟩
        | exact ⟨_, hr'.step (Step.signalIn _ _ _ _ _ _ _ _ _ _ ‹_› ‹_›) (no fun _ _ h => nomatch h), rfl, rfl, rfl, e4, e5⟩
        | exact ⟨_, hr'.step (Step.signalInNone _ _ _ _ _ _ _ ‹_› ‹_›) (no fun _ _ h => nomatch h), rfl, rfl, rfl, e4, e5⟩
        | exact ⟨_, hr'.step (Step.bcastIn _ _ _ _ _ _ _ ‹_›) (no fun _ _ h => nomatch h), rfl, rfl, rfl, e4, e5⟩
        | exact ⟨_, hr'.step (Step.unlock _ _ _ _ _ ‹_› ‹_›) (no fun _ _ h => nomatch h), rfl, rfl, rfl, e4, e5⟩
        | exact ⟨_, hr'.step (Step.signalOut _ _ _ _ _ _ _ _ _ ‹_› ‹_›) (no fun _ _ h => nomatch h), rfl, rfl, rfl, e4, e5⟩
        | exact ⟨_, hr'.step (Step.signalOutNone _ _ _ _ _ _ ‹_› ‹_›) (no fun _ _ h => nomatch h), rfl, rfl, rfl, e4, e5⟩
        | exact ⟨_, hr'.step (Step.bcastOut _ _ _ _ _ _ ‹_›) (no fun _ _ h => nomatch h), rfl, rfl, rfl, e4, e5⟩
        | exact ⟨_, hr'.step (Step.tick _ _) (no fun _ _ h => nomatch h), rfl, rfl, rfl, e4, e5⟩
        | (obtain ⟨a', ha', hrel⟩ := hb _ _ hr hr' hp e4 e5 _ _ _ _ ‹_›
           cases hrel
           exact ⟨_, hr'.step (Step.bodyWait _ _ _ _ _ _ ‹_› ‹_› ‹_›) (no fun _ _ h => nomatch h), rfl, rfl, rfl, e4, ‹_›⟩)
        | (obtain ⟨a', ha', hrel⟩ := hb _ _ hr hr' hp e4 e5 _ _ _ _ ‹_›
           cases hrel
           exact ⟨_, hr'.step (Step.bodySpin _ _ _ _ _ ‹_› ‹_› ‹_›) (no fun _ _ h => nomatch h), rfl, rfl, rfl, e4, ‹_›⟩)

end Verif.Monitor
