import Verif.Threads.Multi
import Mathlib.Tactic.FinCases
import Mathlib.Data.Fintype.Pi

/-
Properties C31 and C32.
-/

namespace Verif.Threads

/-! ### Locking and unlocking one mutex -/

/-- A mutex owned by a thread is locked at least once. -/
def WF {n : Nat} (s : LSt n) : Prop := ∀ m t, s.owner m = .th t → 1 ≤ s.depth m

theorem acquire_hold {n : Nat} {s s' : LSt n} {t : Fin n} {m : Nat} (hw : WF s) (h : s.acquire t m = some s') :
    WF s' ∧ (∀ u k, s'.hold u k = s.hold u k + if u = t ∧ k = m then 1 else 0) ∧ s'.pc = s.pc ∧ s'.state = s.state := by
  unfold LSt.acquire at h
  split at h
  · next ho =>
    cases h
    refine ⟨?_, ?_, rfl, rfl⟩
    · intro k u e
      by_cases q : k = m
      · subst q; simp
      · simp only [Function.update_of_ne q] at e ⊢; exact hw k u e
    · intro u k
      unfold LSt.hold
      by_cases q : k = m
      · subst q
        simp only [Function.update_self, ho]
        by_cases q2 : u = t
        · subst q2; simp
        · simp [q2, Ne.symm q2]
      · simp only [Function.update_of_ne q]; simp [q]
  · cases h
  · next v ho =>
    split at h
    · next e =>
      subst e
      cases h
      refine ⟨?_, ?_, rfl, rfl⟩
      · intro k u e
        by_cases q : k = m
        · subst q; simp
        · simp only [Function.update_of_ne q]; exact hw k u e
      · intro u k
        unfold LSt.hold
        by_cases q : k = m
        · subst q
          simp only [Function.update_self, ho]
          by_cases q2 : u = v
          · subst q2; simp
          · simp [q2, Ne.symm q2]
        · simp only [Function.update_of_ne q]; simp [q]
    · cases h

theorem release_hold {n : Nat} {s : LSt n} {t : Fin n} {m : Nat} (hw : WF s) (h : 1 ≤ s.hold t m) :
    WF (s.release t m) ∧ (∀ u k, (s.release t m).hold u k + (if u = t ∧ k = m then 1 else 0) = s.hold u k) ∧ (s.release t m).pc = s.pc ∧ (s.release t m).state = s.state := by
  have ho : s.owner m = .th t := by
    by_contra hn
    unfold LSt.hold at h
    rw [if_neg hn] at h
    omega
  have hd : 1 ≤ s.depth m := hw m t ho
  unfold LSt.release
  rw [if_pos ho]
  by_cases h1 : s.depth m ≤ 1
  · rw [if_pos h1]
    refine ⟨?_, ?_, rfl, rfl⟩
    · intro k u e
      by_cases q : k = m
      · subst q; simp at e
      · simp only [Function.update_of_ne q] at e ⊢; exact hw k u e
    · intro u k
      unfold LSt.hold
      by_cases q : k = m
      · subst q
        simp only [Function.update_self, ho]
        by_cases q2 : u = t
        · subst q2; simp; omega
        · simp [q2, Ne.symm q2]
      · simp only [Function.update_of_ne q]; simp [q]
  · rw [if_neg h1]
    refine ⟨?_, ?_, rfl, rfl⟩
    · intro k u e
      by_cases q : k = m
      · subst q; simp; omega
      · simp only [Function.update_of_ne q]; exact hw k u e
    · intro u k
      unfold LSt.hold
      by_cases q : k = m
      · subst q
        simp only [Function.update_self, ho]
        by_cases q2 : u = t
        · subst q2; simp; omega
        · simp [q2, Ne.symm q2]
      · simp only [Function.update_of_ne q]; simp [q]

theorem count_set (A : Args) (f : Fin 3 → Bool) (i : Fin 3) (m : Nat) (h : f i = false) :
    A.count (Function.update f i true) m = A.count f m + if A.m i = m then 1 else 0 := by
  unfold Args.count
  have : i = 0 ∨ i = 1 ∨ i = 2 := by omega
  rcases this with rfl | rfl | rfl <;> simp [Function.update, h] <;> omega

theorem count_clear (A : Args) (f : Fin 3 → Bool) (i : Fin 3) (m : Nat) (h : f i = true) :
    A.count (Function.update f i false) m + (if A.m i = m then 1 else 0) = A.count f m := by
  unfold Args.count
  have : i = 0 ∨ i = 1 ∨ i = 2 := by omega
  rcases this with rfl | rfl | rfl <;> simp [Function.update, h] <;> omega

theorem count_pos (A : Args) (f : Fin 3 → Bool) (i : Fin 3) (h : f i = true) : 1 ≤ A.count f (A.m i) := by
  unfold Args.count
  have : i = 0 ∨ i = 1 ∨ i = 2 := by omega
  rcases this with rfl | rfl | rfl <;> simp [h] <;> omega

theorem first_ne_try1 : ∀ a : Fin 3, firstOf a ≠ try1Of a := by decide
theorem try1_ne_first : ∀ a : Fin 3, try1Of a ≠ firstOf a := by decide
theorem try2_ne_first : ∀ a : Fin 3, try2Of a ≠ firstOf a := by decide
theorem try2_ne_try1 : ∀ a : Fin 3, try2Of a ≠ try1Of a := by decide
theorem try2_ne_unl1 : ∀ a : Fin 3, try2Of a ≠ unl1Of a := by decide

/-! ### The invariant -/

variable {n : Nat} {A : Fin n → Args} {s0 : LSt n}

/-- The books: compared with the beginning, each thread has what `state` says instead of what it owned. -/
def Bal (A : Fin n → Args) (s0 s : LSt n) : Prop := WF s ∧ ∀ t m, s.hold t m + (A t).count (A t).own m = s0.hold t m + (A t).count (s.state t) m

theorem setState_same {s : LSt n} {t : Fin n} {i : Fin 3} {b : Bool} (h : s.state t i = b) : s.setState t i b = s := by
  unfold LSt.setState
  subst h
  simp

theorem bal_acquire {s s' : LSt n} {t : Fin n} {i : Fin 3} (hb : Bal A s0 s) (hf : s.state t i = false) (h : s.acquire t ((A t).m i) = some s') :
    Bal A s0 (s'.setState t i true) ∧ (s'.setState t i true).pc = s.pc ∧ (s'.setState t i true).state = Function.update s.state t (Function.update (s.state t) i true) := by
  obtain ⟨hw, hbal⟩ := hb
  obtain ⟨h1, h2, h3, h4⟩ := acquire_hold hw h
  refine ⟨⟨h1, ?_⟩, h3, by unfold LSt.setState; rw [h4]⟩
  intro u m
  show s'.hold u m + _ = s0.hold u m + (A u).count (Function.update s'.state t (Function.update (s'.state t) i true) u) m
  rw [h2, h4]
  have := hbal u m
  by_cases q : u = t
  · subst q
    rw [Function.update_self, count_set _ _ _ _ hf]
    by_cases q2 : m = (A u).m i
    · subst q2; simp; omega
    · simp [q2, Ne.symm q2]; omega
  · rw [Function.update_of_ne q]; simp [q]; omega

theorem lock1_bal {s s' : LSt n} {t : Fin n} {i : Fin 3} (hb : Bal A s0 s) (h : lock1 (A t) s t i = some s') :
    Bal A s0 s' ∧ s'.pc = s.pc ∧ s'.state = Function.update s.state t (Function.update (s.state t) i true) := by
  unfold lock1 at h
  split at h
  · next e =>
    cases h
    refine ⟨hb, rfl, ?_⟩
    rw [← e]; simp
  · next e =>
    split at h
    · next s1 h1 => cases h; exact bal_acquire hb (by simpa using e) h1
    · cases h

theorem trylock1_bal {s : LSt n} {t : Fin n} {i : Fin 3} (hb : Bal A s0 s) :
    Bal A s0 (trylock1 (A t) s t i).1 ∧ (trylock1 (A t) s t i).1.pc = s.pc ∧
    (trylock1 (A t) s t i).1.state = Function.update s.state t (Function.update (s.state t) i (trylock1 (A t) s t i).2) ∧
    ((trylock1 (A t) s t i).2 = false → s.state t i = false) := by
  unfold trylock1
  split
  · next e =>
    refine ⟨hb, rfl, ?_, fun h => by cases h⟩
    simp only
    rw [← e]; simp
  · next e =>
    have e : s.state t i = false := by simpa using e
    split
    · next s1 h1 =>
      obtain ⟨a, b, c⟩ := bal_acquire hb e h1
      exact ⟨a, b, c, fun h => by cases h⟩
    · refine ⟨?_, rfl, rfl, fun _ => e⟩
      rw [setState_same e]; exact hb

theorem unlock1_bal {s : LSt n} {t : Fin n} {i : Fin 3} (h0 : ∀ m, (A t).count (A t).own m ≤ s0.hold t m) (hb : Bal A s0 s) :
    Bal A s0 (unlock1 (A t) s t i) ∧ (unlock1 (A t) s t i).pc = s.pc ∧
    (unlock1 (A t) s t i).state = Function.update s.state t (Function.update (s.state t) i false) := by
  unfold unlock1
  split
  · next e =>
    obtain ⟨hw, hbal⟩ := hb
    have hh : 1 ≤ s.hold t ((A t).m i) := by
      have h1 := hbal t ((A t).m i)
      have h2 := count_pos (A t) (s.state t) i e
      have h3 := h0 ((A t).m i)
      omega
    obtain ⟨h1, h2, h3, h4⟩ := release_hold hw hh
    refine ⟨⟨h1, ?_⟩, h3, by unfold LSt.setState; rw [h4]⟩
    intro u m
    show (s.release t ((A t).m i)).hold u m + _ = s0.hold u m + (A u).count (Function.update (s.release t ((A t).m i)).state t (Function.update ((s.release t ((A t).m i)).state t) i false) u) m
    rw [h4]
    have h5 := hbal u m
    have h6 := h2 u m
    by_cases q : u = t
    · subst q
      rw [Function.update_self]
      have h7 := count_clear (A u) (s.state u) i m e
      by_cases q2 : m = (A u).m i
      · subst q2; simp at h6 h7; omega
      · simp [q2, Ne.symm q2] at h6 h7; omega
    · rw [Function.update_of_ne q]; simp [q] at h6; omega
  · next e =>
    have e : s.state t i = false := by simpa using e
    rw [setState_same e]
    refine ⟨hb, rfl, ?_⟩
    rw [← e]; simp

/-- What `state` is known to be at each place. -/
def Facts (own : Fin 3 → Bool) : LPC → (Fin 3 → Bool) → Prop
  | .try1 a, f => f (firstOf a) = true
  | .try2 a, f => f (firstOf a) = true ∧ f (try1Of a) = true
  | .crit, f => ∀ i, f i = true
  | .rest i, f => ∀ j, if j < i then f j = own j else f j = true
  | .fin, f => f = own
  | _, _ => True

/-- The whole invariant. -/
def LInv (A : Fin n → Args) (s0 s : LSt n) : Prop := Bal A s0 s ∧ ∀ t, Facts (A t).own (s.pc t) (s.state t)

/-- A step of `t` that leaves the others alone keeps the invariant. -/
theorem linv_goto {s s' : LSt n} {t : Fin n} {f : Fin 3 → Bool} {p : LPC} (hf : ∀ u, Facts (A u).own (s.pc u) (s.state u)) (hb : Bal A s0 s') (hp : s'.pc = s.pc)
    (hs : s'.state = Function.update s.state t f) (hF : Facts (A t).own p f) : LInv A s0 (s'.goto t p) := by
  refine ⟨hb, fun u => ?_⟩
  show Facts (A u).own (Function.update s'.pc t p u) (s'.state u)
  rw [hp, hs]
  by_cases q : u = t
  · subst q; rw [Function.update_self, Function.update_self]; exact hF
  · rw [Function.update_of_ne q, Function.update_of_ne q]; exact hf u

theorem update_state_self (f : Fin n → Fin 3 → Bool) (t : Fin n) : f = Function.update f t (f t) := by simp

theorem env_inv {s s' : LSt n} {m : Nat} {o : Owner n} (hno : ∀ t, s.owner m ≠ .th t) (ho : ∀ t, o ≠ .th t) (h : LInv A s0 s)
    (e : s' = { s with owner := Function.update s.owner m o }) : LInv A s0 s' := by
  obtain ⟨⟨hw, hb⟩, hf⟩ := h
  subst e
  refine ⟨⟨?_, ?_⟩, hf⟩
  · intro k t e
    by_cases q : k = m
    · subst q; simp only [Function.update_self] at e; exact absurd e (ho t)
    · simp only [Function.update_of_ne q] at e; exact hw k t e
  · intro t k
    have : LSt.hold { s with owner := Function.update s.owner m o } t k = s.hold t k := by
      unfold LSt.hold
      by_cases q : k = m
      · subst q; simp only [Function.update_self]; rw [if_neg (ho t), if_neg (hno t)]
      · simp only [Function.update_of_ne q]
    rw [this]; exact hb t k

theorem linv_step (h0 : ∀ t m, (A t).count (A t).own m ≤ s0.hold t m) {s s' : LSt n} {l : LL n} (h : LInv A s0 s) (hs : lnext A s l = some s') : LInv A s0 s' := by
  cases l with
  | take m =>
    have hs : envTake s m = some s' := hs
    unfold envTake at hs
    split at hs
    · next e => cases hs; exact env_inv (by intro t; rw [e]; simp) (by intro t; simp) h rfl
    · cases hs
  | release m =>
    have hs : envRelease s m = some s' := hs
    unfold envRelease at hs
    split at hs
    · next e => cases hs; exact env_inv (by intro t; rw [e]; simp) (by intro t; simp) h rfl
    · cases hs
  | th t =>
    have hs : lstep (A t) s t = some s' := hs
    obtain ⟨hb, hf⟩ := h
    have ft := hf t
    unfold lstep at hs
    split at hs
    · next a e =>
      split at hs
      · next s1 h1 =>
        cases hs
        obtain ⟨b1, b2, b3⟩ := lock1_bal hb h1
        exact linv_goto hf b1 b2 b3 (by simp [Facts])
      · cases hs
    · next a e =>
      obtain ⟨b1, b2, b3, b4⟩ := trylock1_bal (t := t) (i := try1Of a) hb
      rw [e] at ft
      split at hs
      · next s1 h1 =>
        cases hs
        rw [h1] at b1 b2 b3
        refine linv_goto hf b1 b2 b3 ⟨?_, by simp⟩
        have : firstOf a ≠ try1Of a := first_ne_try1 a
        rw [Function.update_of_ne this]; exact ft
      · next s1 h1 =>
        cases hs
        rw [h1] at b1 b2 b3
        exact linv_goto hf b1 b2 b3 trivial
    · next a e =>
      obtain ⟨b1, b2, b3, b4⟩ := trylock1_bal (t := t) (i := try2Of a) hb
      rw [e] at ft
      split at hs
      · next s1 h1 =>
        cases hs
        rw [h1] at b1 b2 b3
        refine linv_goto hf b1 b2 b3 ?_
        intro i
        by_cases q : i = try2Of a
        · subst q; simp
        · rw [Function.update_of_ne q]
          have : i = firstOf a ∨ i = try1Of a := by
            have key : ∀ a i : Fin 3, i ≠ try2Of a → i = firstOf a ∨ i = try1Of a := by decide
            exact key a i q
          rcases this with rfl | rfl
          · exact ft.1
          · exact ft.2
      · next s1 h1 =>
        cases hs
        rw [h1] at b1 b2 b3
        exact linv_goto hf b1 b2 b3 trivial
    · next a e =>
      cases hs
      obtain ⟨b1, b2, b3⟩ := unlock1_bal (i := unl1Of a) (h0 t) hb
      exact linv_goto hf b1 b2 b3 trivial
    · next a e =>
      cases hs
      obtain ⟨b1, b2, b3⟩ := unlock1_bal (i := unl2Of a) (h0 t) hb
      exact linv_goto hf b1 b2 b3 trivial
    · next e =>
      cases hs
      rw [e] at ft
      refine linv_goto hf hb rfl (update_state_self _ t) ?_
      intro j
      rw [if_neg (by omega)]
      exact ft j
    · next i e =>
      rw [e] at ft
      have fi : s.state t i = true := by
        have := ft i
        rw [if_neg (by omega)] at this
        exact this
      have nxt : ∀ f : Fin 3 → Bool, f i = (A t).own i → (∀ j, j ≠ i → f j = s.state t j) → Facts (A t).own (restNext i) f := by
        intro f h1 h2
        have f0 := ft 0
        have f1 := ft 1
        have f2 := ft 2
        have : i = 0 ∨ i = 1 ∨ i = 2 := by omega
        rcases this with rfl | rfl | rfl
        · show ∀ j, _
          intro j
          have : j = 0 ∨ j = 1 ∨ j = 2 := by omega
          rcases this with rfl | rfl | rfl
          · rw [if_pos (by decide)]; exact h1
          · rw [if_neg (by decide), h2 1 (by decide)]; simpa using f1
          · rw [if_neg (by decide), h2 2 (by decide)]; simpa using f2
        · show ∀ j, _
          intro j
          have : j = 0 ∨ j = 1 ∨ j = 2 := by omega
          rcases this with rfl | rfl | rfl
          · rw [if_pos (by decide), h2 0 (by decide)]; simpa using f0
          · rw [if_pos (by decide)]; exact h1
          · rw [if_neg (by decide), h2 2 (by decide)]; simpa using f2
        · show f = _
          funext j
          have : j = 0 ∨ j = 1 ∨ j = 2 := by omega
          rcases this with rfl | rfl | rfl
          · rw [h2 0 (by decide)]; simpa using f0
          · rw [h2 1 (by decide)]; simpa using f1
          · exact h1
      split at hs
      · next hc =>
        cases hs
        obtain ⟨b1, b2, b3⟩ := unlock1_bal (i := i) (h0 t) hb
        refine linv_goto hf b1 b2 b3 (nxt _ ?_ ?_)
        · rw [Function.update_self, hc.1]
        · intro j hj; rw [Function.update_of_ne hj]
      · next hc =>
        split at hs
        · next hc2 => rw [fi] at hc2; cases hc2.2
        · cases hs
          refine linv_goto hf hb rfl (update_state_self _ t) (nxt _ ?_ (fun j _ => rfl))
          rw [fi]
          cases ho : (A t).own i with
          | true => rfl
          | false => exact absurd ⟨ho, fi⟩ hc
    · cases hs

theorem reach_linv {s : LSt n} (hi : LStart A s0) (h : LReach A s0 s) : LInv A s0 s := by
  induction h with
  | init =>
    refine ⟨⟨hi.depth, ?_⟩, ?_⟩
    · intro t m; rw [hi.state t]
    · intro t; rw [hi.pc t]; trivial
  | step _ hs ih => exact linv_step hi.owned ih hs

/-! ### C31 -/

/-- C31: when the constructor has returned the thread has all of the given mutexes locked (any number of threads, any owner bits, any interleaving, any other threads). -/
theorem C31_holds_all {s : LSt n} (hi : LStart A s0) (h : LReach A s0 s) {t : Fin n} (hp : s.pc t = .crit) (i : Fin 3) : s.owner ((A t).m i) = .th t ∧ 1 ≤ s.hold t ((A t).m i) := by
  obtain ⟨⟨hw, hb⟩, hf⟩ := reach_linv hi h
  have ft := hf t
  rw [hp] at ft
  have h1 := hb t ((A t).m i)
  have h2 := hi.owned t ((A t).m i)
  have h3 := count_pos (A t) (s.state t) i (ft i)
  have h4 : 1 ≤ s.hold t ((A t).m i) := by omega
  refine ⟨?_, h4⟩
  by_contra hn
  unfold LSt.hold at h4
  rw [if_neg hn] at h4
  omega

/-- C31: after the destructor the thread has every mutex locked exactly as many times as before the constructor. -/
theorem C31_restored {s : LSt n} (hi : LStart A s0) (h : LReach A s0 s) {t : Fin n} (hp : s.pc t = .fin) (m : Nat) : s.hold t m = s0.hold t m := by
  obtain ⟨⟨hw, hb⟩, hf⟩ := reach_linv hi h
  have ft := hf t
  rw [hp] at ft
  have h1 := hb t m
  have : s.state t = (A t).own := ft
  rw [this] at h1
  omega

/-- Running a list of events. -/
def lrun (A : Fin n → Args) (s : LSt n) : List (LL n) → Option (LSt n)
  | [] => some s
  | l :: ls => match lnext A s l with
    | some s' => lrun A s' ls
    | none => none

theorem lrun_reach {s s' : LSt n} (ls : List (LL n)) (h : LReach A s0 s) (hr : lrun A s ls = some s') : LReach A s0 s' := by
  induction ls generalizing s with
  | nil => cases hr; exact h
  | cons l ls ih =>
    simp only [lrun] at hr
    cases h1 : lnext A s l with
    | none => rw [h1] at hr; cases hr
    | some s1 => rw [h1] at hr; exact ih (h.step h1) hr

/-- One thread owning the second of three mutexes; another thread of the program has the third for a while. -/
def demoArgs : Fin 1 → Args := fun _ => ⟨![10, 11, 12], ![false, true, false]⟩
def demoStart : LSt 1 := ⟨fun m => if m = 11 then .th 0 else .free, fun m => if m = 11 then 1 else 0, fun _ => .lock 0, fun _ => ![false, true, false]⟩

theorem demo_start : LStart demoArgs demoStart := by
  refine ⟨fun _ => rfl, fun _ => rfl, ?_, ?_⟩
  · intro m t h
    simp only [demoStart] at h ⊢
    split at h
    · next e => simp [e]
    · cases h
  · intro t m
    have : t = 0 := by omega
    subst this
    by_cases q : m = 11
    · subst q; decide
    · have : (demoArgs 0).count (demoArgs 0).own m = 0 := by
        simp [Args.count, demoArgs, Ne.symm q]
      omega

/-- C31: an execution meeting the hypotheses, with a failed attempt: another thread takes mutex 12 first. -/
example : ∃ s : LSt 1, LReach demoArgs demoStart s ∧ s.pc 0 = .crit := by
  have h : (match lrun demoArgs demoStart [.take 12, .th 0, .th 0, .th 0, .th 0, .th 0, .release 12, .th 0, .th 0, .th 0] with
    | some s => decide (s.pc 0 = .crit)
    | none => false) = true := by decide
  split at h
  · next s hs => exact ⟨s, lrun_reach _ .init hs, of_decide_eq_true h⟩
  · cases h

example : ∃ s : LSt 1, LReach demoArgs demoStart s ∧ s.pc 0 = .fin := by
  have h : (match lrun demoArgs demoStart [.take 12, .th 0, .th 0, .th 0, .th 0, .th 0, .release 12, .th 0, .th 0, .th 0, .th 0, .th 0, .th 0, .th 0] with
    | some s => decide (s.pc 0 = .fin)
    | none => false) = true := by decide
  split at h
  · next s hs => exact ⟨s, lrun_reach _ .init hs, of_decide_eq_true h⟩
  · cases h

/-! ### C32 -/

/-- The owner bits are a prefix: whoever owns the third owns the second, whoever owns the second owns the first. -/
def Prefix (own : Fin 3 → Bool) : Prop := (own 1 = true → own 0 = true) ∧ (own 2 = true → own 1 = true)

instance (own : Fin 3 → Bool) : Decidable (Prefix own) := inferInstanceAs (Decidable (_ ∧ _))

/-- The thread has not finished and cannot go on. -/
def Blocked (A : Fin n → Args) (s : LSt n) (t : Fin n) : Prop := s.pc t ≠ .fin ∧ lstep (A t) s t = none

/-- What `state` is known to be when the owner bits are a prefix. -/
def Empty (own : Fin 3 → Bool) : LPC → (Fin 3 → Bool) → Prop
  | .lock a, f => (∀ i, f i = false) ∨ (a = 0 ∧ f = own)
  | .try1 a, f => f (try1Of a) = false → f (try2Of a) = false
  | .unl1 a, f => f (try2Of a) = false
  | .unl2 a, f => f (try2Of a) = false ∧ f (unl1Of a) = false
  | _, _ => True

theorem empty_goto {s s' : LSt n} {t : Fin n} {f : Fin 3 → Bool} {p : LPC} (hf : ∀ u, Empty (A u).own (s.pc u) (s.state u)) (hp : s'.pc = s.pc)
    (hs : s'.state = Function.update s.state t f) (hF : Empty (A t).own p f) (u : Fin n) : Empty (A u).own ((s'.goto t p).pc u) ((s'.goto t p).state u) := by
  show Empty (A u).own (Function.update s'.pc t p u) (s'.state u)
  rw [hp, hs]
  by_cases q : u = t
  · subst q; rw [Function.update_self, Function.update_self]; exact hF
  · rw [Function.update_of_ne q, Function.update_of_ne q]; exact hf u

theorem empty_step (hpre : ∀ t, Prefix (A t).own) (h0 : ∀ t m, (A t).count (A t).own m ≤ s0.hold t m) {s s' : LSt n} {l : LL n} (hi : LInv A s0 s)
    (h : ∀ u, Empty (A u).own (s.pc u) (s.state u)) (hs : lnext A s l = some s') (u : Fin n) : Empty (A u).own (s'.pc u) (s'.state u) := by
  cases l with
  | take m =>
    have hs : envTake s m = some s' := hs
    unfold envTake at hs
    split at hs
    · cases hs; exact h u
    · cases hs
  | release m =>
    have hs : envRelease s m = some s' := hs
    unfold envRelease at hs
    split at hs
    · cases hs; exact h u
    · cases hs
  | th t =>
    have hs : lstep (A t) s t = some s' := hs
    obtain ⟨hb, hf⟩ := hi
    have ft := h t
    unfold lstep at hs
    split at hs
    · next a e =>
      rw [e] at ft
      split at hs
      · next s1 h1 =>
        cases hs
        obtain ⟨b1, b2, b3⟩ := lock1_bal hb h1
        refine empty_goto h b2 b3 ?_ u
        intro hx
        have k1 : try1Of a ≠ firstOf a := try1_ne_first a
        have k2 : try2Of a ≠ firstOf a := try2_ne_first a
        rw [Function.update_of_ne k1] at hx
        rw [Function.update_of_ne k2]
        rcases ft with g | ⟨rfl, g⟩
        · exact g _
        · rw [g] at hx ⊢
          have hx : (A t).own 1 = false := hx
          show (A t).own 2 = false
          cases h2 : (A t).own 2 with
          | false => rfl
          | true => rw [(hpre t).2 h2] at hx; cases hx
      · cases hs
    · next a e =>
      obtain ⟨b1, b2, b3, b4⟩ := trylock1_bal (t := t) (i := try1Of a) hb
      rw [e] at ft
      split at hs
      · next s1 h1 =>
        cases hs
        rw [h1] at b2 b3
        refine empty_goto h b2 b3 ?_ u
        trivial
      · next s1 h1 =>
        cases hs
        rw [h1] at b2 b3 b4
        refine empty_goto h b2 b3 ?_ u
        have k : try2Of a ≠ try1Of a := try2_ne_try1 a
        show Function.update (s.state t) (try1Of a) false (try2Of a) = false
        rw [Function.update_of_ne k]
        exact ft (b4 rfl)
    · next a e =>
      obtain ⟨b1, b2, b3, b4⟩ := trylock1_bal (t := t) (i := try2Of a) hb
      split at hs
      · next s1 h1 =>
        cases hs
        rw [h1] at b2 b3
        refine empty_goto h b2 b3 ?_ u
        trivial
      · next s1 h1 =>
        cases hs
        rw [h1] at b2 b3 b4
        refine empty_goto h b2 b3 ?_ u
        show Function.update (s.state t) (try2Of a) false (try2Of a) = false
        rw [Function.update_self]
    · next a e =>
      cases hs
      rw [e] at ft
      obtain ⟨b1, b2, b3⟩ := unlock1_bal (i := unl1Of a) (h0 t) hb
      refine empty_goto h b2 b3 ?_ u
      refine ⟨?_, ?_⟩
      · have k : try2Of a ≠ unl1Of a := try2_ne_unl1 a
        rw [Function.update_of_ne k]; exact ft
      · rw [Function.update_self]
    · next a e =>
      cases hs
      rw [e] at ft
      obtain ⟨b1, b2, b3⟩ := unlock1_bal (i := unl2Of a) (h0 t) hb
      refine empty_goto h b2 b3 ?_ u
      refine Or.inl ?_
      intro i
      have key : ∀ a i : Fin 3, i = unl2Of a ∨ i = try2Of a ∨ i = unl1Of a := by decide
      by_cases q : i = unl2Of a
      · rw [q, Function.update_self]
      · rw [Function.update_of_ne q]
        rcases key a i with e | e | e
        · exact absurd e q
        · rw [e]; exact ft.1
        · rw [e]; exact ft.2
    · next e =>
      cases hs
      refine empty_goto h rfl (update_state_self _ t) ?_ u
      trivial
    · next i e =>
      have nxt : ∀ f, Empty (A t).own (restNext i) f := by
        intro f
        have : i = 0 ∨ i = 1 ∨ i = 2 := by omega
        rcases this with rfl | rfl | rfl <;> trivial
      split at hs
      · cases hs
        obtain ⟨b1, b2, b3⟩ := unlock1_bal (i := i) (h0 t) hb
        exact empty_goto h b2 b3 (nxt _) u
      · split at hs
        · split at hs
          · next s1 h1 =>
            cases hs
            obtain ⟨b1, b2, b3⟩ := lock1_bal hb h1
            exact empty_goto h b2 b3 (nxt _) u
          · cases hs
        · cases hs
          exact empty_goto h rfl (update_state_self _ t) (nxt _) u
    · cases hs

/-- Each thread has nothing locked but what it says. -/
def Exact (A : Fin n → Args) (s0 : LSt n) : Prop := ∀ t m, s0.hold t m = (A t).count (A t).own m

/-- When is a thread blocked: in a blocking lock of the constructor, on a mutex that another thread has. -/
theorem blocked_at {s : LSt n} (hi : LInv A s0 s) {t : Fin n} (hb : Blocked A s t) :
    ∃ a, s.pc t = .lock a ∧ s.state t (firstOf a) = false ∧ (s.owner ((A t).m (firstOf a)) = .env ∨ ∃ u, u ≠ t ∧ s.owner ((A t).m (firstOf a)) = .th u) := by
  obtain ⟨hfin, hb⟩ := hb
  have l1 : ∀ i, lock1 (A t) s t i = none → s.state t i = false ∧ (s.owner ((A t).m i) = .env ∨ ∃ u, u ≠ t ∧ s.owner ((A t).m i) = .th u) := by
    intro i h
    unfold lock1 at h
    split at h
    · cases h
    · next e =>
      refine ⟨by simpa using e, ?_⟩
      split at h
      · cases h
      · next h1 =>
        unfold LSt.acquire at h1
        split at h1
        · cases h1
        · next e => exact .inl e
        · next v e =>
          split at h1
          · cases h1
          · next q => exact .inr ⟨v, q, e⟩
  unfold lstep at hb
  split at hb
  · next a e =>
    split at hb
    · cases hb
    · next h1 =>
      obtain ⟨h2, h3⟩ := l1 _ h1
      exact ⟨a, e, h2, h3⟩
  · split at hb <;> cases hb
  · split at hb <;> cases hb
  · cases hb
  · cases hb
  · cases hb
  · next i e =>
    split at hb
    · cases hb
    · split at hb
      · next hc =>
        have ft := hi.2 t
        rw [e] at ft
        have := ft i
        rw [if_neg (by omega), hc.2] at this
        cases this
      · cases hb
  · next e => exact absurd e hfin

/-- C32, partial: if every thread's owner bits are a prefix of its arguments, and it holds nothing else, a blocked thread holds no mutex at all; so whoever keeps a thread
waiting is not itself waiting in a constructor.  Missing: other owner bits, see `C32_deadlock_refuted`. -/
theorem C32_no_deadlock_partial {s : LSt n} (hi : LStart A s0) (hx : Exact A s0) (hpre : ∀ t, Prefix (A t).own) (h : LReach A s0 s) {t : Fin n} (hb : Blocked A s t) :
    (∀ m, s.owner m ≠ .th t) ∧ ∃ i, s.owner ((A t).m i) = .env ∨ ∃ u, s.owner ((A t).m i) = .th u ∧ ¬ Blocked A s u := by
  have key : ∀ {s : LSt n}, LReach A s0 s → ∀ u, Empty (A u).own (s.pc u) (s.state u) := by
    intro s h
    induction h with
    | init => intro u; rw [hi.pc u, hi.state u]; exact .inr ⟨rfl, rfl⟩
    | step hr hs ih => exact fun u => empty_step hpre hi.owned (reach_linv hi hr) ih hs u
  have linv := reach_linv hi h
  have none : ∀ u, Blocked A s u → ∀ m, s.owner m ≠ .th u := by
    intro u hu m ho
    obtain ⟨a, ha, hf, -⟩ := blocked_at linv hu
    have he := key h u
    rw [ha] at he
    have hz : ∀ i, s.state u i = false := by
      rcases he with g | ⟨rfl, g⟩
      · exact g
      · have h0 : (A u).own 0 = false := by rw [← g]; exact hf
        have h1 : (A u).own 1 = false := by
          cases h1 : (A u).own 1 with
          | false => rfl
          | true => rw [(hpre u).1 h1] at h0; cases h0
        have h2 : (A u).own 2 = false := by
          cases h2 : (A u).own 2 with
          | false => rfl
          | true => rw [(hpre u).2 h2] at h1; cases h1
        intro i
        rw [g]
        have : i = 0 ∨ i = 1 ∨ i = 2 := by omega
        rcases this with rfl | rfl | rfl
        · exact h0
        · exact h1
        · exact h2
    have h1 := linv.1.2 u m
    have h2 := hx u m
    have h3 : (A u).count (s.state u) m = 0 := by simp [Args.count, hz]
    have h4 : 1 ≤ s.hold u m := by
      unfold LSt.hold
      rw [if_pos ho]
      exact linv.1.1 m u ho
    omega
  refine ⟨none t hb, ?_⟩
  obtain ⟨a, -, -, ho⟩ := blocked_at linv hb
  refine ⟨firstOf a, ?_⟩
  rcases ho with ho | ⟨u, -, ho⟩
  · exact .inl ho
  · exact .inr ⟨u, ho, fun hu => none u hu _ ho⟩

/-- C32, partial: under the same conditions the threads are never all blocked, unless another thread has one of the mutexes. -/
theorem C32_not_all_blocked_partial {s : LSt n} (hi : LStart A s0) (hx : Exact A s0) (hpre : ∀ t, Prefix (A t).own) (h : LReach A s0 s) (hn : 0 < n)
    (henv : ∀ m, s.owner m ≠ .env) : ¬ ∀ t, Blocked A s t := by
  intro hall
  obtain ⟨-, i, ho | ⟨u, -, hu⟩⟩ := C32_no_deadlock_partial hi hx hpre h (hall ⟨0, hn⟩)
  · exact henv _ ho
  · exact hu (hall u)

/-- Two threads with the same owner bits and crossed arguments.  Mutex 1 and 2 are in contention. -/
def crossed (own : Fin 3 → Bool) : Fin 2 → Args :=
  if own 0 then fun t => if t = 0 then ⟨![0, 1, 2], own⟩ else ⟨![3, 2, 1], own⟩
  else if own 1 then fun t => if t = 0 then ⟨![1, 2, 3], own⟩ else ⟨![2, 1, 4], own⟩
  else fun t => if t = 0 then ⟨![1, 3, 2], own⟩ else ⟨![2, 4, 1], own⟩

/-- Each thread has what it says it owns. -/
def crossedStart (own : Fin 3 → Bool) : LSt 2 :=
  { owner := fun m => if (crossed own 0).count own m ≠ 0 then .th 0 else if (crossed own 1).count own m ≠ 0 then .th 1 else .free
    depth := fun m => if (crossed own 0).count own m ≠ 0 ∨ (crossed own 1).count own m ≠ 0 then 1 else 0
    pc := fun _ => .lock 0
    state := fun _ => own }

/-- C32 (negation): for all owner bits that are not a prefix there are two threads that block each other forever, each holding what the other waits for. -/
theorem C32_deadlock_refuted (own : Fin 3 → Bool) (hown : ¬ Prefix own) :
    ∃ s : LSt 2, LStart (crossed own) (crossedStart own) ∧ Exact (crossed own) (crossedStart own) ∧ (∀ t, (crossed own t).own = own) ∧ LReach (crossed own) (crossedStart own) s ∧
      ∀ t, Blocked (crossed own) s t := by
  have big : ∀ (own : Fin 3 → Bool) (t : Fin 2) (m : Nat), 5 ≤ m → (crossed own t).count own m = 0 := by
    intro own t m hm
    have : t = 0 ∨ t = 1 := by omega
    unfold crossed
    rcases this with rfl | rfl
    · split
      · simp [Args.count]; omega
      · split <;> simp [Args.count] <;> omega
    · split
      · simp [Args.count]; omega
      · split <;> simp [Args.count] <;> omega
  have hown' : own = ![false, true, false] ∨ own = ![false, false, true] ∨ own = ![false, true, true] ∨ own = ![true, false, true] := by
    revert own; decide
  have small : ∀ own : Fin 3 → Bool, ¬ Prefix own → (∀ t : Fin 2, (crossed own t).own = own) ∧
      ∀ (t : Fin 2) (m : Fin 5), (crossedStart own).hold t m = (crossed own t).count (crossed own t).own m := by decide
  obtain ⟨so, sh⟩ := small own hown
  have exact : Exact (crossed own) (crossedStart own) := by
    intro t m
    by_cases hm : 5 ≤ m
    · rw [so t, big own t m hm]
      have h0 := big own 0 m hm
      have h1 := big own 1 m hm
      simp [LSt.hold, crossedStart, h0, h1]
    · exact sh t ⟨m, by omega⟩
  have start : LStart (crossed own) (crossedStart own) := by
    refine ⟨fun _ => rfl, fun t => (so t).symm, ?_, fun t m => by rw [exact t m]⟩
    intro m t h
    simp only [crossedStart] at h ⊢
    split at h
    · next e => rw [if_pos (.inl e)]
    · split at h
      · next e => rw [if_pos (.inr e)]
      · cases h
  rcases hown' with rfl | rfl | rfl | rfl
  · refine ⟨_, start, exact, so, .init, ?_⟩
    intro t
    have : t = 0 ∨ t = 1 := by omega
    rcases this with rfl | rfl
    · exact ⟨by decide, rfl⟩
    · exact ⟨by decide, rfl⟩
  · refine ⟨_, start, exact, so, .init, ?_⟩
    intro t
    have : t = 0 ∨ t = 1 := by omega
    rcases this with rfl | rfl
    · exact ⟨by decide, rfl⟩
    · exact ⟨by decide, rfl⟩
  · refine ⟨_, start, exact, so, .init, ?_⟩
    intro t
    have : t = 0 ∨ t = 1 := by omega
    rcases this with rfl | rfl
    · exact ⟨by decide, rfl⟩
    · exact ⟨by decide, rfl⟩
  · have h : (match lrun (crossed ![true, false, true]) (crossedStart ![true, false, true]) [.th 0, .th 1, .th 0, .th 1, .th 0, .th 1, .th 0, .th 1] with
      | some s => decide (∀ t, s.pc t ≠ .fin) && (lstep (crossed ![true, false, true] 0) s 0).isNone && (lstep (crossed ![true, false, true] 1) s 1).isNone
      | none => false) = true := by decide
    split at h
    · next s hs =>
      simp only [Bool.and_eq_true, decide_eq_true_eq, Option.isNone_iff_eq_none] at h
      refine ⟨s, start, exact, so, lrun_reach _ .init hs, ?_⟩
      intro t
      have : t = 0 ∨ t = 1 := by omega
      rcases this with rfl | rfl
      · exact ⟨h.1.1 0, h.1.2⟩
      · exact ⟨h.1.1 1, h.2⟩
    · cases h

/-- C32: an execution meeting the hypotheses of the partial theorem: two threads without owned mutexes and crossed arguments; the first has everything, the second is blocked. -/
def pairArgs : Fin 2 → Args := fun t => if t = 0 then ⟨![1, 2, 3], fun _ => false⟩ else ⟨![2, 1, 4], fun _ => false⟩
def pairStart : LSt 2 := ⟨fun _ => .free, fun _ => 0, fun _ => .lock 0, fun _ _ => false⟩

example : LStart pairArgs pairStart ∧ Exact pairArgs pairStart ∧ (∀ t, Prefix (pairArgs t).own) ∧ ∃ s, LReach pairArgs pairStart s ∧ Blocked pairArgs s 1 := by
  have own : ∀ t, (pairArgs t).own = fun _ => false := by decide
  have cnt : ∀ t m, (pairArgs t).count (pairArgs t).own m = 0 := by intro t m; rw [own t]; simp [Args.count]
  refine ⟨⟨fun _ => rfl, fun t => (own t).symm, ?_, ?_⟩, ?_, by decide, ?_⟩
  · intro m t h; cases h
  · intro t m; rw [cnt]; exact Nat.zero_le _
  · intro t m; rw [cnt]; rfl
  · have h : (match lrun pairArgs pairStart [.th 0, .th 0, .th 0] with
      | some s => decide (s.pc 1 ≠ .fin) && (lstep (pairArgs 1) s 1).isNone
      | none => false) = true := by decide
    split at h
    · next s hs =>
      simp only [Bool.and_eq_true, decide_eq_true_eq, Option.isNone_iff_eq_none] at h
      exact ⟨s, lrun_reach _ .init hs, h.1, h.2⟩
    · cases h

end Verif.Threads
