import Verif.Threads.Mutex
import Verif.Timeval.Props

/-
Property C30.
-/

namespace Verif.Threads
open Verif

/-- Events with normalised clock readings for which a direct `timedlock` gets a valid deadline. -/
def Valid {n : Nat} : ML n → Prop
  | .lockFile _ now => Timeval.Normal now
  | .timedlock _ ms now => Timeval.Normal now ∧ now.usec + 1000 * ((ms % 1000 : Nat) : Int) ≠ 1000000
  | _ => True

/-- As `Valid`, and `timedlock` is not called directly. -/
def NoTimed {n : Nat} : ML n → Prop
  | .lockFile _ now => Timeval.Normal now
  | .timedlock _ _ _ => False
  | _ => True

/-- Operations of `t` on the pthread mutex that `held t` does not show. -/
def pend : PC → Nat
  | .got => 1
  | .unlocking => 1
  | _ => 0

def okDeadline : PC → Prop
  | .lockTimed ts => validTS ts = true
  | .timed ts => validTS ts = true
  | _ => True

/-- The invariant: `held` is exact, up to an operation under way; the deadlines in use are valid. -/
def MInv {n : Nat} (s : MSt n) : Prop :=
  (∀ t, s.held t + pend (s.pc t) = if s.owner = some t then s.depth else 0) ∧ (s.owner ≠ none → 0 < s.depth) ∧ (s.owner = none → s.depth = 0) ∧ ∀ t, okDeadline (s.pc t)

theorem upd_same {n : Nat} {β : Type} (f : Fin n → β) (t : Fin n) (x : β) : Function.update f t x t = x := by simp
theorem upd_ne {n : Nat} {β : Type} (f : Fin n → β) (t u : Fin n) (x : β) (h : u ≠ t) : Function.update f t x u = f u := Function.update_of_ne h _ _

theorem deadline_ok {n : Nat} {s : MSt n} (h : ∀ t, okDeadline (s.pc t)) (t : Fin n) (p : PC) (hp : okDeadline p) (u : Fin n) : okDeadline (Function.update s.pc t p u) := by
  by_cases q : u = t
  · subst q; rw [upd_same]; exact hp
  · rw [upd_ne _ _ _ _ q]; exact h u

/-- Taking the mutex keeps the books. -/
theorem take_books {n : Nat} {s : MSt n} (h : MInv s) {t : Fin n} (hf : s.free t = true) (u : Fin n) :
    (if (s.take t).owner = some u then (s.take t).depth else 0) = (if s.owner = some u then s.depth else 0) + if u = t then 1 else 0 := by
  obtain ⟨h1, h2, h3, -⟩ := h
  unfold MSt.free at hf
  unfold MSt.take
  simp only
  have hf := of_decide_eq_true hf
  by_cases q : u = t
  · subst q
    rw [if_pos rfl, if_pos rfl]
    rcases hf with e | e
    · rw [if_neg (by rw [e]; simp), h3 e]
    · rw [if_pos e]
  · rw [if_neg (by intro e; cases e; exact q rfl), if_neg q]
    rcases hf with e | e
    · rw [if_neg (by rw [e]; simp)]
    · rw [if_neg (by rw [e]; intro e'; cases e'; exact q rfl)]

theorem minv_step {n : Nat} {s s' : MSt n} {l : ML n} (h : MInv s) (hl : Valid l) (hs : mstep s l = some s') : MInv s' := by
  obtain ⟨h1, h2, h3, h4⟩ := id h
  -- only the program counter of `t` changes, to one of the same weight
  have goto : ∀ (t : Fin n) (p : PC), pend p = pend (s.pc t) → okDeadline p → MInv (s.goto t p) := by
    intro t p hp hd
    refine ⟨fun u => ?_, h2, h3, deadline_ok h4 t p hd⟩
    show s.held u + pend (Function.update s.pc t p u) = _
    by_cases q : u = t
    · subst q; rw [upd_same, hp]; exact h1 u
    · rw [upd_ne _ _ _ _ q]; exact h1 u
  have takeGot : ∀ (t : Fin n), pend (s.pc t) = 0 → s.free t = true → MInv ((s.take t).goto t .got) := by
    intro t hp hf
    refine ⟨fun u => ?_, fun _ => Nat.succ_pos _, (by intro e; cases e), deadline_ok h4 t _ trivial⟩
    show s.held u + pend (Function.update s.pc t .got u) = if (s.take t).owner = some u then (s.take t).depth else 0
    rw [take_books h hf u, ← h1 u]
    by_cases q : u = t
    · subst q; rw [upd_same, hp, if_pos rfl]; rfl
    · rw [upd_ne _ _ _ _ q, if_neg q]; omega
  cases l with
  | lock t =>
    simp only [mstep] at hs
    split at hs
    · next e => cases hs; exact goto t _ (by rw [e]; rfl) trivial
    · cases hs
  | lockFile t now =>
    simp only [mstep] at hs
    split at hs
    · next e =>
      cases hs
      refine goto t _ (by rw [e]; rfl) ?_
      have hn : Timeval.Normal now := hl
      obtain ⟨h5, h6⟩ := Timeval.C34_future_normal_partial now 1000 hn
      have h7 : Timeval.Normal (Timeval.future now 1000) := h6.mpr (by unfold Timeval.Normal at hn; omega)
      unfold Timeval.Normal at h7
      show validTS _ = true
      unfold validTS Timeval.timespec
      exact decide_eq_true ⟨by simp only; omega, by simp only; omega⟩
    · cases hs
  | trylock t =>
    simp only [mstep] at hs
    split at hs
    · next e =>
      split at hs
      · next hf => cases hs; exact takeGot t (by rw [e]; rfl) hf
      · cases hs; exact h
    · cases hs
  | timedlock t ms now =>
    simp only [mstep] at hs
    split at hs
    · next e =>
      cases hs
      refine goto t _ (by rw [e]; rfl) ?_
      obtain ⟨hn, hne⟩ : Timeval.Normal now ∧ _ := hl
      obtain ⟨h5, h6⟩ := Timeval.C34_future_normal_partial now ms hn
      have h7 := h6.mpr hne
      unfold Timeval.Normal at h7
      show validTS _ = true
      unfold validTS Timeval.timespec
      exact decide_eq_true ⟨by simp only; omega, by simp only; omega⟩
    · cases hs
  | unlock t =>
    simp only [mstep] at hs
    split at hs
    · next e =>
      cases hs
      refine ⟨fun u => ?_, h2, h3, deadline_ok h4 t _ trivial⟩
      show Function.update s.held t (s.held t - 1) u + pend (Function.update s.pc t .unlocking u) = if s.owner = some u then s.depth else 0
      rw [← h1 u]
      by_cases q : u = t
      · subst q
        rw [upd_same, upd_same, e.1]
        have := e.2
        simp only [pend]; omega
      · rw [upd_ne _ _ _ _ q, upd_ne _ _ _ _ q]
    · cases hs
  | go t =>
    simp only [mstep] at hs
    split at hs
    · cases hs
    · next ts e =>
      have hv := h4 t
      rw [e] at hv
      have hv : validTS ts = true := hv
      split at hs
      · next hf => cases hs; exact takeGot t (by rw [e]; rfl) hf
      · cases hs
    · next e =>
      split at hs
      · next hf => cases hs; exact takeGot t (by rw [e]; rfl) hf
      · cases hs
    · next e =>
      cases hs
      refine ⟨fun u => ?_, h2, h3, deadline_ok h4 t _ trivial⟩
      show Function.update s.held t (s.held t + 1) u + pend (Function.update s.pc t .idle u) = if s.owner = some u then s.depth else 0
      rw [← h1 u]
      by_cases q : u = t
      · subst q; rw [upd_same, upd_same, e]; simp [pend]
      · rw [upd_ne _ _ _ _ q, upd_ne _ _ _ _ q]
    · next ts e =>
      have hv := h4 t
      rw [e] at hv
      have hv : validTS ts = true := hv
      split at hs
      · next hf =>
        cases hs
        refine ⟨fun u => ?_, fun _ => Nat.succ_pos _, (by intro e; cases e), deadline_ok h4 t _ trivial⟩
        show Function.update s.held t (s.held t + 1) u + pend (Function.update s.pc t .idle u) = if (s.take t).owner = some u then (s.take t).depth else 0
        rw [take_books h hf u, ← h1 u]
        by_cases q : u = t
        · subst q; rw [upd_same, upd_same, if_pos rfl, e]; simp [pend]
        · rw [upd_ne _ _ _ _ q, upd_ne _ _ _ _ q, if_neg q]; omega
      · cases hs
    · next e =>
      cases hs
      have ht := h1 t
      rw [e] at ht
      have ho : s.owner = some t := by
        by_contra hn
        rw [if_neg hn] at ht
        simp [pend] at ht
      rw [if_pos ho] at ht
      simp only [pend] at ht
      unfold MSt.release
      rw [if_pos ho]
      refine ⟨fun u => ?_, ?_, ?_, deadline_ok h4 t _ trivial⟩
      · show s.held u + pend (Function.update s.pc t .idle u) = if (if s.depth ≤ 1 then none else some t) = some u then s.depth - 1 else 0
        have hu := h1 u
        by_cases q : u = t
        · subst q
          rw [upd_same]
          simp only [pend]
          by_cases hd : s.depth ≤ 1
          · rw [if_pos hd, if_neg (by simp)]; omega
          · rw [if_neg hd, if_pos rfl]; omega
        · rw [upd_ne _ _ _ _ q]
          rw [if_neg (by rw [ho]; intro e'; cases e'; exact q rfl)] at hu
          rw [hu]
          by_cases hd : s.depth ≤ 1
          · rw [if_pos hd, if_neg (by simp)]
          · rw [if_neg hd, if_neg (by intro e'; cases e'; exact q rfl)]
      · show (if s.depth ≤ 1 then none else some t) ≠ none → 0 < s.depth - 1
        intro hne
        by_cases hd : s.depth ≤ 1
        · rw [if_pos hd] at hne; exact absurd rfl hne
        · omega
      · show (if s.depth ≤ 1 then none else some t) = none → s.depth - 1 = 0
        intro hne
        by_cases hd : s.depth ≤ 1
        · omega
        · rw [if_neg hd] at hne; cases hne
  | timeout t =>
    simp only [mstep] at hs
    split at hs
    · next ts e =>
      split at hs
      · cases hs; exact goto t _ (by rw [e]; rfl) trivial
      · cases hs
    · next ts e =>
      split at hs
      · cases hs; exact goto t _ (by rw [e]; rfl) trivial
      · cases hs
    · cases hs

theorem reach_minv {n : Nat} {s : MSt n} (h : MReach Valid s) : MInv s := by
  induction h with
  | init => exact ⟨fun t => rfl, fun h => absurd rfl h, fun _ => rfl, fun _ => trivial⟩
  | step _ hl hs ih => exact minv_step ih hl hs

/-- C30 (success means held), partial: any number of threads, any interleaving, any clock.  A thread that has been told of more successful locks than it has made unlocks
owns the mutex, and no other thread believes it does; between its calls the recursion depth is exactly that number.
Missing: direct calls of `timedlock` whose deadline falls exactly on a full second, see `C30_timedlock_refuted`. -/
theorem C30_success_means_held_partial {n : Nat} {s : MSt n} (h : MReach Valid s) {t : Fin n} (ht : 0 < s.held t) :
    s.owner = some t ∧ (∀ u, u ≠ t → s.held u = 0) ∧ (s.pc t = .idle → s.depth = s.held t) := by
  obtain ⟨h1, h2, h3, -⟩ := reach_minv h
  have ho : s.owner = some t := by
    by_contra hn
    have := h1 t
    rw [if_neg hn] at this
    omega
  refine ⟨ho, fun u q => ?_, fun hp => ?_⟩
  · have := h1 u
    rw [if_neg (by rw [ho]; intro e; cases e; exact q rfl)] at this
    omega
  · have := h1 t
    rw [if_pos ho, hp] at this
    simpa [pend] using this.symm

/-- C30: a lock that is not held can be taken again: when every thread has made as many unlocks as it had successes and no call is under way, the mutex is free. -/
theorem C30_released_partial {n : Nat} {s : MSt n} (h : MReach Valid s) (h0 : ∀ t, s.held t = 0 ∧ s.pc t = .idle) : s.owner = none := by
  obtain ⟨h1, h2, -, -⟩ := reach_minv h
  cases ho : s.owner with
  | none => rfl
  | some t =>
    have h3 := h1 t
    have h4 := h2 (by rw [ho]; simp)
    rw [if_pos ho, (h0 t).1, (h0 t).2] at h3
    simp [pend] at h3
    omega

theorem valid_of_noTimed {n : Nat} {l : ML n} (h : NoTimed l) : Valid l := by
  cases l <;> first | exact h | exact h.elim

/-- Without direct `timedlock` calls, no thread is ever inside one. -/
theorem noTimed_pc {n : Nat} {s : MSt n} (h : MReach NoTimed s) (t : Fin n) (ts : Timeval.TS) : s.pc t ≠ .timed ts := by
  induction h with
  | init => intro e; cases e
  | @step s l s' _ hl hs ih =>
    have up : ∀ (u : Fin n) (p : PC), (∀ ts, p ≠ .timed ts) → Function.update s.pc u p t ≠ .timed ts := by
      intro u p hp
      by_cases q : t = u
      · subst q; rw [upd_same]; exact hp ts
      · rw [upd_ne _ _ _ _ q]; exact ih
    cases l with
    | timedlock u ms now => exact hl.elim
    | lock u =>
      simp only [mstep] at hs
      split at hs
      · cases hs; exact up u _ (by intro ts e; cases e)
      · cases hs
    | lockFile u now =>
      simp only [mstep] at hs
      split at hs
      · cases hs; exact up u _ (by intro ts e; cases e)
      · cases hs
    | trylock u =>
      simp only [mstep] at hs
      split at hs
      · split at hs
        · cases hs; exact up u _ (by intro ts e; cases e)
        · cases hs; exact ih
      · cases hs
    | unlock u =>
      simp only [mstep] at hs
      split at hs
      · cases hs; exact up u _ (by intro ts e; cases e)
      · cases hs
    | go u =>
      simp only [mstep] at hs
      split at hs
      · cases hs
      · split at hs
        · cases hs; exact up u _ (by intro ts e; cases e)
        · split at hs
          · cases hs
          · cases hs; exact up u _ (by intro ts e; cases e)
      · split at hs
        · cases hs; exact up u _ (by intro ts e; cases e)
        · cases hs
      · cases hs; exact up u _ (by intro ts e; cases e)
      · split at hs
        · cases hs; exact up u _ (by intro ts e; cases e)
        · split at hs
          · cases hs
          · cases hs; exact up u _ (by intro ts e; cases e)
      · cases hs
        show Function.update (s.release u).pc u _ t ≠ _
        have : (s.release u).pc = s.pc := by unfold MSt.release; split <;> rfl
        rw [this]
        exact up u _ (by intro ts e; cases e)
    | timeout u =>
      simp only [mstep] at hs
      split at hs
      · split at hs
        · cases hs; exact up u _ (by intro ts e; cases e)
        · cases hs
      · split at hs
        · cases hs; exact up u _ (by intro ts e; cases e)
        · cases hs
      · cases hs

/-- The number of locks the owner has been told of. -/
def cnt {n : Nat} (s : MSt n) : Int := match s.owner with
  | some t => s.held t
  | none => 0

theorem reach_valid {n : Nat} {s : MSt n} (h : MReach NoTimed s) : MReach Valid s := by
  induction h with
  | init => exact .init
  | step _ hl hs ih => exact ih.step (valid_of_noTimed hl) hs

theorem noTimed_cnt {n : Nat} {s : MSt n} (h : MReach NoTimed s) : s.lockCnt = cnt s := by
  induction h with
  | init => rfl
  | @step s l s' hr hl hs ih =>
    have hv : MReach Valid s := reach_valid hr
    have hinv := reach_minv hv
    obtain ⟨h1, h2, h3, h4⟩ := id hinv
    have zero : ∀ t, s.owner ≠ some t → s.held t = 0 := by
      intro t ht
      have := h1 t
      rw [if_neg ht] at this
      omega
    -- taking the mutex does not change what its owner has been told
    have tk : ∀ t, s.free t = true → cnt ((s.take t).goto t .got) = cnt s := by
      intro t hf
      unfold MSt.free at hf
      rcases of_decide_eq_true hf with e | e
      · show (s.held t : Int) = cnt s
        rw [zero t (by rw [e]; simp)]
        unfold cnt; rw [e]; rfl
      · show (s.held t : Int) = cnt s
        unfold cnt; rw [e]
    cases l with
    | timedlock u ms now => exact hl.elim
    | lock u =>
      simp only [mstep] at hs
      split at hs
      · cases hs; exact ih
      · cases hs
    | lockFile u now =>
      simp only [mstep] at hs
      split at hs
      · cases hs; exact ih
      · cases hs
    | trylock u =>
      simp only [mstep] at hs
      split at hs
      · split at hs
        · next hf => cases hs; rw [tk u hf]; exact ih
        · cases hs; exact ih
      · cases hs
    | unlock u =>
      simp only [mstep] at hs
      split at hs
      · next e =>
        cases hs
        have ho : s.owner = some u := (C30_success_means_held_partial hv e.2).1
        show s.lockCnt - 1 = match s.owner with | some t => ((Function.update s.held u (s.held u - 1) t : Nat) : Int) | none => 0
        rw [ih]
        unfold cnt
        rw [ho]
        simp only [upd_same]
        have := e.2
        omega
      · cases hs
    | go u =>
      simp only [mstep] at hs
      split at hs
      · cases hs
      · next ts e =>
        have hv := h4 u
        rw [e] at hv
        have hv : validTS ts = true := hv
        split at hs
        · next hf => cases hs; rw [tk u hf]; exact ih
        · cases hs
      · next e =>
        split at hs
        · next hf => cases hs; rw [tk u hf]; exact ih
        · cases hs
      · next e =>
        cases hs
        have hu := h1 u
        rw [e] at hu
        have ho : s.owner = some u := by
          by_contra hn
          rw [if_neg hn] at hu
          simp [pend] at hu
        show s.lockCnt + 1 = match s.owner with | some t => ((Function.update s.held u (s.held u + 1) t : Nat) : Int) | none => 0
        rw [ih]
        unfold cnt
        rw [ho]
        simp only [upd_same]
        omega
      · next ts e => exact absurd e (noTimed_pc hr u ts)
      · next e =>
        cases hs
        have hu := h1 u
        rw [e] at hu
        have ho : s.owner = some u := by
          by_contra hn
          rw [if_neg hn] at hu
          simp [pend] at hu
        rw [if_pos ho] at hu
        simp only [pend] at hu
        unfold MSt.release
        rw [if_pos ho]
        show s.lockCnt = match (if s.depth ≤ 1 then none else some u) with | some t => (s.held t : Int) | none => 0
        rw [ih]
        unfold cnt
        rw [ho]
        by_cases hd : s.depth ≤ 1
        · rw [if_pos hd]; simp only; omega
        · rw [if_neg hd]
    | timeout u =>
      simp only [mstep] at hs
      split at hs
      · split at hs
        · cases hs; exact ih
        · cases hs
      · split at hs
        · cases hs; exact ih
        · cases hs
      · cases hs

/-- C30 (lockcnt), partial: if `timedlock` is not called directly, `lockcnt()` as seen by the thread that has the mutex, between its calls, is the recursion depth, and it is
0 when nobody has it.  Missing: direct `timedlock` calls, see `C30_lockcnt_refuted`. -/
theorem C30_lockcnt_partial {n : Nat} {s : MSt n} (h : MReach NoTimed s) :
    (∀ t, s.owner = some t → s.pc t = .idle → s.lockCnt = s.depth) ∧ (s.owner = none → s.lockCnt = 0) := by
  have hc := noTimed_cnt h
  obtain ⟨h1, -, -, -⟩ := reach_minv (reach_valid h)
  refine ⟨fun t ho hp => ?_, fun ho => ?_⟩
  · have := h1 t
    rw [if_pos ho, hp] at this
    simp [pend] at this
    rw [hc]; unfold cnt; rw [ho]; simp only; omega
  · rw [hc]; unfold cnt; rw [ho]

/-- Running a list of events. -/
def mrun {n : Nat} (s : MSt n) : List (ML n) → Option (MSt n)
  | [] => some s
  | l :: ls => match mstep s l with
    | some s' => mrun s' ls
    | none => none

theorem mrun_reach {n : Nat} {ok : ML n → Prop} {s s' : MSt n} (ls : List (ML n)) (h : MReach ok s) (hok : ∀ l ∈ ls, ok l) (hr : mrun s ls = some s') : MReach ok s' := by
  induction ls generalizing s with
  | nil => cases hr; exact h
  | cons l ls ih =>
    simp only [mrun] at hr
    cases h1 : mstep s l with
    | none => rw [h1] at hr; cases hr
    | some s1 => rw [h1] at hr; exact ih (h.step (hok l (by simp)) h1) (fun l hl => hok l (List.mem_cons_of_mem _ hl)) hr

/-- C30 (negation for `timedlock`): with the clock at 1.5 s and a wait of 500 ms, `timedlock` reports success although another thread has the mutex. -/
theorem C30_timedlock_refuted : ∃ s : MSt 2, MReach (fun _ => True) s ∧ 0 < s.held 0 ∧ 0 < s.held 1 ∧ s.owner = some 0 ∧ s.pc 1 = .idle := by
  have h : (match mrun (minit 2) [.lock 0, .go 0, .go 0, .timedlock 1 500 ⟨1, 500000⟩, .go 1] with
    | some s => decide (0 < s.held 0 ∧ 0 < s.held 1 ∧ s.owner = some 0 ∧ s.pc 1 = .idle)
    | none => false) = true := by decide
  split at h
  · next s hs => exact ⟨s, mrun_reach _ .init (fun _ _ => trivial) hs, of_decide_eq_true h⟩
  · cases h

/-- C30 (negation for `lockcnt`): a successful `timedlock` (with a valid deadline) is not counted: the thread holds the mutex and `lockcnt()` is 0. -/
theorem C30_lockcnt_refuted : ∃ s : MSt 1, MReach Valid s ∧ s.owner = some 0 ∧ s.pc 0 = .idle ∧ s.depth = 1 ∧ s.lockCnt = 0 := by
  have h : (match mrun (minit 1) [.timedlock 0 250 ⟨1, 500000⟩, .go 0] with
    | some s => decide (s.owner = some 0 ∧ s.pc 0 = .idle ∧ s.depth = 1 ∧ s.lockCnt = 0)
    | none => false) = true := by decide
  split at h
  · next s hs =>
    refine ⟨s, mrun_reach _ .init ?_ hs, of_decide_eq_true h⟩
    intro l hl
    rcases List.mem_cons.mp hl with rfl | hl
    · exact ⟨by decide, by decide⟩
    · rcases List.mem_cons.mp hl with rfl | hl
      · trivial
      · cases hl
  · cases h

/-- C30: an execution meeting the hypotheses: thread 0 locks twice (once reporting the place, once by trylock), thread 1 is refused a trylock and blocks in lock. -/
example : ∃ s : MSt 2, MReach NoTimed s ∧ s.held 0 = 2 ∧ s.owner = some 0 ∧ s.pc 0 = .idle ∧ s.depth = 2 ∧ s.pc 1 = .lockPlain := by
  have h : (match mrun (minit 2) [.lockFile 0 ⟨1, 500000⟩, .go 0, .go 0, .trylock 1, .trylock 0, .go 0, .lockFile 1 ⟨1, 600000⟩, .timeout 1] with
    | some s => decide (s.held 0 = 2 ∧ s.owner = some 0 ∧ s.pc 0 = .idle ∧ s.depth = 2 ∧ s.pc 1 = .lockPlain)
    | none => false) = true := by decide
  split at h
  · next s hs =>
    refine ⟨s, mrun_reach _ .init ?_ hs, of_decide_eq_true h⟩
    intro l hl
    simp only [List.mem_cons, List.not_mem_nil, or_false] at hl
    rcases hl with rfl | rfl | rfl | rfl | rfl | rfl | rfl | rfl <;> trivial
  · cases h

end Verif.Threads
