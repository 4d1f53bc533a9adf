import Verif.Monitor.Programs
import Verif.Monitor.Steps

/-
How long programs on shared objects run: a program that comes to an end when calls are indivisible comes to an end.
-/

namespace Verif.Monitor

variable {I : Type} [DecidableEq I] {n : Nat} {L : Type}

/-! ### Counted executions -/

/-- The steps that get a thread on, with the number of steps outside of calls, of calls begun, and of steps inside objects (the return of a call among them). -/
inductive Work (O : I → Obj) (P : Prog O n L) : CState O n L → CState O n L → (taus calls own : Nat) → Prop where
  | tau (c t l l') : c.pos t = .out l → P.tau t l l' → Work O P c { c with pos := Function.update c.pos t (.out l') } 1 0 0
  | call (c t l i op s') : c.pos t = .out l → P.call t l i op → Step (O i).M (c.obj i) (.start t op) s' →
      Work O P c { obj := Function.update c.obj i s', pos := Function.update c.pos t (.inside l i op) } 0 1 0
  | own (c i lb s') : Step (O i).M (c.obj i) lb s' → lb.internal → s'.th ≠ (c.obj i).th → (∀ t, lb ≠ .ret t) → Work O P c { c with obj := Function.update c.obj i s' } 0 0 1
  | ret (c t l i op r l' s') : c.pos t = .inside l i op → (c.obj i).th t = .after op r [] → Step (O i).M (c.obj i) (.ret t) s' → P.cont t l i op r l' →
      Work O P c { obj := Function.update c.obj i s', pos := Function.update c.pos t (.out l') } 0 0 1

/-- Executions with their steps counted: steps outside of calls, calls begun, wakeups that no notification caused, and steps inside objects. The clock, and looks at the data that change nothing for
any thread, are not counted. -/
inductive CRun (O : I → Obj) (P : Prog O n L) (now : I → Clock) (l0 : Fin n → L) : CState O n L → (taus calls unasked own : Nat) → Prop where
  | refl : CRun O P now l0 (.start O now l0) 0 0 0 0
  | work {c c' T A B W x y z} : CRun O P now l0 c T A B W → Work O P c c' x y z → CRun O P now l0 c' (T + x) (A + y) B (W + z)
  | unasked {c T A B W i t s'} : CRun O P now l0 c T A B W → Step (O i).M (c.obj i) (.spurious t) s' → CRun O P now l0 { c with obj := Function.update c.obj i s' } T A (B + 1) W
  | tick {c T A B W i s'} : CRun O P now l0 c T A B W → Step (O i).M (c.obj i) .tick s' → CRun O P now l0 { c with obj := Function.update c.obj i s' } T A B W
  | spin {c T A B W i t s'} : CRun O P now l0 c T A B W → Step (O i).M (c.obj i) (.body t) s' → s'.th = (c.obj i).th →
      CRun O P now l0 { c with obj := Function.update c.obj i s' } T A B W

theorem Work.step {O : I → Obj} {P : Prog O n L} {c c' : CState O n L} {x y z : Nat} (h : Work O P c c' x y z) : CStep O P c c' := by
  cases h with
  | tau t l l' h1 h2 => exact .tau _ t l l' h1 h2
  | call t l i op s' h1 h2 h3 => exact .call _ t l i op s' h1 h2 h3
  | own i lb s' h1 h2 h3 h4 => exact .inner _ i lb s' h1 (fun t op e => by subst e; exact h2) h4
  | ret t l i op r l' s' h1 h2 h3 h4 => exact .ret _ t l i op r l' s' h1 h2 h3 h4

theorem CRun.reach {O : I → Obj} {P : Prog O n L} {now : I → Clock} {l0 : Fin n → L} {c : CState O n L} {T A B W : Nat} (h : CRun O P now l0 c T A B W) : CReach O P now l0 c := by
  induction h with
  | refl => exact .refl
  | work _ w ih => exact .step ih w.step
  | unasked _ st ih => exact .step ih (.inner _ _ _ _ st (fun _ _ e => nomatch e) (fun _ e => nomatch e))
  | tick _ st ih => exact .step ih (.inner _ _ _ _ st (fun _ _ e => nomatch e) (fun _ e => nomatch e))
  | spin _ st _ ih => exact .step ih (.inner _ _ _ _ st (fun _ _ e => nomatch e) (fun _ e => nomatch e))

/-- Every execution can be counted so. -/
theorem run_of_reach {O : I → Obj} {P : Prog O n L} {now : I → Clock} {l0 : Fin n → L} {c : CState O n L} (h : CReach O P now l0 c) : ∃ T A B W, CRun O P now l0 c T A B W := by
  induction h with
  | refl => exact ⟨0, 0, 0, 0, .refl⟩
  | @step c c' h st ih =>
    obtain ⟨T, A, B, W, ih⟩ := ih
    cases st with
    | tau t l l' h1 h2 => exact ⟨_, _, _, _, ih.work (.tau _ t l l' h1 h2)⟩
    | call t l i op s' h1 h2 h3 => exact ⟨_, _, _, _, ih.work (.call _ t l i op s' h1 h2 h3)⟩
    | ret t l i op r l' s' h1 h2 h3 h4 => exact ⟨_, _, _, _, ih.work (.ret _ t l i op r l' s' h1 h2 h3 h4)⟩
    | inner i lb s' h1 h2 h3 =>
      cases lb with
      | start t op => exact absurd rfl (h2 t op)
      | ret t => exact absurd rfl (h3 t)
      | spurious t => exact ⟨_, _, _, _, ih.unasked h1⟩
      | tick => exact ⟨_, _, _, _, ih.tick h1⟩
      | body t =>
        by_cases e : s'.th = (c.obj i).th
        · exact ⟨_, _, _, _, ih.spin h1 e⟩
        · exact ⟨_, _, _, _, ih.work (.own _ i _ s' h1 trivial e (fun _ e => nomatch e))⟩
      | lock t => exact ⟨_, _, _, _, ih.work (.own _ i _ s' h1 trivial (internal_moves h1 trivial (fun _ e => nomatch e)) (fun _ e => nomatch e))⟩
      | relock t => exact ⟨_, _, _, _, ih.work (.own _ i _ s' h1 trivial (internal_moves h1 trivial (fun _ e => nomatch e)) (fun _ e => nomatch e))⟩
      | notify t => exact ⟨_, _, _, _, ih.work (.own _ i _ s' h1 trivial (internal_moves h1 trivial (fun _ e => nomatch e)) (fun _ e => nomatch e))⟩
      | unlock t => exact ⟨_, _, _, _, ih.work (.own _ i _ s' h1 trivial (internal_moves h1 trivial (fun _ e => nomatch e)) (fun _ e => nomatch e))⟩

/-! ### Steps inside objects, by the number of calls -/

theorem sum_upd1 [Fintype I] (a : I → Nat) (k : I) : ∑ i, Function.update a k (a k + 1) i = (∑ i, a i) + 1 := by
  rw [← Finset.add_sum_erase _ _ (Finset.mem_univ k), ← Finset.add_sum_erase _ a (Finset.mem_univ k), Function.update_self,
    Finset.sum_congr rfl fun u hu => Function.update_of_ne (Finset.ne_of_mem_erase hu) _ _]
  omega

/-- Each object has its share. -/
theorem shares [Fintype I] {O : I → Obj} {P : Prog O n L} (hP : ∀ t l i op, P.call t l i op → (O i).ok op) {now : I → Clock} {l0 : Fin n → L} {c : CState O n L} {T A B W : Nat}
    (h : CRun O P now l0 c T A B W) :
    ∃ a b k w : I → Nat, (∀ i, Steps (O i).M (fun _ op => (O i).ok op) (init n (now i) (O i).d0) (c.obj i) (a i) (b i) (k i) (w i)) ∧ ∑ i, a i = A ∧ ∑ i, b i = B ∧ ∑ i, w i = W := by
  induction h with
  | refl => exact ⟨fun _ => 0, fun _ => 0, fun _ => 0, fun _ => 0, fun i => .nil _, by simp, by simp, by simp⟩
  | @work c c' T A B W x y z h w ih =>
    obtain ⟨a, b, k, m, hs, h1, h2, h3⟩ := ih
    cases w with
    | tau t l l' e1 e2 => exact ⟨a, b, k, m, hs, h1, h2, h3⟩
    | call t l j op s' e1 e2 e3 =>
      refine ⟨Function.update a j (a j + 1), b, k, m, fun i => ?_, by rw [sum_upd1, h1], h2, h3⟩
      by_cases e : i = j
      · subst e; dsimp only; rw [Function.update_self, Function.update_self]; exact (hs i).call e3 (hP _ _ _ _ e2)
      · dsimp only; rw [Function.update_of_ne e, Function.update_of_ne e]; exact hs i
    | own j lb s' e1 e2 e3 e4 =>
      refine ⟨a, b, k, Function.update m j (m j + 1), fun i => ?_, h1, h2, by rw [sum_upd1, h3]⟩
      by_cases e : i = j
      · subst e; dsimp only; rw [Function.update_self, Function.update_self]; exact (hs i).own e1 e2 e3
      · dsimp only; rw [Function.update_of_ne e, Function.update_of_ne e]; exact hs i
    | ret t l j op r l' s' e1 e2 e3 e4 =>
      refine ⟨a, b, k, Function.update m j (m j + 1), fun i => ?_, h1, h2, by rw [sum_upd1, h3]⟩
      by_cases e : i = j
      · subst e; dsimp only; rw [Function.update_self, Function.update_self]; exact (hs i).own e3 trivial (internal_moves e3 trivial (fun _ e => nomatch e))
      · dsimp only; rw [Function.update_of_ne e, Function.update_of_ne e]; exact hs i
  | @unasked c T A B W j t s' h st ih =>
    obtain ⟨a, b, k, m, hs, h1, h2, h3⟩ := ih
    refine ⟨a, Function.update b j (b j + 1), k, m, fun i => ?_, h1, by rw [sum_upd1, h2], h3⟩
    by_cases e : i = j
    · subst e; dsimp only; rw [Function.update_self, Function.update_self]; exact (hs i).unasked st
    · dsimp only; rw [Function.update_of_ne e, Function.update_of_ne e]; exact hs i
  | @tick c T A B W j s' h st ih =>
    obtain ⟨a, b, k, m, hs, h1, h2, h3⟩ := ih
    refine ⟨a, b, k, m, fun i => ?_, h1, h2, h3⟩
    by_cases e : i = j
    · subst e; dsimp only; rw [Function.update_self]; exact (hs i).tick st
    · dsimp only; rw [Function.update_of_ne e]; exact hs i
  | @spin c T A B W j t s' h st he ih =>
    obtain ⟨a, b, k, m, hs, h1, h2, h3⟩ := ih
    refine ⟨a, b, Function.update k j (k j + 1), m, fun i => ?_, h1, h2, h3⟩
    by_cases e : i = j
    · subst e; dsimp only; rw [Function.update_self, Function.update_self]; exact (hs i).spin st he
    · dsimp only; rw [Function.update_of_ne e, Function.update_of_ne e]; exact hs i

/-- Each call costs at most `K` steps inside objects, each wakeup out of turn two. -/
theorem own_bound [Fintype I] {O : I → Obj} {S : I → Nat} (hS : ∀ i, Cheap (O i).M n (S i)) {K : Nat} (hK : ∀ i, S i + 4 ≤ K) {P : Prog O n L}
    (hP : ∀ t l i op, P.call t l i op → (O i).ok op) {now : I → Clock} {l0 : Fin n → L} {c : CState O n L} {T A B W : Nat} (h : CRun O P now l0 c T A B W) : W ≤ K * A + 2 * B := by
  obtain ⟨a, b, k, w, hs, rfl, rfl, rfl⟩ := shares hP h
  rw [Finset.mul_sum, Finset.mul_sum, ← Finset.sum_add_distrib]
  refine Finset.sum_le_sum fun i _ => ?_
  have h1 := steps_bound (hS i) (hs i)
  have h2 : total (toGo n (S i)) (init n (now i) (O i).d0 : St n (O i).σ (O i).C (O i).Op (O i).R).th = 0 := by rw [total_zero]; intro t; rfl
  have h3 := Nat.mul_le_mul_right (a i) (hK i)
  omega

/-! ### The number of calls, by a measure on the program with indivisible calls -/

/-- A number that no step raises, and steps outside of calls and calls lower. -/
structure Measure (O : I → Obj) (P : Prog O n L) (l0 : Fin n → L) (m : GState O n L → Nat) : Prop where
  le : ∀ g g', GReach O P l0 g → GStep O P g g' → m g' ≤ m g
  tau : ∀ g t l l', GReach O P l0 g → g.pos t = .out l → P.tau t l l' → m { g with pos := Function.update g.pos t (.out l') } < m g
  call : ∀ g t l i op, GReach O P l0 g → g.pos t = .out l → P.call t l i op → m { g with pos := Function.update g.pos t (.asked l i op) } < m g

theorem Measure.lt {O : I → Obj} {P : Prog O n L} {l0 : Fin n → L} {m : GState O n L → Nat} (hm : Measure O P l0 m) {g g' : GState O n L} (hg : GReach O P l0 g) (st : GStep O P g g') {t : Fin n} {l : L}
    (h1 : g.pos t = .out l) (h2 : ∀ l', g'.pos t ≠ .out l') : m g' < m g := by
  cases st with
  | tau u k k' e1 e2 => exact hm.tau g u k k' hg e1 e2
  | ask u k i op e1 e2 => exact hm.call g u k i op hg e1 e2
  | does u k i op r a' e1 e2 =>
    exfalso
    by_cases q : t = u
    · subst q; rw [e1] at h1; cases h1
    · refine h2 l ?_; dsimp only; rw [upd_ne _ _ _ _ q]; exact h1
  | cont u k i op r k' e1 e2 =>
    exfalso
    by_cases q : t = u
    · subst q; rw [e1] at h1; cases h1
    · refine h2 l ?_; dsimp only; rw [upd_ne _ _ _ _ q]; exact h1

omit [DecidableEq I] in
theorem gpos_inside {O : I → Obj} {c : CState O n L} {t : Fin n} {l l' : L} {i : I} {op : (O i).Op} (h : c.pos t = .inside l i op) : gpos c t ≠ .out l' := by
  simp only [gpos, h]
  split <;> exact fun e => nomatch e

theorem calls_bound {O : I → Obj} (hO : ∀ i, (O i).Good) {P : Prog O n L} (hP : ∀ t l i op, P.call t l i op → (O i).ok op) {now : I → Clock} {l0 : Fin n → L} {m : GState O n L → Nat}
    (hm : Measure O P l0 m) {c : CState O n L} {T A B W : Nat} (h : CRun O P now l0 c T A B W) :
    Inside c ∧ ∃ a : (i : I) → (O i).A, GReach O P l0 ⟨a, gpos c⟩ ∧ (∀ i, (O i).abs (c.obj i).data (a i)) ∧ T + A + m ⟨a, gpos c⟩ ≤ m (.start O l0) := by
  have other : ∀ {c c' : CState O n L} {T A B W : Nat}, CRun O P now l0 c T A B W → CStep O P c c' →
      (Inside c ∧ ∃ a : (i : I) → (O i).A, GReach O P l0 ⟨a, gpos c⟩ ∧ (∀ i, (O i).abs (c.obj i).data (a i)) ∧ T + A + m ⟨a, gpos c⟩ ≤ m (.start O l0)) →
      Inside c' ∧ ∃ a : (i : I) → (O i).A, GReach O P l0 ⟨a, gpos c'⟩ ∧ (∀ i, (O i).abs (c'.obj i).data (a i)) ∧ T + A + m ⟨a, gpos c'⟩ ≤ m (.start O l0) := by
    intro c c' T A B W h st ⟨hin, a, hg, ha, hle⟩
    obtain ⟨hin', a', ha', ⟨rfl, e⟩ | st'⟩ := simulate hO hP h.reach hin ha st
    · exact ⟨hin', a', by rw [e]; exact hg, ha', by rw [e]; exact hle⟩
    · exact ⟨hin', a', hg.step st', ha', by have := hm.le _ _ hg st'; omega⟩
  induction h with
  | refl => exact ⟨fun t => ⟨fun _ _ _ => rfl, fun _ _ _ e => nomatch e⟩, fun i => (O i).a0, .refl, fun i => (hO i).start, by simp only [Nat.zero_add]; exact Nat.le_refl _⟩
  | unasked h st ih => exact other h (.inner _ _ _ _ st (fun _ _ e => nomatch e) (fun _ e => nomatch e)) ih
  | tick h st ih => exact other h (.inner _ _ _ _ st (fun _ _ e => nomatch e) (fun _ e => nomatch e)) ih
  | spin h st _ ih => exact other h (.inner _ _ _ _ st (fun _ _ e => nomatch e) (fun _ e => nomatch e)) ih
  | @work c c' T A B W x y z h w ih =>
    cases w with
    | own i lb s' h1 h2 h3 h4 => exact other h (Work.own c i lb s' h1 h2 h3 h4).step ih
    | ret t l i op r l' s' h1 h2 h3 h4 => exact other h (Work.ret c t l i op r l' s' h1 h2 h3 h4).step ih
    | tau t l l' h1 h2 =>
      obtain ⟨hin, a, hg, ha, hle⟩ := ih
      obtain ⟨hin', -⟩ := simulate hO hP h.reach hin ha (.tau c t l l' h1 h2)
      have e : gpos { c with pos := Function.update c.pos t (.out l') } = Function.update (gpos c) t (.out l') := by
        funext u
        by_cases q : u = t
        · subst q; rw [upd_same]; simp only [gpos, upd_same]
        · rw [upd_ne _ _ _ _ q]; simp only [gpos, upd_ne _ _ _ _ q]
      have hp : gpos c t = .out l := by simp only [gpos, h1]
      have hlt := hm.tau ⟨a, gpos c⟩ t l l' hg hp h2
      refine ⟨hin', a, ?_, ha, ?_⟩
      · rw [e]; exact hg.step (.tau _ t l l' hp h2)
      · rw [e]; dsimp only at hlt; omega
    | call t l i op s' h1 h2 h3 =>
      obtain ⟨hin, a, hg, ha, hle⟩ := ih
      have hp : gpos c t = .out l := by simp only [gpos, h1]
      obtain ⟨hin', a', ha', ⟨rfl, e⟩ | st'⟩ := simulate hO hP h.reach hin ha (.call c t l i op s' h1 h2 h3)
      · exfalso
        have := congrFun e t
        rw [hp] at this
        exact gpos_inside (upd_same _ _ _) this
      · have hlt := hm.lt hg st' hp (fun l' => gpos_inside (upd_same _ _ _))
        exact ⟨hin', a', hg.step st', ha', by omega⟩

/-! ### Coming to rest -/

/-- A call without time limit always has a pass that leaves or waits. -/
def Obj.Firm (O : Obj) : Prop := ∀ op t0 now d, O.ok op → O.untimed op → (∃ a, O.M.body op t0 now d a) ∧ ∀ d', ¬ O.M.body op t0 now d (.spin d')

section
variable {σ C Op R : Type} [DecidableEq C]

/-- As long as a thread inside the object neither waits nor is about to return, some thread gets on. -/
theorem moves {M : Mon σ C Op R} {s : St n σ C Op R} (hx : Excl s) (hb : ∀ t op t0, s.th t = .holding op t0 → (∃ a, M.body op t0 s.now s.data a) ∧ ∀ d, ¬ M.body op t0 s.now s.data (.spin d))
    (hno : ∀ l s', Step M s l s' → l.internal → s'.th ≠ s.th → ∃ t, l = .ret t) (t : Fin n) : s.th t = .idle ∨ (∃ op t0 c, s.th t = .waiting op t0 c) ∨ ∃ op r, s.th t = .after op r [] := by
  classical
  have no : ∀ {l s'}, Step M s l s' → l.internal → (∀ t, l ≠ .body t) → (∀ t, l ≠ .ret t) → False := by
    intro l s' st hi h1 h2
    obtain ⟨u, e⟩ := hno l s' st hi (internal_moves st hi h1)
    exact h2 u e
  have hold : ∀ u, (s.th u).holds = true → False := by
    intro u hu
    have ho := (hx u).mp hu
    cases e : s.th u with
    | idle => rw [e] at hu; cases hu
    | entering op t0 => rw [e] at hu; cases hu
    | waiting op t0 c => rw [e] at hu; cases hu
    | waking op t0 => rw [e] at hu; cases hu
    | after op r o => rw [e] at hu; cases hu
    | holding op t0 =>
      obtain ⟨⟨a, ha⟩, hs⟩ := hb u op t0 e
      cases a with
      | done d r i o =>
        obtain ⟨v, h⟩ := hno _ _ (.bodyDone s u op t0 d r i o e ho ha) trivial (fun q => by have := congrFun q u; dsimp only at this; rw [upd_same, e] at this; cases this)
        cases h
      | wait d c =>
        obtain ⟨v, h⟩ := hno _ _ (.bodyWait s u op t0 d c e ho ha) trivial (fun q => by have := congrFun q u; dsimp only at this; rw [upd_same, e] at this; cases this)
        cases h
      | spin d => exact hs d ha
    | inLock op r i o =>
      cases i with
      | nil => exact no (.unlock s u op r o e ho) trivial (fun _ e => nomatch e) (fun _ e => nomatch e)
      | cons g i =>
        cases g with
        | all c => exact no (.bcastIn s u op r c i o e) trivial (fun _ e => nomatch e) (fun _ e => nomatch e)
        | one c =>
          by_cases hw : ∃ v op' t0, s.th v = .waiting op' t0 c
          · obtain ⟨v, op', t0, hv⟩ := hw
            exact no (.signalIn s u op r c i o v op' t0 e hv) trivial (fun _ e => nomatch e) (fun _ e => nomatch e)
          · exact no (.signalInNone s u op r c i o e (fun v op' t0 hv => hw ⟨v, op', t0, hv⟩)) trivial (fun _ e => nomatch e) (fun _ e => nomatch e)
  have ho : s.owner = none := by
    cases h : s.owner with
    | none => rfl
    | some u => exact (hold u ((hx u).mpr h)).elim
  cases e : s.th t with
  | idle => exact .inl rfl
  | waiting op t0 c => exact .inr (.inl ⟨op, t0, c, rfl⟩)
  | entering op t0 => exact (no (.lock s t op t0 e ho) trivial (fun _ e => nomatch e) (fun _ e => nomatch e)).elim
  | waking op t0 => exact (no (.relock s t op t0 e ho) trivial (fun _ e => nomatch e) (fun _ e => nomatch e)).elim
  | holding op t0 => exact (hold t (by rw [e]; rfl)).elim
  | inLock op r i o => exact (hold t (by rw [e]; rfl)).elim
  | after op r o =>
    cases o with
    | nil => exact .inr (.inr ⟨op, r, rfl⟩)
    | cons g o =>
      cases g with
      | all c => exact (no (.bcastOut s t op r c o e) trivial (fun _ e => nomatch e) (fun _ e => nomatch e)).elim
      | one c =>
        by_cases hw : ∃ v op' t0, s.th v = .waiting op' t0 c
        · obtain ⟨v, op', t0, hv⟩ := hw
          exact (no (.signalOut s t op r c o v op' t0 e hv) trivial (fun _ e => nomatch e) (fun _ e => nomatch e)).elim
        · exact (no (.signalOutNone s t op r c o e (fun v op' t0 hv => hw ⟨v, op', t0, hv⟩)) trivial (fun _ e => nomatch e) (fun _ e => nomatch e)).elim

end

/-- The program knows how to go on with every result its calls can have. -/
def Prog.Ready {O : I → Obj} (P : Prog O n L) : Prop := ∀ t l i op r a a', P.call t l i op → (O i).sp a op r a' → ∃ l', P.cont t l i op r l'

/-- Calls in progress were made by the program; those done have a result of the description. -/
theorem calls_made {O : I → Obj} {P : Prog O n L} {l0 : Fin n → L} {g : GState O n L} (h : GReach O P l0 g) :
    ∀ t, (∀ l i op, g.pos t = .asked l i op → P.call t l i op) ∧ ∀ l i op r, g.pos t = .got l i op r → P.call t l i op ∧ ∃ a a', (O i).sp a op r a' := by
  induction h with
  | refl => exact fun t => ⟨(fun _ _ _ e => nomatch e), fun _ _ _ _ e => nomatch e⟩
  | @step g g' _ st ih =>
    intro u
    have keep : ∀ {t : Fin n} {p : GPos O L} {pos : Fin n → GPos O L}, pos = Function.update g.pos t p →
        ((∀ l i op, p = .asked l i op → P.call t l i op) ∧ ∀ l i op r, p = .got l i op r → P.call t l i op ∧ ∃ a a', (O i).sp a op r a') →
        (∀ l i op, pos u = .asked l i op → P.call u l i op) ∧ ∀ l i op r, pos u = .got l i op r → P.call u l i op ∧ ∃ a a', (O i).sp a op r a' := by
      intro t p pos e hp
      subst e
      by_cases q : u = t
      · subst q; rw [upd_same]; exact hp
      · rw [upd_ne _ _ _ _ q]; exact ih u
    cases st with
    | tau t l l' h1 h2 => exact keep rfl ⟨(fun _ _ _ e => nomatch e), fun _ _ _ _ e => nomatch e⟩
    | ask t l i op h1 h2 => exact keep rfl ⟨fun _ _ _ e => by cases e; exact h2, fun _ _ _ _ e => nomatch e⟩
    | does t l i op r a' h1 h2 => exact keep rfl ⟨(fun _ _ _ e => nomatch e), fun _ _ _ _ e => by cases e; exact ⟨(ih t).1 l i op h1, _, _, h2⟩⟩
    | cont t l i op r l' h1 h2 => exact keep rfl ⟨(fun _ _ _ e => nomatch e), fun _ _ _ _ e => nomatch e⟩

/-- No thread gets on by itself. -/
def Rest {O : I → Obj} (P : Prog O n L) (c : CState O n L) : Prop := ∀ c' x y z, ¬ Work O P c c' x y z

/-- Then every thread has finished, or sleeps in a call. -/
theorem rest_stuck {O : I → Obj} (hO : ∀ i, (O i).Good) (hF : ∀ i, (O i).Firm) {P : Prog O n L} (hP : ∀ t l i op, P.call t l i op → (O i).ok op ∧ (O i).untimed op) (hR : P.Ready)
    {now : I → Clock} {l0 : Fin n → L} {c : CState O n L} (h : CReach O P now l0 c) (hr : Rest P c) : Stuck P c := by
  have hP1 : ∀ t l i op, P.call t l i op → (O i).ok op := fun t l i op h => (hP t l i op h).1
  obtain ⟨hin, a, hg, ha⟩ := refines hO hP1 h
  have hm := calls_made hg
  -- a thread inside an object is in a call that its program made
  have made : ∀ t l i op, c.pos t = .inside l i op → P.call t l i op := by
    intro t l i op e
    obtain ⟨⟨r, hv⟩, -⟩ := (hin t).2 l i op e
    cases r with
    | none => exact (hm t).1 l i op (gpos_asked e hv)
    | some r => exact ((hm t).2 l i op r (gpos_got e hv)).1
  have inside : ∀ t i op r, view ((c.obj i).th t) = some (op, r) → ∃ l, c.pos t = .inside l i op := by
    intro t i op r hv
    cases hp : c.pos t with
    | out l => have := (hin t).1 l hp i; rw [hv] at this; cases this
    | inside l j op' =>
      obtain ⟨⟨r', h1⟩, h2⟩ := (hin t).2 l j op' hp
      by_cases q : i = j
      · subst q; rw [hv] at h1; cases h1; exact ⟨l, rfl⟩
      · have := h2 i q; rw [hv] at this; cases this
  intro t
  cases hp : c.pos t with
  | out l =>
    refine .inl ⟨l, rfl, fun l' e => hr _ _ _ _ (.tau c t l l' hp e), fun i op e => hr _ _ _ _ (.call c t l i op _ hp e (.start _ t op ?_))⟩
    exact view_idle ((hin t).1 l hp i)
  | inside l i op =>
    have hx := reach_excl (each hP1 h i)
    have hb : ∀ t op t0, (c.obj i).th t = .holding op t0 → (∃ a, (O i).M.body op t0 (c.obj i).now (c.obj i).data a) ∧ ∀ d, ¬ (O i).M.body op t0 (c.obj i).now (c.obj i).data (.spin d) := by
      intro t op t0 e
      obtain ⟨l, hl⟩ := inside t i op none (by rw [e]; rfl)
      obtain ⟨h1, h2⟩ := hP t l i op (made t l i op hl)
      exact hF i op t0 _ _ h1 h2
    have hno : ∀ lb s', Step (O i).M (c.obj i) lb s' → lb.internal → s'.th ≠ (c.obj i).th → ∃ t, lb = .ret t := by
      intro lb s' st hi hne
      by_contra q
      exact hr _ _ _ _ (.own c i lb s' st hi hne (fun t e => q ⟨t, e⟩))
    obtain ⟨⟨r, hv⟩, -⟩ := (hin t).2 l i op hp
    rcases moves hx hb hno t with e | ⟨op', t0, cv, e⟩ | ⟨op', r', e⟩
    · rw [e] at hv; cases hv
    · rw [e] at hv; cases hv
      exact .inr ⟨l, i, op, t0, cv, rfl, e, (hP t l i op (made t l i op hp)).2⟩
    · rw [e] at hv; cases hv
      exfalso
      obtain ⟨hc, a1, a2, hs⟩ := (hm t).2 l i op r' (gpos_got hp (by rw [e]; rfl))
      obtain ⟨l', hl'⟩ := hR t l i op r' a1 a2 hc hs
      exact hr _ _ _ _ (.ret c t l i op r' l' _ hp e (.ret _ t op r' e) hl')

/-- An execution goes on by steps of threads, none of them woken out of turn. -/
inductive Goes (O : I → Obj) (P : Prog O n L) (c : CState O n L) : CState O n L → Nat → Prop where
  | refl : Goes O P c c 0
  | step {c' c'' k x y z} : Goes O P c c' k → Work O P c' c'' x y z → Goes O P c c'' (k + 1)

theorem work_one {O : I → Obj} {P : Prog O n L} {c c' : CState O n L} {x y z : Nat} (h : Work O P c c' x y z) : x + y + z = 1 := by cases h <;> rfl

theorem Goes.run {O : I → Obj} {P : Prog O n L} {now : I → Clock} {l0 : Fin n → L} {c c' : CState O n L} {k T A B W : Nat} (h : Goes O P c c' k) (hr : CRun O P now l0 c T A B W) :
    ∃ T' A' W', CRun O P now l0 c' T' A' B W' ∧ T' + A' + W' = T + A + W + k := by
  induction h with
  | refl => exact ⟨T, A, W, hr, rfl⟩
  | step _ w ih =>
    obtain ⟨T', A', W', h1, h2⟩ := ih
    exact ⟨_, _, _, h1.work w, by have := work_one w; omega⟩

theorem Goes.reach {O : I → Obj} {P : Prog O n L} {now : I → Clock} {l0 : Fin n → L} {c c' : CState O n L} {k : Nat} (h : Goes O P c c' k) (hr : CReach O P now l0 c) : CReach O P now l0 c' := by
  obtain ⟨T, A, B, W, h1⟩ := run_of_reach hr
  obtain ⟨_, _, _, h2, -⟩ := h.run h1
  exact h2.reach

/-- A program with a measure, from any point: it does not go on for ever. -/
theorem goes_bound [Fintype I] {O : I → Obj} (hO : ∀ i, (O i).Good) {S : I → Nat} (hS : ∀ i, Cheap (O i).M n (S i)) {K : Nat} (hK : ∀ i, S i + 4 ≤ K) {P : Prog O n L}
    (hP : ∀ t l i op, P.call t l i op → (O i).ok op) {now : I → Clock} {l0 : Fin n → L} {m : GState O n L → Nat} (hm : Measure O P l0 m)
    {c : CState O n L} (h : CReach O P now l0 c) : ∃ N, ∀ c' k, Goes O P c c' k → k ≤ N := by
  obtain ⟨T, A, B, W, hr⟩ := run_of_reach h
  refine ⟨(K + 1) * m (.start O l0) + 2 * B, fun c' k hg => ?_⟩
  obtain ⟨T', A', W', h1, h2⟩ := hg.run hr
  have h3 := own_bound hS hK hP h1
  obtain ⟨-, a, -, -, h4⟩ := calls_bound hO hP hm h1
  have h5 : K * A' ≤ K * m (.start O l0) := Nat.mul_le_mul_left K (by omega)
  have h6 : (K + 1) * m (.start O l0) = K * m (.start O l0) + m (.start O l0) := Nat.succ_mul _ _
  omega

/-- Then it comes to a standstill by itself. -/
theorem comes_to_rest {O : I → Obj} {P : Prog O n L} {c : CState O n L} {N : Nat} (h : ∀ c' k, Goes O P c c' k → k ≤ N) : ∃ c' k, Goes O P c c' k ∧ Rest P c' := by
  by_contra hno
  have key : ∀ k, ∃ c', Goes O P c c' k := by
    intro k
    induction k with
    | zero => exact ⟨c, .refl⟩
    | succ k ih =>
      obtain ⟨c', hg⟩ := ih
      by_cases q : Rest P c'
      · exact absurd ⟨c', k, hg, q⟩ hno
      · simp only [Rest, not_forall, not_not] at q
        obtain ⟨c'', x, y, z, w⟩ := q
        exact ⟨c'', hg.step w⟩
  obtain ⟨c', hg⟩ := key (N + 1)
  exact absurd (h c' _ hg) (by omega)

end Verif.Monitor
