import Verif.Monitor.Exec
import Mathlib.Algebra.BigOperators.Ring.Finset

/-
How many steps calls take: a bound for any monitor whose calls send a bounded number of notifications.
-/

namespace Verif.Monitor

variable {n : Nat} {σ C Op R : Type} [DecidableEq C]

/-- Part of an execution, counted: calls begun, wakeups that no notification caused (the end of a time limit among them), looks at the data that change nothing for any thread, and all other steps of
threads: locking, passes through the critical section, notifying, unlocking, returning. -/
inductive Steps (M : Mon σ C Op R) (ok : Fin n → Op → Prop) : St n σ C Op R → St n σ C Op R → (calls unasked spins own : Nat) → Prop where
  | nil (s) : Steps M ok s s 0 0 0 0
  | call {s s' s'' a b k i t op} : Steps M ok s s' a b k i → Step M s' (.start t op) s'' → ok t op → Steps M ok s s'' (a + 1) b k i
  | unasked {s s' s'' a b k i t} : Steps M ok s s' a b k i → Step M s' (.spurious t) s'' → Steps M ok s s'' a (b + 1) k i
  | tick {s s' s'' a b k i} : Steps M ok s s' a b k i → Step M s' .tick s'' → Steps M ok s s'' a b k i
  | spin {s s' s'' a b k i t} : Steps M ok s s' a b k i → Step M s' (.body t) s'' → s''.th = s'.th → Steps M ok s s'' a b (k + 1) i
  | own {s s' s'' a b k i l} : Steps M ok s s' a b k i → Step M s' l s'' → l.internal → s''.th ≠ s'.th → Steps M ok s s'' a b k (i + 1)

/-- Apart from passes through the critical section, every step of a thread gets it on. -/
theorem internal_moves {M : Mon σ C Op R} {s s' : St n σ C Op R} {l : Lbl n Op} (st : Step M s l s') (hi : l.internal) (hb : ∀ t, l ≠ .body t) : s'.th ≠ s.th := by
  intro e
  cases st with
  | start => exact hi.elim
  | spurious => exact hi.elim
  | tick => exact hi.elim
  | bodyDone t => exact hb t rfl
  | bodyWait t => exact hb t rfl
  | bodySpin t => exact hb t rfl
  | lock t _ _ h1 h2 => have := congrFun e t; dsimp only at this; rw [upd_same, h1] at this; cases this
  | relock t _ _ h1 h2 => have := congrFun e t; dsimp only at this; rw [upd_same, h1] at this; cases this
  | unlock t _ _ _ h1 h2 => have := congrFun e t; dsimp only at this; rw [upd_same, h1] at this; cases this
  | ret t _ _ h1 => have := congrFun e t; dsimp only at this; rw [upd_same, h1] at this; cases this
  | signalIn _ _ _ _ _ _ u _ _ h1 h2 => have := congrFun e u; dsimp only at this; rw [upd_same, h2] at this; cases this
  | signalInNone t _ _ _ i _ h1 h2 => have := congrFun e t; dsimp only at this; rw [upd_same, h1] at this; simp at this
  | bcastIn t _ _ _ i _ h1 => have := congrFun e t; dsimp only at this; rw [upd_same, h1] at this; simp at this
  | signalOut _ _ _ _ _ u _ _ h1 h2 => have := congrFun e u; dsimp only at this; rw [upd_same, h2] at this; cases this
  | signalOutNone t _ _ _ o h1 h2 => have := congrFun e t; dsimp only at this; rw [upd_same, h1] at this; simp at this
  | bcastOut t _ _ _ o h1 => have := congrFun e t; dsimp only at this; rw [upd_same, h1] at this; simp at this

/-- Every execution can be counted so. -/
theorem steps_of_reach {M : Mon σ C Op R} {ok : Fin n → Op → Prop} {s0 s : St n σ C Op R} (h : Reach M ok s0 s) : ∃ a b k i, Steps M ok s0 s a b k i := by
  induction h with
  | refl => exact ⟨0, 0, 0, 0, .nil _⟩
  | @step s l s' h st hl ih =>
    obtain ⟨a, b, k, i, ih⟩ := ih
    cases l with
    | start t op => exact ⟨_, _, _, _, .call ih st (hl t op rfl)⟩
    | spurious t => exact ⟨_, _, _, _, .unasked ih st⟩
    | tick => exact ⟨_, _, _, _, .tick ih st⟩
    | body t =>
      by_cases h : s'.th = s.th
      · exact ⟨_, _, _, _, .spin ih st h⟩
      · exact ⟨_, _, _, _, .own ih st trivial h⟩
    | _ => exact ⟨_, _, _, _, .own ih st trivial (internal_moves st trivial (fun _ h => nomatch h))⟩

theorem Steps.reach {M : Mon σ C Op R} {ok : Fin n → Op → Prop} {s0 s s' : St n σ C Op R} {a b k i : Nat} (h : Steps M ok s s' a b k i) (hr : Reach M ok s0 s) : Reach M ok s0 s' := by
  induction h with
  | nil => exact hr
  | call _ st ho ih => exact .step ih st (by intro t op e; cases e; exact ho)
  | unasked _ st ih => exact .step ih st (by intro t op e; cases e)
  | tick _ st ih => exact .step ih st (by intro t op e; cases e)
  | spin _ st _ ih => exact .step ih st (by intro t op e; cases e)
  | own _ st hi _ ih => exact .step ih st (by intro t op e; subst e; exact hi.elim)

/-- What a notification costs: at most that many threads begin another round, which takes two steps more. -/
def Sig.cost (n : Nat) : Sig C → Nat
  | .one _ => 3
  | .all _ => 2 * n + 1

def costs (n : Nat) (l : List (Sig C)) : Nat := (l.map (Sig.cost n)).sum

/-- Steps a thread may still take in its call, where a call sends notifications that cost at most `S`. -/
def toGo (n S : Nat) : TS C Op R → Nat
  | .idle => 0
  | .entering .. => S + 4
  | .waking .. => S + 4
  | .holding .. => S + 3
  | .waiting .. => S + 2
  | .inLock _ _ i o => 2 + costs n i + costs n o
  | .after _ _ o => 1 + costs n o

/-- A call sends notifications that cost at most `S`. -/
def Cheap (M : Mon σ C Op R) (n S : Nat) : Prop := ∀ op t0 now d d' r i o, M.body op t0 now d (.done d' r i o) → costs n i + costs n o ≤ S

omit [DecidableEq C] in
theorem costs_cons (g : Sig C) (l : List (Sig C)) : costs n (g :: l) = g.cost n + costs n l := by simp [costs]

theorem toGo_wake_le (S : Nat) (c : C) (x : TS C Op R) : toGo n S (x.wake c) ≤ toGo n S x + 2 := by
  cases x with
  | waiting op t0 c' => simp only [TS.wake]; split <;> simp only [toGo] <;> omega
  | _ => simp only [TS.wake]; omega

theorem total_wake (S : Nat) (c : C) (th : Fin n → TS C Op R) : total (toGo n S) (fun u => (th u).wake c) ≤ total (toGo n S) th + 2 * n := by
  unfold total
  calc ∑ t, toGo n S ((th t).wake c) ≤ ∑ t, (toGo n S (th t) + 2) := Finset.sum_le_sum fun t _ => toGo_wake_le S c (th t)
    _ = ∑ t, toGo n S (th t) + 2 * n := by
      rw [Finset.sum_add_distrib, Finset.sum_const, Finset.card_univ, Fintype.card_fin]
      exact congrArg _ (Nat.mul_comm n 2)

theorem own_total {M : Mon σ C Op R} {S : Nat} (hM : Cheap M n S) {s s' : St n σ C Op R} {l : Lbl n Op} (st : Step M s l s') (hi : l.internal) (hne : s'.th ≠ s.th) :
    total (toGo n S) s'.th + 1 ≤ total (toGo n S) s.th := by
  have key : ∀ t x, toGo n S x + 1 ≤ toGo n S (s.th t) → total (toGo n S) (Function.update s.th t x) + 1 ≤ total (toGo n S) s.th := by
    intro t x h
    have := total_update (toGo n S) s.th t x
    omega
  have two : ∀ (t u : Fin n) x y c op t0, toGo n S x + 3 ≤ toGo n S (s.th t) → s.th u = .waiting op t0 c → u ≠ t → toGo n S y = S + 4 →
      total (toGo n S) (Function.update (Function.update s.th t x) u y) + 1 ≤ total (toGo n S) s.th := by
    intro t u x y c op t0 h hu hut hy
    have h1 := total_update (toGo n S) s.th t x
    have h2 := total_update (toGo n S) (Function.update s.th t x) u y
    rw [upd_ne _ _ _ _ hut, hu, hy] at h2
    simp only [toGo] at h2
    omega
  have bc : ∀ (t : Fin n) x c, toGo n S x + 2 * n + 1 ≤ toGo n S (s.th t) → (s.th t).wake c = s.th t →
      total (toGo n S) (Function.update (fun u => (s.th u).wake c) t x) + 1 ≤ total (toGo n S) s.th := by
    intro t x c h hw
    have h1 := total_update (toGo n S) (fun u => (s.th u).wake c) t x
    have h2 := total_wake S c s.th
    simp only [hw] at h1
    omega
  cases st with
  | start => exact hi.elim
  | spurious => exact hi.elim
  | tick => exact hi.elim
  | lock t op t0 h1 h2 => exact key t _ (by rw [h1]; simp only [toGo]; omega)
  | bodyDone t op t0 d r i o h1 h2 h3 => exact key t _ (by rw [h1]; have := hM _ _ _ _ _ _ _ _ h3; simp only [toGo]; omega)
  | bodyWait t op t0 d c h1 h2 h3 => exact key t _ (by rw [h1]; simp only [toGo]; omega)
  | bodySpin => exact absurd rfl hne
  | relock t op t0 h1 h2 => exact key t _ (by rw [h1]; simp only [toGo]; omega)
  | signalIn t op r c i o u op' t0 h1 h2 =>
    refine two t u _ _ c op' t0 ?_ h2 (by intro e; subst e; rw [h1] at h2; cases h2) rfl
    rw [h1]; simp only [toGo, costs_cons, Sig.cost]; omega
  | signalInNone t op r c i o h1 h2 => exact key t _ (by rw [h1]; simp only [toGo, costs_cons, Sig.cost]; omega)
  | bcastIn t op r c i o h1 => exact bc t _ c (by rw [h1]; simp only [toGo, costs_cons, Sig.cost]; omega) (by rw [h1]; rfl)
  | unlock t op r o h1 h2 => exact key t _ (by rw [h1]; simp only [toGo, costs, List.map_nil, List.sum_nil]; omega)
  | signalOut t op r c o u op' t0 h1 h2 =>
    refine two t u _ _ c op' t0 ?_ h2 (by intro e; subst e; rw [h1] at h2; cases h2) rfl
    rw [h1]; simp only [toGo, costs_cons, Sig.cost]; omega
  | signalOutNone t op r c o h1 h2 => exact key t _ (by rw [h1]; simp only [toGo, costs_cons, Sig.cost]; omega)
  | bcastOut t op r c o h1 => exact bc t _ c (by rw [h1]; simp only [toGo, costs_cons, Sig.cost]; omega) (by rw [h1]; rfl)
  | ret t op r h1 => exact key t _ (by rw [h1]; simp only [toGo]; omega)

/-- Every call begun pays for at most `S + 4` steps, every wakeup out of turn for two. -/
theorem steps_bound {M : Mon σ C Op R} {ok : Fin n → Op → Prop} {S : Nat} (hM : Cheap M n S) {s s' : St n σ C Op R} {a b k i : Nat} (h : Steps M ok s s' a b k i) :
    total (toGo n S) s'.th + i ≤ total (toGo n S) s.th + (S + 4) * a + 2 * b := by
  induction h with
  | nil => omega
  | @call s' s'' a b k i t op h st ho ih =>
    cases st with
    | start _ _ h1 =>
      have := total_update (toGo n S) s'.th t (.entering op ⟨s'.now, s'.now⟩)
      rw [h1] at this
      simp only [toGo] at this
      rw [Nat.mul_add]
      dsimp only
      omega
  | @unasked s' s'' a b k i t h st ih =>
    cases st with
    | spurious _ op t0 c h1 =>
      have := total_update (toGo n S) s'.th t (.waking op t0)
      rw [h1] at this
      simp only [toGo] at this
      dsimp only
      omega
  | tick h st ih => cases st; exact ih
  | spin h st he ih => rw [he]; exact ih
  | own h st hi hne ih => have := own_total hM st hi hne; omega

/-- A thread in a call has at most `S + 4` steps to go. -/
theorem reach_toGo {M : Mon σ C Op R} {ok : Fin n → Op → Prop} {S : Nat} (hM : Cheap M n S) {now : Clock} {d : σ} {s : St n σ C Op R} (h : Reach M ok (init n now d) s) (t : Fin n) :
    toGo n S (s.th t) ≤ S + 4 := by
  have key : ∀ (th : Fin n → TS C Op R) (u : Fin n) (x : TS C Op R), (∀ t, toGo n S (th t) ≤ S + 4) → toGo n S x ≤ S + 4 → ∀ t, toGo n S (Function.update th u x t) ≤ S + 4 := by
    intro th u x h hx t
    by_cases e : t = u
    · subst e; rw [upd_same]; exact hx
    · rw [upd_ne _ _ _ _ e]; exact h t
  have wk : ∀ (th : Fin n → TS C Op R) (c : C), (∀ t, toGo n S (th t) ≤ S + 4) → ∀ t, toGo n S ((th t).wake c) ≤ S + 4 := by
    intro th c h t
    have := h t
    cases e : th t with
    | waiting op t0 c' => simp only [TS.wake]; split <;> simp only [toGo] <;> omega
    | _ => rw [e] at this; exact this
  revert t
  refine Reach.induct (s0 := init n now d) (fun s => ∀ t, toGo n S (s.th t) ≤ S + 4) (fun t => Nat.zero_le _) ?_ h
  intro s l s' _ ih st _
  cases st with
  | start t op h1 => exact key _ _ _ ih (by simp only [toGo]; omega)
  | lock t op t0 h1 h2 => exact key _ _ _ ih (by simp only [toGo]; omega)
  | bodyDone t op t0 d r i o h1 h2 h3 => exact key _ _ _ ih (by have := hM _ _ _ _ _ _ _ _ h3; simp only [toGo]; omega)
  | bodyWait t op t0 d c h1 h2 h3 => exact key _ _ _ ih (by simp only [toGo]; omega)
  | bodySpin => exact ih
  | spurious t op t0 c h1 => exact key _ _ _ ih (by simp only [toGo]; omega)
  | relock t op t0 h1 h2 => exact key _ _ _ ih (by simp only [toGo]; omega)
  | signalIn t op r c i o u op' t0 h1 h2 =>
    have := ih t
    rw [h1] at this
    simp only [toGo, costs_cons] at this
    exact key _ _ _ (key _ _ _ ih (by simp only [toGo]; omega)) (by simp only [toGo]; omega)
  | signalInNone t op r c i o h1 h2 =>
    have := ih t
    rw [h1] at this
    simp only [toGo, costs_cons] at this
    exact key _ _ _ ih (by simp only [toGo]; omega)
  | bcastIn t op r c i o h1 =>
    have := ih t
    rw [h1] at this
    simp only [toGo, costs_cons] at this
    exact key _ _ _ (wk _ c ih) (by simp only [toGo]; omega)
  | unlock t op r o h1 h2 =>
    have := ih t
    rw [h1] at this
    simp only [toGo] at this
    exact key _ _ _ ih (by simp only [toGo]; omega)
  | signalOut t op r c o u op' t0 h1 h2 =>
    have := ih t
    rw [h1] at this
    simp only [toGo, costs_cons] at this
    exact key _ _ _ (key _ _ _ ih (by simp only [toGo]; omega)) (by simp only [toGo]; omega)
  | signalOutNone t op r c o h1 h2 =>
    have := ih t
    rw [h1] at this
    simp only [toGo, costs_cons] at this
    exact key _ _ _ ih (by simp only [toGo]; omega)
  | bcastOut t op r c o h1 =>
    have := ih t
    rw [h1] at this
    simp only [toGo, costs_cons] at this
    exact key _ _ _ (wk _ c ih) (by simp only [toGo]; omega)
  | ret t op r h1 => exact key _ _ _ ih (Nat.zero_le _)
  | tick => exact ih

/-- Is the thread in a call? -/
def TS.inCall : TS C Op R → Nat
  | .idle => 0
  | _ => 1

/-- How many threads are in calls. -/
def underWay (s : St n σ C Op R) : Nat := total TS.inCall s.th

/-- Without new calls and wakeups out of turn, the threads that are in calls take at most `S + 4` steps each, taken together. -/
theorem steps_under_way {M : Mon σ C Op R} {ok : Fin n → Op → Prop} {S : Nat} (hM : Cheap M n S) {now : Clock} {d : σ} {s s' : St n σ C Op R} (h : Reach M ok (init n now d) s)
    {k i : Nat} (hs : Steps M ok s s' 0 0 k i) : i ≤ (S + 4) * underWay s := by
  have h1 := steps_bound hM hs
  have h2 : total (toGo n S) s.th ≤ (S + 4) * underWay s := by
    unfold underWay total
    rw [Finset.mul_sum]
    refine Finset.sum_le_sum fun t _ => ?_
    have := reach_toGo hM h t
    cases e : s.th t with
    | idle => exact Nat.zero_le _
    | _ => rw [e] at this; simpa only [TS.inCall, Nat.mul_one] using this
  omega

/-- Counting scheduler commands. -/
def Cmd.isCall : Cmd n Op → Bool
  | .start .. => true
  | _ => false

def Cmd.isUnasked : Cmd n Op → Bool
  | .spurious _ => true
  | _ => false

def Cmd.isTick : Cmd n Op → Bool
  | .tick _ => true
  | _ => false

theorem exec_steps {f : Op → Stamp → Clock → σ → Option (Act σ C R)} {ok : Fin n → Op → Prop} {s0 s s' : St n σ C Op R} {cs : List (Cmd n Op)} {a b k i : Nat}
    (h : exec f s cs = some s') (hs : Steps (Mon.ofFun f) ok s0 s a b k i) (hok : ∀ t op, Cmd.start t op ∈ cs → ok t op) :
    ∃ k' i', Steps (Mon.ofFun f) ok s0 s' (a + cs.countP Cmd.isCall) (b + cs.countP Cmd.isUnasked) (k + k') (i + i') ∧
      cs.length = cs.countP Cmd.isCall + cs.countP Cmd.isUnasked + cs.countP Cmd.isTick + k' + i' := by
  induction cs generalizing s a b k i with
  | nil => cases h; exact ⟨0, 0, hs, rfl⟩
  | cons c cs ih =>
    simp only [exec] at h
    split at h
    · next s1 h1 =>
      have st := exec1_step h1
      have hok' : ∀ t op, Cmd.start t op ∈ cs → ok t op := fun t op hm => hok t op (List.mem_cons_of_mem _ hm)
      have own : ∀ (_ : c.lbl.internal) (_ : c.isCall = false) (_ : c.isUnasked = false) (_ : c.isTick = false) (_ : (∃ t, c.lbl = .body t) ∨ s1.th ≠ s.th),
          ∃ k' i', Steps (Mon.ofFun f) ok s0 s' (a + (c :: cs).countP Cmd.isCall) (b + (c :: cs).countP Cmd.isUnasked) (k + k') (i + i') ∧
            (c :: cs).length = (c :: cs).countP Cmd.isCall + (c :: cs).countP Cmd.isUnasked + (c :: cs).countP Cmd.isTick + k' + i' := by
        intro hi e1 e2 e3 hb
        rw [List.countP_cons_of_neg (by simp [e1]), List.countP_cons_of_neg (by simp [e2]), List.countP_cons_of_neg (by simp [e3])]
        by_cases hth : s1.th = s.th
        · rcases hb with ⟨t, hb⟩ | hb
          · obtain ⟨k', i', h2, h3⟩ := ih h (.spin hs (hb ▸ st) hth) hok'
            exact ⟨k' + 1, i', by rw [show k + (k' + 1) = k + 1 + k' by omega]; exact h2, by rw [List.length_cons]; omega⟩
          · exact absurd hth hb
        · obtain ⟨k', i', h2, h3⟩ := ih h (.own hs st hi hth) hok'
          exact ⟨k', i' + 1, by rw [show i + (i' + 1) = i + 1 + i' by omega]; exact h2, by rw [List.length_cons]; omega⟩
      cases c with
      | start t op =>
        obtain ⟨k', i', h2, h3⟩ := ih h (.call hs st (hok t op List.mem_cons_self)) hok'
        rw [List.countP_cons_of_pos rfl, List.countP_cons_of_neg (by simp [Cmd.isUnasked]), List.countP_cons_of_neg (by simp [Cmd.isTick])]
        exact ⟨k', i', by rw [show a + (cs.countP Cmd.isCall + 1) = a + 1 + cs.countP Cmd.isCall by omega]; exact h2, by rw [List.length_cons]; omega⟩
      | spurious t =>
        obtain ⟨k', i', h2, h3⟩ := ih h (.unasked hs st) hok'
        rw [List.countP_cons_of_neg (by simp [Cmd.isCall]), List.countP_cons_of_pos rfl, List.countP_cons_of_neg (by simp [Cmd.isTick])]
        exact ⟨k', i', by rw [show b + (cs.countP Cmd.isUnasked + 1) = b + 1 + cs.countP Cmd.isUnasked by omega]; exact h2, by rw [List.length_cons]; omega⟩
      | tick nw =>
        obtain ⟨k', i', h2, h3⟩ := ih h (.tick hs st) hok'
        rw [List.countP_cons_of_neg (by simp [Cmd.isCall]), List.countP_cons_of_neg (by simp [Cmd.isUnasked]), List.countP_cons_of_pos rfl]
        exact ⟨k', i', h2, by rw [List.length_cons]; omega⟩
      | body t => exact own trivial rfl rfl rfl (.inl ⟨t, rfl⟩)
      | lock t => exact own trivial rfl rfl rfl (.inr (internal_moves st trivial (fun _ h => nomatch h)))
      | relock t => exact own trivial rfl rfl rfl (.inr (internal_moves st trivial (fun _ h => nomatch h)))
      | unlock t => exact own trivial rfl rfl rfl (.inr (internal_moves st trivial (fun _ h => nomatch h)))
      | ret t => exact own trivial rfl rfl rfl (.inr (internal_moves st trivial (fun _ h => nomatch h)))
      | notify t u => exact own trivial rfl rfl rfl (.inr (internal_moves st trivial (fun _ h => nomatch h)))
    · cases h

end Verif.Monitor
