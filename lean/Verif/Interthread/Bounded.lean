import Verif.Interthread.WithWaitProps
import Mathlib.Algebra.Order.BigOperators.Group.Finset

/-
Property C162: `InterthreadQueueWithWait` (`/repo/Interthread.h:328-435`) as a bounded buffer: producers that call `wait(N)` before each `write`.
-/

namespace Verif.Interthread.Bounded
open Verif Verif.Monitor Verif.Interthread

abbrev S (n : Nat) := St n (List Val) WC WOp QRes
abbrev E (n : Nat) := Ev n (List Val) WOp QRes

/-! ### The rules for the producers -/

/-- The last thing thread `t` did. -/
def lastOf {n : Nat} (tr : List (E n)) (t : Fin n) : Option (E n) := (tr.filter fun e => e.thread = t).getLast?

/-- A thread calls `write` only directly after its `wait` has returned. -/
def Rule {n : Nat} (tr : List (E n)) : Prop :=
  ∀ pre t v c, pre ++ [Ev.call t (.write v) c] <+: tr → ∃ sz r, lastOf pre t = some (.ret t (.waitLow sz) r)

/-- Only the threads in `P` write and wait, and they wait for `N`. -/
def May {n : Nat} (P : Finset (Fin n)) (N : Nat) (t : Fin n) (op : WOp) : Prop :=
  WNonNull op ∧ (∀ v, op = .write v → t ∈ P) ∧ (∀ sz, op = .waitLow sz → t ∈ P ∧ sz = N)

/-! ### Lemmas -/

/-- 1 if a thread that does this, having done `l` last, may still write without waiting again. -/
def permitOf {n : Nat} (x : TS WC WOp QRes) (l : Option (E n)) : Nat :=
  match x with
  | .inLock (.waitLow _) _ _ _ => 1
  | .after (.waitLow _) _ _ => 1
  | .entering (.write _) _ => 1
  | .holding (.write _) _ => 1
  | .waiting (.write _) _ _ => 1
  | .waking (.write _) _ => 1
  | .idle => match l with
    | some (.ret _ (.waitLow _) _) => 1
    | _ => 0
  | _ => 0

def permit {n : Nat} (s : S n) (t : Fin n) : Nat := permitOf (s.th t) (lastOf s.tr t)

theorem permitOf_le {n : Nat} (x : TS WC WOp QRes) (l : Option (E n)) : permitOf x l ≤ 1 := by
  unfold permitOf
  repeat' split
  all_goals omega

theorem lastOf_append {n : Nat} (tr : List (E n)) (e : E n) (t : Fin n) : lastOf (tr ++ [e]) t = if e.thread = t then some e else lastOf tr t := by
  unfold lastOf
  rw [List.filter_append]
  by_cases h : e.thread = t <;> simp [h]

theorem permitOf_wake {n : Nat} (c : WC) (x : TS WC WOp QRes) (l : Option (E n)) : permitOf (x.wake c) l = permitOf x l := by
  cases x with
  | waiting op t0 c' =>
    simp only [TS.wake]
    split
    · cases op <;> rfl
    · rfl
  | _ => rfl

theorem Rule.prefix {n : Nat} {tr tr' : List (E n)} (h : Rule tr') (hp : tr <+: tr') : Rule tr :=
  fun pre t v c hh => h pre t v c (hh.trans hp)

/-- Steps only add to the trace. -/
theorem step_prefix {n : Nat} {s s' : S n} {l : Lbl n WOp} (st : Step queueW s l s') : s.tr <+: s'.tr := by
  cases st <;> first | exact List.prefix_append _ _ | exact List.prefix_rfl

/-- What a step does to the number of items and to the permits. -/
theorem step_permit {n : Nat} {P : Finset (Fin n)} {N : Nat} {s s' : S n} {l : Lbl n WOp} (st : Step queueW s l s') (hc : WClean s.data) (hok : AllOk (May P N) s.th)
    (hr : Rule s'.tr) :
    (s'.data.length ≤ s.data.length ∧ ∀ u, permit s' u ≤ permit s u) ∨
    (s'.data.length = s.data.length + 1 ∧ (∀ u, permit s' u ≤ permit s u) ∧ ∃ u ∈ P, permit s' u < permit s u) ∨
    s'.data.length ≤ N := by
  have one : ∀ (t : Fin n) (x : TS WC WOp QRes) (tr : List (E n)), (tr = s.tr ∨ ∃ e, e.thread = t ∧ tr = s.tr ++ [e]) → permitOf x (lastOf tr t) ≤ permit s t →
      ∀ u, permitOf (Function.update s.th t x u) (lastOf tr u) ≤ permit s u := by
    intro t x tr htr hx u
    by_cases q : u = t
    · subst q; rw [upd_same]; exact hx
    · rw [upd_ne _ _ _ _ q]
      rcases htr with rfl | ⟨e, he, rfl⟩
      · exact Nat.le_refl _
      · rw [lastOf_append, if_neg (by rw [he]; exact fun h => q h.symm)]; exact Nat.le_refl _
  have two : ∀ (t u : Fin n) (x y : TS WC WOp QRes), (∀ l, permitOf (n := n) x l = permitOf (s.th t) l) → (∀ l, permitOf (n := n) y l = permitOf (s.th u) l) →
      ∀ w, permitOf (Function.update (Function.update s.th t x) u y w) (lastOf s.tr w) ≤ permit s w := by
    intro t u x y hx hy w
    by_cases q : w = u
    · subst q; rw [upd_same, hy]; exact Nat.le_refl _
    · rw [upd_ne _ _ _ _ q]
      exact one t x s.tr (.inl rfl) (by rw [hx]; exact Nat.le_refl _) w
  cases st with
  | start t op e =>
    refine .inl ⟨Nat.le_refl _, one t _ _ (.inr ⟨_, rfl, rfl⟩) ?_⟩
    cases op with
    | write v =>
      obtain ⟨sz, r, h⟩ := hr s.tr t v s.now List.prefix_rfl
      unfold permit
      rw [e, h]
      exact Nat.le_refl _
    | _ => exact Nat.zero_le _
  | lock t op t0 e ho =>
    refine .inl ⟨Nat.le_refl _, one t _ _ (.inl rfl) ?_⟩
    unfold permit; rw [e]; cases op <;> exact Nat.le_refl _
  | bodyDone t op t0 d r i o e ho hb =>
    have hall := hok t op (by rw [e]; rfl)
    rcases w_done hb with ⟨v, rfl, rfl, -, -⟩ | ⟨hop, -, -, rfl, -, -⟩ | ⟨rfl, rfl, -, -⟩ | ⟨rfl, rfl, -, -⟩ | ⟨sz, rfl, rfl, h, -, -⟩
    · right; left
      have hle := one t (.inLock (.write v) r i o) (s.tr ++ [.lin t (.write v) t0 s.now s.data r]) (.inr ⟨_, rfl, rfl⟩) (Nat.zero_le _)
      refine ⟨by simp, hle, t, hall.2.1 v rfl, ?_⟩
      unfold permit
      dsimp only
      rw [upd_same, e]
      exact Nat.zero_lt_one
    · left
      refine ⟨?_, one t _ _ (.inr ⟨_, rfl, rfl⟩) ?_⟩
      · obtain ⟨q, hq⟩ := hc
        dsimp only
        rw [hq, getQ_map]; simp
      · rcases hop with rfl | rfl | ⟨ms, rfl⟩ <;> exact Nat.zero_le _
    · exact .inl ⟨Nat.le_refl _, one t _ _ (.inr ⟨_, rfl, rfl⟩) (Nat.zero_le _)⟩
    · exact .inl ⟨Nat.zero_le _, one t _ _ (.inr ⟨_, rfl, rfl⟩) (Nat.zero_le _)⟩
    · right; right
      dsimp only
      have := (hall.2.2 sz rfl).2
      omega
  | bodyWait t op t0 d c e ho hb =>
    obtain ⟨rfl, hd⟩ := w_wait hc hb
    refine .inl ⟨Nat.le_refl _, one t _ _ (.inl rfl) ?_⟩
    rcases hd with ⟨-, -, rfl | ⟨ms, -, rfl⟩⟩ | ⟨-, sz, rfl, -⟩ <;> exact Nat.zero_le _
  | bodySpin t op t0 d e ho hb =>
    have hd := w_spin hb
    subst hd
    exact .inl ⟨Nat.le_refl _, fun _ => Nat.le_refl _⟩
  | spurious t op t0 c e => exact .inl ⟨Nat.le_refl _, one t _ _ (.inl rfl) (by unfold permit; rw [e]; cases op <;> exact Nat.le_refl _)⟩
  | relock t op t0 e ho =>
    exact .inl ⟨Nat.le_refl _, one t _ _ (.inl rfl) (by unfold permit; rw [e]; cases op <;> exact Nat.le_refl _)⟩
  | signalIn t op r c i o u op' t0 e e' => exact .inl ⟨Nat.le_refl _, two t u _ _ (by intro l; rw [e]; cases op <;> rfl) (by intro l; rw [e']; cases op' <;> rfl)⟩
  | signalInNone t op r c i o e hn => exact .inl ⟨Nat.le_refl _, one t _ _ (.inl rfl) (by unfold permit; rw [e]; cases op <;> exact Nat.le_refl _)⟩
  | bcastIn t op r c i o e =>
    refine .inl ⟨Nat.le_refl _, fun u => ?_⟩
    unfold permit
    dsimp only
    by_cases q : u = t
    · subst q; rw [upd_same, e]; cases op <;> exact Nat.le_refl _
    · rw [upd_ne _ _ _ _ q, permitOf_wake]
  | unlock t op r o e ho => exact .inl ⟨Nat.le_refl _, one t _ _ (.inl rfl) (by unfold permit; rw [e]; cases op <;> exact Nat.le_refl _)⟩
  | signalOut t op r c o u op' t0 e e' => exact .inl ⟨Nat.le_refl _, two t u _ _ (by intro l; rw [e]; cases op <;> rfl) (by intro l; rw [e']; cases op' <;> rfl)⟩
  | signalOutNone t op r c o e hn => exact .inl ⟨Nat.le_refl _, one t _ _ (.inl rfl) (by unfold permit; rw [e]; cases op <;> exact Nat.le_refl _)⟩
  | bcastOut t op r c o e =>
    refine .inl ⟨Nat.le_refl _, fun u => ?_⟩
    unfold permit
    dsimp only
    by_cases q : u = t
    · subst q; rw [upd_same, e]; cases op <;> exact Nat.le_refl _
    · rw [upd_ne _ _ _ _ q, permitOf_wake]
  | ret t op r e =>
    refine .inl ⟨Nat.le_refl _, one t _ _ (.inr ⟨_, rfl, rfl⟩) ?_⟩
    rw [lastOf_append, if_pos (show (Ev.ret t op r : E n).thread = t from rfl)]
    unfold permit; rw [e]; cases op <;> exact Nat.le_refl _
  | tick now => exact .inl ⟨Nat.le_refl _, fun _ => Nat.le_refl _⟩

/-- The invariant: items and permits together. -/
theorem total {n : Nat} {P : Finset (Fin n)} {N : Nat} {now : Clock} {s : S n} (h : Reach queueW (May P N) (init n now []) s) (hr : Rule s.tr) :
    s.data.length + ∑ t ∈ P, permit s t ≤ N + P.card := by
  have sum_le : ∀ s : S n, ∑ t ∈ P, permit s t ≤ P.card := fun s => by
    have := Finset.sum_le_card_nsmul P (permit s) 1 (fun t _ => permitOf_le _ _)
    simpa using this
  induction h with
  | refl =>
    have := sum_le (init n now [])
    have e : (init n now [] : S n).data.length = 0 := rfl
    omega
  | @step s l s' h st hok ih =>
    have ih := ih (hr.prefix (step_prefix st))
    rcases step_permit st (w_clean (fun t op h => h.1) h) (reach_ok h) hr with ⟨h1, h2⟩ | ⟨h1, h2, u, hu, h3⟩ | h1
    · have := Finset.sum_le_sum (s := P) fun u _ => h2 u
      omega
    · have := Finset.sum_lt_sum (s := P) (fun u _ => h2 u) ⟨u, hu, h3⟩
      omega
    · have := sum_le s'
      omega

/-- All producers sleep only when there is too much in the queue, or the signal is on its way. -/
def Alive {n : Nat} (P : Finset (Fin n)) (N : Nat) (s : S n) : Prop :=
  (∃ p ∈ P, ∀ op t0, s.th p ≠ .waiting op t0 .readSignal) ∨ N < s.data.length ∨ ∃ t op r i o, s.th t = .inLock op r i o ∧ .one WC.readSignal ∈ i

theorem alive {n : Nat} {P : Finset (Fin n)} {N : Nat} (hP : P.Nonempty) {now : Clock} {s : S n} (h : Reach queueW (May P N) (init n now []) s) : Alive P N s := by
  induction h with
  | refl =>
    obtain ⟨p, hp⟩ := hP
    exact .inl ⟨p, hp, fun op t0 h => by cases h⟩
  | @step s l s' h st hok ih =>
    have hc := w_clean (fun t op h => h.1) h
    have hall := reach_ok h
    -- a thread that is not asleep, or not that way, keeps the first alternative
    have first : ∀ (th : Fin n → TS WC WOp QRes), (∀ p, (∀ op t0, s.th p ≠ .waiting op t0 .readSignal) → ∀ op t0, th p ≠ .waiting op t0 .readSignal) →
        (∃ p ∈ P, ∀ op t0, s.th p ≠ .waiting op t0 .readSignal) → ∃ p ∈ P, ∀ op t0, th p ≠ .waiting op t0 .readSignal :=
      fun th h ⟨p, hp, hw⟩ => ⟨p, hp, h p hw⟩
    have upd : ∀ (t : Fin n) (x : TS WC WOp QRes), (∀ op t0, x ≠ .waiting op t0 .readSignal) →
        ∀ p, (∀ op t0, s.th p ≠ .waiting op t0 .readSignal) → ∀ op t0, Function.update s.th t x p ≠ .waiting op t0 .readSignal := by
      intro t x hx p hp op t0
      by_cases q : p = t
      · subst q; rw [upd_same]; exact hx op t0
      · rw [upd_ne _ _ _ _ q]; exact hp op t0
    -- a thread with a signal to send is not the one that makes the step
    have third : ∀ (t : Fin n) (x : TS WC WOp QRes), (∀ op r i o, s.th t = .inLock op r i o → .one WC.readSignal ∉ i) →
        (∃ t op r i o, s.th t = .inLock op r i o ∧ .one WC.readSignal ∈ i) → ∃ u op r i o, Function.update s.th t x u = .inLock op r i o ∧ .one WC.readSignal ∈ i := by
      rintro t x hn ⟨u, op, r, i, o, e, hm⟩
      refine ⟨u, op, r, i, o, ?_, hm⟩
      rw [upd_ne]
      · exact e
      · rintro rfl; exact hn _ _ _ _ e hm
    have simple : ∀ (t : Fin n) (x : TS WC WOp QRes) (s' : S n), s'.th = Function.update s.th t x → s.data.length ≤ s'.data.length → (∀ op t0, x ≠ .waiting op t0 .readSignal) →
        (∀ op r i o, s.th t = .inLock op r i o → .one WC.readSignal ∉ i) → Alive P N s' := by
      intro t x s' e hd hx hn
      rcases ih with h1 | h1 | h1
      · exact .inl (by rw [e]; exact first _ (upd t x hx) h1)
      · exact .inr (.inl (by omega))
      · exact .inr (.inr (by rw [e]; exact third t x hn h1))
    have sleeper : ∀ u op t0, s.th u = .waiting op t0 .readSignal → u ∈ P := by
      intro u op t0 e
      obtain ⟨sz, rfl⟩ : ∃ sz, op = .waitLow sz := by
        refine waiting_invariant .readSignal (fun a => ∃ sz, a = .waitLow sz) ?_ h e
        intro s hs op t0 d' hb
        rcases (w_wait (w_clean (fun t op h => h.1) hs) hb).2 with ⟨e, -⟩ | ⟨-, sz, e, -⟩
        · cases e
        · exact ⟨sz, e⟩
      exact ((hall u _ (by rw [e]; rfl)).2.2 sz rfl).1
    -- signalling
    have wakes : ∀ (f : Fin n → TS WC WOp QRes), (∀ p, (∀ op t0, s.th p ≠ .waiting op t0 .readSignal) → ∀ op t0, f p ≠ .waiting op t0 .readSignal) →
        (∀ u op r i o, s.th u = .inLock op r i o → .one WC.readSignal ∈ i → (∃ i', f u = .inLock op r i' o ∧ .one WC.readSignal ∈ i') ∨ ∃ p ∈ P, ∀ op t0, f p ≠ .waiting op t0 .readSignal) →
        ∀ s' : S n, s'.th = f → s'.data = s.data → Alive P N s' := by
      intro f hf h3 s' e ed
      rcases ih with h1 | h1 | ⟨u, op, r, i, o, e1, hm⟩
      · exact .inl (by rw [e]; exact first _ hf h1)
      · exact .inr (.inl (by rw [ed]; exact h1))
      · rcases h3 u op r i o e1 hm with ⟨i', h4, h5⟩ | h4
        · exact .inr (.inr ⟨u, op, r, i', o, by rw [e]; exact h4, h5⟩)
        · exact .inl (by rw [e]; exact h4)
    have upd2 : ∀ (t u : Fin n) (x y : TS WC WOp QRes), (∀ op t0, x ≠ .waiting op t0 .readSignal) → (∀ op t0, y ≠ .waiting op t0 .readSignal) →
        ∀ p, (∀ op t0, s.th p ≠ .waiting op t0 .readSignal) → ∀ op t0, Function.update (Function.update s.th t x) u y p ≠ .waiting op t0 .readSignal := by
      intro t u x y hx hy p hp op t0
      by_cases q : p = u
      · subst q; rw [upd_same]; exact hy op t0
      · rw [upd_ne _ _ _ _ q]; exact upd t x hx p hp op t0
    have wake_not : ∀ (c : WC) (x : TS WC WOp QRes), (∀ op t0, x ≠ .waiting op t0 .readSignal) → ∀ op t0, x.wake c ≠ .waiting op t0 .readSignal := by
      intro c x hx op t0
      cases x with
      | waiting a b c' =>
        simp only [TS.wake]
        split
        · intro h; cases h
        · exact hx op t0
      | _ => intro h; cases h
    cases st with
    | start t op e => exact simple t _ _ rfl (Nat.le_refl _) (by intro _ _ h; cases h) (by intro _ _ _ _ h; rw [e] at h; cases h)
    | lock t op t0 e ho => exact simple t _ _ rfl (Nat.le_refl _) (by intro _ _ h; cases h) (by intro _ _ _ _ h; rw [e] at h; cases h)
    | bodyDone t op t0 d r i o e ho hb =>
      have hn : ∀ op r i o, s.th t = .inLock op r i o → .one WC.readSignal ∉ i := by intro _ _ _ _ h; rw [e] at h; cases h
      rcases w_done hb with ⟨v, rfl, rfl, -, -⟩ | ⟨hop, -, -, rfl, rfl, -⟩ | ⟨rfl, rfl, -, -⟩ | ⟨rfl, rfl, rfl, -⟩ | ⟨sz, rfl, rfl, h, -, -⟩
      · exact simple t _ _ rfl (by simp) (by intro _ _ h; cases h) hn
      · obtain ⟨q, hq⟩ := hc
        rw [hq, getQ_map]
        cases q with
        | nil => exact simple t _ _ rfl (by rw [hq]; exact Nat.le_refl _) (by intro _ _ h; cases h) hn
        | cons v q => exact .inr (.inr ⟨t, _, _, _, _, upd_same .., by simp [readSig]⟩)
      · exact simple t _ _ rfl (Nat.le_refl _) (by intro _ _ h; cases h) hn
      · exact .inr (.inr ⟨t, _, _, _, _, upd_same .., by simp⟩)
      · exact simple t _ _ rfl (Nat.le_refl _) (by intro _ _ h; cases h) hn
    | bodyWait t op t0 d c e ho hb =>
      obtain ⟨rfl, hd⟩ := w_wait hc hb
      rcases hd with ⟨rfl, -, -⟩ | ⟨rfl, sz, rfl, hlt⟩
      · exact simple t _ _ rfl (Nat.le_refl _) (by intro _ _ h; cases h) (by intro _ _ _ _ h; rw [e] at h; cases h)
      · have := ((hall t _ (by rw [e]; rfl)).2.2 sz rfl).2
        exact .inr (.inl (by dsimp only; omega))
    | bodySpin t op t0 d e ho hb =>
      have hd := w_spin hb
      subst hd
      exact ih
    | spurious t op t0 c e => exact simple t _ _ rfl (Nat.le_refl _) (by intro _ _ h; cases h) (by intro _ _ _ _ h; rw [e] at h; cases h)
    | relock t op t0 e ho => exact simple t _ _ rfl (Nat.le_refl _) (by intro _ _ h; cases h) (by intro _ _ _ _ h; rw [e] at h; cases h)
    | signalIn t op r c i o u op' t0 e e' =>
      have hut : u ≠ t := by rintro rfl; rw [e] at e'; cases e'
      refine wakes _ (upd2 t u _ _ (by intro _ _ h; cases h) (by intro _ _ h; cases h)) ?_ _ rfl rfl
      intro v a b i' o' ev hm
      have hvu : v ≠ u := by rintro rfl; rw [e'] at ev; cases ev
      by_cases q : v = t
      · subst q
        rw [e] at ev
        cases ev
        rcases List.mem_cons.1 hm with h1 | h1
        · cases h1
          exact .inr ⟨u, sleeper u _ _ e', by intro _ _ h; rw [upd_same] at h; cases h⟩
        · exact .inl ⟨_, by rw [upd_ne _ _ _ _ hvu, upd_same], h1⟩
      · exact .inl ⟨_, by rw [upd_ne _ _ _ _ hvu, upd_ne _ _ _ _ q]; exact ev, hm⟩
    | signalInNone t op r c i o e hn =>
      refine wakes _ (upd t _ (by intro _ _ h; cases h)) ?_ _ rfl rfl
      intro v a b i' o' ev hm
      by_cases q : v = t
      · subst q
        rw [e] at ev
        cases ev
        rcases List.mem_cons.1 hm with h1 | h1
        · cases h1
          obtain ⟨p, hp⟩ := hP
          exact .inr ⟨p, hp, upd v _ (by intro _ _ h; cases h) p (hn p)⟩
        · exact .inl ⟨_, by rw [upd_same], h1⟩
      · exact .inl ⟨_, by rw [upd_ne _ _ _ _ q]; exact ev, hm⟩
    | bcastIn t op r c i o e =>
      refine wakes _ (fun p hp => ?_) ?_ _ rfl rfl
      · intro a b
        dsimp only
        by_cases q : p = t
        · subst q; rw [upd_same]; intro h; cases h
        · rw [upd_ne _ _ _ _ q]; exact wake_not c _ hp a b
      · intro v a b i' o' ev hm
        by_cases q : v = t
        · subst q
          rw [e] at ev
          cases ev
          exact .inl ⟨_, by dsimp only; rw [upd_same], (List.mem_cons.1 hm).resolve_left (by intro h; cases h)⟩
        · exact .inl ⟨_, by dsimp only; rw [upd_ne _ _ _ _ q, ev]; rfl, hm⟩
    | unlock t op r o e ho => exact simple t _ _ rfl (Nat.le_refl _) (by intro _ _ h; cases h) (by intro _ _ _ _ h; rw [e] at h; cases h; simp)
    | signalOut t op r c o u op' t0 e e' =>
      refine wakes _ (upd2 t u _ _ (by intro _ _ h; cases h) (by intro _ _ h; cases h)) ?_ _ rfl rfl
      intro v a b i' o' ev hm
      have hvu : v ≠ u := by rintro rfl; rw [e'] at ev; cases ev
      have hvt : v ≠ t := by rintro rfl; rw [e] at ev; cases ev
      exact .inl ⟨_, by rw [upd_ne _ _ _ _ hvu, upd_ne _ _ _ _ hvt]; exact ev, hm⟩
    | signalOutNone t op r c o e hn => exact simple t _ _ rfl (Nat.le_refl _) (by intro _ _ h; cases h) (by intro _ _ _ _ h; rw [e] at h; cases h)
    | bcastOut t op r c o e =>
      refine wakes _ (fun p hp => ?_) ?_ _ rfl rfl
      · intro a b
        dsimp only
        by_cases q : p = t
        · subst q; rw [upd_same]; intro h; cases h
        · rw [upd_ne _ _ _ _ q]; exact wake_not c _ hp a b
      · intro v a b i' o' ev hm
        have hvt : v ≠ t := by rintro rfl; rw [e] at ev; cases ev
        exact .inl ⟨_, by dsimp only; rw [upd_ne _ _ _ _ hvt, ev]; rfl, hm⟩
    | ret t op r e => exact simple t _ _ rfl (Nat.le_refl _) (by intro _ _ h; cases h) (by intro _ _ _ _ h; rw [e] at h; cases h)
    | tick now => exact ih

/-! ### The property -/

/-- C162 (bound): if each producer calls `wait(N)` before each `write`, the queue never holds more than `N` items and one for each producer, whatever the other
threads do and however they interleave. Partial: not `N + 1` as one might expect of a bounded buffer, see `C162_tight_refuted`. -/
theorem C162_bound_partial {n : Nat} {P : Finset (Fin n)} {N : Nat} {now : Clock} {s : S n} (h : Reach queueW (May P N) (init n now []) s) (hr : Rule s.tr) :
    s.data.length ≤ N + P.card :=
  Nat.le_trans (Nat.le_add_right _ _) (total h hr)

/-- C162 (progress): when nothing can move any more, not every producer sleeps in its wait with at most `N` items in the queue. -/
theorem C162_awake_partial {n : Nat} {P : Finset (Fin n)} {N : Nat} (hP : P.Nonempty) {now : Clock} {s : S n} (h : Reach queueW (May P N) (init n now []) s)
    (hs : Settled s) (hl : s.data.length ≤ N) : ∃ p ∈ P, ¬ ∃ op t0, s.th p = .waiting op t0 .readSignal := by
  rcases alive hP h with ⟨p, hp, hw⟩ | h1 | ⟨t, op, r, i, o, e, -⟩
  · exact ⟨p, hp, fun ⟨op, t0, e⟩ => hw op t0 e⟩
  · omega
  · rcases hs t with h1 | ⟨_, _, _, h1⟩ <;> rw [e] at h1 <;> cases h1

/-- C162 (no deadlock): it never happens that all producers sleep in their wait while some reader sleeps in its read. -/
theorem C162_no_deadlock_partial {n : Nat} {P : Finset (Fin n)} {N : Nat} (hP : P.Nonempty) {now : Clock} {s : S n} (h : Reach queueW (May P N) (init n now []) s)
    (hs : Settled s) {t : Fin n} {op : WOp} {t0 : Stamp} (hw : s.th t = .waiting op t0 .writeSignal) : ∃ p ∈ P, ¬ ∃ op t0, s.th p = .waiting op t0 .readSignal := by
  have hd := C26_readers_settled (h.mono fun t op h => h.1) hs hw
  exact C162_awake_partial hP h hs (by rw [hd]; exact Nat.zero_le _)

/-! ### The bound is exact -/

/-- Nobody is inside a call. -/
def Quiet {n : Nat} (s : S n) : Prop := (∀ t, s.th t = .idle) ∧ s.owner = none

/-- A call made while everything is quiet runs to its end. -/
theorem whole {n : Nat} {ok : Fin n → WOp → Prop} {s0 s : S n} (h : Reach queueW ok s0 s) (hq : Quiet s) {t : Fin n} {op : WOp} (hk : ok t op) {d : List Val} {r : QRes}
    {o : List (Sig WC)} (hb : wbody op ⟨s.now, s.now⟩ s.now s.data = some (.done d r [] o)) (ho : o = [] ∨ ∃ c, o = [.one c]) :
    ∃ s', Reach queueW ok s0 s' ∧ Quiet s' ∧ s'.data = d ∧ s'.tr = s.tr ++ [.call t op s.now] ++ [.lin t op ⟨s.now, s.now⟩ s.now s.data r] ++ [.ret t op r] := by
  obtain ⟨hi, hn⟩ := hq
  have no : ∀ l : Lbl n WOp, (∀ t op, l ≠ .start t op) → ∀ t op, l = .start t op → ok t op := fun l hl t op e => absurd e (hl t op)
  have idle : ∀ (x : TS WC WOp QRes) (u : Fin n), u ≠ t → Function.update s.th t x u = .idle := fun x u hu => by rw [upd_ne _ _ _ _ hu]; exact hi u
  have h1 := h.step (Step.start s t op (hi t)) (by intro t' op' e; cases e; exact hk)
  have h2 := h1.step (Step.lock _ t op _ (upd_same ..) hn) (no _ (by intro _ _ e; cases e))
  have h3 := h2.step (Step.bodyDone _ t op _ d r [] o (upd_same ..) rfl hb) (no _ (by intro _ _ e; cases e))
  have h4 := h3.step (Step.unlock _ t op r o (upd_same ..) rfl) (no _ (by intro _ _ e; cases e))
  simp only [Function.update_idem] at h4
  rcases ho with rfl | ⟨c, rfl⟩
  · have h5 := h4.step (Step.ret _ t op r (upd_same ..)) (no _ (by intro _ _ e; cases e))
    simp only [Function.update_idem] at h5
    refine ⟨_, h5, ⟨fun u => ?_, rfl⟩, rfl, rfl⟩
    by_cases q : u = t
    · subst q; exact upd_same ..
    · exact idle _ u q
  · have h5 := h4.step (Step.signalOutNone _ t op r c [] (upd_same ..) ?_) (no _ (by intro _ _ e; cases e))
    · have h6 := h5.step (Step.ret _ t op r (upd_same ..)) (no _ (by intro _ _ e; cases e))
      simp only [Function.update_idem] at h6
      refine ⟨_, h6, ⟨fun u => ?_, rfl⟩, rfl, rfl⟩
      by_cases q : u = t
      · subst q; exact upd_same ..
      · exact idle _ u q
    · intro u op' t0 e
      dsimp only at e
      by_cases q : u = t
      · subst q; rw [upd_same] at e; cases e
      · rw [idle _ u q] at e; cases e

theorem Rule.snoc {n : Nat} {tr : List (E n)} (h : Rule tr) (e : E n) (he : ∀ t v c, e = .call t (.write v) c → ∃ sz r, lastOf tr t = some (.ret t (.waitLow sz) r)) :
    Rule (tr ++ [e]) := by
  intro pre t v c hp
  rcases List.prefix_concat_iff.1 hp with h1 | h1
  · have := List.append_inj' h1 rfl
    obtain ⟨rfl, h2⟩ := this
    cases h2
    exact he t v c rfl
  · exact h pre t v c h1

/-- A producer waits, with at most `N` items in the queue. -/
theorem do_wait {n : Nat} {N : Nat} {s0 s : S n} (h : Reach queueW (May Finset.univ N) s0 s) (hq : Quiet s) (hr : Rule s.tr) (hl : s.data.length ≤ N) (t : Fin n) :
    ∃ s', Reach queueW (May Finset.univ N) s0 s' ∧ Quiet s' ∧ Rule s'.tr ∧ s'.data = s.data ∧ (∃ sz r, lastOf s'.tr t = some (.ret t (.waitLow sz) r)) ∧
      ∀ u, u ≠ t → lastOf s'.tr u = lastOf s.tr u := by
  obtain ⟨s', h1, h2, h3, h4⟩ := whole h hq (t := t) (op := .waitLow N) (d := s.data) (r := .unit) (o := [])
    ⟨trivial, (by intro v e; cases e), by intro sz e; cases e; exact ⟨Finset.mem_univ _, rfl⟩⟩
    (by simp only [wbody]; rw [if_neg (by omega)]) (.inl rfl)
  refine ⟨s', h1, h2, ?_, h3, ⟨N, .unit, ?_⟩, fun u hu => ?_⟩
  · rw [h4]
    exact ((hr.snoc _ (by intro _ _ _ e; cases e)).snoc _ (by intro _ _ _ e; cases e)).snoc _ (by intro _ _ _ e; cases e)
  · rw [h4, lastOf_append, if_pos (by rfl)]
  · rw [h4, lastOf_append, if_neg (by exact fun h => hu h.symm), lastOf_append, if_neg (by exact fun h => hu h.symm), lastOf_append, if_neg (by exact fun h => hu h.symm)]

/-- A producer writes. -/
theorem do_write {n : Nat} {N : Nat} {s0 s : S n} (h : Reach queueW (May Finset.univ N) s0 s) (hq : Quiet s) (hr : Rule s.tr) (t : Fin n)
    (hw : ∃ sz r, lastOf s.tr t = some (.ret t (.waitLow sz) r)) :
    ∃ s', Reach queueW (May Finset.univ N) s0 s' ∧ Quiet s' ∧ Rule s'.tr ∧ s'.data.length = s.data.length + 1 ∧ ∀ u, u ≠ t → lastOf s'.tr u = lastOf s.tr u := by
  obtain ⟨s', h1, h2, h3, h4⟩ := whole h hq (t := t) (op := .write (some 7)) (d := s.data ++ [some 7]) (r := .unit) (o := [.one .writeSignal])
    ⟨by simp [WNonNull], by intro v e; exact Finset.mem_univ _, by intro sz e; cases e⟩ rfl (.inr ⟨_, rfl⟩)
  refine ⟨s', h1, h2, ?_, by rw [h3]; simp, fun u hu => ?_⟩
  · rw [h4]
    exact ((hr.snoc _ (by intro _ _ _ e; cases e; exact hw)).snoc _ (by intro _ _ _ e; cases e)).snoc _ (by intro _ _ _ e; cases e)
  · rw [h4, lastOf_append, if_neg (by exact fun h => hu h.symm), lastOf_append, if_neg (by exact fun h => hu h.symm), lastOf_append, if_neg (by exact fun h => hu h.symm)]

/-- C162 (negation): for every number of producers and every `N` there is an execution in which the producers keep to the rule and the queue holds `N` items and one
for each producer: they all find `N` items, and all write. -/
theorem C162_tight_refuted (m N : Nat) (now : Clock) : ∃ s : S (m + 1), Reach queueW (May Finset.univ N) (init (m + 1) now []) s ∧ Rule s.tr ∧ s.data.length = N + (m + 1) := by
  -- one producer fills it to `N`
  have fill : ∀ k ≤ N, ∃ s : S (m + 1), Reach queueW (May Finset.univ N) (init (m + 1) now []) s ∧ Quiet s ∧ Rule s.tr ∧ s.data.length = k := by
    intro k
    induction k with
    | zero =>
      intro _
      refine ⟨_, .refl, ⟨fun _ => rfl, rfl⟩, ?_, rfl⟩
      intro pre t v c hp
      have := hp.length_le
      simp [init] at this
    | succ k ih =>
      intro hk
      obtain ⟨s, h1, h2, h3, h4⟩ := ih (by omega)
      obtain ⟨s1, g1, g2, g3, g4, g5, -⟩ := do_wait h1 h2 h3 (by omega) 0
      obtain ⟨s2, k1, k2, k3, k4, -⟩ := do_write g1 g2 g3 0 g5
      exact ⟨s2, k1, k2, k3, by rw [k4, g4, h4]⟩
  -- then all wait
  have waits : ∀ k ≤ m + 1, ∃ s : S (m + 1), Reach queueW (May Finset.univ N) (init (m + 1) now []) s ∧ Quiet s ∧ Rule s.tr ∧ s.data.length = N ∧
      ∀ u : Fin (m + 1), u.val < k → ∃ sz r, lastOf s.tr u = some (.ret u (.waitLow sz) r) := by
    intro k
    induction k with
    | zero =>
      intro _
      obtain ⟨s, h1, h2, h3, h4⟩ := fill N (Nat.le_refl _)
      exact ⟨s, h1, h2, h3, h4, fun u hu => by omega⟩
    | succ k ih =>
      intro hk
      obtain ⟨s, h1, h2, h3, h4, h5⟩ := ih (by omega)
      obtain ⟨s1, g1, g2, g3, g4, g5, g6⟩ := do_wait h1 h2 h3 (by omega) ⟨k, by omega⟩
      refine ⟨s1, g1, g2, g3, by rw [g4, h4], fun u hu => ?_⟩
      by_cases q : u = ⟨k, Nat.lt_of_succ_le hk⟩
      · rw [q]; exact g5
      · rw [g6 u q]
        have : u.val ≠ k := fun e => q (Fin.ext e)
        exact h5 u (by omega)
  -- then all write
  have writes : ∀ k ≤ m + 1, ∃ s : S (m + 1), Reach queueW (May Finset.univ N) (init (m + 1) now []) s ∧ Quiet s ∧ Rule s.tr ∧ s.data.length = N + k ∧
      ∀ u : Fin (m + 1), k ≤ u.val → ∃ sz r, lastOf s.tr u = some (.ret u (.waitLow sz) r) := by
    intro k
    induction k with
    | zero =>
      intro _
      obtain ⟨s, h1, h2, h3, h4, h5⟩ := waits (m + 1) (Nat.le_refl _)
      exact ⟨s, h1, h2, h3, h4, fun u _ => h5 u u.isLt⟩
    | succ k ih =>
      intro hk
      obtain ⟨s, h1, h2, h3, h4, h5⟩ := ih (by omega)
      obtain ⟨s1, g1, g2, g3, g4, g5⟩ := do_write h1 h2 h3 ⟨k, by omega⟩ (h5 _ (Nat.le_refl _))
      refine ⟨s1, g1, g2, g3, by omega, fun u hu => ?_⟩
      rw [g5 u (by intro e; rw [e] at hu; simp at hu)]
      exact h5 u (by omega)
  obtain ⟨s, h1, -, h3, h4, -⟩ := writes (m + 1) (Nat.le_refl _)
  exact ⟨s, h1, h3, h4⟩

/-- `Rule` as a check. -/
def ruleB {n : Nat} (tr : List (E n)) : Bool := (List.range tr.length).all fun i => match tr[i]? with
  | some (.call t (.write _) _) => (match lastOf (tr.take i) t with
    | some (.ret u (.waitLow _) _) => decide (u = t)
    | _ => false)
  | _ => true

theorem rule_of_check {n : Nat} {tr : List (E n)} (h : ruleB tr = true) : Rule tr := by
  rintro pre t v c ⟨post, rfl⟩
  have h1 := List.all_eq_true.1 h pre.length (by simp)
  rw [List.getElem?_append_left (by simp), List.getElem?_concat_length] at h1
  dsimp only at h1
  rw [List.append_assoc, List.take_left] at h1
  split at h1
  · next u sz r e =>
    have := of_decide_eq_true h1
    subst this
    exact ⟨sz, r, e⟩
  · cases h1

/-- Two producers and a reader: the first producer writes an item; both producers wait for the empty queue; the reader takes the item, which wakes only the first; the
reader waits for more. -/
def leftAsleep : List (Cmd 3 WOp) :=
  [.start 0 (.waitLow 0), .lock 0, .body 0, .unlock 0, .ret 0, .start 0 (.write (some 9)), .lock 0, .body 0, .unlock 0, .notify 0 none, .ret 0,
   .start 0 (.waitLow 0), .lock 0, .body 0, .start 1 (.waitLow 0), .lock 1, .body 1,
   .start 2 .read, .lock 2, .body 2, .notify 2 (some 0), .unlock 2, .ret 2, .relock 0, .body 0, .unlock 0, .ret 0, .start 2 .read, .lock 2, .body 2]

/-- C162 (negation): nor does every producer get its turn: with two of them, one can sleep on although the queue is empty and the reader waits for an item. -/
theorem C162_asleep_refuted : ∃ s : S 3, Reach queueW (May {0, 1} 0) (init 3 ⟨5, 0⟩ []) s ∧ Rule s.tr ∧ Settled s ∧ s.data = [] ∧ s.th 0 = .idle ∧
    s.th 1 = .waiting (.waitLow 0) ⟨⟨5, 0⟩, ⟨5, 0⟩⟩ .readSignal ∧ s.th 2 = .waiting .read ⟨⟨5, 0⟩, ⟨5, 0⟩⟩ .writeSignal := by
  have h : (match exec wbody (init 3 ⟨5, 0⟩ []) leftAsleep with
    | some s => (match s.th 0, s.th 1, s.th 2 with
      | .idle, .waiting (.waitLow sz) t0 .readSignal, .waiting .read t1 .writeSignal =>
        decide (sz = 0 ∧ t0 = ⟨⟨5, 0⟩, ⟨5, 0⟩⟩ ∧ t1 = ⟨⟨5, 0⟩, ⟨5, 0⟩⟩ ∧ s.data = [] ∧ ruleB s.tr = true)
      | _, _, _ => false)
    | none => false) = true := by decide
  split at h
  · next s hs =>
    split at h
    · next e0 e1 e2 =>
      obtain ⟨rfl, rfl, rfl, hd, hr⟩ := of_decide_eq_true h
      refine ⟨s, exec_reach hs .refl ?_, rule_of_check hr, ?_, hd, e0, e1, e2⟩
      · intro t op hm
        simp [leftAsleep] at hm
        rcases hm with ⟨rfl, rfl⟩ | ⟨rfl, rfl⟩ | ⟨rfl, rfl⟩ | ⟨rfl, rfl⟩ | ⟨rfl, rfl⟩ <;> simp [WNonNull, May]
      · intro t
        have : t = 0 ∨ t = 1 ∨ t = 2 := by omega
        rcases this with rfl | rfl | rfl
        · exact .inl e0
        · exact .inr ⟨_, _, _, e1⟩
        · exact .inr ⟨_, _, _, e2⟩
    · cases h
  · cases h

/-- C162: that execution meets the conditions of the theorems: at most two items, and one of the two producers is not asleep. -/
example : ∃ s : S 3, Reach queueW (May {0, 1} 0) (init 3 ⟨5, 0⟩ []) s ∧ s.data.length ≤ 2 ∧ ∃ p ∈ ({0, 1} : Finset (Fin 3)), ¬ ∃ op t0, s.th p = .waiting op t0 .readSignal := by
  obtain ⟨s, h1, h2, h3, h4, h5, h6, h7⟩ := C162_asleep_refuted
  exact ⟨s, h1, C162_bound_partial h1 h2, C162_no_deadlock_partial ⟨0, by simp⟩ h1 h3 h7⟩

/-- C162: the rule is one that an execution can break: two writes after one wait. -/
example : ∃ s, exec wbody (init 1 ⟨5, 0⟩ []) ([.start 0 (.waitLow 0), .lock 0, .body 0, .unlock 0, .ret 0, .start 0 (.write (some 9)), .lock 0, .body 0, .unlock 0, .notify 0 none, .ret 0,
      .start 0 (.write (some 8)), .lock 0, .body 0] : List (Cmd 1 WOp)) = some s ∧ ruleB s.tr = false ∧ s.data.length = 2 := ⟨_, rfl, by decide, rfl⟩

end Verif.Interthread.Bounded
