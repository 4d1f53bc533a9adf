import Verif.Interthread.AllLocks

/-
Property C187: programs as in C185 whose threads also join threads (`Thread::join`, `/repo/Threads.h:299`) and end.
-/

namespace Verif.JoinOrder
open Verif Verif.Threads Verif.Interthread Verif.Interthread.HandOver Verif.LockOrder Verif.AllLocks

variable {n : Nat} {I J L : Type} {kind : J → Kind}

/-- Locks and objects; the threads that are in `join`, and for which thread; and the threads that have ended. -/
structure JSt (n : Nat) (I : Type) {J : Type} (L : Type) (kind : J → Kind) where
  a : ASt n I L kind
  join : Fin n → Option (Fin n)
  ended : Fin n → Bool

/-- Thread `t` has not ended and is not in `join`. -/
def Active (s : JSt n I L kind) (t : Fin n) : Prop := s.join t = none ∧ s.ended t = false

/-- Thread `t` has no lock. -/
def Bare (s : ASt n I L kind) (t : Fin n) : Prop := (∀ i, (s.d.mtx i).held t = 0) ∧ ∀ l, ¬ RwOrder.Holds s.r t l

/-- Calls are made by active threads only. -/
def only (act : Fin n → Prop) (R : Rules n I L kind) : Rules n I L kind where
  mutex s i l := (Begins l = true → act (doer l)) ∧ R.mutex s i l
  box s t j op := act t ∧ R.box s t j op
  rw s t l c := act t ∧ R.rw s t l c

/-- Steps: those of C185; calls of `join` (`Threads.h:299`) and their return when the thread has ended; ends of threads.  Simplification: all threads are there from the beginning; one that has not been started makes no steps. -/
inductive JStep [DecidableEq I] [DecidableEq J] [DecidableEq L] (max : Nat) (R : Rules n I L kind) (mayJoin : JSt n I L kind → Fin n → Fin n → Prop) (mayEnd : JSt n I L kind → Fin n → Prop)
    (back : RwOrder.RSt L → Nat → L → Prop) : JSt n I L kind → JSt n I L kind → Prop where
  | call (s : JSt n I L kind) (a) : AStep max (only (Active s) R) back s.a a → JStep max R mayJoin mayEnd back s ⟨a, s.join, s.ended⟩
  | join (s : JSt n I L kind) (t u) : Active s t → Out s.a t → mayJoin s t u → JStep max R mayJoin mayEnd back s ⟨s.a, Function.update s.join t (some u), s.ended⟩
  | joined (s : JSt n I L kind) (t u) : s.join t = some u → s.ended u = true → JStep max R mayJoin mayEnd back s ⟨s.a, Function.update s.join t none, s.ended⟩
  | exit (s : JSt n I L kind) (t) : Active s t → Out s.a t → mayEnd s t → JStep max R mayJoin mayEnd back s ⟨s.a, s.join, Function.update s.ended t true⟩

inductive JReach [DecidableEq I] [DecidableEq J] [DecidableEq L] (max : Nat) (R : Rules n I L kind) (mayJoin : JSt n I L kind → Fin n → Fin n → Prop) (mayEnd : JSt n I L kind → Fin n → Prop)
    (back : RwOrder.RSt L → Nat → L → Prop) : JSt n I L kind → Prop where
  | init (now : J → Monitor.Clock) (d : (j : J) → (kind j).box.σ) : JReach max R mayJoin mayEnd back ⟨⟨⟨fun _ => minit n, fun j => Monitor.init n (now j) (d j)⟩, ⟨fun _ => {}, fun _ => none⟩⟩, fun _ => none, fun _ => false⟩
  | step {s s'} : JReach max R mayJoin mayEnd back s → JStep max R mayJoin mayEnd back s s' → JReach max R mayJoin mayEnd back s'

/-- The rules: threads join only threads that come later in a fixed order (as threads do that they have started), and join and end without locks. -/
def laterBare (age : Fin n → Nat) (s : JSt n I L kind) (t u : Fin n) : Prop := age t < age u ∧ Bare s.a t

def endBare (s : JSt n I L kind) (t : Fin n) : Prop := Bare s.a t

/-! ### What must not happen -/

/-- Thread `t` waits for thread `u`: for a lock, or in `join`. -/
def Waits' (max : Nat) (back : RwOrder.RSt L → Nat → L → Prop) (s : JSt n I L kind) (t u : Fin n) : Prop := Waits max back s.a t u ∨ s.join t = some u

/-- Thread `u` is outside of calls, or in a call that can go on, or in a `join` that can return. -/
def Goes' (max : Nat) (back : RwOrder.RSt L → Nat → L → Prop) (s : JSt n I L kind) (u : Fin n) : Prop := (Active s u ∧ Goes max back s.a u) ∨ ∃ v, s.join u = some v ∧ s.ended v = true

/-- Thread `u` waits for an element. -/
def Rests (s : JSt n I L kind) (u : Fin n) : Prop := ∃ j op t0 c, (s.a.d.box j).th u = .waiting op t0 c

/-! ### Proof -/

variable [DecidableEq I] [DecidableEq J] [DecidableEq L]

theorem AStep.mono {max : Nat} {act : Fin n → Prop} {R : Rules n I L kind} {back : RwOrder.RSt L → Nat → L → Prop} {s s' : ASt n I L kind} (h : AStep max (only act R) back s s') : AStep max R back s s' := by
  cases h with
  | mutex i l m hr hm => exact .mutex _ i l m hr.2 hm
  | call t j op x ho hr hx => exact .call _ t j op x ho hr.2 hx
  | inner j lb x hl hx => exact .inner _ j lb x hl hx
  | ask t l c ho hr => exact .ask _ t l c ho hr.2
  | take t l c x r hw hb hx => exact .take _ t l c x r hw hb hx

theorem locks_reach {max : Nat} {R : Rules n I L kind} {mj me} {back : RwOrder.RSt L → Nat → L → Prop} {s : JSt n I L kind} (h : JReach max R mj me back s) : AReach max R back s.a := by
  induction h with
  | init now d => exact .init now d
  | step _ st ih =>
    cases st with
    | call a ha => exact ih.step (AStep.mono ha)
    | join => exact ih
    | joined => exact ih
    | exit => exact ih

/-- A thread outside of calls and without locks, which begins no call, stays so. -/
theorem idle_stays {max : Nat} {act : Fin n → Prop} {R : Rules n I L kind} {back : RwOrder.RSt L → Nat → L → Prop} {s s' : ASt n I L kind} (h : AStep max (only act R) back s s') {t : Fin n} (ht : ¬ act t)
    (ho : Out s t) (hb : Bare s t) : Out s' t ∧ Bare s' t := by
  cases h with
  | mutex i l m hr hm =>
    obtain ⟨hother, hgo, hto, _, _⟩ := mstep_local hm
    have hne : t ≠ doer l := by
      rintro rfl
      cases hbg : Begins l with
      | true => exact ht (hr.1 hbg)
      | false =>
        have hi := ho.1.1 i
        cases l with
        | go u => exact hgo u rfl hi
        | timeout u =>
          obtain ⟨ts, e⟩ := hto u rfl
          have hi : (s.d.mtx i).pc u = .idle := hi
          rw [hi] at e
          rcases e with e | e <;> cases e
        | _ => cases hbg
    have same : ∀ i', (Function.update s.d.mtx i m i').pc t = (s.d.mtx i').pc t ∧ (Function.update s.d.mtx i m i').held t = (s.d.mtx i').held t := by
      intro i'
      by_cases q : i' = i
      · subst q; rw [Function.update_self]; exact hother t hne
      · rw [Function.update_of_ne q]; exact ⟨rfl, rfl⟩
    exact ⟨⟨⟨fun i' => (same i').1.trans (ho.1.1 i'), ho.1.2⟩, ho.2⟩, fun i' => (same i').2.trans (hb.1 i'), hb.2⟩
  | call u j op x huo hr hx =>
    have hne : t ≠ u := by rintro rfl; exact ht hr.1
    have hx' : x.th t = (s.d.box j).th t := by
      cases hx
      exact Function.update_of_ne hne _ _
    refine ⟨⟨⟨ho.1.1, fun j' => ?_⟩, ho.2⟩, hb⟩
    by_cases q : j' = j
    · subst q; simpa using hx'.trans (ho.1.2 j')
    · simpa [Function.update_of_ne q] using ho.1.2 j'
  | inner j lb x hl hx =>
    refine ⟨⟨⟨ho.1.1, fun j' => ?_⟩, ho.2⟩, hb⟩
    by_cases q : j' = j
    · subst q; simpa using (step_threads hl hx t).1.1 (ho.1.2 j')
    · simpa [Function.update_of_ne q] using ho.1.2 j'
  | ask u l c huo hr =>
    have hne : (t : Nat) ≠ u := fun e => by
      obtain rfl : t = u := Fin.ext e
      exact ht hr.1
    refine ⟨⟨ho.1, ?_⟩, hb⟩
    simpa [Function.update_of_ne hne] using ho.2
  | take u l c x r hw hbk hx =>
    have hne : (t : Nat) ≠ u := fun e => by
      have := ho.2
      rw [e, hw] at this
      cases this
    refine ⟨⟨ho.1, by simpa [Function.update_of_ne hne] using ho.2⟩, hb.1, fun l' hh => ?_⟩
    simp only [RwOrder.Holds] at hh
    by_cases q : l' = l
    · subst q
      rw [Function.update_self] at hh
      exact hb.2 l' (RwOrder.holds_other hx hne hh)
    · rw [Function.update_of_ne q] at hh
      exact hb.2 l' hh

/-- Threads in `join` and ended threads are outside of all other calls and have no locks; and joins go to later threads. -/
theorem quiet {max : Nat} {R : Rules n I L kind} {age : Fin n → Nat} {back : RwOrder.RSt L → Nat → L → Prop} {s : JSt n I L kind} (h : JReach max R (laterBare age) endBare back s) :
    (∀ t, ¬ Active s t → Out s.a t ∧ Bare s.a t) ∧ ∀ t u, s.join t = some u → age t < age u := by
  induction h with
  | init now d => exact ⟨fun t ht => absurd ⟨rfl, rfl⟩ ht, nofun⟩
  | step _ st ih =>
    cases st with
    | call a ha => exact ⟨fun t ht => idle_stays ha ht (ih.1 t ht).1 (ih.1 t ht).2, ih.2⟩
    | join t u hact ho hj =>
      refine ⟨fun v hv => ?_, fun v w e => ?_⟩
      · by_cases q : v = t
        · subst q; exact ⟨ho, hj.2⟩
        · exact ih.1 v fun hav => hv ⟨by simpa [Function.update_of_ne q] using hav.1, hav.2⟩
      · by_cases q : v = t
        · subst q
          simp only [Function.update_self, Option.some.injEq] at e
          rw [← e]; exact hj.1
        · simp only [Function.update_of_ne q] at e
          exact ih.2 v w e
    | joined t u hj he =>
      refine ⟨fun v hv => ih.1 v fun hav => hv ⟨?_, hav.2⟩, fun v w e => ?_⟩
      · by_cases q : v = t
        · subst q; simp
        · simpa [Function.update_of_ne q] using hav.1
      · by_cases q : v = t
        · subst q; simp at e
        · simp only [Function.update_of_ne q] at e
          exact ih.2 v w e
    | exit t hact ho he =>
      refine ⟨fun v hv => ?_, ih.2⟩
      by_cases q : v = t
      · subst q; exact ⟨ho, he⟩
      · exact ih.1 v fun hav => hv ⟨hav.1, by simpa [Function.update_of_ne q] using hav.2⟩

/-- A thread that is waited for at a lock is active. -/
theorem waited_active {max : Nat} {rank : I ⊕ L → Nat} {nest : Bool} {age : Fin n → Nat} {back : RwOrder.RSt L → Nat → L → Prop} {s : JSt n I L kind} (h : JReach max (orderly rank nest) (laterBare age) endBare back s)
    {t u : Fin n} (hw : Waits max back s.a t u) : Active s u := by
  by_contra hn
  obtain ⟨ho, hb⟩ := (quiet h).1 u hn
  rcases hw with ⟨i, _, hu⟩ | ⟨l, c, _, _, hh | ⟨_, _, hh⟩⟩
  · have h1 := ((LockOrder.inv_reach (left_reach (locks_reach h))).own i).2 u hu
    rw [hb.1 i, ho.1.1 i] at h1
    simp only [extra] at h1
    omega
  · exact hb.2 l hh
  · rw [ho.2] at hh; cases hh

/-! ### Theorems -/

/-- C187: a thread that waits for a lock waits, perhaps through others that wait for locks, for a thread that can go on and is neither in `join` nor ended. -/
theorem C187_locks {max : Nat} {rank : I ⊕ L → Nat} {nest : Bool} {age : Fin n → Nat} {back : RwOrder.RSt L → Nat → L → Prop} {s : JSt n I L kind} (h : JReach max (orderly rank nest) (laterBare age) endBare back s)
    (hp : RwOrder.Policy nest back) (hd : Defined s.a.d) {t : Fin n} {x : I ⊕ L} (hb : Stuck max back s.a t x) : ∃ u, Relation.TransGen (Waits max back s.a) t u ∧ Active s u ∧ Goes max back s.a u := by
  obtain ⟨u, hc, hg⟩ := C185_goes_on (locks_reach h) hp hd hb
  refine ⟨u, hc, ?_, hg⟩
  cases hc with
  | single hw => exact waited_active h hw
  | tail _ hw => exact waited_active h hw

/-- C187: every thread that has not ended goes on, or waits for an element, or waits - perhaps through others that wait for locks or in `join` - for a thread that goes on or waits for an element. -/
theorem C187_goes_on {max : Nat} {rank : I ⊕ L → Nat} {nest : Bool} {age : Fin n → Nat} {back : RwOrder.RSt L → Nat → L → Prop} {s : JSt n I L kind} (h : JReach max (orderly rank nest) (laterBare age) endBare back s)
    (hp : RwOrder.Policy nest back) (hd : Defined s.a.d) (t : Fin n) (ht : s.ended t = false) :
    ∃ u, Relation.ReflTransGen (Waits' max back s) t u ∧ (Goes' max back s u ∨ Rests s u) := by
  obtain ⟨b, hbd⟩ : ∃ b, ∀ u, age u ≤ b := ⟨Finset.univ.sup age, fun u => Finset.le_sup (f := age) (Finset.mem_univ u)⟩
  have hlock : ∀ t x, Stuck max back s.a t x → ∃ u, Relation.ReflTransGen (Waits' max back s) t u ∧ (Goes' max back s u ∨ Rests s u) := by
    intro t x hx
    obtain ⟨u, hc, ha, hg⟩ := C187_locks h hp hd hx
    exact ⟨u, Relation.ReflTransGen.mono (fun _ _ hw => .inl hw) _ _ (Relation.TransGen.to_reflTransGen hc), .inl (.inl ⟨ha, hg⟩)⟩
  obtain ⟨k, hk⟩ : ∃ k, k = b - age t := ⟨_, rfl⟩
  induction k using Nat.strongRecOn generalizing t with
  | ind k ih =>
    cases hj : s.join t with
    | some u =>
      cases he : s.ended u with
      | true => exact ⟨t, .refl, .inl (.inr ⟨u, hj, he⟩)⟩
      | false =>
        have h1 := (quiet h).2 t u hj
        have h2 := hbd u
        obtain ⟨v, hc, hg⟩ := ih (b - age u) (by omega) u he rfl
        exact ⟨v, .head (.inr hj) hc, hg⟩
    | none =>
      have hact : Active s t := ⟨hj, ht⟩
      cases hw : s.a.r.want t with
      | some w =>
        obtain ⟨l, c⟩ := w
        rcases asked (max := max) (back := back) hw with hg | hb
        · exact ⟨t, .refl, .inl (.inl ⟨hact, hg⟩)⟩
        · exact hlock t (.inr l) ⟨c, hb⟩
      | none =>
        by_cases hr : Rests s t
        · exact ⟨t, .refl, .inr hr⟩
        · rcases thread_goes (LockOrder.inv_reach (left_reach (locks_reach h))) hd (u := t) (fun j op t0 c e => hr ⟨j, op, t0, c, e⟩) with hg | ⟨i, hb⟩
          · exact ⟨t, .refl, .inl (.inl ⟨hact, .inl ⟨hw, hg⟩⟩)⟩
          · exact hlock t (.inl i) hb

/-- C187: `join` returns when the thread has ended, and not before; a thread that has ended stays so. -/
theorem C187_join {max : Nat} {R : Rules n I L kind} {mayJoin : JSt n I L kind → Fin n → Fin n → Prop} {mayEnd : JSt n I L kind → Fin n → Prop} {back : RwOrder.RSt L → Nat → L → Prop} (s : JSt n I L kind) (t u : Fin n)
    (hj : s.join t = some u) : ((∃ s', JStep max R mayJoin mayEnd back s s' ∧ s'.join t = none) ↔ s.ended u = true) ∧ ∀ s', JStep max R mayJoin mayEnd back s s' → (s'.join t = some u ∨ s'.join t = none) ∧ (s.ended u = true → s'.ended u = true) := by
  have key : ∀ s', JStep max R mayJoin mayEnd back s s' → (s'.join t = some u ∨ (s'.join t = none ∧ s.ended u = true)) ∧ (s.ended u = true → s'.ended u = true) := by
    intro s' h
    cases h with
    | call a _ => exact ⟨.inl hj, id⟩
    | join t' u' ha _ _ =>
      refine ⟨.inl ?_, id⟩
      have : t ≠ t' := fun q => by subst q; have := ha.1; rw [hj] at this; cases this
      show Function.update s.join t' (some u') t = _
      rw [Function.update_of_ne this]; exact hj
    | joined t' u' h1 h2 =>
      refine ⟨?_, id⟩
      show Function.update s.join t' none t = _ ∨ Function.update s.join t' none t = _ ∧ _
      by_cases q : t = t'
      · subst q
        obtain rfl : u = u' := Option.some.inj (hj.symm.trans h1)
        exact .inr ⟨Function.update_self .., h2⟩
      · rw [Function.update_of_ne q]; exact .inl hj
    | exit t' _ _ _ =>
      refine ⟨.inl hj, fun h => ?_⟩
      show Function.update s.ended t' true u = true
      by_cases q : u = t'
      · subst q; exact Function.update_self ..
      · rw [Function.update_of_ne q]; exact h
  refine ⟨⟨?_, fun h => ⟨_, .joined s t u hj h, Function.update_self ..⟩⟩, fun s' h => ⟨(key s' h).1.imp id And.left, (key s' h).2⟩⟩
  rintro ⟨s', h, hn⟩
  rcases (key s' h).1 with q | q
  · rw [hn] at q; cases q
  · exact q.2

/-- The rule without the order of threads: two threads that join each other wait for each other. -/
theorem C187_order_needed : ∃ s : JSt 2 Unit Unit noKind, JReach 10 (orderly (fun _ => 0) true) (fun s t _ => Bare s.a t) endBare RwOrder.readersFirst s ∧ Waits' 10 RwOrder.readersFirst s 0 1 ∧ Waits' 10 RwOrder.readersFirst s 1 0 := by
  have s0 := JReach.init (n := 2) (I := Unit) (L := Unit) (kind := noKind) (max := 10) (R := orderly (fun _ => 0) true) (mayJoin := fun s t _ => Bare s.a t) (mayEnd := endBare) (back := RwOrder.readersFirst) nofun nofun
  have s1 := s0.step (.join _ 0 1 ⟨rfl, rfl⟩ ⟨⟨fun _ => rfl, nofun⟩, rfl⟩ ⟨fun _ => rfl, fun l h => by rcases h with h | h <;> cases h⟩)
  have s2 := s1.step (.join _ 1 0 ⟨rfl, rfl⟩ ⟨⟨fun _ => rfl, nofun⟩, rfl⟩ ⟨fun _ => rfl, fun l h => by rcases h with h | h <;> cases h⟩)
  exact ⟨_, s2, .inr rfl, .inr rfl⟩

/-- The rule without the condition on locks: a thread that joins with a mutex locked which the other thread wants waits for ever. -/
theorem C187_bare_needed : ∃ s : JSt 2 Unit Unit noKind, JReach 10 (orderly (fun _ => 0) true) (fun _ t u => t < u) endBare RwOrder.readersFirst s ∧ Waits' 10 RwOrder.readersFirst s 0 1 ∧ Waits' 10 RwOrder.readersFirst s 1 0 := by
  have s0 := JReach.init (n := 2) (I := Unit) (L := Unit) (kind := noKind) (max := 10) (R := orderly (fun _ => 0) true) (mayJoin := fun _ t u => t < u) (mayEnd := endBare) (back := RwOrder.readersFirst) nofun nofun
  have s1 := s0.step (.call _ _ (.mutex _ () (.lock 0) _ ⟨fun _ => ⟨rfl, rfl⟩, fun _ => ⟨⟨fun _ => rfl, nofun⟩, rfl⟩, fun _ => ⟨fun _ _ => .inl rfl, fun l h => by rcases h with h | h <;> cases h⟩⟩ rfl))
  have s2 := s1.step (.call _ _ (.mutex _ () (.go 0) _ ⟨nofun, nofun, nofun⟩ rfl))
  have s3 := s2.step (.call _ _ (.mutex _ () (.go 0) _ ⟨nofun, nofun, nofun⟩ rfl))
  have s4 := s3.step (.join _ 0 1 ⟨rfl, rfl⟩ ⟨⟨fun _ => rfl, nofun⟩, rfl⟩ (by decide))
  have s5 := s4.step (.call _ _ (.mutex _ () (.lock 1) _ ⟨fun _ => ⟨rfl, rfl⟩, fun _ => ⟨⟨fun _ => rfl, nofun⟩, rfl⟩, fun _ => ⟨fun _ _ => .inl rfl, fun l h => by rcases h with h | h <;> cases h⟩⟩ rfl))
  exact ⟨_, s5, .inr rfl, .inl (.inl ⟨(), ⟨rfl, rfl⟩, rfl⟩)⟩

/-- An orderly program: thread 0 joins thread 1, which waits for the mutex of thread 2, which is outside of calls. -/
example : ∃ s : JSt 3 Unit Unit noKind, JReach 10 (orderly (fun _ => 0) true) (laterBare Fin.val) endBare RwOrder.readersFirst s ∧ Waits' 10 RwOrder.readersFirst s 0 1 ∧ Waits' 10 RwOrder.readersFirst s 1 2 ∧
    Active s 2 ∧ Out s.a 2 := by
  have s0 := JReach.init (n := 3) (I := Unit) (L := Unit) (kind := noKind) (max := 10) (R := orderly (fun _ => 0) true) (mayJoin := laterBare Fin.val) (mayEnd := endBare) (back := RwOrder.readersFirst) nofun nofun
  have s1 := s0.step (.call _ _ (.mutex _ () (.lock 2) _ ⟨fun _ => ⟨rfl, rfl⟩, fun _ => ⟨⟨fun _ => rfl, nofun⟩, rfl⟩, fun _ => ⟨fun _ _ => .inl rfl, fun l h => by rcases h with h | h <;> cases h⟩⟩ rfl))
  have s2 := s1.step (.call _ _ (.mutex _ () (.go 2) _ ⟨nofun, nofun, nofun⟩ rfl))
  have s3 := s2.step (.call _ _ (.mutex _ () (.go 2) _ ⟨nofun, nofun, nofun⟩ rfl))
  have s4 := s3.step (.join _ 0 1 ⟨rfl, rfl⟩ ⟨⟨fun _ => rfl, nofun⟩, rfl⟩ ⟨by decide, fun _ => rfl, fun l h => by rcases h with h | h <;> cases h⟩)
  have s5 := s4.step (.call _ _ (.mutex _ () (.lock 1) _ ⟨fun _ => ⟨rfl, rfl⟩, fun _ => ⟨⟨fun _ => rfl, nofun⟩, rfl⟩, fun _ => ⟨fun _ _ => .inl rfl, fun l h => by rcases h with h | h <;> cases h⟩⟩ rfl))
  exact ⟨_, s5, .inr rfl, .inl (.inl ⟨(), ⟨rfl, rfl⟩, rfl⟩), ⟨rfl, rfl⟩, ⟨fun _ => rfl, nofun⟩, rfl⟩

end Verif.JoinOrder
