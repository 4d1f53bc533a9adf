import Verif.Interthread.LockOrder
import Verif.Threads.RwOrder

/-
Property C185: programs that use `Mutex`es, `RWLock`s and objects of the classes of `/repo/Interthread.h` together do not deadlock if all locks are taken in one fixed order and no thread waits for an element with a lock
(`/repo/Threads.h:74-139`, models as in C182 and C184).
-/

namespace Verif.AllLocks
open Verif Verif.Threads Verif.Interthread Verif.Interthread.HandOver Verif.LockOrder

variable {n : Nat} {I J L : Type} {kind : J → Kind}

/-- Mutexes and objects, and reader/writer locks. -/
structure ASt (n : Nat) (I : Type) {J : Type} (L : Type) (kind : J → Kind) where
  d : DSt n I kind
  r : RwOrder.RSt L

/-- Thread `t` is not inside of any call. -/
def Out (s : ASt n I L kind) (t : Fin n) : Prop := Free s.d t ∧ s.r.want t = none

/-- A call of a mutex begins with this step. -/
def Begins : ML n → Bool
  | .go _ => false
  | .timeout _ => false
  | _ => true

/-- `lock` is called, with or without file and line. -/
def Locks : ML n → Bool
  | .lock _ => true
  | .lockFile _ _ => true
  | _ => false

/-- What programs may do: calls on mutexes, on objects, and on reader/writer locks. -/
structure Rules (n : Nat) (I : Type) {J : Type} (L : Type) (kind : J → Kind) where
  mutex : ASt n I L kind → I → ML n → Prop
  box : ASt n I L kind → Fin n → (j : J) → (kind j).box.Op → Prop
  rw : ASt n I L kind → Fin n → L → RCall → Prop

/-- One call at a time; `lock`, `wlock` and `rlock` only on locks that come later than all the thread has, except that a mutex may be locked again, and with `nest` a reader/writer lock read again; and calls that wait for elements only without locks. -/
def orderly (rank : I ⊕ L → Nat) (nest : Bool) : Rules n I L kind where
  mutex s i l := (Begins l = true → Out s (doer l)) ∧
    (Locks l = true → (∀ i', 0 < (s.d.mtx i').held (doer l) → i' = i ∨ rank (.inl i') < rank (.inl i)) ∧ ∀ l', RwOrder.Holds s.r (doer l) l' → rank (.inr l') < rank (.inl i))
  box s t j op := Waiting (kind j) op → (∀ i, (s.d.mtx i).held t = 0) ∧ ∀ l, ¬ RwOrder.Holds s.r t l
  rw s t l c := c = .wlock ∨ c = .rlock → (∀ i, 0 < (s.d.mtx i).held t → rank (.inl i) < rank (.inr l)) ∧
    ∀ l', RwOrder.Holds s.r t l' → rank (.inr l') < rank (.inr l) ∨ (nest = true ∧ c = .rlock ∧ l' = l)

/-- Steps of such programs: those of C182 and of C184; calls on objects and on reader/writer locks are made outside of all other calls. -/
inductive AStep [DecidableEq I] [DecidableEq J] [DecidableEq L] (max : Nat) (R : Rules n I L kind) (back : RwOrder.RSt L → Nat → L → Prop) : ASt n I L kind → ASt n I L kind → Prop where
  | mutex (s : ASt n I L kind) (i l m) : R.mutex s i l → mstep (s.d.mtx i) l = some m → AStep max R back s ⟨⟨Function.update s.d.mtx i m, s.d.box⟩, s.r⟩
  | call (s : ASt n I L kind) (t : Fin n) (j op x) : Out s t → R.box s t j op → Monitor.Step (kind j).box.M (s.d.box j) (.start t op) x → AStep max R back s ⟨⟨s.d.mtx, Function.update s.d.box j x⟩, s.r⟩
  | inner (s : ASt n I L kind) (j lb x) : (∀ t op, lb ≠ .start t op) → Monitor.Step (kind j).box.M (s.d.box j) lb x → AStep max R back s ⟨⟨s.d.mtx, Function.update s.d.box j x⟩, s.r⟩
  | ask (s : ASt n I L kind) (t : Fin n) (l c) : Out s t → R.rw s t l c → AStep max R back s ⟨s.d, ⟨s.r.lock, Function.update s.r.want t (some (l, c))⟩⟩
  | take (s : ASt n I L kind) (t : Fin n) (l c x r) : s.r.want t = some (l, c) → (c = .rlock → ¬ back s.r t l) → rwStep max (s.r.lock l) t c = some (.ok (x, r)) →
      AStep max R back s ⟨s.d, ⟨Function.update s.r.lock l x, Function.update s.r.want t none⟩⟩

inductive AReach [DecidableEq I] [DecidableEq J] [DecidableEq L] (max : Nat) (R : Rules n I L kind) (back : RwOrder.RSt L → Nat → L → Prop) : ASt n I L kind → Prop where
  | init (now : J → Monitor.Clock) (d : (j : J) → (kind j).box.σ) : AReach max R back ⟨⟨fun _ => minit n, fun j => Monitor.init n (now j) (d j)⟩, ⟨fun _ => {}, fun _ => none⟩⟩
  | step {s s'} : AReach max R back s → AStep max R back s s' → AReach max R back s'

/-! ### What must not happen -/

/-- Thread `t` waits, without time limit, for a lock. -/
def Stuck (max : Nat) (back : RwOrder.RSt L → Nat → L → Prop) (s : ASt n I L kind) (t : Fin n) : I ⊕ L → Prop
  | .inl i => Blocked s.d t i
  | .inr l => ∃ c, RwOrder.Blocked max back s.r t l c

/-- It waits for thread `u`, which has the lock (or, if readers are held back, waits to write it). -/
def Waits (max : Nat) (back : RwOrder.RSt L → Nat → L → Prop) (s : ASt n I L kind) (t u : Fin n) : Prop := WaitsFor s.d t u ∨ RwOrder.WaitsFor max back s.r t u

/-- Thread `u` is outside of calls, or in a call that can go on (for calls on objects: the calls on this object can go on). -/
def Goes (max : Nat) (back : RwOrder.RSt L → Nat → L → Prop) (s : ASt n I L kind) (u : Fin n) : Prop :=
  (s.r.want u = none ∧ GoesOn s.d u) ∨ ∃ l c, s.r.want u = some (l, c) ∧ rwStep max (s.r.lock l) u c ≠ none ∧ (c = .rlock → ¬ back s.r u l)

/-! ### Proof -/

structure Cross (rank : I ⊕ L → Nat) (s : ASt n I L kind) : Prop where
  free : ∀ t : Fin n, s.r.want t ≠ none → Free s.d t
  few : ∀ t, s.r.want t ≠ none ∨ (∃ l, RwOrder.Holds s.r t l) → t < n
  mutex : ∀ i t, ((s.d.mtx i).pc t = .lockPlain ∨ ∃ ts, (s.d.mtx i).pc t = .lockTimed ts) → ∀ l, RwOrder.Holds s.r t l → rank (.inr l) < rank (.inl i)
  rw : ∀ (t : Fin n) l c, s.r.want t = some (l, c) → c = .wlock ∨ c = .rlock → ∀ i, 0 < (s.d.mtx i).held t → rank (.inl i) < rank (.inr l)
  quick : ∀ j t op, ((s.d.box j).th t).op? = some op → Waiting (kind j) op → ∀ l, ¬ RwOrder.Holds s.r t l

variable [DecidableEq I] [DecidableEq J] [DecidableEq L]

/-- Seen from the mutexes and objects, the program follows the rule of C182. -/
theorem left_reach {max : Nat} {rank : I ⊕ L → Nat} {nest : Bool} {back : RwOrder.RSt L → Nat → L → Prop} {s : ASt n I L kind} (h : AReach max (orderly rank nest) back s) :
    DReach (LockOrder.Rule fun i => rank (.inl i)) NoneLocked s.d := by
  induction h with
  | init now d => exact .init now d
  | step _ st ih =>
    cases st with
    | mutex i l m hr hm =>
      refine ih.step (.mutex _ i l m ?_ hm)
      cases l with
      | lock t => exact ⟨(hr.1 rfl).1, (hr.2 rfl).1⟩
      | lockFile t now => exact ⟨(hr.1 rfl).1, (hr.2 rfl).1⟩
      | trylock t => exact (hr.1 rfl).1
      | timedlock t ms now => exact (hr.1 rfl).1
      | unlock t => exact (hr.1 rfl).1
      | go t => trivial
      | timeout t => trivial
    | call t j op x ho hr hx => exact ih.step (.call _ t j op x ho.1 (fun hw => (hr hw).1) hx)
    | inner j lb x hl hx => exact ih.step (.inner _ j lb x hl hx)
    | ask t l c ho hr => exact ih
    | take t l c x r hw hb hx => exact ih

/-- Seen from the reader/writer locks, it follows the rule of C184. -/
theorem right_reach {max : Nat} {rank : I ⊕ L → Nat} {nest : Bool} {back : RwOrder.RSt L → Nat → L → Prop} {s : ASt n I L kind} (h : AReach max (orderly rank nest) back s) :
    RwOrder.RReach max (RwOrder.Rule (fun l => rank (.inr l)) nest) back s.r := by
  induction h with
  | init now d => exact .init
  | step _ st ih =>
    cases st with
    | mutex i l m hr hm => exact ih
    | call t j op x ho hr hx => exact ih
    | inner j lb x hl hx => exact ih
    | ask t l c ho hr => exact ih.step (.ask _ t l c ho.2 fun hc => (hr hc).2)
    | take t l c x r hw hb hx => exact ih.step (.take _ t l c x r hw hb hx)

theorem cross {max : Nat} {rank : I ⊕ L → Nat} {nest : Bool} {back : RwOrder.RSt L → Nat → L → Prop} {s : ASt n I L kind} (h : AReach max (orderly rank nest) back s) : Cross rank s := by
  induction h with
  | init now d =>
    refine ⟨fun t e => absurd rfl e, fun t e => ?_, fun i t e => ?_, fun t l c e => (by cases e), fun j t op e => (by cases e)⟩
    · rcases e with e | ⟨l, e | e⟩
      · exact absurd rfl e
      · cases e
      · cases e
    · rcases e with e | ⟨ts, e⟩ <;> cases e
  | @step s s' hreach st ih =>
    cases st with
    | mutex i l m hr hm =>
      obtain ⟨hother, hgo, hto, hplain, htimed⟩ := mstep_local hm
      -- the thread that makes the step is not in a call on a reader/writer lock
      have hd : s.r.want (doer l) = none := by
        cases hb : Begins l with
        | true => exact (hr.1 hb).2
        | false =>
          by_contra q
          have hf := (ih.free (doer l) q).1 i
          cases l with
          | go t => exact hgo t rfl hf
          | timeout t =>
            obtain ⟨ts, e⟩ := hto t rfl
            have hf : (s.d.mtx i).pc t = .idle := hf
            rw [hf] at e
            rcases e with e | e <;> cases e
          | _ => cases hb
      have same : ∀ u, u ≠ doer l → ∀ i', (Function.update s.d.mtx i m i').pc u = (s.d.mtx i').pc u ∧ (Function.update s.d.mtx i m i').held u = (s.d.mtx i').held u := by
        intro u hu i'
        by_cases q : i' = i
        · subst q; rw [Function.update_self]; exact hother u hu
        · rw [Function.update_of_ne q]; exact ⟨rfl, rfl⟩
      refine ⟨fun t e => ?_, ih.few, fun i' t e => ?_, fun t l' c e hc i' hi => ?_, ih.quick⟩
      · have ht : t ≠ doer l := by rintro rfl; exact e hd
        exact ⟨fun i' => (same t ht i').1.trans ((ih.free t e).1 i'), (ih.free t e).2⟩
      · dsimp only at e ⊢
        by_cases ht : t = doer l
        · by_cases q : i' = i
          · subst q ht
            rw [Function.update_self] at e
            rcases e with e | ⟨ts, e⟩
            · rcases (hplain e).2 with hl | ⟨_, ts, e'⟩
              · exact (hr.2 (by rw [hl]; rfl)).2
              · exact ih.mutex i' _ (.inr ⟨ts, e'⟩)
            · obtain ⟨now, hl⟩ := (htimed ts e).2
              exact (hr.2 (by rw [hl]; rfl)).2
          · rw [Function.update_of_ne q] at e
            exact ih.mutex i' t e
        · rw [(same t ht i').1] at e
          exact ih.mutex i' t e
      · have ht : t ≠ doer l := by
          rintro rfl
          have e : s.r.want (doer l) = some (l', c) := e
          rw [hd] at e; cases e
        dsimp only at hi
        rw [(same t ht i').2] at hi
        exact ih.rw t l' c e hc i' hi
    | call t j op x ho hr hx =>
      have others : ∀ u, u ≠ t → x.th u = (s.d.box j).th u := by
        intro u hu
        cases hx
        exact Function.update_of_ne hu _ _
      have mine : (x.th t).op? = some op := by
        cases hx
        simp [Monitor.TS.op?]
      refine ⟨fun u e => ?_, ih.few, ih.mutex, ih.rw, fun j' u op' e hw l => ?_⟩
      · have hu : u ≠ t := by rintro rfl; exact e ho.2
        refine ⟨(ih.free u e).1, fun j' => ?_⟩
        by_cases q : j' = j
        · subst q; simpa using (others u hu).trans ((ih.free u e).2 j')
        · simpa [Function.update_of_ne q] using (ih.free u e).2 j'
      · by_cases q : j' = j
        · subst q
          simp only [Function.update_self] at e
          by_cases hu : u = t
          · subst hu
            rw [mine] at e
            obtain rfl := Option.some.inj e
            exact (hr hw).2 l
          · rw [others u hu] at e
            exact ih.quick j' u op' e hw l
        · simp only [Function.update_of_ne q] at e
          exact ih.quick j' u op' e hw l
    | inner j lb x hl hx =>
      refine ⟨fun u e => ⟨(ih.free u e).1, fun j' => ?_⟩, ih.few, ih.mutex, ih.rw, fun j' u op' e hw l => ?_⟩
      · by_cases q : j' = j
        · subst q; simpa using (step_threads hl hx u).1.1 ((ih.free u e).2 j')
        · simpa [Function.update_of_ne q] using (ih.free u e).2 j'
      · by_cases q : j' = j
        · subst q
          simp only [Function.update_self] at e
          exact ih.quick j' u op' ((step_threads hl hx u).1.2 op' e) hw l
        · simp only [Function.update_of_ne q] at e
          exact ih.quick j' u op' e hw l
    | ask t l c ho hr =>
      refine ⟨fun u e => ?_, fun u e => ?_, ih.mutex, fun u l' c' e hc i hi => ?_, ih.quick⟩
      · by_cases q : u = t
        · subst q; exact ho.1
        · have q' : (u : Nat) ≠ t := fun e => q (Fin.ext e)
          simp only [Function.update_of_ne q'] at e
          exact ih.free u e
      · by_cases q : u = t
        · subst q; exact t.2
        · simp only [Function.update_of_ne q] at e
          exact ih.few u e
      · by_cases q : u = t
        · subst q
          simp only [Function.update_self, Option.some.injEq, Prod.mk.injEq] at e
          obtain ⟨rfl, rfl⟩ := e
          exact (hr hc).1 i hi
        · have q' : (u : Nat) ≠ t := fun e => q (Fin.ext e)
          simp only [Function.update_of_ne q'] at e
          exact ih.rw u l' c' e hc i hi
    | take t l c x r hw hb hx =>
      have hf := ih.free t (by rw [hw]; simp)
      have back : ∀ u l', u ≠ (t : Nat) → RwOrder.Holds (⟨Function.update s.r.lock l x, Function.update s.r.want t none⟩ : RwOrder.RSt L) u l' → RwOrder.Holds s.r u l' := by
        intro u l' hu hh
        simp only [RwOrder.Holds] at hh ⊢
        by_cases q : l' = l
        · subst q
          rw [Function.update_self] at hh
          exact RwOrder.holds_other hx hu hh
        · rwa [Function.update_of_ne q] at hh
      refine ⟨fun u e => ?_, fun u e => ?_, fun i u e l' hh => ?_, fun u l' c' e hc i hi => ?_, fun j u op e hwt l' hh => ?_⟩
      · by_cases q : (u : Nat) = t
        · simp [q] at e
        · simp only [Function.update_of_ne q] at e
          exact ih.free u e
      · by_cases q : u = t
        · rw [q]; exact t.2
        · rcases e with e | ⟨l', e⟩
          · simp only [Function.update_of_ne q] at e
            exact ih.few u (.inl e)
          · exact ih.few u (.inr ⟨l', back u l' q e⟩)
      · have q : (u : Nat) ≠ t := by
          intro q
          obtain rfl : u = t := Fin.ext q
          have := hf.1 i
          dsimp only at e
          rw [this] at e
          rcases e with e | ⟨_, e⟩ <;> cases e
        exact ih.mutex i u e l' (back u l' q hh)
      · by_cases q : (u : Nat) = t
        · simp [q] at e
        · simp only [Function.update_of_ne q] at e
          exact ih.rw u l' c' e hc i hi
      · have q : (u : Nat) ≠ t := by
          intro q
          obtain rfl : u = t := Fin.ext q
          have := hf.2 j
          dsimp only at e
          rw [this] at e
          cases e
        exact ih.quick j u op e hwt l' (back u l' q hh)

omit [DecidableEq I] [DecidableEq J] [DecidableEq L] in
theorem blocked_call {max : Nat} {back : RwOrder.RSt L → Nat → L → Prop} {s : RwOrder.RSt L} {t : Nat} {l : L} {c : RCall} (h : RwOrder.Blocked max back s t l c) : c = .wlock ∨ c = .rlock := by
  rcases h.2 with ⟨e, _⟩ | e
  · exact .inr e
  · exact (RwOrder.none_cases e).1

omit [DecidableEq I] [DecidableEq J] [DecidableEq L] in
/-- A thread in a call on a reader/writer lock goes on or is held. -/
theorem asked {max : Nat} {back : RwOrder.RSt L → Nat → L → Prop} {s : ASt n I L kind} {u : Fin n} {l : L} {c : RCall} (h : s.r.want u = some (l, c)) : Goes max back s u ∨ RwOrder.Blocked max back s.r u l c := by
  by_cases hn : rwStep max (s.r.lock l) u c = none
  · exact .inr ⟨h, .inr hn⟩
  · by_cases hb : c = .rlock ∧ back s.r u l
    · exact .inr ⟨h, .inl hb⟩
    · exact .inl (.inr ⟨l, c, h, hn, fun e b => hb ⟨e, b⟩⟩)

/-- A thread that waits for a lock waits for a thread that goes on or waits for a later lock. -/
theorem onward {max : Nat} {rank : I ⊕ L → Nat} {nest : Bool} {back : RwOrder.RSt L → Nat → L → Prop} {s : ASt n I L kind} (h : AReach max (orderly rank nest) back s) (hp : RwOrder.Policy nest back) (hd : Defined s.d)
    {t : Fin n} {x : I ⊕ L} (hb : Stuck max back s t x) : ∃ u, Waits max back s t u ∧ (Goes max back s u ∨ ∃ y, Stuck max back s u y ∧ rank x < rank y) := by
  have hD := LockOrder.inv_reach (left_reach h)
  have hR := RwOrder.inv_reach (right_reach h)
  have hX := cross h
  cases x with
  | inl i =>
    obtain ⟨u, hu⟩ : ∃ u, (s.d.mtx i).owner = some u := by
      cases e : (s.d.mtx i).owner with
      | none => have := hb.2; simp [MSt.free, e] at this
      | some u => exact ⟨u, rfl⟩
    refine ⟨u, .inl ⟨i, hb, hu⟩, ?_⟩
    cases hw : s.r.want u with
    | none =>
      rcases owner_goes hD hd hu with hg | ⟨i2, hb2⟩
      · exact .inl (.inl ⟨hw, hg⟩)
      · exact .inr ⟨.inl i2, hb2, rank_lt hD hu hb2⟩
    | some w =>
      obtain ⟨l, c⟩ := w
      rcases asked (max := max) (back := back) hw with hg | hb2
      · exact .inl hg
      · refine .inr ⟨.inr l, ⟨c, hb2⟩, hX.rw u l c hw (blocked_call hb2) i ?_⟩
        have h1 := (hD.own i).2 u hu
        rw [(hX.free u (by rw [hw]; simp)).1 i] at h1
        simp only [extra] at h1
        omega
  | inr l =>
    obtain ⟨c, hb⟩ := hb
    obtain ⟨u, hu, hnext⟩ := RwOrder.next hR hp hb
    have hun : u < n := by
      obtain ⟨l', c', hb', _, hh | ⟨_, _, hh⟩⟩ := hu
      · exact hX.few u (.inr ⟨l', hh⟩)
      · exact hX.few u (.inl (by rw [hh]; simp))
    refine ⟨⟨u, hun⟩, .inr hu, ?_⟩
    cases hw : s.r.want u with
    | some w =>
      obtain ⟨l2, c2⟩ := w
      rcases asked (max := max) (back := back) (u := ⟨u, hun⟩) hw with hg | hb2
      · exact .inl hg
      · exact .inr ⟨.inr l2, ⟨c2, hb2⟩, hnext l2 c2 hb2⟩
    | none =>
      have hh : RwOrder.Holds s.r u l := by
        obtain ⟨l', c', hb', _, hh | ⟨_, _, hh⟩⟩ := hu
        · have e := hb'.1
          rw [hb.1] at e
          cases e
          exact hh
        · rw [hw] at hh; cases hh
      rcases thread_goes hD hd (u := ⟨u, hun⟩) (fun j op t0 c' e => hX.quick j ⟨u, hun⟩ op (by rw [e]; rfl) (hD.noWait j _ op t0 c' e) l hh) with hg | ⟨i2, hb2⟩
      · exact .inl (.inl ⟨hw, hg⟩)
      · exact .inr ⟨.inl i2, hb2, hX.mutex i2 _ (.inl hb2.1) l hh⟩

/-! ### Theorems -/

/-- C185: in a program that takes mutexes and reader/writer locks in one fixed order, and waits for elements only without locks, a thread that waits for a lock waits - perhaps through other threads that wait for locks - for a thread
that can go on: one that is outside of all calls of the library, or in a call on a lock that can go on, or in a call on an object in which the calls go on. -/
theorem C185_goes_on {max : Nat} {rank : I ⊕ L → Nat} {nest : Bool} {back : RwOrder.RSt L → Nat → L → Prop} {s : ASt n I L kind} (h : AReach max (orderly rank nest) back s) (hp : RwOrder.Policy nest back) (hd : Defined s.d)
    {t : Fin n} {x : I ⊕ L} (hb : Stuck max back s t x) : ∃ u, Relation.TransGen (Waits max back s) t u ∧ Goes max back s u := by
  obtain ⟨b1, hb1⟩ := bounded (LockOrder.inv_reach (left_reach h))
  obtain ⟨b2, hb2⟩ := (RwOrder.inv_reach (right_reach h)).bound
  have hbd : ∀ u y, Stuck max back s u y → rank y ≤ Nat.max b1 b2 := by
    intro u y hy
    cases y with
    | inl i => exact (hb1 u i hy).trans (Nat.le_max_left _ _)
    | inr l =>
      obtain ⟨c, hy⟩ := hy
      exact (hb2 u l c hy.1).trans (Nat.le_max_right _ _)
  obtain ⟨k, hk⟩ : ∃ k, k = Nat.max b1 b2 - rank x := ⟨_, rfl⟩
  induction k using Nat.strongRecOn generalizing t x with
  | ind k ih =>
    obtain ⟨u, hw, hg | ⟨y, hy, hlt⟩⟩ := onward h hp hd hb
    · exact ⟨u, .single hw, hg⟩
    · have := hbd u y hy
      obtain ⟨v, hv, hg⟩ := ih (Nat.max b1 b2 - rank y) (by omega) hy rfl
      exact ⟨v, .head hw hv, hg⟩

omit [DecidableEq I] [DecidableEq J] in
/-- A lock that is written is not read. -/
theorem apart_rw {max : Nat} {rule} {back : RwOrder.RSt L → Nat → L → Prop} {s : RwOrder.RSt L} (h : RwOrder.RReach max rule back s) (l : L) : (s.lock l).writer ≠ none → (s.lock l).readers = [] := by
  induction h with
  | init => intro _; rfl
  | step _ st ih =>
    cases st with
    | ask t l' c hw hr => exact ih
    | take t l' c x r hw hb hx =>
      dsimp only
      by_cases q : l = l'
      · subst q
        rw [Function.update_self]
        cases c <;> simp only [rwStep] at hx <;> split_ifs at hx <;> simp only [Option.some.injEq, Outcome.ok.injEq, Prod.mk.injEq, reduceCtorEq] at hx <;> obtain ⟨rfl, _⟩ := hx <;> simp_all
      · rw [Function.update_of_ne q]; exact ih

/-- C185: and, with locks that prefer readers, no thread waits for itself through others. -/
theorem C185_no_cycle {max : Nat} {rank : I ⊕ L → Nat} {nest : Bool} {s : ASt n I L kind} (h : AReach max (orderly rank nest) RwOrder.readersFirst s) (t : Fin n) :
    ¬ Relation.TransGen (Waits max RwOrder.readersFirst s) t t := by
  have hD := LockOrder.inv_reach (left_reach h)
  have hR := RwOrder.inv_reach (right_reach h)
  have hX := cross h
  have one : ∀ t u, Waits max RwOrder.readersFirst s t u → ∃ x, Stuck max RwOrder.readersFirst s t x ∧ ∀ y, Stuck max RwOrder.readersFirst s u y → rank x < rank y := by
    rintro t u (⟨i, hb, ho⟩ | ⟨l, c, hb, hut, hh | ⟨_, hh, _⟩⟩)
    · refine ⟨.inl i, hb, fun y hy => ?_⟩
      cases y with
      | inl i2 => exact rank_lt hD ho hy
      | inr l =>
        obtain ⟨c, hy⟩ := hy
        refine hX.rw u l c hy.1 (blocked_call hy) i ?_
        have h1 := (hD.own i).2 u ho
        rw [(hX.free u (by rw [hy.1]; simp)).1 i] at h1
        simp only [extra] at h1
        omega
    · refine ⟨.inr l, ⟨c, hb⟩, fun y hy => ?_⟩
      cases y with
      | inl i2 => exact hX.mutex i2 u (.inl hy.1) l hh
      | inr l2 =>
        obtain ⟨c2, hy⟩ := hy
        rcases hR.order u l2 c2 hy.1 (blocked_call hy) l hh with hlt | ⟨_, rfl, rfl⟩
        · exact hlt
        · rcases hy.2 with ⟨_, e⟩ | e
          · exact e.elim
          · obtain ⟨_, hn, ⟨v, hv⟩ | ⟨e, _⟩⟩ := RwOrder.none_cases e
            · rcases hh with hh | hh
              · exact absurd hh hn
              · rw [apart_rw (right_reach h) l (by rw [hv]; simp)] at hh
                cases hh
            · cases e
    · exact hh.elim
  have all : ∀ t u, Relation.TransGen (Waits max RwOrder.readersFirst s) t u → ∃ x, Stuck max RwOrder.readersFirst s t x ∧ ∀ y, Stuck max RwOrder.readersFirst s u y → rank x < rank y := by
    intro t u hc
    induction hc using Relation.TransGen.head_induction_on with
    | single hw => exact one _ _ hw
    | head hw _ ih =>
      obtain ⟨x, hx, hlt⟩ := one _ _ hw
      obtain ⟨x', hx', hlt'⟩ := ih
      exact ⟨x, hx, fun y hy => (hlt x' hx').trans (hlt' y hy)⟩
  intro hc
  obtain ⟨x, hx, hlt⟩ := all t t hc
  exact absurd (hlt x hx) (Nat.lt_irrefl _)

/-- Each kind of lock has an order, but there is none between mutexes and reader/writer locks. -/
def apart (rank : I ⊕ L → Nat) : Rules n I L kind where
  mutex s i l := (Begins l = true → Out s (doer l)) ∧ (Locks l = true → ∀ i', 0 < (s.d.mtx i').held (doer l) → i' = i ∨ rank (.inl i') < rank (.inl i))
  box s t j op := Waiting (kind j) op → (∀ i, (s.d.mtx i).held t = 0) ∧ ∀ l, ¬ RwOrder.Holds s.r t l
  rw s t l c := c = .wlock ∨ c = .rlock → ∀ l', RwOrder.Holds s.r t l' → rank (.inr l') < rank (.inr l)

/-- An order for each kind is not enough: a thread that has a mutex and wants to write, and a thread that reads and wants the mutex, wait for each other. -/
theorem C185_order_needed : ∃ s : ASt 2 Unit Unit noKind, AReach 10 (apart fun _ => 0) RwOrder.readersFirst s ∧ Waits 10 RwOrder.readersFirst s 0 1 ∧ Waits 10 RwOrder.readersFirst s 1 0 := by
  have s0 := AReach.init (n := 2) (I := Unit) (L := Unit) (kind := noKind) (max := 10) (R := apart fun _ => 0) (back := RwOrder.readersFirst) nofun nofun
  have s1 := s0.step (.mutex _ () (.lock 0) _ ⟨fun _ => ⟨⟨fun _ => rfl, nofun⟩, rfl⟩, fun _ i' h => .inl rfl⟩ rfl)
  have s2 := s1.step (.mutex _ () (.go 0) _ ⟨nofun, nofun⟩ rfl)
  have s3 := s2.step (.mutex _ () (.go 0) _ ⟨nofun, nofun⟩ rfl)
  have s4 := s3.step (.ask _ 1 () .rlock ⟨⟨fun _ => rfl, nofun⟩, rfl⟩ fun _ l' h => by rcases h with h | h <;> cases h)
  have s5 := s4.step (.take _ 1 () .rlock _ _ rfl (fun _ h => h) rfl)
  have s6 := s5.step (.ask _ 0 () .wlock ⟨⟨fun _ => rfl, nofun⟩, rfl⟩ fun _ l' h => by
    cases l'
    rcases h with h | h
    · cases h
    · exact absurd h (by decide))
  have s7 := s6.step (.mutex _ () (.lock 1) _ ⟨fun _ => ⟨⟨fun _ => rfl, nofun⟩, rfl⟩, fun _ i' h => .inl rfl⟩ rfl)
  exact ⟨_, s7, .inr ⟨(), .wlock, ⟨rfl, .inr rfl⟩, by decide, .inl (.inr (by decide))⟩, .inl ⟨(), ⟨rfl, rfl⟩, rfl⟩⟩

/-- A chain in an orderly program: thread 2 waits for the mutex of thread 1, which waits to write what thread 0 reads; thread 0 is outside of calls. -/
example : ∃ s : ASt 3 Unit Unit noKind, AReach 10 (orderly (fun x => x.elim (fun _ => 0) fun _ => 1) true) RwOrder.readersFirst s ∧ Waits 10 RwOrder.readersFirst s 2 1 ∧ Waits 10 RwOrder.readersFirst s 1 0 ∧ Out s 0 := by
  have s0 := AReach.init (n := 3) (I := Unit) (L := Unit) (kind := noKind) (max := 10) (R := orderly (fun x => x.elim (fun _ => 0) fun _ => 1) true) (back := RwOrder.readersFirst) nofun nofun
  have s1 := s0.step (.ask _ 0 () .rlock ⟨⟨fun _ => rfl, nofun⟩, rfl⟩ fun _ => ⟨fun _ h => absurd h (Nat.lt_irrefl 0), fun l' h => by rcases h with h | h <;> cases h⟩)
  have s2 := s1.step (.take _ 0 () .rlock _ _ rfl (fun _ h => h) rfl)
  have s3 := s2.step (.mutex _ () (.lock 1) _ ⟨fun _ => ⟨⟨fun _ => rfl, nofun⟩, rfl⟩, fun _ => ⟨fun i' h => .inl rfl, fun l' h => by
    cases l'
    rcases h with h | h
    · cases h
    · exact absurd h (by decide)⟩⟩ rfl)
  have s4 := s3.step (.mutex _ () (.go 1) _ ⟨nofun, nofun⟩ rfl)
  have s5 := s4.step (.mutex _ () (.go 1) _ ⟨nofun, nofun⟩ rfl)
  have s6 := s5.step (.ask _ 1 () .wlock ⟨⟨fun _ => rfl, nofun⟩, rfl⟩ fun _ => ⟨fun _ h => Nat.zero_lt_one, fun l' h => by
    cases l'
    rcases h with h | h
    · cases h
    · exact absurd h (by decide)⟩)
  have s7 := s6.step (.mutex _ () (.lock 2) _ ⟨fun _ => ⟨⟨fun _ => rfl, nofun⟩, rfl⟩, fun _ => ⟨fun i' h => .inl rfl, fun l' h => by
    cases l'
    rcases h with h | h
    · cases h
    · exact absurd h (by decide)⟩⟩ rfl)
  exact ⟨_, s7, .inl ⟨(), ⟨rfl, rfl⟩, rfl⟩, .inr ⟨(), .wlock, ⟨rfl, .inr rfl⟩, by decide, .inl (.inr (by decide))⟩, ⟨fun _ => rfl, nofun⟩, rfl⟩

end Verif.AllLocks
