import Verif.Threads.RwLock
import Mathlib.Logic.Relation
import Mathlib.Logic.Function.Basic
import Mathlib.Tactic.SplitIfs

/-
Property C184: programs that take several `RWLock`s (`/repo/Threads.h:118-139`, `/repo/Threads.cpp:191-206`, model `Verif.Threads.rwStep`) in a fixed order do not deadlock, whichever threads the locks prefer.
-/

namespace Verif.Threads.RwOrder
open Verif Verif.Threads

variable {L : Type} [DecidableEq L]

/-- The locks, and the calls that have been made and have not returned. -/
structure RSt (L : Type) where
  lock : L → Rw
  want : Nat → Option (L × RCall)

/-- Thread `t` is the writer or a reader of lock `l`. -/
def Holds (s : RSt L) (t : Nat) (l : L) : Prop := (s.lock l).writer = some t ∨ t ∈ (s.lock l).readers

/-- The rule: `wlock` and `rlock` only on locks that come later than all that the thread has; with `nest`, a thread may also call `rlock` on a lock it has.  For trials and `unlock` there is no rule. -/
def Rule (rank : L → Nat) (nest : Bool) (s : RSt L) (t : Nat) (l : L) (c : RCall) : Prop :=
  c = .wlock ∨ c = .rlock → ∀ l', Holds s t l' → rank l' < rank l ∨ (nest = true ∧ c = .rlock ∧ l' = l)

/-- Threads make calls, and calls return (with the effect of `rwStep`) when the lock lets them; `back s t l` says that lock `l`, although it could, does not yet let `t` read. -/
inductive RStep (max : Nat) (rule : RSt L → Nat → L → RCall → Prop) (back : RSt L → Nat → L → Prop) : RSt L → RSt L → Prop where
  | ask (s : RSt L) (t l c) : s.want t = none → rule s t l c → RStep max rule back s ⟨s.lock, Function.update s.want t (some (l, c))⟩
  | take (s : RSt L) (t l c x r) : s.want t = some (l, c) → (c = .rlock → ¬ back s t l) → rwStep max (s.lock l) t c = some (.ok (x, r)) →
      RStep max rule back s ⟨Function.update s.lock l x, Function.update s.want t none⟩

inductive RReach (max : Nat) (rule : RSt L → Nat → L → RCall → Prop) (back : RSt L → Nat → L → Prop) : RSt L → Prop where
  | init : RReach max rule back ⟨fun _ => {}, fun _ => none⟩
  | step {s s'} : RReach max rule back s → RStep max rule back s s' → RReach max rule back s'

/-- Thread `t` is in a call that cannot return now. -/
def Blocked (max : Nat) (back : RSt L → Nat → L → Prop) (s : RSt L) (t : Nat) (l : L) (c : RCall) : Prop :=
  s.want t = some (l, c) ∧ ((c = .rlock ∧ back s t l) ∨ rwStep max (s.lock l) t c = none)

/-- It waits for the thread that has the lock, or, if it wants to read, for one that waits to write. -/
def WaitsFor (max : Nat) (back : RSt L → Nat → L → Prop) (s : RSt L) (t u : Nat) : Prop :=
  ∃ l c, Blocked max back s t l c ∧ u ≠ t ∧ (Holds s u l ∨ (c = .rlock ∧ back s t l ∧ s.want u = some (l, .wlock)))

/-- What the locks may do: hold readers back in favour of writers that wait (which a program with nested reading must exclude). -/
def Policy (nest : Bool) (back : RSt L → Nat → L → Prop) : Prop := ∀ s t l, back s t l → nest = false ∧ ∃ u, u ≠ t ∧ s.want u = some (l, .wlock)

/-! ### Proof -/

/-- A call changes only what its thread has. -/
theorem holds_other {max : Nat} {x x' : Rw} {u : Nat} {c : RCall} {r : RRes} (h : rwStep max x u c = some (.ok (x', r))) {t : Nat} (ht : t ≠ u) (hh : x'.writer = some t ∨ t ∈ x'.readers) :
    x.writer = some t ∨ t ∈ x.readers := by
  cases c <;> simp only [rwStep] at h <;> split_ifs at h <;> simp only [Option.some.injEq, Outcome.ok.injEq, Prod.mk.injEq, reduceCtorEq] at h <;> obtain ⟨rfl, _⟩ := h <;>
    first
    | exact hh
    | (rcases hh with hh | hh
       · exact absurd (Option.some.inj hh).symm ht
       · exact .inr hh)
    | (rcases hh with hh | hh
       · exact .inl hh
       · exact .inr ((List.mem_cons.mp hh).resolve_left ht))
    | (rcases hh with hh | hh
       · cases hh
       · exact .inr hh)
    | (rcases hh with hh | hh
       · exact .inl hh
       · exact .inr (List.mem_of_mem_erase hh))

structure Inv (rank : L → Nat) (nest : Bool) (s : RSt L) : Prop where
  order : ∀ t l c, s.want t = some (l, c) → Rule rank nest s t l c
  bound : ∃ b, ∀ t l c, s.want t = some (l, c) → rank l ≤ b

theorem inv_reach {max : Nat} {rank : L → Nat} {nest : Bool} {back : RSt L → Nat → L → Prop} {s : RSt L} (h : RReach max (Rule rank nest) back s) : Inv rank nest s := by
  induction h with
  | init => exact ⟨fun t l c e => (by cases e), 0, fun t l c e => (by cases e)⟩
  | @step s s' _ st ih =>
    cases st with
    | ask t l c hw hr =>
      constructor
      · intro u l' c' e
        by_cases q : u = t
        · subst q
          simp only [Function.update_self, Option.some.injEq, Prod.mk.injEq] at e
          obtain ⟨rfl, rfl⟩ := e
          exact hr
        · simp only [Function.update_of_ne q] at e
          exact ih.order u l' c' e
      · obtain ⟨b, hb⟩ := ih.bound
        refine ⟨Nat.max b (rank l), fun u l' c' e => ?_⟩
        by_cases q : u = t
        · subst q
          simp only [Function.update_self, Option.some.injEq, Prod.mk.injEq] at e
          obtain ⟨rfl, rfl⟩ := e
          exact Nat.le_max_right _ _
        · simp only [Function.update_of_ne q] at e
          exact Nat.le_trans (hb u l' c' e) (Nat.le_max_left _ _)
    | take t l c x r hw hb hx =>
      constructor
      · intro u l' c' e hc l2 hh
        have q : u ≠ t := by
          rintro rfl
          simp at e
        simp only [Function.update_of_ne q] at e
        refine ih.order u l' c' e hc l2 ?_
        simp only [Holds] at hh ⊢
        by_cases q2 : l2 = l
        · subst q2
          rw [Function.update_self] at hh
          exact holds_other hx q hh
        · rwa [Function.update_of_ne q2] at hh
      · obtain ⟨b, hb⟩ := ih.bound
        refine ⟨b, fun u l' c' e => ?_⟩
        have q : u ≠ t := by
          rintro rfl
          simp at e
        simp only [Function.update_of_ne q] at e
        exact hb u l' c' e

omit [DecidableEq L] in
/-- What a thread waits for that cannot go on. -/
theorem none_cases {max : Nat} {x : Rw} {t : Nat} {c : RCall} (h : rwStep max x t c = none) :
    (c = .wlock ∨ c = .rlock) ∧ x.writer ≠ some t ∧ ((∃ u, x.writer = some u) ∨ (c = .wlock ∧ x.writer = none ∧ ∃ u, u ∈ x.readers)) := by
  cases c with
  | wlock =>
    simp only [rwStep] at h
    split_ifs at h with h1 h2
    refine ⟨.inl rfl, h1, ?_⟩
    cases hw : x.writer with
    | some u => exact .inl ⟨u, rfl⟩
    | none =>
      refine .inr ⟨rfl, rfl, ?_⟩
      cases hr : x.readers with
      | nil => exact absurd ⟨hw, hr⟩ h2
      | cons a l => exact ⟨a, List.mem_cons_self⟩
  | rlock =>
    simp only [rwStep] at h
    split_ifs at h with h1 h2
    refine ⟨.inr rfl, h1, .inl ?_⟩
    cases hw : x.writer with
    | some u => exact ⟨u, rfl⟩
    | none => exact absurd hw h2
  | trywlock => simp only [rwStep] at h; split_ifs at h
  | tryrlock => simp only [rwStep] at h; split_ifs at h
  | unlock => simp only [rwStep] at h; split_ifs at h

omit [DecidableEq L] in
/-- A thread that waits for a lock waits for one that has it, and which, if it is blocked itself, wants a later one; or for a writer that can go on. -/
theorem next {max : Nat} {rank : L → Nat} {nest : Bool} {back : RSt L → Nat → L → Prop} {s : RSt L} (h : Inv rank nest s) (hp : Policy nest back) {t : Nat} {l : L} {c : RCall} (hb : Blocked max back s t l c) :
    ∃ u, WaitsFor max back s t u ∧ ∀ l2 c2, Blocked max back s u l2 c2 → rank l < rank l2 := by
  by_cases hn : rwStep max (s.lock l) t c = none
  · obtain ⟨hc, ht, hu⟩ := none_cases hn
    rcases hu with ⟨u, hu⟩ | ⟨rfl, hw, u, hu⟩
    · have hut : u ≠ t := fun e => ht (by rw [hu, e])
      refine ⟨u, ⟨l, c, hb, hut, .inl (.inl hu)⟩, fun l2 c2 hb2 => ?_⟩
      have hc2 : c2 = .wlock ∨ c2 = .rlock := by
        rcases hb2.2 with ⟨e, _⟩ | e
        · exact .inr e
        · exact (none_cases e).1
      rcases h.order u l2 c2 hb2.1 hc2 l (.inl hu) with hlt | ⟨hne, rfl, rfl⟩
      · exact hlt
      · -- the writer itself is not blocked by its lock
        rcases hb2.2 with ⟨_, e⟩ | e
        · have := (hp s u l e).1
          rw [hne] at this; cases this
        · exact absurd hu (none_cases e).2.1
    · have hut : u ≠ t := by
        rintro rfl
        rcases h.order u l .wlock hb.1 (.inl rfl) l (.inr hu) with hlt | ⟨_, e, _⟩
        · exact absurd hlt (Nat.lt_irrefl _)
        · cases e
      refine ⟨u, ⟨l, .wlock, hb, hut, .inl (.inr hu)⟩, fun l2 c2 hb2 => ?_⟩
      have hc2 : c2 = .wlock ∨ c2 = .rlock := by
        rcases hb2.2 with ⟨e, _⟩ | e
        · exact .inr e
        · exact (none_cases e).1
      rcases h.order u l2 c2 hb2.1 hc2 l (.inr hu) with hlt | ⟨hne, rfl, rfl⟩
      · exact hlt
      · rcases hb2.2 with ⟨_, e⟩ | e
        · have := (hp s u l e).1
          rw [hne] at this; cases this
        · rcases (none_cases e).2.2 with ⟨v, hv⟩ | ⟨e, _⟩
          · rw [hw] at hv; cases hv
          · cases e
  · obtain ⟨rfl, hbk⟩ := hb.2.resolve_right hn
    obtain ⟨hne, u, hut, hu⟩ := hp s t l hbk
    by_cases hw : rwStep max (s.lock l) u .wlock = none
    · -- somebody else has the lock
      obtain ⟨_, huw, hx⟩ := none_cases hw
      have key : ∀ v, Holds s v l → ∃ v, WaitsFor max back s t v ∧ ∀ l2 c2, Blocked max back s v l2 c2 → rank l < rank l2 := by
        intro v hv
        have hvt : v ≠ t := by
          rintro rfl
          rcases h.order v l .rlock hb.1 (.inr rfl) l hv with hlt | ⟨e, _⟩
          · exact absurd hlt (Nat.lt_irrefl _)
          · rw [hne] at e; cases e
        refine ⟨v, ⟨l, .rlock, hb, hvt, .inl hv⟩, fun l2 c2 hb2 => ?_⟩
        have hc2 : c2 = .wlock ∨ c2 = .rlock := by
          rcases hb2.2 with ⟨e, _⟩ | e
          · exact .inr e
          · exact (none_cases e).1
        rcases h.order v l2 c2 hb2.1 hc2 l hv with hlt | ⟨e, _⟩
        · exact hlt
        · rw [hne] at e; cases e
      rcases hx with ⟨v, hv⟩ | ⟨_, _, v, hv⟩
      · exact key v (.inl hv)
      · exact key v (.inr hv)
    · -- the writer can go on
      refine ⟨u, ⟨l, .rlock, hb, hut, .inr ⟨rfl, hbk, hu⟩⟩, fun l2 c2 hb2 => ?_⟩
      have e := hb2.1
      rw [hu] at e
      cases e
      rcases hb2.2 with ⟨e, _⟩ | e
      · cases e
      · exact absurd e hw

/-! ### Theorems -/

/-- C184: a thread that waits for a lock waits - perhaps through other threads that wait - for a thread that does not wait. -/
theorem C184_goes_on {max : Nat} {rank : L → Nat} {nest : Bool} {back : RSt L → Nat → L → Prop} {s : RSt L} (h : RReach max (Rule rank nest) back s) (hp : Policy nest back) {t : Nat} {l : L} {c : RCall}
    (hb : Blocked max back s t l c) : ∃ u, Relation.TransGen (WaitsFor max back s) t u ∧ ∀ l' c', ¬ Blocked max back s u l' c' := by
  have hI := inv_reach h
  obtain ⟨b, hbd⟩ := hI.bound
  obtain ⟨k, hk⟩ : ∃ k, k = b - rank l := ⟨_, rfl⟩
  induction k using Nat.strongRecOn generalizing t l c with
  | ind k ih =>
    obtain ⟨u, hw, hu⟩ := next hI hp hb
    by_cases q : ∃ l' c', Blocked max back s u l' c'
    · obtain ⟨l', c', hb'⟩ := q
      have h1 := hu l' c' hb'
      have h2 := hbd u l' c' hb'.1
      obtain ⟨v, hv, hn⟩ := ih (b - rank l') (by omega) hb' rfl
      exact ⟨v, .head hw hv, hn⟩
    · exact ⟨u, .single hw, fun l' c' hb' => q ⟨l', c', hb'⟩⟩

/-- The locks prefer readers, as those of glibc made as in `RWLock::RWLock` (`Threads.cpp:191-198`) do: nobody is held back. -/
def readersFirst : RSt L → Nat → L → Prop := fun _ _ _ => False

/-- The locks prefer writers: readers are held back while another thread waits to write. -/
def writersFirst : RSt L → Nat → L → Prop := fun s t l => ∃ u, u ≠ t ∧ s.want u = some (l, .wlock)

example : Policy true (readersFirst (L := L)) ∧ Policy false (writersFirst (L := L)) := ⟨fun _ _ _ h => h.elim, fun _ _ _ h => ⟨rfl, h⟩⟩

/-- Locks taken in opposite orders: two threads that read one lock each and want to write the other wait for each other. -/
theorem C184_order_needed : ∃ s : RSt Bool, RReach 10 (fun _ _ _ _ => True) readersFirst s ∧ WaitsFor 10 readersFirst s 0 1 ∧ WaitsFor 10 readersFirst s 1 0 := by
  have s0 := RReach.init (L := Bool) (max := 10) (rule := fun _ _ _ _ => True) (back := readersFirst)
  have s1 := s0.step (.ask _ 0 false .rlock rfl trivial)
  have s2 := s1.step (.take _ 0 false .rlock _ _ rfl (fun _ h => h) rfl)
  have s3 := s2.step (.ask _ 1 true .rlock rfl trivial)
  have s4 := s3.step (.take _ 1 true .rlock _ _ rfl (fun _ h => h) rfl)
  have s5 := s4.step (.ask _ 0 true .wlock rfl trivial)
  have s6 := s5.step (.ask _ 1 false .wlock rfl trivial)
  exact ⟨_, s6, ⟨true, .wlock, ⟨rfl, .inr rfl⟩, by decide, .inl (.inr (by decide))⟩, ⟨false, .wlock, ⟨rfl, .inr rfl⟩, by decide, .inl (.inr (by decide))⟩⟩

/-- Nested reading is safe only with locks that prefer readers: with locks that prefer writers, a thread that reads, and wants to read the same lock again, and a thread that wants to write it wait for each other. -/
theorem C184_nested_needed : ∃ s : RSt Unit, RReach 10 (Rule (fun _ => 0) true) writersFirst s ∧ WaitsFor 10 writersFirst s 0 1 ∧ WaitsFor 10 writersFirst s 1 0 := by
  have s0 := RReach.init (L := Unit) (max := 10) (rule := Rule (fun _ => 0) true) (back := writersFirst)
  have s1 := s0.step (.ask _ 0 () .rlock rfl fun _ _ _ => .inr ⟨rfl, rfl, rfl⟩)
  have s2 := s1.step (.take _ 0 () .rlock _ _ rfl (by rintro _ ⟨u, hu, h⟩; simp [Function.update_of_ne hu] at h) rfl)
  have s3 := s2.step (.ask _ 1 () .wlock rfl fun _ l' h => by
    cases l'
    rcases h with h | h
    · cases h
    · exact absurd h (by decide))
  have s4 := s3.step (.ask _ 0 () .rlock rfl fun _ _ _ => .inr ⟨rfl, rfl, rfl⟩)
  exact ⟨_, s4, ⟨(), .rlock, ⟨rfl, .inl ⟨rfl, 1, by decide, rfl⟩⟩, by decide, .inr ⟨rfl, ⟨1, by decide, rfl⟩, rfl⟩⟩, ⟨(), .wlock, ⟨rfl, .inr rfl⟩, by decide, .inl (.inr (by decide))⟩⟩

/-- A chain in an orderly program, with nested reading: thread 2 waits to read what thread 1 writes, which waits to write what thread 0 reads twice; thread 0 is outside of calls. -/
example : ∃ s : RSt Bool, RReach 10 (Rule Bool.toNat true) readersFirst s ∧ WaitsFor 10 readersFirst s 2 1 ∧ WaitsFor 10 readersFirst s 1 0 ∧ s.want 0 = none ∧ (s.lock true).readers = [0, 0] := by
  have s0 := RReach.init (L := Bool) (max := 10) (rule := Rule Bool.toNat true) (back := readersFirst)
  have s1 := s0.step (.ask _ 0 true .rlock rfl fun _ l' h => by rcases h with h | h <;> cases h)
  have s2 := s1.step (.take _ 0 true .rlock _ _ rfl (fun _ h => h) rfl)
  have s3 := s2.step (.ask _ 0 true .rlock rfl fun _ l' h => by
    cases l'
    · rcases h with h | h <;> cases h
    · exact .inr ⟨rfl, rfl, rfl⟩)
  have s4 := s3.step (.take _ 0 true .rlock _ _ rfl (fun _ h => h) rfl)
  have s5 := s4.step (.ask _ 1 false .wlock rfl fun _ l' h => by
    cases l'
    · rcases h with h | h <;> cases h
    · rcases h with h | h
      · cases h
      · exact absurd h (by decide))
  have s6 := s5.step (.take _ 1 false .wlock _ _ rfl (fun _ h => h) rfl)
  have s7 := s6.step (.ask _ 1 true .wlock rfl fun _ l' h => by
    cases l'
    · exact .inl (by decide)
    · rcases h with h | h
      · cases h
      · exact absurd h (by decide))
  have s8 := s7.step (.ask _ 2 false .rlock rfl fun _ l' h => by
    cases l'
    · rcases h with h | h
      · exact absurd h (by decide)
      · cases h
    · rcases h with h | h
      · cases h
      · exact absurd h (by decide))
  exact ⟨_, s8, ⟨false, .rlock, ⟨rfl, .inr rfl⟩, by decide, .inl (.inl rfl)⟩, ⟨true, .wlock, ⟨rfl, .inr rfl⟩, by decide, .inl (.inr (by decide))⟩, rfl, rfl⟩

end Verif.Threads.RwOrder
