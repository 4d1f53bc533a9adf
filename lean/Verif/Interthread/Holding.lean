import Verif.Core.Outcome

/-
Property C155: calls of an `InterthreadQueue` by a thread that has locked it with `qGetLock()` (`Interthread.h:134-135`).
-/

namespace Verif.Interthread.Holding
open Verif

/-! ### Model -/

/-- The calls, of a queue that is not connected and whose items are not `NULL`: `write`, `write_front`, `readNoBlock`, `front`, `size`, `flushNoDelete` (`Interthread.h:289-321,258-262,207-211,196-200`), `read()` (`246-255`), and `read(timeout)` (`269-283`) with the time from which `remaining()` is below 2. -/
inductive Op where
  | write (x : Nat)
  | writeFront (x : Nat)
  | readNoBlock
  | front
  | size
  | flush
  | read
  | readUntil (d : Nat)
  deriving DecidableEq, Repr

/-- What a call does to the queue and returns (0 is `NULL`); none if it has to wait. -/
def Op.act (q : List Nat) (now : Nat) : Op → Option (List Nat × Nat)
  | .write x => some (q ++ [x], 0)
  | .writeFront x => some (x :: q, 0)
  | .readNoBlock => some (q.tail, q.headD 0)
  | .front => some (q, q.headD 0)
  | .size => some (q, q.length)
  | .flush => some ([], 0)
  | .read => match q with
    | [] => none
    | x :: r => some (r, x)
  | .readUntil d => match q with
    | [] => if d ≤ now then some ([], 0) else none
    | x :: r => some (r, x)

/-- Where a thread is: not in a call; in `mLockPointer->lock()`; after it; in `pthread_cond_wait` or `pthread_cond_timedwait`, which have given back the mutex once (`Threads.h:252`, `Threads.cpp:276`); after them, but without the
mutex yet. -/
inductive Pc where
  | idle
  | acquire (o : Op)
  | body (o : Op)
  | wait (o : Op)
  | woken (o : Op)
  deriving DecidableEq, Repr

/-- `mQ`; the clock; `mLock`, a recursive mutex (`Threads.cpp:89-101`), with its owner and how often it is locked; how often each thread has locked it itself.  Only for the statements: the calls in the order in which they took
effect, with thread and result. -/
structure St where
  q : List Nat := []
  now : Nat := 0
  owner : Option Nat := none
  count : Nat := 0
  held : Nat → Nat := fun _ => 0
  pc : Nat → Pc := fun _ => .idle
  log : List (Nat × Op × Nat) := []

/-- A thread locks or unlocks the mutex of `qGetLock()`, calls, goes one step further, or is woken, be it by a signal, the end of the time or for no reason; time passes. -/
inductive Ev where
  | lock (t : Nat)
  | unlock (t : Nat)
  | call (t : Nat) (o : Op)
  | run (t : Nat)
  | wake (t : Nat)
  | tick (n : Nat)

def set {α : Type} (f : Nat → α) (t : Nat) (x : α) : Nat → α := fun u => if u = t then x else f u

/-- `pthread_mutex_lock` on a recursive mutex. -/
def St.take (s : St) (t : Nat) : Option St :=
  if s.owner = none ∨ s.owner = some t then some { s with owner := some t, count := s.count + 1 } else none

/-- `pthread_mutex_unlock`, and what `pthread_cond_wait` does to the mutex: it is given back once, not as often as it was locked. -/
def St.give (s : St) : St := { s with owner := if s.count ≤ 1 then none else s.owner, count := s.count - 1 }

/-- A step of a call. -/
def St.run (s : St) (t : Nat) : Option St :=
  match s.pc t with
  | .acquire o => (s.take t).map fun s' => { s' with pc := set s.pc t (.body o) }
  | .woken o => (s.take t).map fun s' => { s' with pc := set s.pc t (.body o) }
  | .body o => match o.act s.q s.now with
    | some (q, r) => some { s.give with q := q, log := s.log ++ [(t, o, r)], pc := set s.pc t .idle }
    | none => some { s.give with pc := set s.pc t (.wait o) }
  | _ => none

def St.ev (s : St) : Ev → Option St
  | .lock t => if s.pc t = .idle then (s.take t).map fun s' => { s' with held := set s.held t (s.held t + 1) } else none
  | .unlock t => if s.pc t = .idle ∧ 0 < s.held t then some { s.give with held := set s.held t (s.held t - 1) } else none
  | .call t o => if s.pc t = .idle then some { s with pc := set s.pc t (.acquire o) } else none
  | .run t => s.run t
  | .wake t => match s.pc t with
    | .wait o => some { s with pc := set s.pc t (.woken o) }
    | _ => none
  | .tick n => some { s with now := s.now + n }

def exec (s : St) : List Ev → Option St
  | [] => some s
  | e :: es => (s.ev e).bind fun s' => exec s' es

/-! ### Specification -/

/-- The results are those of a queue that nobody else uses. -/
inductive Private : List Nat → List (Nat × Op × Nat) → List Nat → Prop
  | nil (q : List Nat) : Private q [] q
  | write {q t x l q'} : Private (q ++ [x]) l q' → Private q ((t, .write x, 0) :: l) q'
  | writeFront {q t x l q'} : Private (x :: q) l q' → Private q ((t, .writeFront x, 0) :: l) q'
  | noBlock {q t x l q'} : Private q l q' → Private (x :: q) ((t, .readNoBlock, x) :: l) q'
  | noBlockEmpty {t l q'} : Private [] l q' → Private [] ((t, .readNoBlock, 0) :: l) q'
  | front {q t x l q'} : Private (x :: q) l q' → Private (x :: q) ((t, .front, x) :: l) q'
  | frontEmpty {t l q'} : Private [] l q' → Private [] ((t, .front, 0) :: l) q'
  | size {q t l q'} : Private q l q' → Private q ((t, .size, q.length) :: l) q'
  | flush {q t l q'} : Private [] l q' → Private q ((t, .flush, 0) :: l) q'
  | read {q t x l q'} : Private q l q' → Private (x :: q) ((t, .read, x) :: l) q'
  | until {q t x d l q'} : Private q l q' → Private (x :: q) ((t, .readUntil d, x) :: l) q'
  | untilEmpty {t d l q'} : Private [] l q' → Private [] ((t, .readUntil d, 0) :: l) q'

/-! ### Invariant -/

def Pc.inside : Pc → Nat
  | .body _ => 1
  | _ => 0

structure Inv (s : St) : Prop where
  own : ∀ t, s.owner = some t → s.count = s.held t + (s.pc t).inside ∧ 0 < s.count
  other : ∀ t, s.owner ≠ some t → s.held t = 0 ∧ (s.pc t).inside = 0

theorem take_some {s s' : St} {t : Nat} (h : s.take t = some s') : (s.owner = none ∨ s.owner = some t) ∧ s' = { s with owner := some t, count := s.count + 1 } := by
  unfold St.take at h
  split at h
  · rename_i hc; cases h; exact ⟨hc, rfl⟩
  · cases h

/-- A thread that takes the mutex, for itself or for a call. -/
theorem take_inv {s : St} (h : Inv s) {t : Nat} (ho : s.owner = none ∨ s.owner = some t) (hf : s.owner = none → s.count = 0) (held : Nat → Nat) (pc : Nat → Pc)
    (h1 : held t + (pc t).inside = s.held t + (s.pc t).inside + 1) (h2 : ∀ u, u ≠ t → held u = s.held u ∧ (pc u).inside = (s.pc u).inside) :
    Inv { s with owner := some t, count := s.count + 1, held := held, pc := pc } := by
  refine ⟨fun u hu => ?_, fun u hu => ?_⟩
  · cases hu
    refine ⟨?_, Nat.succ_pos _⟩
    show s.count + 1 = held t + (pc t).inside
    rcases ho with ho | ho
    · have := h.other t (by rw [ho]; simp)
      have := hf ho
      omega
    · have := (h.own t ho).1
      omega
  · have hut : u ≠ t := fun e => hu (by rw [e])
    show held u = 0 ∧ (pc u).inside = 0
    rw [(h2 u hut).1, (h2 u hut).2]
    refine h.other u fun e => ?_
    rcases ho with ho | ho
    · rw [ho] at e; cases e
    · rw [ho] at e; exact hut (Option.some.inj e).symm

/-- A thread that gives the mutex back, itself or at the end of a call. -/
theorem give_inv {s : St} (h : Inv s) {t : Nat} (ho : s.owner = some t) (q : List Nat) (log : List (Nat × Op × Nat)) (held : Nat → Nat) (pc : Nat → Pc)
    (h1 : held t + (pc t).inside + 1 = s.held t + (s.pc t).inside) (h2 : ∀ u, u ≠ t → held u = s.held u ∧ (pc u).inside = (s.pc u).inside) :
    Inv { s.give with q := q, log := log, held := held, pc := pc } := by
  have hc := (h.own t ho).1
  refine ⟨fun u hu => ?_, fun u hu => ?_⟩
  · simp only [St.give] at hu ⊢
    split at hu
    · cases hu
    · rw [ho] at hu
      cases hu
      constructor <;> omega
  · simp only [St.give] at hu ⊢
    by_cases hut : u = t
    · subst hut
      split at hu
      · constructor <;> omega
      · exact absurd ho hu
    · show held u = 0 ∧ (pc u).inside = 0
      rw [(h2 u hut).1, (h2 u hut).2]
      refine h.other u fun e => hut ?_
      rw [ho] at e
      exact (Option.some.inj e).symm

structure Good (s : St) : Prop where
  inv : Inv s
  free : s.owner = none → s.count = 0

theorem set_same {α : Type} (f : Nat → α) (t : Nat) (x : α) : set f t x t = x := if_pos rfl
theorem set_ne {α : Type} (f : Nat → α) {t u : Nat} (x : α) (h : u ≠ t) : set f t x u = f u := if_neg h

/-- Only the place of a thread changes, outside of the lock. -/
theorem local_inv {s : St} (h : Inv s) (t : Nat) (p : Pc) (hp : p.inside = 0) (hs : (s.pc t).inside = 0) : Inv { s with pc := set s.pc t p } := by
  have key : ∀ u, (set s.pc t p u).inside = (s.pc u).inside := by
    intro u
    by_cases hut : u = t
    · rw [hut, set_same, hp, hs]
    · rw [set_ne _ _ hut]
  refine ⟨fun u hu => ?_, fun u hu => ?_⟩
  · show s.count = s.held u + (set s.pc t p u).inside ∧ _
    rw [key]; exact h.own u hu
  · show s.held u = 0 ∧ (set s.pc t p u).inside = 0
    rw [key]; exact h.other u hu

theorem owner_of_body {s : St} (h : Inv s) {t : Nat} {o : Op} (hp : s.pc t = .body o) : s.owner = some t := by
  refine Classical.byContradiction fun hn => ?_
  have := (h.other t hn).2
  rw [hp] at this
  cases this

theorem owner_of_held {s : St} (h : Inv s) {t : Nat} (hp : 0 < s.held t) : s.owner = some t := by
  refine Classical.byContradiction fun hn => ?_
  have := (h.other t hn).1
  omega

theorem give_free {s : St} (h : Good s) : s.give.owner = none → s.give.count = 0 := by
  intro hn
  simp only [St.give] at hn ⊢
  split at hn
  · omega
  · have := h.free hn; omega

theorem ev_good {s s' : St} {e : Ev} (h : Good s) (he : s.ev e = some s') : Good s' := by
  cases e with
  | lock t =>
    simp only [St.ev] at he
    split at he
    · simp only [Option.map_eq_some_iff] at he
      obtain ⟨s1, h1, rfl⟩ := he
      obtain ⟨ho, rfl⟩ := take_some h1
      exact ⟨take_inv h.inv ho h.free _ _ (by rw [set_same]; show s.held t + 1 + (s.pc t).inside = _; omega) (fun u hu => ⟨set_ne _ _ hu, rfl⟩), fun hn => (nomatch hn)⟩
    · cases he
  | unlock t =>
    simp only [St.ev] at he
    split at he
    · rename_i hc
      cases he
      exact ⟨give_inv h.inv (owner_of_held h.inv hc.2) _ _ _ _ (by rw [set_same]; show _ - 1 + (s.pc t).inside + 1 = _; omega) (fun u hu => ⟨set_ne _ _ hu, rfl⟩), give_free h⟩
    · cases he
  | call t o =>
    simp only [St.ev] at he
    split at he
    · rename_i hc
      cases he
      exact ⟨local_inv h.inv t _ rfl (by rw [hc]; rfl), h.free⟩
    · cases he
  | wake t =>
    simp only [St.ev] at he
    split at he
    · rename_i o hc
      cases he
      exact ⟨local_inv h.inv t _ rfl (by rw [hc]; rfl), h.free⟩
    · cases he
  | tick n => cases he; exact ⟨⟨h.inv.own, h.inv.other⟩, h.free⟩
  | run t =>
    simp only [St.ev, St.run] at he
    split at he
    · rename_i o hc
      simp only [Option.map_eq_some_iff] at he
      obtain ⟨s1, h1, rfl⟩ := he
      obtain ⟨ho, rfl⟩ := take_some h1
      exact ⟨take_inv h.inv ho h.free _ _ (by rw [set_same, hc]; rfl) (fun u hu => ⟨rfl, by rw [set_ne _ _ hu]⟩), fun hn => (nomatch hn)⟩
    · rename_i o hc
      simp only [Option.map_eq_some_iff] at he
      obtain ⟨s1, h1, rfl⟩ := he
      obtain ⟨ho, rfl⟩ := take_some h1
      exact ⟨take_inv h.inv ho h.free _ _ (by rw [set_same, hc]; rfl) (fun u hu => ⟨rfl, by rw [set_ne _ _ hu]⟩), fun hn => (nomatch hn)⟩
    · rename_i o hc
      have ho := owner_of_body h.inv hc
      split at he
      · cases he
        exact ⟨give_inv h.inv ho _ _ _ _ (by rw [set_same, hc]; rfl) (fun u hu => ⟨rfl, by rw [set_ne _ _ hu]⟩), give_free h⟩
      · cases he
        exact ⟨give_inv h.inv ho _ _ _ _ (by rw [set_same, hc]; rfl) (fun u hu => ⟨rfl, by rw [set_ne _ _ hu]⟩), give_free h⟩
    · cases he

theorem good_start : Good {} := ⟨⟨fun _ h => (nomatch h), fun _ _ => ⟨rfl, rfl⟩⟩, fun _ => rfl⟩

theorem exec_good {s s' : St} {es : List Ev} (h : Good s) (he : exec s es = some s') : Good s' := by
  induction es generalizing s with
  | nil => cases he; exact h
  | cons e es ih =>
    simp only [exec] at he
    obtain ⟨s1, h1, h2⟩ := Option.bind_eq_some_iff.1 he
    exact ih (ev_good h h1) h2

/-- What a call does is what it would do alone. -/
theorem act_private {q q' : List Nat} {now r : Nat} {o : Op} (h : o.act q now = some (q', r)) (t : Nat) {l : List (Nat × Op × Nat)} {q'' : List Nat} (hp : Private q' l q'') : Private q ((t, o, r) :: l) q'' := by
  cases o with
  | write x => cases h; exact .write hp
  | writeFront x => cases h; exact .writeFront hp
  | readNoBlock => cases q <;> cases h <;> first | exact .noBlockEmpty hp | exact .noBlock hp
  | front => cases q <;> cases h <;> first | exact .frontEmpty hp | exact .front hp
  | size => cases h; exact .size hp
  | flush => cases h; exact .flush hp
  | read => cases q with
    | nil => cases h
    | cons x r => cases h; exact .read hp
  | readUntil d => cases q with
    | nil =>
      simp only [Op.act] at h
      split at h
      · cases h; exact .untilEmpty hp
      · cases h
    | cons x r => cases h; exact .until hp

/-- One event while thread `t` has locked the queue itself and does not unlock it. -/
theorem ev_held {s s' : St} {e : Ev} {t : Nat} (h : Good s) (ht : 0 < s.held t) (he : s.ev e = some s') (hu : e ≠ .unlock t) :
    0 < s'.held t ∧ ((s'.log = s.log ∧ s'.q = s.q) ∨ ∃ o r, s.pc t = .body o ∧ o.act s.q s.now = some (s'.q, r) ∧ s'.log = s.log ++ [(t, o, r)] ∧ s'.pc t = .idle) := by
  have own := owner_of_held h.inv ht
  cases e with
  | lock u =>
    simp only [St.ev] at he
    split at he
    · simp only [Option.map_eq_some_iff] at he
      obtain ⟨s1, h1, rfl⟩ := he
      obtain ⟨ho, rfl⟩ := take_some h1
      refine ⟨?_, .inl ⟨rfl, rfl⟩⟩
      show 0 < set s.held u (s.held u + 1) t
      simp only [set]
      split <;> omega
    · cases he
  | unlock u =>
    simp only [St.ev] at he
    split at he
    · cases he
      have hne : t ≠ u := fun e => hu (by rw [e])
      refine ⟨?_, .inl ⟨rfl, rfl⟩⟩
      show 0 < set s.held u (s.held u - 1) t
      rw [set_ne _ _ hne]; exact ht
    · cases he
  | call u o =>
    simp only [St.ev] at he
    split at he
    · cases he; exact ⟨ht, .inl ⟨rfl, rfl⟩⟩
    · cases he
  | wake u =>
    simp only [St.ev] at he
    split at he
    · cases he; exact ⟨ht, .inl ⟨rfl, rfl⟩⟩
    · cases he
  | tick n => cases he; exact ⟨ht, .inl ⟨rfl, rfl⟩⟩
  | run u =>
    simp only [St.ev, St.run] at he
    split at he
    · simp only [Option.map_eq_some_iff] at he
      obtain ⟨s1, h1, rfl⟩ := he
      obtain ⟨ho, rfl⟩ := take_some h1
      exact ⟨ht, .inl ⟨rfl, rfl⟩⟩
    · simp only [Option.map_eq_some_iff] at he
      obtain ⟨s1, h1, rfl⟩ := he
      obtain ⟨ho, rfl⟩ := take_some h1
      exact ⟨ht, .inl ⟨rfl, rfl⟩⟩
    · rename_i o hc
      have hut : t = u := by
        have := owner_of_body h.inv hc
        rw [own] at this
        exact Option.some.inj this
      subst hut
      split at he
      · rename_i q r ha
        cases he
        exact ⟨ht, .inr ⟨o, r, hc, ha, rfl, set_same ..⟩⟩
      · cases he
        exact ⟨ht, .inl ⟨rfl, rfl⟩⟩
    · cases he

/-! ### C155 -/

/-- C155: from when a thread has locked the queue with `qGetLock()` until it unlocks it, only its own calls take effect, and they have the results of a queue that nobody else uses. -/
theorem C155_private (es₀ es : List Ev) (s s' : St) (t : Nat) (h₀ : exec {} es₀ = some s) (ht : 0 < s.held t) (h : exec s es = some s') (hu : ∀ e ∈ es, e ≠ .unlock t) :
    ∃ l, s'.log = s.log ++ l ∧ (∀ x ∈ l, x.1 = t) ∧ Private s.q l s'.q := by
  have hg := exec_good good_start h₀
  clear h₀
  induction es generalizing s with
  | nil => cases h; exact ⟨[], by simp, by simp, .nil _⟩
  | cons e es ih =>
    simp only [exec] at h
    obtain ⟨s1, h1, h2⟩ := Option.bind_eq_some_iff.1 h
    obtain ⟨ht1, hv⟩ := ev_held hg ht h1 (hu e (by simp))
    obtain ⟨l, hl, hlt, hp⟩ := ih s1 ht1 h2 (fun e' he' => hu e' (List.mem_cons_of_mem _ he')) (ev_good hg h1)
    rcases hv with ⟨e1, e2⟩ | ⟨o, r, -, ha, e1, -⟩
    · exact ⟨l, by rw [hl, e1], hlt, by rw [← e2]; exact hp⟩
    · refine ⟨(t, o, r) :: l, by rw [hl, e1]; simp, ?_, act_private ha t hp⟩
      intro x hx
      rcases List.mem_cons.1 hx with rfl | hx
      · rfl
      · exact hlt x hx

/-- The call a thread is in. -/
def Pc.op : Pc → Option Op
  | .idle => none
  | .acquire o => some o
  | .body o => some o
  | .wait o => some o
  | .woken o => some o

/-- A call stays what it is until it takes effect. -/
theorem ev_op {s s' : St} {e : Ev} {t : Nat} {o : Op} (ho : (s.pc t).op = some o) (he : s.ev e = some s') :
    (s'.pc t).op = some o ∨ (∃ q r, o.act s.q s.now = some (q, r) ∧ s'.log = s.log ++ [(t, o, r)]) := by
  have key : ∀ (u : Nat) (p : Pc), (u = t → p.op = some o) → (set s.pc u p t).op = some o := by
    intro u p hp
    by_cases hut : t = u
    · rw [hut, set_same]; exact hp hut.symm
    · rw [set_ne _ _ hut]; exact ho
  cases e with
  | lock u =>
    simp only [St.ev] at he
    split at he
    · simp only [Option.map_eq_some_iff] at he
      obtain ⟨s1, h1, rfl⟩ := he
      obtain ⟨-, rfl⟩ := take_some h1
      exact .inl ho
    · cases he
  | unlock u =>
    simp only [St.ev] at he
    split at he
    · cases he; exact .inl ho
    · cases he
  | call u o' =>
    simp only [St.ev] at he
    split at he
    · rename_i hc
      cases he
      refine .inl (key u _ fun hut => ?_)
      subst hut
      rw [hc] at ho
      cases ho
    · cases he
  | wake u =>
    simp only [St.ev] at he
    split at he
    · rename_i o' hc
      cases he
      refine .inl (key u _ fun hut => ?_)
      subst hut
      rw [hc] at ho
      exact ho
    · cases he
  | tick n => cases he; exact .inl ho
  | run u =>
    simp only [St.ev, St.run] at he
    split at he
    · rename_i o' hc
      simp only [Option.map_eq_some_iff] at he
      obtain ⟨s1, h1, rfl⟩ := he
      refine .inl (key u _ fun hut => ?_)
      subst hut
      rw [hc] at ho
      exact ho
    · rename_i o' hc
      simp only [Option.map_eq_some_iff] at he
      obtain ⟨s1, h1, rfl⟩ := he
      refine .inl (key u _ fun hut => ?_)
      subst hut
      rw [hc] at ho
      exact ho
    · rename_i o' hc
      split at he
      · rename_i q r ha
        cases he
        by_cases hut : u = t
        · subst hut
          rw [hc] at ho
          cases ho
          exact .inr ⟨q, r, ha, rfl⟩
        · exact .inl (key u _ fun h => absurd h hut)
      · cases he
        refine .inl (key u _ fun hut => ?_)
        subst hut
        rw [hc] at ho
        exact ho
    · cases he

/-- Nothing is unlocked by a thread that is in a call. -/
theorem no_unlock {s s' : St} {e : Ev} {t : Nat} {o : Op} (ho : (s.pc t).op = some o) (he : s.ev e = some s') : e ≠ .unlock t := by
  rintro rfl
  simp only [St.ev] at he
  split at he
  · rename_i hc
    rw [hc.1] at ho
    cases ho
  · cases he

/-- C155 (negation): a thread that has locked the queue and calls `read()` when it is empty never comes back, whatever other threads do and however it is woken: waiting gives the mutex back once only, so no call of any thread on
this queue takes effect any more. -/
theorem C155_read_refuted (es₀ es : List Ev) (s s' : St) (t : Nat) (h₀ : exec {} es₀ = some s) (ht : 0 < s.held t) (hq : s.q = []) (hr : (s.pc t).op = some .read) (h : exec s es = some s') :
    (s'.pc t).op = some .read ∧ s'.q = [] ∧ s'.log = s.log := by
  have hg := exec_good good_start h₀
  clear h₀
  induction es generalizing s with
  | nil => cases h; exact ⟨hr, hq, rfl⟩
  | cons e es ih =>
    simp only [exec] at h
    obtain ⟨s1, h1, h2⟩ := Option.bind_eq_some_iff.1 h
    obtain ⟨ht1, hv⟩ := ev_held hg ht h1 (no_unlock hr h1)
    rcases hv with ⟨e1, e2⟩ | ⟨o, r, hb, ha, -, -⟩
    · rcases ev_op hr h1 with ho | ⟨q, r, ha, -⟩
      · obtain ⟨r1, r2, r3⟩ := ih s1 ht1 (e2.trans hq) ho h2 (ev_good hg h1)
        exact ⟨r1, r2, r3.trans e1⟩
      · rw [hq] at ha; cases ha
    · rw [hb] at hr
      cases hr
      rw [hq] at ha; cases ha

/-- C155: with a time limit the call ends; until then no call of another thread takes effect, so a thread that has locked an empty queue always gets `NULL`, and not before the limit. -/
theorem C155_until (es₀ es : List Ev) (s s' : St) (t d : Nat) (h₀ : exec {} es₀ = some s) (ht : 0 < s.held t) (hq : s.q = []) (hr : (s.pc t).op = some (.readUntil d)) (h : exec s es = some s') :
    ((s'.pc t).op = some (.readUntil d) ∧ s'.q = [] ∧ s'.log = s.log) ∨ (d ≤ s'.now ∧ ∃ l, s'.log = s.log ++ (t, .readUntil d, 0) :: l) := by
  have hg := exec_good good_start h₀
  clear h₀
  have later : ∀ (es : List Ev) (s s' : St), exec s es = some s' → s.now ≤ s'.now ∧ ∃ l, s'.log = s.log ++ l := by
    intro es
    induction es with
    | nil => intro s s' h; cases h; exact ⟨Nat.le_refl _, [], by simp⟩
    | cons e es ih =>
      intro s s' h
      simp only [exec] at h
      obtain ⟨s1, h1, h2⟩ := Option.bind_eq_some_iff.1 h
      obtain ⟨a1, l, a2⟩ := ih s1 s' h2
      have : s.now ≤ s1.now ∧ ∃ l, s1.log = s.log ++ l := by
        cases e with
        | tick n => cases h1; exact ⟨Nat.le_add_right .., [], by simp⟩
        | lock u =>
          simp only [St.ev] at h1
          split at h1
          · simp only [Option.map_eq_some_iff] at h1
            obtain ⟨s2, h3, rfl⟩ := h1
            obtain ⟨-, rfl⟩ := take_some h3
            exact ⟨Nat.le_refl _, [], by simp⟩
          · cases h1
        | unlock u =>
          simp only [St.ev] at h1
          split at h1
          · cases h1; exact ⟨Nat.le_refl _, [], by simp [St.give]⟩
          · cases h1
        | call u o =>
          simp only [St.ev] at h1
          split at h1
          · cases h1; exact ⟨Nat.le_refl _, [], by simp⟩
          · cases h1
        | wake u =>
          simp only [St.ev] at h1
          split at h1
          · cases h1; exact ⟨Nat.le_refl _, [], by simp⟩
          · cases h1
        | run u =>
          simp only [St.ev, St.run] at h1
          split at h1
          · simp only [Option.map_eq_some_iff] at h1
            obtain ⟨s2, h3, rfl⟩ := h1
            obtain ⟨-, rfl⟩ := take_some h3
            exact ⟨Nat.le_refl _, [], by simp⟩
          · simp only [Option.map_eq_some_iff] at h1
            obtain ⟨s2, h3, rfl⟩ := h1
            obtain ⟨-, rfl⟩ := take_some h3
            exact ⟨Nat.le_refl _, [], by simp⟩
          · split at h1
            · cases h1; exact ⟨Nat.le_refl _, _, rfl⟩
            · cases h1; exact ⟨Nat.le_refl _, [], by simp [St.give]⟩
          · cases h1
      obtain ⟨b1, l', b2⟩ := this
      exact ⟨Nat.le_trans b1 a1, l' ++ l, by rw [a2, b2, List.append_assoc]⟩
  induction es generalizing s with
  | nil => cases h; exact .inl ⟨hr, hq, rfl⟩
  | cons e es ih =>
    simp only [exec] at h
    obtain ⟨s1, h1, h2⟩ := Option.bind_eq_some_iff.1 h
    obtain ⟨ht1, hv⟩ := ev_held hg ht h1 (no_unlock hr h1)
    have done : ∀ r q, Op.act s.q s.now (.readUntil d) = some (q, r) → d ≤ s.now ∧ r = 0 := by
      intro r q ha
      rw [hq] at ha
      simp only [Op.act] at ha
      split at ha
      · rename_i hd; cases ha; exact ⟨hd, rfl⟩
      · cases ha
    rcases hv with ⟨e1, e2⟩ | ⟨o, r, hb, ha, e1, -⟩
    · rcases ev_op hr h1 with ho | ⟨q, r, -, hl⟩
      · rcases ih s1 ht1 (e2.trans hq) ho h2 (ev_good hg h1) with ⟨r1, r2, r3⟩ | ⟨r1, l, r2⟩
        · exact .inl ⟨r1, r2, r3.trans e1⟩
        · exact .inr ⟨r1, l, by rw [r2, e1]⟩
      · rw [e1] at hl
        simp at hl
    · rw [hb] at hr
      cases hr
      obtain ⟨hd, rfl⟩ := done r _ ha
      obtain ⟨a1, l, a2⟩ := later es s1 s' h2
      have := (later [e] s s1 (by simp [exec, h1])).1
      exact .inr ⟨by omega, l, by rw [a2, e1]; simp⟩

/-! ### Examples -/

/-- A thread that has not locked the queue itself: the writer gets in while it waits, and it is answered. -/
example : (exec {} [.call 0 .read, .run 0, .run 0, .call 1 (.write 7), .run 1, .run 1, .wake 0, .run 0, .run 0]).map (fun s => (s.log, s.q, s.owner)) = some ([(1, .write 7, 0), (0, .read, 7)], [], none) := rfl

/-- With the lock: the writer can be called, but goes no further; thread 0 wakes and waits again. -/
example : ((exec {} [.lock 0, .call 0 .read, .run 0, .run 0, .call 1 (.write 7)]).bind fun s => s.ev (.run 1)).isNone ∧
    (exec {} [.lock 0, .call 0 .read, .run 0, .run 0, .call 1 (.write 7), .wake 0, .run 0, .run 0]).map (fun s => (s.pc 0, s.owner, s.count)) = some (.wait .read, some 0, 1) := ⟨rfl, rfl⟩

/-- A thread takes all it finds in one go; another one that writes meanwhile comes later. -/
example : (exec {} [.call 1 (.write 5), .run 1, .run 1, .lock 0, .call 1 (.write 6), .call 0 .size, .run 0, .run 0, .call 0 .read, .run 0, .run 0, .call 0 .readNoBlock, .run 0, .run 0, .unlock 0, .run 1, .run 1]).map
    (fun s => (s.log, s.q)) = some ([(1, .write 5, 0), (0, .size, 1), (0, .read, 5), (0, .readNoBlock, 0), (1, .write 6, 0)], [6]) := rfl

example : (exec {} [.lock 0, .call 0 (.readUntil 3), .run 0, .run 0, .tick 3, .wake 0, .run 0, .run 0]).map (·.log) = some [(0, .readUntil 3, 0)] := rfl

end Verif.Interthread.Holding
