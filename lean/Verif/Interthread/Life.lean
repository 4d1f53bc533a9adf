import Verif.Core.Outcome
import Mathlib.Data.List.Perm.Basic
import Mathlib.Data.Fintype.Basic
import Mathlib.Data.List.FinRange

/-
Property C138: the end of an `InterthreadQueue` (`Interthread.h:113-322`).

Any number of threads and queues.  Every queue has a mutex and a signal of its own and pointers to the ones it uses, which `iqConnect` sets to those of another queue (`Interthread.h:119-132`).
A call is made of steps: locking the mutex pointed to, what is done under the lock, sleeping on the signal and locking again, and for the writing calls signalling after the lock was released
(`Interthread.h:307-310`).  The destructor is `clear`, which locks, and after that the end of the members (`Interthread.h:189-204`).  Any use of a queue, mutex or signal after its end is undefined,
and so is ending a locked mutex or a signal on which a thread sleeps.

Simplifications: a sleeping thread may wake at any time, so that what signals do apart from the access needs no model; a call with a time limit may give up whenever it finds nothing; items
are pointers other than NULL (C22 has NULL too); steps are sequentially consistent; the lock from `qGetLock` is not used by clients (C132).
-/

namespace Verif.Interthread.Life
open Verif

/-- The calls; `look` is `size` or `front`, `read` also the read with a time limit, `either` is `iqWaitForEither`. -/
inductive Call
  | write (q v : Nat)
  | writeFront (q v : Nat)
  | read (q : Nat)
  | readNoBlock (q : Nat)
  | look (q : Nat)
  | either (q r : Nat)
  | destroy (q : Nat)
deriving DecidableEq

/-- The queue whose member function it is. -/
def Call.queue : Call → Nat
  | .write q _ => q
  | .writeFront q _ => q
  | .read q => q
  | .readNoBlock q => q
  | .look q => q
  | .either q _ => q
  | .destroy q => q

/-- The other queue it uses, if any. -/
def Call.second : Call → Nat
  | .either _ r => r
  | c => c.queue

/-- Where a thread is. -/
inductive Pc
  | idle
  /-- about to lock -/
  | lock (c : Call)
  /-- with the lock of a mutex -/
  | body (c : Call) (m : Nat)
  /-- in `wait` on a signal with a mutex -/
  | sleep (c : Call) (m g : Nat)
  /-- after the lock in `write` and `write_front` -/
  | signal (q : Nat)
  /-- after `clear` in the destructor -/
  | ending (q : Nat)
deriving DecidableEq

/-- The state with `n` threads. -/
structure St (n : Nat) where
  made : Nat → Bool
  alive : Nat → Bool
  /-- the queues to which `*mLockPointer` and `*mWriteSignalPointer` belong -/
  lockp : Nat → Nat
  sigp : Nat → Nat
  items : Nat → List Nat
  /-- who has `mLock` of a queue -/
  owner : Nat → Option (Fin n)
  pc : Fin n → Pc
  /-- written to a queue, read from it, and deleted by it -/
  written : Nat → List Nat
  got : Nat → List Nat
  deleted : Nat → List Nat

/-- Nothing exists yet. -/
def St.init (n : Nat) : St n :=
  ⟨fun _ => false, fun _ => false, id, id, fun _ => [], fun _ => none, fun _ => .idle, fun _ => [], fun _ => [], fun _ => []⟩

/-- Point updates. -/
def upd {α : Type} (f : Nat → α) (a : Nat) (x : α) : Nat → α := fun b => if b = a then x else f b
def put {n : Nat} {α : Type} (f : Fin n → α) (t : Fin n) (x : α) : Fin n → α := fun u => if u = t then x else f u

/-- What can happen: a queue is constructed; a thread begins a call; `iqConnect`; the next step of a thread; a call with a time limit gives up. -/
inductive Ev (n : Nat)
  | make (q : Nat)
  | call (t : Fin n) (c : Call)
  | connect (q r : Nat)
  | step (t : Fin n)
  | expire (t : Fin n)

/-- Giving back a mutex at the end of a call, or on the way to another place. -/
def St.release {n : Nat} (s : St n) (t : Fin n) (m : Nat) (p : Pc) : St n := { s with owner := upd s.owner m none, pc := put s.pc t p }

/-- What is done under the lock (`Interthread.h:189-193, 207-321`). -/
def inside {n : Nat} (s : St n) (t : Fin n) (m : Nat) : Call → Outcome (St n)
  /- Interthread.h:307-309, 317-319 -/
  | .write q v => .ok ({ s with items := upd s.items q (s.items q ++ [v]), written := upd s.written q (v :: s.written q) }.release t m (.signal q))
  | .writeFront q v => .ok ({ s with items := upd s.items q (v :: s.items q), written := upd s.written q (v :: s.written q) }.release t m (.signal q))
  /- Interthread.h:246-255, 269-283 -/
  | .read q =>
    match s.items q with
    | v :: l => .ok ({ s with items := upd s.items q l, got := upd s.got q (v :: s.got q) }.release t m .idle)
    | [] => if s.alive (s.sigp q) = false then .ub else .ok (s.release t m (.sleep (.read q) m (s.sigp q)))
  /- Interthread.h:289-293 -/
  | .readNoBlock q =>
    match s.items q with
    | v :: l => .ok ({ s with items := upd s.items q l, got := upd s.got q (v :: s.got q) }.release t m .idle)
    | [] => .ok (s.release t m .idle)
  | .look _ => .ok (s.release t m .idle)
  /- Interthread.h:220-232 -/
  | .either q r =>
    if s.alive r = false then .ub
    else if s.items q = [] ∧ s.items r = [] then
      if s.alive (s.sigp q) = false then .ub else .ok (s.release t m (.sleep (.either q r) m (s.sigp q)))
    else .ok (s.release t m .idle)
  /- Interthread.h:189-193 -/
  | .destroy q => .ok ({ s with items := upd s.items q [], deleted := upd s.deleted q (s.items q ++ s.deleted q) }.release t m (.ending q))

/-- Locking: undefined if the mutex has ended, not possible while another has it. -/
def acquire {n : Nat} (s : St n) (t : Fin n) (c : Call) (m : Nat) : Option (Outcome (St n)) :=
  if s.alive m = false then some .ub
  else if (s.owner m).isSome then none
  else some (.ok { s with owner := upd s.owner m (some t), pc := put s.pc t (.body c m) })

/-- A thread sleeps on the signal of the queue, or is to lock its mutex after sleeping. -/
def sleepsOn (q : Nat) : Pc → Bool
  | .sleep _ m g => m == q || g == q
  | _ => false

/-- The next step of a thread in a call. -/
def advance {n : Nat} (s : St n) (t : Fin n) : Option (Outcome (St n)) :=
  match s.pc t with
  | .idle => none
  | .lock c => if s.alive c.queue = false then some .ub else acquire s t c (s.lockp c.queue)
  | .body c m => if s.alive c.queue = false ∨ s.alive m = false then some .ub else some (inside s t m c)
  | .sleep c m g => if s.alive g = false then some .ub else acquire s t c m
  /- Interthread.h:310, 320 -/
  | .signal q => some (if s.alive q = false ∨ s.alive (s.sigp q) = false then .ub else .ok { s with pc := put s.pc t .idle })
  /- the members of the queue end: the signal, the mutex and the list -/
  | .ending q => some (if (s.owner q).isSome ∨ (List.finRange n).any (fun u => sleepsOn q (s.pc u)) then .ub
      else .ok { s with alive := upd s.alive q false, pc := put s.pc t .idle })

/-- What an event does; none if it is not possible now. -/
def happen {n : Nat} (s : St n) : Ev n → Option (Outcome (St n))
  /- Interthread.h:125 -/
  | .make q =>
    if s.made q = false then some (.ok { s with made := upd s.made q true, alive := upd s.alive q true, lockp := upd s.lockp q q, sigp := upd s.sigp q q }) else none
  | .call t c => if s.pc t = .idle then some (.ok { s with pc := put s.pc t (.lock c) }) else none
  /- Interthread.h:129-132 -/
  | .connect q r => some (if s.alive q = false ∨ s.alive r = false then .ub else .ok { s with lockp := upd s.lockp q (s.lockp r), sigp := upd s.sigp q (s.sigp r) })
  | .step t => advance s t
  /- Interthread.h:278: `read` with a time limit -/
  | .expire t =>
    match s.pc t with
    | .body (.read q) m => if s.alive q = false ∨ s.alive m = false then some .ub else if s.items q = [] then some (.ok (s.release t m .idle)) else none
    | _ => none

/-! ### Specification -/

/-- A thread in a call uses the queue. -/
def uses (q : Nat) : Pc → Prop
  | .idle => False
  | .lock c => c.queue = q ∨ c.second = q
  | .body c _ => c.queue = q ∨ c.second = q
  | .sleep c _ _ => c.queue = q ∨ c.second = q
  | .signal p => p = q
  | .ending p => p = q

/-- A thread is destroying the queue. -/
def destroys (q : Nat) : Pc → Prop
  | .lock c => c = .destroy q
  | .body c _ => c = .destroy q
  | .sleep c _ _ => c = .destroy q
  | .ending p => p = q
  | _ => False

/-- The queue exists and nobody is destroying it. -/
def Usable {n : Nat} (s : St n) (q : Nat) : Prop := s.alive q = true ∧ ∀ t, ¬ destroys q (s.pc t)

/-- How a program should treat queues: calls use queues that exist; a queue is destroyed only when no call on it is under way, before the queues to which it is connected; it is connected when no
call on it is under way. -/
def Legal {n : Nat} (s : St n) : Ev n → Prop
  | .make _ => True
  | .call _ (.destroy q) => Usable s q ∧ (∀ t, ¬ uses q (s.pc t)) ∧ ∀ r, r ≠ q → s.alive r = true → s.lockp r ≠ q ∧ s.sigp r ≠ q
  | .call _ c => Usable s c.queue ∧ Usable s c.second
  | .connect q r => Usable s q ∧ Usable s r ∧ ∀ t, ¬ uses q (s.pc t)
  | .step _ => True
  | .expire _ => True

/-- The states legal programs reach. -/
inductive Reach {n : Nat} : St n → Prop
  | init : Reach (St.init n)
  | step {s s' : St n} {e : Ev n} : Reach s → Legal s e → happen s e = some (.ok s') → Reach s'

/-! ### Lemmas -/

variable {n : Nat}

theorem upd_same {α : Type} (f : Nat → α) (a : Nat) (x : α) : upd f a x a = x := by simp [upd]
theorem upd_ne {α : Type} (f : Nat → α) {a b : Nat} (x : α) (h : b ≠ a) : upd f a x b = f b := by simp [upd, h]
theorem put_same {α : Type} (f : Fin n → α) (a : Fin n) (x : α) : put f a x a = x := by simp [put]
theorem put_ne {α : Type} (f : Fin n → α) {a b : Fin n} (x : α) (h : b ≠ a) : put f a x b = f b := by simp [put, h]

/-- The invariant. -/
structure Inv (s : St n) : Prop where
  born : ∀ q, s.alive q = true → s.made q = true
  roots : ∀ q, s.alive q = true → s.alive (s.lockp q) = true ∧ s.alive (s.sigp q) = true
  used : ∀ t q, uses q (s.pc t) → s.alive q = true
  alone : ∀ t q, destroys q (s.pc t) → ∀ u, uses q (s.pc u) → u = t
  free : ∀ t q, destroys q (s.pc t) → ∀ r, r ≠ q → s.alive r = true → s.lockp r ≠ q ∧ s.sigp r ≠ q
  body : ∀ t c m, s.pc t = .body c m → m = s.lockp c.queue ∧ s.owner m = some t
  held : ∀ t m, s.owner m = some t → ∃ c, s.pc t = .body c m
  asleep : ∀ t c m g, s.pc t = .sleep c m g → m = s.lockp c.queue ∧ g = s.sigp c.queue
  gone : ∀ q, s.alive q = false → s.items q = []
  last : ∀ t q, s.pc t = .ending q → s.items q = []
  count : ∀ q, (s.written q).Perm (s.got q ++ s.deleted q ++ s.items q)

theorem inv_init : Inv (St.init n) where
  born := fun _ h => (nomatch h)
  roots := fun _ h => (nomatch h)
  used := fun _ _ h => h.elim
  alone := fun _ _ h => h.elim
  free := fun _ _ h => h.elim
  body := fun _ _ _ h => (nomatch h)
  held := fun _ _ h => (nomatch h)
  asleep := fun _ _ _ _ h => (nomatch h)
  gone := fun _ _ => rfl
  last := fun _ _ h => (nomatch h)
  count := fun _ => List.Perm.refl _

theorem destroys_uses {q : Nat} {p : Pc} (h : destroys q p) : uses q p := by
  cases p with
  | idle => exact h.elim
  | lock c => have h : c = .destroy q := h; subst h; exact Or.inl rfl
  | body c m => have h : c = .destroy q := h; subst h; exact Or.inl rfl
  | sleep c m g => have h : c = .destroy q := h; subst h; exact Or.inl rfl
  | signal p => exact h.elim
  | ending p => exact h

/-- A thread moves on: everything but its place and the mutexes stays. -/
theorem inv_move {s : St n} (h : Inv s) (t : Fin n) (p : Pc) (o : Nat → Option (Fin n)) (items : Nat → List Nat) (written got deleted : Nat → List Nat)
    (hu : ∀ q, uses q p → uses q (s.pc t)) (hd : ∀ q, destroys q p → destroys q (s.pc t))
    (hb : ∀ c m, p = .body c m → m = s.lockp c.queue ∧ o m = some t)
    (ho : ∀ m, o m = some t → ∃ c, p = .body c m)
    (hk : ∀ u m, u ≠ t → (o m = some u ↔ s.owner m = some u))
    (hs : ∀ c m g, p = .sleep c m g → m = s.lockp c.queue ∧ g = s.sigp c.queue)
    (hg : ∀ q, s.alive q = false → items q = [])
    (hl : ∀ q, p = .ending q → items q = [])
    (hl' : ∀ u q, u ≠ t → s.pc u = .ending q → items q = [])
    (hc : ∀ q, (written q).Perm (got q ++ deleted q ++ items q)) :
    Inv { s with pc := put s.pc t p, owner := o, items := items, written := written, got := got, deleted := deleted } where
  born := h.born
  roots := h.roots
  used := by
    intro u q hq
    by_cases e : u = t
    · subst e; simp only [put_same] at hq; exact h.used u q (hu q hq)
    · simp only [put_ne _ _ e] at hq; exact h.used u q hq
  alone := by
    intro u q hq v hv
    have h1 : destroys q (s.pc u) := by
      by_cases e : u = t
      · subst e; simp only [put_same] at hq; exact hd q hq
      · simpa only [put_ne _ _ e] using hq
    have h2 : uses q (s.pc v) := by
      by_cases e : v = t
      · subst e; simp only [put_same] at hv; exact hu q hv
      · simpa only [put_ne _ _ e] using hv
    exact h.alone u q h1 v h2
  free := by
    intro u q hq
    refine h.free u q ?_
    by_cases e : u = t
    · subst e; simp only [put_same] at hq; exact hd q hq
    · simpa only [put_ne _ _ e] using hq
  body := by
    intro u c m hp
    by_cases e : u = t
    · subst e; simp only [put_same] at hp; exact hb c m hp
    · simp only [put_ne _ _ e] at hp
      exact ⟨(h.body u c m hp).1, (hk u m e).2 (h.body u c m hp).2⟩
  held := by
    intro u m hm
    by_cases e : u = t
    · subst e; simp only [put_same]; exact ho m hm
    · simp only [put_ne _ _ e]; exact h.held u m ((hk u m e).1 hm)
  asleep := by
    intro u c m g hp
    by_cases e : u = t
    · subst e; simp only [put_same] at hp; exact hs c m g hp
    · simp only [put_ne _ _ e] at hp; exact h.asleep u c m g hp
  gone := hg
  last := by
    intro u q hp
    by_cases e : u = t
    · subst e; simp only [put_same] at hp; exact hl q hp
    · simp only [put_ne _ _ e] at hp; exact hl' u q e hp
  count := hc

/-- A thread takes a free mutex. -/
theorem inv_acquire {s s' : St n} (h : Inv s) {t : Fin n} {c : Call} {m : Nat} (hm : m = s.lockp c.queue) (hu : ∀ q, uses q (.body c m) → uses q (s.pc t))
    (hd : ∀ q, destroys q (.body c m) → destroys q (s.pc t)) (hn : ∀ k, s.owner k ≠ some t) (ha : acquire s t c m = some (.ok s')) : Inv s' := by
  unfold acquire at ha
  split at ha
  · cases ha
  · split at ha
    · cases ha
    · rename_i hf
      cases ha
      refine inv_move h t (.body c m) _ s.items s.written s.got s.deleted hu hd ?_ ?_ ?_ (fun _ _ _ x => (nomatch x)) h.gone (fun _ x => (nomatch x)) (fun u q _ => h.last u q) h.count
      · intro c' m' e; cases e; exact ⟨hm, upd_same _ _ _⟩
      · intro k hk
        by_cases e : k = m
        · subst e; exact ⟨c, rfl⟩
        · rw [upd_ne _ _ e] at hk; exact absurd hk (hn k)
      · intro u k hu
        by_cases e : k = m
        · subst e
          rw [upd_same]
          constructor
          · intro x; cases x; exact absurd rfl hu
          · intro x; rw [x] at hf; exact absurd rfl hf
        · rw [upd_ne _ _ e]

/-- A thread gives its mutex back. -/
theorem inv_release {s : St n} (h : Inv s) {t : Fin n} {c : Call} {m : Nat} (hp : s.pc t = .body c m) (p : Pc) (items : Nat → List Nat) (written got deleted : Nat → List Nat)
    (hu : ∀ q, uses q p → uses q (s.pc t)) (hd : ∀ q, destroys q p → destroys q (s.pc t)) (hb : ∀ c m, p ≠ .body c m)
    (hs : ∀ c m g, p = .sleep c m g → m = s.lockp c.queue ∧ g = s.sigp c.queue)
    (hg : ∀ q, s.alive q = false → items q = [])
    (hl : ∀ q, p = .ending q → items q = [])
    (hl' : ∀ u q, u ≠ t → s.pc u = .ending q → items q = [])
    (hc : ∀ q, (written q).Perm (got q ++ deleted q ++ items q)) :
    Inv ({ s with items := items, written := written, got := got, deleted := deleted }.release t m p) := by
  refine inv_move h t p _ items written got deleted hu hd (fun c m e => absurd e (hb c m)) ?_ ?_ hs hg hl hl' hc
  · intro k hk
    by_cases e : k = m
    · subst e; rw [upd_same] at hk; cases hk
    · rw [upd_ne _ _ e] at hk
      obtain ⟨c', hc'⟩ := h.held t k hk
      rw [hp] at hc'; cases hc'; exact absurd rfl e
  · intro u k hu
    by_cases e : k = m
    · subst e
      rw [upd_same, (h.body t c k hp).2]
      constructor
      · intro x; cases x
      · intro x; cases x; exact absurd rfl hu
    · rw [upd_ne _ _ e]

theorem others_last {s : St n} (h : Inv s) {t : Fin n} {q : Nat} (hq : uses q (s.pc t)) {u : Fin n} {r : Nat} (hu : u ≠ t) (hr : s.pc u = .ending r) : r ≠ q := by
  intro e
  subst e
  exact hu (h.alone u r (by rw [hr]; rfl) t hq).symm

theorem inv_inside {s s' : St n} (h : Inv s) {t : Fin n} {c : Call} {m : Nat} (hp : s.pc t = .body c m) (ha : inside s t m c = .ok s') : Inv s' := by
  have hq : uses c.queue (s.pc t) := by rw [hp]; exact Or.inl rfl
  have hal := h.used t _ hq
  have nodead : ∀ {l : List Nat} r, s.alive r = false → upd s.items c.queue l r = [] := by
    intro l r hr
    have e : r ≠ c.queue := by intro e; subst e; rw [hal] at hr; cases hr
    rw [upd_ne _ _ e]; exact h.gone r hr
  have noend : ∀ {l : List Nat} u r, u ≠ t → s.pc u = .ending r → upd s.items c.queue l r = [] := by
    intro l u r hu hr
    rw [upd_ne _ _ (others_last h hq hu hr)]; exact h.last u r hr
  have quiet : Inv (s.release t m .idle) :=
    inv_release h hp .idle s.items s.written s.got s.deleted (fun _ x => x.elim) (fun _ x => x.elim) (fun _ _ x => nomatch x) (fun _ _ _ x => nomatch x) h.gone (fun _ x => nomatch x)
      (fun u q _ => h.last u q) h.count
  have nap : Inv (s.release t m (.sleep c m (s.sigp c.queue))) :=
    inv_release h hp _ s.items s.written s.got s.deleted (fun _ x => by rw [hp]; exact x) (fun _ x => by rw [hp]; exact x) (fun _ _ x => nomatch x)
      (fun _ _ _ x => by cases x; exact ⟨(h.body t c m hp).1, rfl⟩) h.gone (fun _ x => nomatch x) (fun u q _ => h.last u q) h.count
  have taken : ∀ {v : Nat} {l : List Nat}, s.items c.queue = v :: l →
      Inv ({ s with items := upd s.items c.queue l, got := upd s.got c.queue (v :: s.got c.queue) }.release t m .idle) := by
    intro v l hl
    refine inv_release h hp .idle _ s.written _ s.deleted (fun _ x => x.elim) (fun _ x => x.elim) (fun _ _ x => nomatch x) (fun _ _ _ x => nomatch x) nodead (fun _ x => nomatch x) noend ?_
    intro r
    by_cases e : r = c.queue
    · rw [e, upd_same, upd_same]
      refine (h.count c.queue).trans ?_
      rw [hl]
      simp only [List.cons_append]
      exact List.perm_middle
    · rw [upd_ne _ _ e, upd_ne _ _ e]; exact h.count r
  have wrote : ∀ {v : Nat} {l : List Nat}, l.Perm (v :: s.items c.queue) →
      Inv ({ s with items := upd s.items c.queue l, written := upd s.written c.queue (v :: s.written c.queue) }.release t m (.signal c.queue)) := by
    intro v l hl
    refine inv_release h hp _ _ _ s.got s.deleted (fun q x => by have x : c.queue = q := x; rw [← x]; exact hq) (fun _ x => x.elim) (fun _ _ x => nomatch x) (fun _ _ _ x => nomatch x) nodead
      (fun _ x => nomatch x) noend ?_
    intro r
    by_cases e : r = c.queue
    · rw [e, upd_same, upd_same]
      refine ((h.count c.queue).cons v).trans ?_
      refine List.perm_middle.symm.trans ?_
      exact List.Perm.append_left _ hl.symm
    · rw [upd_ne _ _ e, upd_ne _ _ e]; exact h.count r
  cases c with
  | write q v => simp only [inside] at ha; cases ha; exact wrote (List.perm_append_singleton v _)
  | writeFront q v => simp only [inside] at ha; cases ha; exact wrote (List.Perm.refl _)
  | read q =>
    simp only [inside] at ha
    split at ha
    · rename_i v l hl; cases ha; exact taken hl
    · split at ha
      · cases ha
      · cases ha; exact nap
  | readNoBlock q =>
    simp only [inside] at ha
    split at ha
    · rename_i v l hl; cases ha; exact taken hl
    · cases ha; exact quiet
  | look q => simp only [inside] at ha; cases ha; exact quiet
  | either q r =>
    simp only [inside] at ha
    split at ha
    · cases ha
    · split at ha
      · split at ha
        · cases ha
        · cases ha; exact nap
      · cases ha; exact quiet
  | destroy q =>
    simp only [inside] at ha
    cases ha
    refine inv_release h hp _ _ s.written s.got _ (fun r x => by have x : q = r := x; rw [← x]; exact hq) (fun r x => by have x : q = r := x; rw [hp, x]; rfl) (fun _ _ x => nomatch x)
      (fun _ _ _ x => nomatch x) nodead (fun r x => by cases x; exact upd_same _ _ _) noend ?_
    intro r
    by_cases e : r = q
    · rw [e, upd_same, upd_same]
      refine (h.count q).trans ?_
      simp only [List.append_nil, List.append_assoc]
      exact List.Perm.append_left _ List.perm_append_comm
    · rw [upd_ne _ _ e, upd_ne _ _ e]; exact h.count r

theorem inv_advance {s s' : St n} (h : Inv s) {t : Fin n} (ha : advance s t = some (.ok s')) : Inv s' := by
  have notheld : ∀ {p : Pc}, s.pc t = p → (∀ c m, p ≠ .body c m) → ∀ k, s.owner k ≠ some t := by
    intro p hp hb k hk
    obtain ⟨c, hc⟩ := h.held t k hk
    exact hb c k (hp.symm.trans hc)
  unfold advance at ha
  split at ha
  · cases ha
  · rename_i c hp
    split at ha
    · cases ha
    · exact inv_acquire h rfl (fun q x => by rw [hp]; exact x) (fun q x => by rw [hp]; exact x) (notheld hp fun _ _ x => nomatch x) ha
  · rename_i c m hp
    split at ha
    · cases ha
    · exact inv_inside h hp (Option.some.inj ha)
  · rename_i c m g hp
    split at ha
    · cases ha
    · exact inv_acquire h (h.asleep t c m g hp).1 (fun q x => by rw [hp]; exact x) (fun q x => by rw [hp]; exact x) (notheld hp fun _ _ x => nomatch x) ha
  · rename_i q hp
    split at ha
    · cases ha
    · cases ha
      exact inv_move h t .idle s.owner s.items s.written s.got s.deleted (fun _ x => x.elim) (fun _ x => x.elim) (fun _ _ x => nomatch x)
        (fun m hm => absurd hm (notheld hp (fun _ _ x => nomatch x) m)) (fun _ _ _ => Iff.rfl) (fun _ _ _ x => nomatch x) h.gone (fun _ x => nomatch x) (fun u q _ => h.last u q) h.count
  · rename_i q hp
    split at ha
    · cases ha
    · cases ha
      have hd : destroys q (s.pc t) := by rw [hp]; rfl
      have hm := inv_move h t .idle s.owner s.items s.written s.got s.deleted (fun _ x => x.elim) (fun _ x => x.elim) (fun _ _ x => nomatch x)
        (fun m hm => absurd hm (notheld hp (fun _ _ x => nomatch x) m)) (fun _ _ _ => Iff.rfl) (fun _ _ _ x => nomatch x) h.gone (fun _ x => nomatch x) (fun u q _ => h.last u q) h.count
      have old : ∀ r, upd s.alive q false r = true → r ≠ q ∧ s.alive r = true := by
        intro r hr
        by_cases e : r = q
        · rw [e, upd_same] at hr; cases hr
        · rw [upd_ne _ _ e] at hr; exact ⟨e, hr⟩
      exact {
        born := fun r hr => h.born r (old r hr).2
        roots := by
          intro r hr
          obtain ⟨e, hr⟩ := old r hr
          obtain ⟨f1, f2⟩ := h.free t q hd r e hr
          obtain ⟨g1, g2⟩ := h.roots r hr
          exact ⟨(upd_ne _ _ f1).trans g1, (upd_ne _ _ f2).trans g2⟩
        used := by
          intro u r hr
          by_cases e : u = t
          · subst e; simp only [put_same] at hr; exact hr.elim
          · simp only [put_ne _ _ e] at hr
            have : r ≠ q := by intro x; subst x; exact e (h.alone t r hd u hr)
            exact (upd_ne _ _ this).trans (h.used u r hr)
        alone := hm.alone
        free := fun u r hr r' e' ha' => hm.free u r hr r' e' (old r' ha').2
        body := hm.body
        held := hm.held
        asleep := hm.asleep
        gone := by
          intro r hr
          by_cases e : r = q
          · rw [e]; exact h.last t q hp
          · simp only [upd_ne _ _ e] at hr; exact h.gone r hr
        last := hm.last
        count := h.count }

/-- A thread begins a call. -/
theorem inv_call {s : St n} (h : Inv s) {t : Fin n} {c : Call} (hi : s.pc t = .idle) (hu : ∀ q, uses q (.lock c) → Usable s q)
    (hd : ∀ q, destroys q (.lock c) → (∀ u, ¬ uses q (s.pc u)) ∧ ∀ r, r ≠ q → s.alive r = true → s.lockp r ≠ q ∧ s.sigp r ≠ q) :
    Inv { s with pc := put s.pc t (.lock c) } where
  born := h.born
  roots := h.roots
  used := by
    intro u q hq
    by_cases e : u = t
    · subst e; simp only [put_same] at hq; exact (hu q hq).1
    · simp only [put_ne _ _ e] at hq; exact h.used u q hq
  alone := by
    intro u q hq v hv
    by_cases e : u = t
    · subst e
      simp only [put_same] at hq
      by_contra e'
      simp only [put_ne _ _ e'] at hv
      exact (hd q hq).1 v hv
    · simp only [put_ne _ _ e] at hq
      by_cases e' : v = t
      · subst e'
        simp only [put_same] at hv
        exact absurd hq ((hu q hv).2 u)
      · simp only [put_ne _ _ e'] at hv
        exact h.alone u q hq v hv
  free := by
    intro u q hq
    by_cases e : u = t
    · subst e; simp only [put_same] at hq; exact (hd q hq).2
    · simp only [put_ne _ _ e] at hq; exact h.free u q hq
  body := by
    intro u c' m hp
    by_cases e : u = t
    · subst e; simp only [put_same] at hp; cases hp
    · simp only [put_ne _ _ e] at hp; exact h.body u c' m hp
  held := by
    intro u m hm
    obtain ⟨c', hc⟩ := h.held u m hm
    by_cases e : u = t
    · subst e; rw [hi] at hc; cases hc
    · simp only [put_ne _ _ e]; exact ⟨c', hc⟩
  asleep := by
    intro u c' m g hp
    by_cases e : u = t
    · subst e; simp only [put_same] at hp; cases hp
    · simp only [put_ne _ _ e] at hp; exact h.asleep u c' m g hp
  gone := h.gone
  last := by
    intro u q hp
    by_cases e : u = t
    · subst e; simp only [put_same] at hp; cases hp
    · simp only [put_ne _ _ e] at hp; exact h.last u q hp
  count := h.count

/-- A queue is connected. -/
theorem inv_connect {s : St n} (h : Inv s) {q r : Nat} (hq : Usable s q) (hr : Usable s r) (hn : ∀ t, ¬ uses q (s.pc t)) :
    Inv { s with lockp := upd s.lockp q (s.lockp r), sigp := upd s.sigp q (s.sigp r) } where
  born := h.born
  roots := by
    intro p hp
    by_cases e : p = q
    · subst e; simp only [upd_same]; exact h.roots r hr.1
    · simp only [upd_ne _ _ e]; exact h.roots p hp
  used := h.used
  alone := h.alone
  free := by
    intro t p hd x hx hax
    by_cases e : x = q
    · subst e
      simp only [upd_same]
      have : r ≠ p := by intro e'; subst e'; exact hr.2 t hd
      exact h.free t p hd r this hr.1
    · simp only [upd_ne _ _ e]; exact h.free t p hd x hx hax
  body := by
    intro t c m hp
    have e : c.queue ≠ q := by intro e; exact hn t (by rw [hp]; exact Or.inl e)
    simp only [upd_ne _ _ e]; exact h.body t c m hp
  held := h.held
  asleep := by
    intro t c m g hp
    have e : c.queue ≠ q := by intro e; exact hn t (by rw [hp]; exact Or.inl e)
    simp only [upd_ne _ _ e]; exact h.asleep t c m g hp
  gone := h.gone
  last := h.last
  count := h.count

/-- A queue is made. -/
theorem inv_make {s : St n} (h : Inv s) {q : Nat} (hq : s.made q = false) :
    Inv { s with made := upd s.made q true, alive := upd s.alive q true, lockp := upd s.lockp q q, sigp := upd s.sigp q q } := by
  have new : ∀ r, s.alive r = true → r ≠ q := by
    intro r hr e; subst e; rw [h.born r hr] at hq; cases hq
  have old : ∀ r, upd s.alive q true r = true → r = q ∨ (r ≠ q ∧ s.alive r = true) := by
    intro r hr
    by_cases e : r = q
    · exact Or.inl e
    · rw [upd_ne _ _ e] at hr; exact Or.inr ⟨e, hr⟩
  have keep : ∀ r, s.alive r = true → upd s.alive q true r = true := fun r hr => (upd_ne _ _ (new r hr)).trans hr
  exact {
    born := by
      intro r hr
      rcases old r hr with e | ⟨e, hr⟩
      · rw [e]; exact upd_same _ _ _
      · exact (upd_ne _ _ e).trans (h.born r hr)
    roots := by
      intro r hr
      rcases old r hr with e | ⟨e, hr⟩
      · subst e; simp only [upd_same]; exact ⟨trivial, trivial⟩
      · simp only [upd_ne _ _ e]
        exact ⟨keep _ (h.roots r hr).1, keep _ (h.roots r hr).2⟩
    used := fun t r hr => keep r (h.used t r hr)
    alone := h.alone
    free := by
      intro t p hd r hr har
      have hp := new p (h.used t p (destroys_uses hd))
      rcases old r har with e | ⟨e, har⟩
      · subst e; simp only [upd_same]; exact ⟨fun x => hp x.symm, fun x => hp x.symm⟩
      · simp only [upd_ne _ _ e]; exact h.free t p hd r hr har
    body := by
      intro t c m hp
      have e := new c.queue (h.used t _ (by rw [hp]; exact Or.inl rfl))
      simp only [upd_ne _ _ e]; exact h.body t c m hp
    held := h.held
    asleep := by
      intro t c m g hp
      have e := new c.queue (h.used t _ (by rw [hp]; exact Or.inl rfl))
      simp only [upd_ne _ _ e]; exact h.asleep t c m g hp
    gone := by
      intro r hr
      refine h.gone r ?_
      cases e : s.alive r with
      | false => rfl
      | true => have := keep r e; simp only at hr; rw [this] at hr; cases hr
    last := h.last
    count := h.count }

theorem inv_happen {s s' : St n} {e : Ev n} (h : Inv s) (hl : Legal s e) (ha : happen s e = some (.ok s')) : Inv s' := by
  cases e with
  | make q =>
    simp only [happen] at ha
    split at ha
    · rename_i hq; cases ha; exact inv_make h hq
    · cases ha
  | call t c =>
    simp only [happen] at ha
    split at ha
    · rename_i hi
      cases ha
      cases c with
      | destroy q =>
        refine inv_call h hi ?_ ?_
        · rintro r (e | e)
          · have e : q = r := e; subst e; exact hl.1
          · have e : q = r := e; subst e; exact hl.1
        · intro r e; cases e; exact hl.2
      | write q v => exact inv_call h hi (fun r hr => hr.elim (fun x => x ▸ hl.1) (fun x => x ▸ hl.2)) (fun _ x => nomatch x)
      | writeFront q v => exact inv_call h hi (fun r hr => hr.elim (fun x => x ▸ hl.1) (fun x => x ▸ hl.2)) (fun _ x => nomatch x)
      | read q => exact inv_call h hi (fun r hr => hr.elim (fun x => x ▸ hl.1) (fun x => x ▸ hl.2)) (fun _ x => nomatch x)
      | readNoBlock q => exact inv_call h hi (fun r hr => hr.elim (fun x => x ▸ hl.1) (fun x => x ▸ hl.2)) (fun _ x => nomatch x)
      | look q => exact inv_call h hi (fun r hr => hr.elim (fun x => x ▸ hl.1) (fun x => x ▸ hl.2)) (fun _ x => nomatch x)
      | either q r => exact inv_call h hi (fun r hr => hr.elim (fun x => x ▸ hl.1) (fun x => x ▸ hl.2)) (fun _ x => nomatch x)
    · cases ha
  | connect q r =>
    simp only [happen] at ha
    split at ha
    · cases ha
    · cases ha; exact inv_connect h hl.1 hl.2.1 hl.2.2
  | step t => exact inv_advance h ha
  | expire t =>
    simp only [happen] at ha
    split at ha
    · rename_i q m hp
      split at ha
      · cases ha
      · split at ha
        · cases ha
          exact inv_release h hp .idle s.items s.written s.got s.deleted (fun _ x => x.elim) (fun _ x => x.elim) (fun _ _ x => nomatch x) (fun _ _ _ x => nomatch x) h.gone (fun _ x => nomatch x)
            (fun u q _ => h.last u q) h.count
        · cases ha
    · cases ha

theorem reach_inv {s : St n} (h : Reach s) : Inv s := by
  induction h with
  | init => exact inv_init
  | step _ hl ha ih => exact inv_happen ih hl ha

/-! ### C138 -/

/-- C138, partial: in a program that destroys a queue only when no call on it is under way, and before the queues it is connected to, nothing is used after its end: no step of any thread is
undefined.  Missing: queues destroyed by the reader of the last item (`C138_reader_refuted`), and connected queues destroyed in the other order (`C138_order_refuted`). -/
theorem C138_safe_partial {s : St n} (h : Reach s) {e : Ev n} (hl : Legal s e) {r : Outcome (St n)} (ha : happen s e = some r) : ∃ s', r = .ok s' := by
  have hi := reach_inv h
  have acq : ∀ {t : Fin n} {c : Call} {m : Nat}, s.alive m = true → acquire s t c m = some r → ∃ s', r = .ok s' := by
    intro t c m hm ha
    unfold acquire at ha
    rw [if_neg (by rw [hm]; exact fun x => nomatch x)] at ha
    split at ha
    · cases ha
    · cases ha; exact ⟨_, rfl⟩
  have not_dead : ∀ {q : Nat}, s.alive q = true → ¬ s.alive q = false := by
    intro q hq x; rw [hq] at x; cases x
  cases e with
  | make q =>
    simp only [happen] at ha
    split at ha
    · cases ha; exact ⟨_, rfl⟩
    · cases ha
  | call t c =>
    simp only [happen] at ha
    split at ha
    · cases ha; exact ⟨_, rfl⟩
    · cases ha
  | connect q r' =>
    simp only [happen] at ha
    rw [if_neg (fun x => x.elim (not_dead hl.1.1) (not_dead hl.2.1.1))] at ha
    cases ha; exact ⟨_, rfl⟩
  | step t =>
    have ha : advance s t = some r := ha
    unfold advance at ha
    split at ha
    · cases ha
    · rename_i c hp
      have hq := hi.used t c.queue (by rw [hp]; exact Or.inl rfl)
      rw [if_neg (not_dead hq)] at ha
      exact acq (hi.roots _ hq).1 ha
    · rename_i c m hp
      have hq := hi.used t c.queue (by rw [hp]; exact Or.inl rfl)
      have hm := (hi.body t c m hp).1
      have h2 := hi.used t c.second (by rw [hp]; exact Or.inr rfl)
      rw [if_neg (fun x => x.elim (not_dead hq) (not_dead (hm ▸ (hi.roots _ hq).1)))] at ha
      have ha : inside s t m c = r := Option.some.inj ha
      have hg := (hi.roots _ hq).2
      cases c with
      | write q v => exact ⟨_, ha.symm⟩
      | writeFront q v => exact ⟨_, ha.symm⟩
      | read q =>
        have hg : s.alive (s.sigp q) = true := hg
        simp only [inside] at ha
        split at ha
        · exact ⟨_, ha.symm⟩
        · rw [if_neg (not_dead hg)] at ha; exact ⟨_, ha.symm⟩
      | readNoBlock q =>
        simp only [inside] at ha
        split at ha
        · exact ⟨_, ha.symm⟩
        · exact ⟨_, ha.symm⟩
      | look q => exact ⟨_, ha.symm⟩
      | either q r' =>
        have hg : s.alive (s.sigp q) = true := hg
        have h2 : s.alive r' = true := h2
        simp only [inside] at ha
        rw [if_neg (not_dead h2)] at ha
        split at ha
        · rw [if_neg (not_dead hg)] at ha; exact ⟨_, ha.symm⟩
        · exact ⟨_, ha.symm⟩
      | destroy q => exact ⟨_, ha.symm⟩
    · rename_i c m g hp
      have hq := hi.used t c.queue (by rw [hp]; exact Or.inl rfl)
      obtain ⟨e1, e2⟩ := hi.asleep t c m g hp
      rw [if_neg (not_dead (e2 ▸ (hi.roots _ hq).2))] at ha
      exact acq (e1 ▸ (hi.roots _ hq).1) ha
    · rename_i q hp
      have hq := hi.used t q (by rw [hp]; rfl)
      rw [if_neg (fun x => x.elim (not_dead hq) (not_dead (hi.roots _ hq).2))] at ha
      cases ha; exact ⟨_, rfl⟩
    · rename_i q hp
      have hd : destroys q (s.pc t) := by rw [hp]; rfl
      rw [if_neg] at ha
      · cases ha; exact ⟨_, rfl⟩
      · rintro (x | x)
        · obtain ⟨u, hu⟩ := Option.isSome_iff_exists.1 x
          obtain ⟨c, hc⟩ := hi.held u q hu
          have uq : uses c.queue (s.pc u) := by rw [hc]; exact Or.inl rfl
          have e1 := (hi.body u c q hc).1
          by_cases e : c.queue = q
          · have := hi.alone t q hd u (e ▸ uq)
            rw [this, hp] at hc; cases hc
          · exact (hi.free t q hd c.queue e (hi.used u _ uq)).1 e1.symm
        · obtain ⟨u, -, hu⟩ := List.any_eq_true.1 x
          cases hs : s.pc u with
          | sleep c m g =>
            rw [hs] at hu
            have uq : uses c.queue (s.pc u) := by rw [hs]; exact Or.inl rfl
            obtain ⟨e1, e2⟩ := hi.asleep u c m g hs
            by_cases e : c.queue = q
            · have := hi.alone t q hd u (e ▸ uq)
              rw [this, hp] at hs; cases hs
            · obtain ⟨f1, f2⟩ := hi.free t q hd c.queue e (hi.used u _ uq)
              simp only [sleepsOn, Bool.or_eq_true, beq_iff_eq] at hu
              rcases hu with hu | hu
              · exact f1 (e1.symm.trans hu)
              · exact f2 (e2.symm.trans hu)
          | idle => rw [hs] at hu; cases hu
          | lock c => rw [hs] at hu; cases hu
          | body c m => rw [hs] at hu; cases hu
          | signal c => rw [hs] at hu; cases hu
          | ending c => rw [hs] at hu; cases hu
  | expire t =>
    simp only [happen] at ha
    split at ha
    · rename_i q m hp
      have hq : s.alive q = true := hi.used t q (by rw [hp]; exact Or.inl rfl)
      have hm := (hi.body t _ m hp).1
      rw [if_neg (fun x => x.elim (not_dead hq) (not_dead (hm ▸ (hi.roots _ hq).1)))] at ha
      split at ha
      · cases ha; exact ⟨_, rfl⟩
      · cases ha
    · cases ha

/-- C138, partial: nothing is lost and nothing deleted twice: what was written to a queue was read, or deleted by its destructor, or is in it; after the destructor nothing is in it.
Missing: as in `C138_safe_partial`. -/
theorem C138_items_partial {s : St n} (h : Reach s) (q : Nat) :
    (s.written q).Perm (s.got q ++ s.deleted q ++ s.items q) ∧ (s.alive q = false → (s.written q).Perm (s.got q ++ s.deleted q)) := by
  have hi := reach_inv h
  refine ⟨hi.count q, fun hd => ?_⟩
  have := hi.count q
  rw [hi.gone q hd, List.append_nil] at this
  exact this

/-- Several events. -/
def run : St n → List (Ev n) → Option (Outcome (St n))
  | s, [] => some (.ok s)
  | s, e :: es => match happen s e with
    | some (.ok s') => run s' es
    | r => r

/-- One thread writes twice, another reads once; then the queue is destroyed, which deletes the other item. -/
example : ∃ s, run (St.init 2) [.make 5, .call 1 (.read 5), .step 1, .step 1, .call 0 (.write 5 7), .step 0, .step 0, .step 1, .step 1, .step 0, .call 0 (.write 5 8), .step 0, .step 0, .step 0,
      .call 0 (.destroy 5), .step 0, .step 0, .step 0] = some (.ok s) ∧ s.alive 5 = false ∧ s.got 5 = [7] ∧ s.deleted 5 = [8] := ⟨_, rfl, rfl, rfl, rfl⟩

/-- C138 (negation): a thread that has read the last item that is ever written destroys the queue.  The writer is still to signal, with a signal that has ended.  (The item may be a reply, and the queue
made for this one reply.) -/
theorem C138_reader_refuted : ∃ s, run (St.init 2) [.make 5, .call 0 (.write 5 7), .step 0, .step 0, .call 1 (.read 5), .step 1, .step 1] = some (.ok s) ∧
    s.got 5 = [7] ∧ s.items 5 = [] ∧ s.pc 1 = .idle ∧ run s [.call 1 (.destroy 5), .step 1, .step 1, .step 1, .step 0] = some .ub :=
  ⟨_, rfl, rfl, rfl, rfl, rfl⟩

/-- C138 (negation): of two connected queues the one that lends its mutex is destroyed first, as happens with variables or members declared in the order in which they are connected: the destructor
of the other locks a mutex that has ended.  One thread is enough, and nothing was ever written. -/
theorem C138_order_refuted : run (St.init 1) [.make 0, .make 1, .connect 0 1, .call 0 (.destroy 1), .step 0, .step 0, .step 0, .call 0 (.destroy 0), .step 0] = some .ub ∧
    (∃ s, run (St.init 1) [.make 0, .make 1, .connect 1 0, .call 0 (.destroy 1), .step 0, .step 0, .step 0, .call 0 (.destroy 0), .step 0, .step 0, .step 0] = some (.ok s) ∧
      s.alive 0 = false ∧ s.alive 1 = false) := ⟨rfl, _, rfl, rfl, rfl⟩

end Verif.Interthread.Life
