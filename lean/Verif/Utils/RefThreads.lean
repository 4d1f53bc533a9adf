import Verif.Utils.RefCnt
import Mathlib.Algebra.BigOperators.Fin
import Mathlib.Algebra.Order.BigOperators.Group.Finset
import Mathlib.Tactic.Ring

/-
Property C137: reference counts with threads (`Utils.h:200-277`, `Utils.cpp:41-67`).

Any number of threads; each has pointer variables of its own and can copy them, destroy them, make new objects, and hand a pointer over to another thread.  What a call does to the object happens
in single steps: taking the object's mutex, reading the count, writing it, releasing the mutex, and after that the test for the last pointer and `delete`.  Any use of an object that was deleted,
and destroying its mutex while it is locked, is undefined.  `borrow` is a thread that copies a variable of another thread, which the theorems exclude.

Simplifications: the object and its first pointer are made in one step (no other thread knows the object); assignments are a copy and a destruction in this order (`Utils.h:249`), as in C46; log
statements are left out, and with them the reads of the count without the mutex (`Utils.h:242`, `Utils.h:264`), whose values are only printed; steps are sequentially consistent; a mutex may be
destroyed as soon as it is unlocked, as POSIX says.
-/

namespace Verif.Utils.RefThreads
open Verif Verif.Utils.RefCnt

/-- Where a thread is. -/
inductive Pc
  | idle
  /-- in `incRefCnt` (`Utils.cpp:60-67`): before the lock, with the lock, after reading, after writing -/
  | inc0 (o : Nat) | inc1 (o : Nat) | inc2 (o : Nat) (v : Int) | inc3 (o : Nat)
  /-- in `decRefCnt` (`Utils.cpp:41-59`): the same, and after the lock -/
  | dec0 (o : Nat) | dec1 (o : Nat) | dec2 (o : Nat) (v : Int) | dec3 (o : Nat) (v : Int) | dec4 (o : Nat) (v : Int)
deriving DecidableEq

/-- The state with `n` threads. -/
structure St (n : Nat) where
  /-- the `mRefCnt` fields -/
  cnt : Nat → Int
  /-- made and not deleted -/
  live : Nat → Bool
  /-- how often deleted -/
  freed : Nat → Nat
  /-- made at some time -/
  made : Nat → Bool
  /-- who has `mRefMutex` -/
  lock : Nat → Option (Fin n)
  /-- pointers to an object among the variables of a thread -/
  own : Fin n → Nat → Nat
  pc : Fin n → Pc

/-- Nothing exists yet. -/
def St.init (n : Nat) : St n := ⟨fun _ => 0, fun _ => false, fun _ => 0, fun _ => false, fun _ => none, fun _ _ => 0, fun _ => .idle⟩

/-- Point update for threads. -/
def put {n : Nat} {α : Type} (f : Fin n → α) (t : Fin n) (a : α) : Fin n → α := fun u => if u = t then a else f u

/-- What can happen. -/
inductive Ev (n : Nat)
  | make (t : Fin n) (o : Nat)
  | give (t u : Fin n) (o : Nat)
  | copy (t : Fin n) (o : Nat)
  | drop (t : Fin n) (o : Nat)
  | borrow (t u : Fin n) (o : Nat)
  | step (t : Fin n)

/-- Taking the mutex (`Threads.h:171`). -/
def take {n : Nat} (s : St n) (t : Fin n) (o : Nat) (p : Pc) : Option (Outcome (St n)) :=
  if s.live o = false then some .ub
  else if (s.lock o).isSome then none
  else some (.ok { s with lock := upd s.lock o (some t), pc := put s.pc t p })

/-- The next step of a thread in a call. -/
def advance {n : Nat} (s : St n) (t : Fin n) : Option (Outcome (St n)) :=
  match s.pc t with
  | .idle => none
  | .inc0 o => take s t o (.inc1 o)
  /- Utils.cpp:65 -/
  | .inc1 o => some (if s.live o = false then .ub else if s.cnt o < 0 then .assertFail else .ok { s with pc := put s.pc t (.inc2 o (s.cnt o)) })
  /- Utils.cpp:66 -/
  | .inc2 o v => some (if s.live o = false then .ub else .ok { s with cnt := upd s.cnt o (short (v + 1)), pc := put s.pc t (.inc3 o) })
  | .inc3 o => some (if s.live o = false then .ub else
      .ok { s with lock := upd s.lock o none, own := put s.own t (upd (s.own t) o (s.own t o + 1)), pc := put s.pc t .idle })
  | .dec0 o => take s t o (.dec1 o)
  /- Utils.cpp:45 -/
  | .dec1 o => some (if s.live o = false then .ub else if s.cnt o < 0 then .assertFail else .ok { s with pc := put s.pc t (.dec2 o (s.cnt o)) })
  /- Utils.cpp:46-47 -/
  | .dec2 o v => some (if s.live o = false then .ub else .ok { s with cnt := upd s.cnt o (short (v - 1)), pc := put s.pc t (.dec3 o (short (v - 1))) })
  | .dec3 o v => some (if s.live o = false then .ub else .ok { s with lock := upd s.lock o none, pc := put s.pc t (.dec4 o v) })
  /- Utils.cpp:53-57 -/
  | .dec4 o v => some (if v ≤ 0 then
        (if s.live o = false ∨ (s.lock o).isSome then .ub
         else .ok { s with live := upd s.live o false, freed := upd s.freed o (s.freed o + 1), pc := put s.pc t .idle })
      else .ok { s with pc := put s.pc t .idle })

/-- What an event does; none if it is not possible now. -/
def happen {n : Nat} (s : St n) : Ev n → Option (Outcome (St n))
  | .make t o =>
    if s.pc t = .idle ∧ s.made o = false then
      some (.ok { s with cnt := upd s.cnt o 1, live := upd s.live o true, made := upd s.made o true, own := put s.own t (upd (s.own t) o (s.own t o + 1)) })
    else none
  | .give t u o =>
    if s.pc t = .idle ∧ 0 < s.own t o ∧ t ≠ u then
      some (.ok { s with own := put (put s.own t (upd (s.own t) o (s.own t o - 1))) u (upd (s.own u) o (s.own u o + 1)) })
    else none
  | .copy t o => if s.pc t = .idle ∧ 0 < s.own t o then some (.ok { s with pc := put s.pc t (.inc0 o) }) else none
  | .drop t o =>
    if s.pc t = .idle ∧ 0 < s.own t o then some (.ok { s with own := put s.own t (upd (s.own t) o (s.own t o - 1)), pc := put s.pc t (.dec0 o) }) else none
  | .borrow t u o => if s.pc t = .idle ∧ 0 < s.own u o then some (.ok { s with pc := put s.pc t (.inc0 o) }) else none
  | .step t => advance s t

/-! ### Specification -/

/-- The pointers to an object. -/
def pointers {n : Nat} (s : St n) (o : Nat) : Nat := ∑ t, s.own t o

/-- Threads use their own variables only. -/
def Own {n : Nat} : Ev n → Prop
  | .borrow _ _ _ => False
  | _ => True

/-- The states that can be reached by threads using their own variables, with never too many pointers to one object. -/
inductive Reach {n : Nat} : St n → Prop
  | init : Reach (St.init n)
  | step {s s' : St n} {e : Ev n} : Reach s → Own e → happen s e = some (.ok s') → (∀ o, pointers s' o + n ≤ 32767) → Reach s'

/-! ### Lemmas -/

/-- Where a thread is, as seen from one object. -/
inductive Loc
  | out
  | inc0 | inc1 | inc2 (v : Int) | inc3
  | dec0 | dec1 | dec2 (v : Int) | dec3 (v : Int) | dec4 (v : Int)

/-- The view from an object. -/
def view (o : Nat) : Pc → Loc
  | .idle => .out
  | .inc0 p => if p = o then .inc0 else .out
  | .inc1 p => if p = o then .inc1 else .out
  | .inc2 p v => if p = o then .inc2 v else .out
  | .inc3 p => if p = o then .inc3 else .out
  | .dec0 p => if p = o then .dec0 else .out
  | .dec1 p => if p = o then .dec1 else .out
  | .dec2 p v => if p = o then .dec2 v else .out
  | .dec3 p v => if p = o then .dec3 v else .out
  | .dec4 p v => if p = o then .dec4 v else .out

/-- What a thread adds to the count beside its pointers: one for a destruction that has not written yet, one for a copy that has. -/
def extra : Loc → Nat
  | .inc3 => 1
  | .dec0 => 1
  | .dec1 => 1
  | .dec2 _ => 1
  | _ => 0

/-- The thread is inside the mutex. -/
def inside : Loc → Prop
  | .inc1 => True
  | .inc2 _ => True
  | .inc3 => True
  | .dec1 => True
  | .dec2 _ => True
  | .dec3 _ => True
  | _ => False

/-- The thread is going to delete the object. -/
def ending : Loc → Prop
  | .dec3 v => v ≤ 0
  | .dec4 v => v ≤ 0
  | _ => False

/-- The thread is copying a pointer and has not written yet. -/
def copying : Loc → Prop
  | .inc0 => True
  | .inc1 => True
  | .inc2 _ => True
  | _ => False

/-- The number a thread has read or written. -/
def seen (c : Int) : Loc → Prop
  | .inc2 v => v = c
  | .dec2 v => v = c
  | .dec3 v => v = c
  | _ => True

/-- What concerns one object. -/
structure Obj (n : Nat) where
  cnt : Int
  live : Bool
  freed : Nat
  made : Bool
  lock : Option (Fin n)
  own : Fin n → Nat
  pc : Fin n → Loc

/-- The part of the state that concerns an object. -/
def obj {n : Nat} (s : St n) (o : Nat) : Obj n := ⟨s.cnt o, s.live o, s.freed o, s.made o, s.lock o, fun t => s.own t o, fun t => view o (s.pc t)⟩

/-- The share of a thread in the count. -/
def share {n : Nat} (b : Obj n) (t : Fin n) : Nat := b.own t + extra (b.pc t)

/-- The invariant for an object. -/
structure Inv {n : Nat} (b : Obj n) : Prop where
  count : b.live = true → b.cnt = ((∑ t, share b t : Nat) : Int)
  alive : ∀ t, 0 < share b t → b.live = true
  source : ∀ t, copying (b.pc t) → 0 < b.own t
  locked : ∀ t, b.lock = some t ↔ inside (b.pc t)
  value : ∀ t, seen b.cnt (b.pc t)
  last : ∀ t, ending (b.pc t) → b.live = true ∧ (∑ u, share b u) = 0 ∧ ∀ u, ending (b.pc u) → u = t
  kept : b.live = true → 0 < ∑ t, share b t ∨ ∃ t, ending (b.pc t)
  born : b.live = true → b.made = true
  once : b.freed = if b.made = true ∧ b.live = false then 1 else 0
  during : ∀ t, inside (b.pc t) → b.live = true

theorem sum_change {n : Nat} {f g : Fin n → Nat} (t : Fin n) (h : ∀ u, u ≠ t → f u = g u) : (∑ u, f u) + g t = (∑ u, g u) + f t := by
  rw [← Finset.add_sum_erase Finset.univ f (Finset.mem_univ t), ← Finset.add_sum_erase Finset.univ g (Finset.mem_univ t)]
  have : ∑ u ∈ Finset.univ.erase t, f u = ∑ u ∈ Finset.univ.erase t, g u := Finset.sum_congr rfl fun u hu => h u (Finset.ne_of_mem_erase hu)
  omega

theorem sum_zero {n : Nat} {f : Fin n → Nat} (h : ∑ u, f u = 0) (t : Fin n) : f t = 0 := Finset.sum_eq_zero_iff.1 h t (Finset.mem_univ t)

theorem le_sum {n : Nat} (f : Fin n → Nat) (t : Fin n) : f t ≤ ∑ u, f u := Finset.single_le_sum (f := f) (fun _ _ => Nat.zero_le _) (Finset.mem_univ t)

theorem put_self {n : Nat} {α : Type} (f : Fin n → α) (t : Fin n) (a : α) : put f t a t = a := if_pos rfl

theorem put_ne {n : Nat} {α : Type} (f : Fin n → α) {t u : Fin n} (a : α) (h : u ≠ t) : put f t a u = f u := if_neg h

theorem inv_init {n : Nat} (o : Nat) : Inv (obj (St.init n) o) := by
  constructor <;> simp [St.init, obj, view, share, copying, inside, seen, ending, extra]

theorem short_of {x : Int} (h0 : -32768 ≤ x) (h1 : x ≤ 32767) : short x = x := by
  unfold short
  rw [Int.bmod_def]
  split <;> omega

variable {n : Nat} {b : Obj n} {t : Fin n}

/-- The share of threads that are not touched. -/
theorem share_put {w : Nat} {q : Loc} {c : Int} {l : Bool} {f : Nat} {m : Bool} {k : Option (Fin n)} (u : Fin n) :
    share ⟨c, l, f, m, k, put b.own t w, put b.pc t q⟩ u = if u = t then w + extra q else share b u := by
  by_cases h : u = t
  · subst h; simp [share, put]
  · simp [share, put, h]

theorem total_put {w : Nat} {q : Loc} {c : Int} {l : Bool} {f : Nat} {m : Bool} {k : Option (Fin n)} :
    (∑ u, share ⟨c, l, f, m, k, put b.own t w, put b.pc t q⟩ u) + share b t = (∑ u, share b u) + (w + extra q) := by
  have := sum_change (f := share ⟨c, l, f, m, k, put b.own t w, put b.pc t q⟩) (g := share b) t fun u hu => by rw [share_put, if_neg hu]
  rw [this, share_put, if_pos rfl]

/-- A change of the pointers and the place of one thread that concerns neither count nor lock nor life. -/
theorem inv_quiet (h : Inv b) (w : Nat) (q : Loc) (hs : w + extra q = share b t) (hc : copying q → 0 < w) (hi : inside q ↔ inside (b.pc t)) (hv : seen b.cnt q)
    (he : ending q ↔ ending (b.pc t)) : Inv { b with own := put b.own t w, pc := put b.pc t q } := by
  have ht : (∑ u, share { b with own := put b.own t w, pc := put b.pc t q } u) = ∑ u, share b u := by
    have := total_put (b := b) (t := t) (w := w) (q := q) (c := b.cnt) (l := b.live) (f := b.freed) (m := b.made) (k := b.lock)
    omega
  have hpc : ∀ (P : Loc → Prop), (P q ↔ P (b.pc t)) → ∀ u, P (put b.pc t q u) ↔ P (b.pc u) := by
    intro P hP u
    by_cases hu : u = t
    · subst hu; rw [put_self]; exact hP
    · rw [put_ne _ _ hu]
  constructor
  · intro hl; rw [ht]; exact h.count hl
  · intro u hu
    rw [share_put] at hu
    by_cases e : u = t
    · rw [if_pos e, hs] at hu; exact h.alive t hu
    · rw [if_neg e] at hu; exact h.alive u hu
  · intro u hu
    by_cases e : u = t
    · subst e
      simp only [put_self] at hu ⊢
      exact hc hu
    · simp only [put_ne _ _ e] at hu ⊢
      exact h.source u hu
  · intro u
    exact (h.locked u).trans (hpc inside hi u).symm
  · intro u
    by_cases e : u = t
    · subst e; simp only [put_self]; exact hv
    · simp only [put_ne _ _ e]; exact h.value u
  · intro u hu
    obtain ⟨a1, a2, a3⟩ := h.last u ((hpc ending he u).1 hu)
    exact ⟨a1, ht.trans a2, fun v hv => a3 v ((hpc ending he v).1 hv)⟩
  · intro hl
    rw [ht]
    rcases h.kept hl with h1 | ⟨u, hu⟩
    · exact Or.inl h1
    · exact Or.inr ⟨u, (hpc ending he u).2 hu⟩
  · exact h.born
  · exact h.once
  · intro u hu
    exact h.during u ((hpc inside hi u).1 hu)

/-- No other thread is inside the mutex. -/
theorem alone (h : Inv b) (hi : inside (b.pc t)) {u : Fin n} (hu : inside (b.pc u)) : u = t := by
  have a := (h.locked t).2 hi
  have c := (h.locked u).2 hu
  rw [a] at c
  exact (Option.some.inj c).symm

/-- Taking the mutex. -/
theorem inv_take (h : Inv b) (q : Loc) (hk : b.lock = none) (hl : b.live = true) (hs : extra q = extra (b.pc t)) (hc : copying q → copying (b.pc t)) (hi : inside q) (hv : seen b.cnt q)
    (he : ¬ ending q) (he' : ¬ ending (b.pc t)) : Inv { b with lock := some t, pc := put b.pc t q } := by
  have ho : put b.own t (b.own t) = b.own := by
    funext u
    by_cases e : u = t
    · subst e; rw [put_self]
    · rw [put_ne _ _ e]
  have hn : ∀ u, ¬ inside (b.pc u) := fun u hu => by
    have := (h.locked u).2 hu
    rw [hk] at this
    cases this
  have ht : (∑ u, share { b with lock := some t, pc := put b.pc t q } u) = ∑ u, share b u := by
    have := total_put (b := b) (t := t) (w := b.own t) (q := q) (c := b.cnt) (l := b.live) (f := b.freed) (m := b.made) (k := some t)
    rw [ho] at this
    unfold share at this ⊢
    omega
  have hpc : ∀ u, ending (put b.pc t q u) ↔ ending (b.pc u) := by
    intro u
    by_cases hu : u = t
    · subst hu; rw [put_self]; exact ⟨fun x => absurd x he, fun x => absurd x he'⟩
    · rw [put_ne _ _ hu]
  constructor
  · intro hl; rw [ht]; exact h.count hl
  · intro u _; exact hl
  · intro u hu
    by_cases e : u = t
    · subst e
      simp only [put_self] at hu
      exact h.source u (hc hu)
    · simp only [put_ne _ _ e] at hu
      exact h.source u hu
  · intro u
    by_cases e : u = t
    · subst e; rw [show ({ b with lock := some u, pc := put b.pc u q } : Obj n).pc u = q from put_self _ _ _]; exact ⟨fun _ => hi, fun _ => rfl⟩
    · simp only [put_ne _ _ e]
      exact ⟨fun x => absurd (Option.some.inj x).symm e, fun x => absurd x (hn u)⟩
  · intro u
    by_cases e : u = t
    · subst e; simp only [put_self]; exact hv
    · simp only [put_ne _ _ e]; exact h.value u
  · intro u hu
    obtain ⟨a1, a2, a3⟩ := h.last u ((hpc u).1 hu)
    exact ⟨a1, ht.trans a2, fun v hv => a3 v ((hpc v).1 hv)⟩
  · intro hl
    rw [ht]
    rcases h.kept hl with h1 | ⟨u, hu⟩
    · exact Or.inl h1
    · exact Or.inr ⟨u, (hpc u).2 hu⟩
  · exact h.born
  · exact h.once
  · intro u _; exact hl

/-- Releasing the mutex. -/
theorem inv_release (h : Inv b) (w : Nat) (q : Loc) (hi : inside (b.pc t)) (hs : w + extra q = share b t) (hq : ¬ inside q) (hc : ¬ copying q) (hv : seen b.cnt q) (he : ending q ↔ ending (b.pc t)) :
    Inv { b with lock := none, own := put b.own t w, pc := put b.pc t q } := by
  have hl := h.during t hi
  have ht : (∑ u, share { b with lock := none, own := put b.own t w, pc := put b.pc t q } u) = ∑ u, share b u := by
    have := total_put (b := b) (t := t) (w := w) (q := q) (c := b.cnt) (l := b.live) (f := b.freed) (m := b.made) (k := none)
    omega
  have hpc : ∀ u, ending (put b.pc t q u) ↔ ending (b.pc u) := by
    intro u
    by_cases hu : u = t
    · subst hu; rw [put_self]; exact he
    · rw [put_ne _ _ hu]
  constructor
  · intro hl; rw [ht]; exact h.count hl
  · intro u _; exact hl
  · intro u hu
    by_cases e : u = t
    · subst e
      simp only [put_self] at hu
      exact absurd hu hc
    · simp only [put_ne _ _ e] at hu ⊢
      exact h.source u hu
  · intro u
    by_cases e : u = t
    · subst e; simp only [put_self]; exact ⟨fun x => (nomatch x), fun x => absurd x hq⟩
    · simp only [put_ne _ _ e]
      exact ⟨fun x => (nomatch x), fun x => absurd (alone h hi x) e⟩
  · intro u
    by_cases e : u = t
    · subst e; simp only [put_self]; exact hv
    · simp only [put_ne _ _ e]; exact h.value u
  · intro u hu
    obtain ⟨a1, a2, a3⟩ := h.last u ((hpc u).1 hu)
    exact ⟨a1, ht.trans a2, fun v hv => a3 v ((hpc v).1 hv)⟩
  · intro hl
    rw [ht]
    rcases h.kept hl with h1 | ⟨u, hu⟩
    · exact Or.inl h1
    · exact Or.inr ⟨u, (hpc u).2 hu⟩
  · exact h.born
  · exact h.once
  · intro u _; exact hl

theorem seen_outside {q : Loc} (h : ¬ inside q) (c : Int) : seen c q := by
  cases q <;> first | trivial | exact absurd trivial h

theorem ending_inside {q : Loc} (h : ending q) (h' : ¬ inside q) : ∃ v, q = .dec4 v ∧ v ≤ 0 := by
  cases q <;> first | exact absurd trivial h' | exact ⟨_, rfl, h⟩ | exact absurd h id

/-- Writing the count in `incRefCnt`. -/
theorem inv_up (h : Inv b) {v : Int} (hp : b.pc t = .inc2 v) (hb : (∑ u, share b u) + 1 ≤ 32767) : Inv { b with cnt := short (v + 1), pc := put b.pc t .inc3 } := by
  have hi : inside (b.pc t) := by rw [hp]; trivial
  have hl := h.during t hi
  have hv : v = b.cnt := by have := h.value t; rw [hp] at this; exact this
  have hcnt := h.count hl
  have hsrc := h.source t (by rw [hp]; trivial)
  have hno : ∀ u, ¬ ending (b.pc u) := fun u hu => by
    have := sum_zero (h.last u hu).2.1 t
    unfold share at this
    omega
  have ho : put b.own t (b.own t) = b.own := by
    funext u
    by_cases e : u = t
    · subst e; rw [put_self]
    · rw [put_ne _ _ e]
  have ht : (∑ u, share { b with cnt := short (v + 1), pc := put b.pc t .inc3 } u) = (∑ u, share b u) + 1 := by
    have := total_put (b := b) (t := t) (w := b.own t) (q := .inc3) (c := short (v + 1)) (l := b.live) (f := b.freed) (m := b.made) (k := b.lock)
    rw [ho] at this
    have e : share b t = b.own t := by unfold share; rw [hp]; rfl
    have e3 : extra .inc3 = 1 := rfl
    omega
  have hsh : short (v + 1) = ((∑ u, share b u : Nat) : Int) + 1 := by
    rw [hv, hcnt]
    exact short_of (by omega) (by omega)
  have hpc : ∀ u, ¬ ending (put b.pc t .inc3 u) := by
    intro u
    by_cases hu : u = t
    · subst hu; rw [put_self]; exact id
    · rw [put_ne _ _ hu]; exact hno u
  constructor
  · intro _
    rw [ht]
    show short (v + 1) = _
    rw [hsh]
    push_cast
    rfl
  · intro u _; exact hl
  · intro u hu
    by_cases e : u = t
    · subst e; exact hsrc
    · simp only [put_ne _ _ e] at hu
      exact h.source u hu
  · intro u
    by_cases e : u = t
    · subst e
      simp only [put_self]
      exact (h.locked u).trans ⟨fun _ => trivial, fun _ => hi⟩
    · simp only [put_ne _ _ e]
      exact h.locked u
  · intro u
    by_cases e : u = t
    · subst e; simp only [put_self]; trivial
    · simp only [put_ne _ _ e]
      exact seen_outside (fun x => e (alone h hi x)) _
  · intro u hu; exact absurd hu (hpc u)
  · intro _; rw [ht]; exact Or.inl (by omega)
  · exact h.born
  · exact h.once
  · intro u _; exact hl

/-- Writing the count in `decRefCnt`. -/
theorem inv_down (h : Inv b) {v : Int} (hp : b.pc t = .dec2 v) (hb : (∑ u, share b u) ≤ 32767) : Inv { b with cnt := short (v - 1), pc := put b.pc t (.dec3 (short (v - 1))) } := by
  have hi : inside (b.pc t) := by rw [hp]; trivial
  have hl := h.during t hi
  have hv : v = b.cnt := by have := h.value t; rw [hp] at this; exact this
  have hcnt := h.count hl
  have hsh1 : share b t = b.own t + 1 := by unfold share; rw [hp]; rfl
  have hpos := le_sum (share b) t
  have hno : ∀ u, ¬ ending (b.pc u) := fun u hu => by
    have := sum_zero (h.last u hu).2.1 t
    omega
  have ho : put b.own t (b.own t) = b.own := by
    funext u
    by_cases e : u = t
    · subst e; rw [put_self]
    · rw [put_ne _ _ e]
  have ht : (∑ u, share { b with cnt := short (v - 1), pc := put b.pc t (.dec3 (short (v - 1))) } u) + 1 = ∑ u, share b u := by
    have := total_put (b := b) (t := t) (w := b.own t) (q := .dec3 (short (v - 1))) (c := short (v - 1)) (l := b.live) (f := b.freed) (m := b.made) (k := b.lock)
    rw [ho] at this
    have e3 : extra (.dec3 (short (v - 1))) = 0 := rfl
    omega
  have hsh : short (v - 1) = ((∑ u, share b u : Nat) : Int) - 1 := by
    rw [hv, hcnt]
    exact short_of (by omega) (by omega)
  have hpc : ∀ u, ending (put b.pc t (.dec3 (short (v - 1))) u) → u = t ∧ short (v - 1) ≤ 0 := by
    intro u hu
    by_cases e : u = t
    · subst e; rw [put_self] at hu; exact ⟨rfl, hu⟩
    · rw [put_ne _ _ e] at hu; exact absurd hu (hno u)
  constructor
  · intro _
    show short (v - 1) = ((∑ u, share { b with cnt := short (v - 1), pc := put b.pc t (.dec3 (short (v - 1))) } u : Nat) : Int)
    omega
  · intro u _; exact hl
  · intro u hu
    by_cases e : u = t
    · subst e
      simp only [put_self] at hu
      exact absurd hu id
    · simp only [put_ne _ _ e] at hu
      exact h.source u hu
  · intro u
    by_cases e : u = t
    · subst e
      simp only [put_self]
      exact (h.locked u).trans ⟨fun _ => trivial, fun _ => hi⟩
    · simp only [put_ne _ _ e]
      exact h.locked u
  · intro u
    by_cases e : u = t
    · subst e; simp only [put_self]; rfl
    · simp only [put_ne _ _ e]
      exact seen_outside (fun x => e (alone h hi x)) _
  · intro u hu
    obtain ⟨e, hz⟩ := hpc u hu
    exact ⟨hl, by omega, fun w hw => (hpc w hw).1.trans e.symm⟩
  · intro _
    by_cases hz : short (v - 1) ≤ 0
    · exact Or.inr ⟨t, by simp only [put_self]; exact hz⟩
    · exact Or.inl (by omega)
  · exact h.born
  · exact h.once
  · intro u _; exact hl

/-- Nobody is inside the mutex of an object that is about to be deleted. -/
theorem last_alone (h : Inv b) {v : Int} (hp : b.pc t = .dec4 v) (hv : v ≤ 0) : b.live = true ∧ (∀ u, share b u = 0) ∧ (∀ u, ¬ inside (b.pc u)) ∧ b.lock = none := by
  obtain ⟨hl, hz, hu⟩ := h.last t (by rw [hp]; exact hv)
  have h0 := sum_zero hz
  have hcnt := h.count hl
  rw [hz] at hcnt
  have hno : ∀ u, ¬ inside (b.pc u) := by
    intro u hi
    have hs := h0 u
    have hsrc := h.source u
    have hval := h.value u
    have hend := hu u
    unfold share at hs
    cases hq : b.pc u <;> rw [hq] at hi hs hsrc hval hend
    · exact hi
    · exact hi
    · have := hsrc trivial; omega
    · have := hsrc trivial; omega
    · simp [extra] at hs
    · exact hi
    · simp [extra] at hs
    · simp [extra] at hs
    · rename_i w
      have hw : w = b.cnt := hval
      have : u = t := hend (show w ≤ 0 by rw [hw, hcnt]; simp)
      rw [this, hp] at hq
      cases hq
    · exact hi
  refine ⟨hl, h0, hno, ?_⟩
  cases hk : b.lock with
  | none => rfl
  | some u => exact absurd ((h.locked u).1 hk) (hno u)

/-- `delete this`. -/
theorem inv_delete (h : Inv b) {v : Int} (hp : b.pc t = .dec4 v) (hv : v ≤ 0) : Inv { b with live := false, freed := b.freed + 1, pc := put b.pc t .out } := by
  obtain ⟨hl, h0, hno, hk⟩ := last_alone h hp hv
  have hlast := (h.last t (by rw [hp]; exact hv)).2.2
  have hown : ∀ u, b.own u = 0 := fun u => by have := h0 u; unfold share at this; omega
  have hex : ∀ u, extra (b.pc u) = 0 := fun u => by have := h0 u; unfold share at this; omega
  have hput : ∀ (P : Loc → Prop), ¬ P .out → ∀ u, P (put b.pc t .out u) → u ≠ t ∧ P (b.pc u) := by
    intro P hP u hu
    by_cases e : u = t
    · subst e; rw [put_self] at hu; exact absurd hu hP
    · rw [put_ne _ _ e] at hu; exact ⟨e, hu⟩
  constructor
  · intro x; cases x
  · intro u hu
    exfalso
    unfold share at hu
    simp only at hu
    rw [hown u] at hu
    by_cases e : u = t
    · subst e; rw [put_self] at hu; exact absurd hu (by decide)
    · rw [put_ne _ _ e, hex u] at hu; exact absurd hu (by decide)
  · intro u hu
    have := h.source u (hput copying id u hu).2
    exact this
  · intro u
    simp only [hk]
    exact ⟨fun x => (nomatch x), fun x => absurd (hput inside id u x).2 (hno u)⟩
  · intro u
    by_cases e : u = t
    · subst e; simp only [put_self]; trivial
    · simp only [put_ne _ _ e]; exact h.value u
  · intro u hu
    obtain ⟨a1, a2⟩ := hput ending id u hu
    exact absurd (hlast u a2) a1
  · intro x; cases x
  · intro x; cases x
  · have := h.once
    rw [hl] at this
    simp only [this, h.born hl]
    rfl
  · intro u hu
    exact absurd (hput inside id u hu).2 (hno u)

/-- A new object with its first pointer. -/
theorem inv_make (h : Inv b) (hm : b.made = false) : Inv { b with cnt := 1, live := true, made := true, own := put b.own t (b.own t + 1) } := by
  have hl : b.live = false := by
    cases e : b.live with
    | false => rfl
    | true => have := h.born e; rw [hm] at this; cases this
  have h0 : ∀ u, share b u = 0 := by
    intro u
    by_contra e
    have := h.alive u (by omega)
    rw [hl] at this; cases this
  have hno : ∀ u, ¬ ending (b.pc u) := fun u hu => by
    have := (h.last u hu).1
    rw [hl] at this; cases this
  have hp : put b.pc t (b.pc t) = b.pc := by
    funext u
    by_cases e : u = t
    · subst e; rw [put_self]
    · rw [put_ne _ _ e]
  have ht : (∑ u, share { b with cnt := 1, live := true, made := true, own := put b.own t (b.own t + 1) } u) = 1 := by
    have := total_put (b := b) (t := t) (w := b.own t + 1) (q := b.pc t) (c := 1) (l := true) (f := b.freed) (m := true) (k := b.lock)
    rw [hp] at this
    have e1 : (∑ u, share b u) = 0 := Finset.sum_eq_zero fun u _ => h0 u
    have e2 := h0 t
    unfold share at e1 e2 this ⊢
    omega
  constructor
  · intro _; rw [ht]; rfl
  · intro _ _; rfl
  · intro u hu
    have := h.source u hu
    have e := h0 u
    unfold share at e
    omega
  · exact h.locked
  · intro u
    by_cases hi : inside (b.pc u)
    · have := h.during u hi
      rw [hl] at this; cases this
    · exact seen_outside hi _
  · intro u hu; exact absurd hu (hno u)
  · intro _; rw [ht]; exact Or.inl (by omega)
  · intro _; rfl
  · have := h.once
    rw [hm] at this
    simpa using this
  · intro _ _; rfl

/-- A pointer is handed over. -/
theorem inv_give (h : Inv b) {u : Fin n} (hp : b.pc t = .out) (h0 : 0 < b.own t) (hne : t ≠ u) :
    Inv { b with own := put (put b.own t (b.own t - 1)) u (b.own u + 1) } := by
  have hl : b.live = true := h.alive t (by unfold share; omega)
  have e1 := sum_change (f := share { b with own := put (put b.own t (b.own t - 1)) u (b.own u + 1) }) (g := share { b with own := put b.own t (b.own t - 1) }) u fun w hw => by
    simp only [share, put_ne _ _ hw]
  have e2 := sum_change (f := share { b with own := put b.own t (b.own t - 1) }) (g := share b) t fun w hw => by
    simp only [share, put_ne _ _ hw]
  have ht : (∑ w, share { b with own := put (put b.own t (b.own t - 1)) u (b.own u + 1) } w) = ∑ w, share b w := by
    have a1 : share { b with own := put b.own t (b.own t - 1) } u = b.own u + extra (b.pc u) := by simp only [share, put_ne _ _ (Ne.symm hne)]
    have a2 : share { b with own := put (put b.own t (b.own t - 1)) u (b.own u + 1) } u = b.own u + 1 + extra (b.pc u) := by simp only [share, put_self]
    have a3 : share { b with own := put b.own t (b.own t - 1) } t = b.own t - 1 + extra (b.pc t) := by simp only [share, put_self]
    have a4 : share b t = b.own t + extra (b.pc t) := rfl
    omega
  constructor
  · intro hl; rw [ht]; exact h.count hl
  · intro _ _; exact hl
  · intro w hw
    have hs := h.source w hw
    by_cases e : w = u
    · subst e; simp only [put_self]; omega
    · have e' : w ≠ t := by
        rintro rfl
        simp only [hp] at hw
        exact hw
      simp only [put_ne _ _ e, put_ne _ _ e']
      exact hs
  · exact h.locked
  · exact h.value
  · intro w hw
    obtain ⟨a1, a2, a3⟩ := h.last w hw
    exact ⟨a1, ht.trans a2, a3⟩
  · intro hl; rw [ht]; exact h.kept hl
  · exact h.born
  · exact h.once
  · exact h.during

/-! ### All events: lemmas -/

theorem pc_put (s : St n) (o : Nat) (q : Pc) : (fun u => view o (put s.pc t q u)) = put (fun u => view o (s.pc u)) t (view o q) := by
  funext u
  unfold put
  split <;> rfl

theorem own_put (s : St n) (o w : Nat) : (fun u => put s.own t (upd (s.own t) o w) u o) = put (fun u => s.own u o) t w := by
  funext u
  unfold put upd
  split
  · simp
  · rfl

theorem put_id {α : Type} (f : Fin n → α) : put f t (f t) = f := by
  funext u
  by_cases e : u = t
  · subst e; rw [put_self]
  · rw [put_ne _ _ e]

theorem own_ne (s : St n) {o p : Nat} (h : p ≠ o) (w : Nat) : (fun u => put s.own t (upd (s.own t) p w) u o) = fun u => s.own u o := by
  funext u
  unfold put upd
  split
  · rename_i e; subst e; simp [Ne.symm h]
  · rfl

theorem upd_eq {α : Type} (f : Nat → α) (i : Nat) (a : α) : upd f i a i = a := if_pos rfl

theorem upd_other {α : Type} (f : Nat → α) {i j : Nat} (a : α) (h : i ≠ j) : upd f i a j = f j := if_neg (Ne.symm h)

theorem pc_same (s : St n) {o : Nat} {q : Pc} (h : view o q = view o (s.pc t)) : (fun u => view o (put s.pc t q u)) = fun u => view o (s.pc u) := by
  rw [pc_put, h]
  exact put_id _

theorem share_le (s : St n) (o : Nat) : (∑ u, share (obj s o) u) ≤ pointers s o + n := by
  unfold pointers
  have : (∑ u, share (obj s o) u) ≤ ∑ u : Fin n, (s.own u o + 1) := by
    apply Finset.sum_le_sum
    intro u _
    unfold share obj
    simp only
    cases view o (s.pc u) <;> simp [extra]
  rw [Finset.sum_add_distrib] at this
  simpa using this

theorem take_some {s s' : St n} {p : Nat} {q : Pc} (h : take s t p q = some (.ok s')) :
    s.live p = true ∧ s.lock p = none ∧ s' = { s with lock := upd s.lock p (some t), pc := put s.pc t q } := by
  unfold take at h
  split at h
  · cases h
  · rename_i hl
    split at h
    · cases h
    · rename_i hk
      cases h
      refine ⟨by simpa using hl, ?_, rfl⟩
      cases e : s.lock p with
      | none => rfl
      | some u => rw [e] at hk; exact absurd rfl hk

theorem if_ok {α : Type} {c : Prop} [Decidable c] {x y : Outcome α} {a : α} (h : (if c then x else y) = .ok a) (hx : x ≠ .ok a) : ¬ c ∧ y = .ok a := by
  by_cases hc : c
  · rw [if_pos hc] at h; exact absurd h hx
  · rw [if_neg hc] at h; exact ⟨hc, h⟩

theorem v_idle (o : Nat) : view o .idle = .out := rfl
theorem v_inc0 (o : Nat) : view o (.inc0 o) = .inc0 := if_pos rfl
theorem v_inc1 (o : Nat) : view o (.inc1 o) = .inc1 := if_pos rfl
theorem v_inc2 (o : Nat) (v : Int) : view o (.inc2 o v) = .inc2 v := if_pos rfl
theorem v_inc3 (o : Nat) : view o (.inc3 o) = .inc3 := if_pos rfl
theorem v_dec0 (o : Nat) : view o (.dec0 o) = .dec0 := if_pos rfl
theorem v_dec1 (o : Nat) : view o (.dec1 o) = .dec1 := if_pos rfl
theorem v_dec2 (o : Nat) (v : Int) : view o (.dec2 o v) = .dec2 v := if_pos rfl
theorem v_dec3 (o : Nat) (v : Int) : view o (.dec3 o v) = .dec3 v := if_pos rfl
theorem v_dec4 (o : Nat) (v : Int) : view o (.dec4 o v) = .dec4 v := if_pos rfl

/-- A step of a thread keeps the invariant of every object. -/
theorem inv_advance {s s' : St n} (h : ∀ o, Inv (obj s o)) (hb : ∀ o, pointers s o + n ≤ 32767 ∨ ∀ u, s.pc u = .idle) (hb' : ∀ o, pointers s' o + n ≤ 32767)
    (ha : advance s t = some (.ok s')) (o : Nat) : Inv (obj s' o) := by
  unfold advance at ha
  split at ha
  · cases ha
  · -- inc0
    rename_i p hp
    obtain ⟨hl, hk, rfl⟩ := take_some ha
    by_cases e : p = o
    · subst e
      have hv : (obj s p).pc t = .inc0 := by simp [obj, hp, view]
      have := inv_take (t := t) (h p) .inc1 hk hl (by rw [hv]; rfl) (by rw [hv]; exact fun _ => trivial) trivial trivial id (by rw [hv]; exact id)
      simpa only [obj, pc_put, upd_eq, v_inc1] using this
    · have := h o
      simpa only [obj, pc_same s (o := o) (q := .inc1 p) (t := t) (by simp [hp, view, e]), upd_other _ _ e] using this
  · -- inc1
    rename_i p hp
    obtain ⟨hl, ha⟩ := if_ok (Option.some.inj ha) (fun x => (nomatch x))
    obtain ⟨hc, ha⟩ := if_ok ha (fun x => (nomatch x))
    cases ha
    by_cases e : p = o
    · subst e
      have hv : (obj s p).pc t = .inc1 := by simp [obj, hp, view]
      have := inv_quiet (t := t) (h p) (s.own t p) (.inc2 (s.cnt p)) (by unfold share; rw [hv]; rfl) (fun _ => (h p).source t (by rw [hv]; trivial)) (by rw [hv]; exact Iff.rfl) rfl (by rw [hv]; exact Iff.rfl)
      rw [show put (obj s p).own t (s.own t p) = (obj s p).own from put_id _] at this
      simpa only [obj, pc_put, v_inc2] using this
    · have := h o
      simpa only [obj, pc_same s (o := o) (q := .inc2 p (s.cnt p)) (t := t) (by simp [hp, view, e])] using this
  · -- inc2
    rename_i p v hp
    obtain ⟨hl, ha⟩ := if_ok (Option.some.inj ha) (fun x => (nomatch x))
    cases ha
    by_cases e : p = o
    · subst e
      have hv : (obj s p).pc t = .inc2 v := by simp [obj, hp, view]
      have hb2 : (∑ u, share (obj s p) u) + 1 ≤ 32767 := by
        have h1 := share_le { s with cnt := upd s.cnt p (short (v + 1)), pc := put s.pc t (.inc3 p) } p
        have h2 := hb' p
        have h3 := total_put (b := obj s p) (t := t) (w := s.own t p) (q := .inc3) (c := short (v + 1)) (l := s.live p) (f := s.freed p) (m := s.made p) (k := s.lock p)
        rw [show put (obj s p).own t (s.own t p) = (obj s p).own from put_id _] at h3
        have h4 : share (obj s p) t = s.own t p := by unfold share; rw [hv]; rfl
        have h5 : extra .inc3 = 1 := rfl
        have h6 : (∑ u, share (obj { s with cnt := upd s.cnt p (short (v + 1)), pc := put s.pc t (.inc3 p) } p) u) =
            ∑ u, share ⟨short (v + 1), s.live p, s.freed p, s.made p, s.lock p, (obj s p).own, put (obj s p).pc t .inc3⟩ u := by
          simp only [obj, pc_put, upd_eq, v_inc3]
        omega
      have := inv_up (t := t) (h p) hv hb2
      simpa only [obj, pc_put, upd_eq, v_inc3] using this
    · have := h o
      simpa only [obj, pc_same s (o := o) (q := .inc3 p) (t := t) (by simp [hp, view, e]), upd_other _ _ e] using this
  · -- inc3
    rename_i p hp
    obtain ⟨hl, ha⟩ := if_ok (Option.some.inj ha) (fun x => (nomatch x))
    cases ha
    by_cases e : p = o
    · subst e
      have hv : (obj s p).pc t = .inc3 := by simp [obj, hp, view]
      have := inv_release (t := t) (h p) (s.own t p + 1) .out (by rw [hv]; trivial) (by unfold share; rw [hv]; rfl) id id trivial (by rw [hv]; exact Iff.rfl)
      simpa only [obj, pc_put, own_put, upd_eq, v_idle] using this
    · have := h o
      simpa only [obj, pc_same s (o := o) (q := .idle) (t := t) (by simp [hp, view, e]), own_ne s e, upd_other _ _ e] using this
  · -- dec0
    rename_i p hp
    obtain ⟨hl, hk, rfl⟩ := take_some ha
    by_cases e : p = o
    · subst e
      have hv : (obj s p).pc t = .dec0 := by simp [obj, hp, view]
      have := inv_take (t := t) (h p) .dec1 hk hl (by rw [hv]; rfl) (fun x => False.elim x) trivial trivial id (by rw [hv]; exact id)
      simpa only [obj, pc_put, upd_eq, v_dec1] using this
    · have := h o
      simpa only [obj, pc_same s (o := o) (q := .dec1 p) (t := t) (by simp [hp, view, e]), upd_other _ _ e] using this
  · -- dec1
    rename_i p hp
    obtain ⟨hl, ha⟩ := if_ok (Option.some.inj ha) (fun x => (nomatch x))
    obtain ⟨hc, ha⟩ := if_ok ha (fun x => (nomatch x))
    cases ha
    by_cases e : p = o
    · subst e
      have hv : (obj s p).pc t = .dec1 := by simp [obj, hp, view]
      have := inv_quiet (t := t) (h p) (s.own t p) (.dec2 (s.cnt p)) (by unfold share; rw [hv]; rfl) (fun x => x.elim) (by rw [hv]; exact Iff.rfl) rfl (by rw [hv]; exact Iff.rfl)
      rw [show put (obj s p).own t (s.own t p) = (obj s p).own from put_id _] at this
      simpa only [obj, pc_put, v_dec2] using this
    · have := h o
      simpa only [obj, pc_same s (o := o) (q := .dec2 p (s.cnt p)) (t := t) (by simp [hp, view, e])] using this
  · -- dec2
    rename_i p v hp
    obtain ⟨hl, ha⟩ := if_ok (Option.some.inj ha) (fun x => (nomatch x))
    cases ha
    by_cases e : p = o
    · subst e
      have hv : (obj s p).pc t = .dec2 v := by simp [obj, hp, view]
      have hb2 : (∑ u, share (obj s p) u) ≤ 32767 := by
        have h1 := share_le s p
        rcases hb p with h2 | h2
        · omega
        · rw [h2 t] at hp; cases hp
      have := inv_down (t := t) (h p) hv hb2
      simpa only [obj, pc_put, upd_eq, v_dec3] using this
    · have := h o
      simpa only [obj, pc_same s (o := o) (q := .dec3 p (short (v - 1))) (t := t) (by simp [hp, view, e]), upd_other _ _ e] using this
  · -- dec3
    rename_i p v hp
    obtain ⟨hl, ha⟩ := if_ok (Option.some.inj ha) (fun x => (nomatch x))
    cases ha
    by_cases e : p = o
    · subst e
      have hv : (obj s p).pc t = .dec3 v := by simp [obj, hp, view]
      have := inv_release (t := t) (h p) (s.own t p) (.dec4 v) (by rw [hv]; trivial) (by unfold share; rw [hv]; rfl) id id trivial (by rw [hv]; exact Iff.rfl)
      rw [show put (obj s p).own t (s.own t p) = (obj s p).own from put_id _] at this
      simpa only [obj, pc_put, upd_eq, v_dec4] using this
    · have := h o
      simpa only [obj, pc_same s (o := o) (q := .dec4 p v) (t := t) (by simp [hp, view, e]), upd_other _ _ e] using this
  · -- dec4
    rename_i p v hp
    have ha := Option.some.inj ha
    by_cases hv0 : v ≤ 0
    · rw [if_pos hv0] at ha
      obtain ⟨hl, ha⟩ := if_ok ha (fun x => (nomatch x))
      cases ha
      by_cases e : p = o
      · subst e
        have hv : (obj s p).pc t = .dec4 v := by simp [obj, hp, view]
        have := inv_delete (t := t) (h p) hv hv0
        simpa only [obj, pc_put, upd_eq, v_idle] using this
      · have := h o
        simpa only [obj, pc_same s (o := o) (q := .idle) (t := t) (by simp [hp, view, e]), upd_other _ _ e] using this
    · rw [if_neg hv0] at ha
      cases ha
      by_cases e : p = o
      · subst e
        have hv : (obj s p).pc t = .dec4 v := by simp [obj, hp, view]
        have := inv_quiet (t := t) (h p) (s.own t p) .out (by unfold share; rw [hv]; rfl) (fun x => x.elim) (by rw [hv]; exact Iff.rfl) trivial (by rw [hv]; exact ⟨fun x => x.elim, fun x => hv0 x⟩)
        rw [show put (obj s p).own t (s.own t p) = (obj s p).own from put_id _] at this
        simpa only [obj, pc_put, v_idle] using this
      · have := h o
        simpa only [obj, pc_same s (o := o) (q := .idle) (t := t) (by simp [hp, view, e])] using this

theorem inv_happen {s s' : St n} {e : Ev n} (h : ∀ o, Inv (obj s o)) (hb : ∀ o, pointers s o + n ≤ 32767 ∨ ∀ u, s.pc u = .idle) (hb' : ∀ o, pointers s' o + n ≤ 32767)
    (he : Own e) (ha : happen s e = some (.ok s')) (o : Nat) : Inv (obj s' o) := by
  cases e with
  | make t p =>
    simp only [happen] at ha
    split at ha
    · rename_i hc
      cases ha
      by_cases e : p = o
      · subst e
        have := inv_make (t := t) (h p) hc.2
        simpa only [obj, own_put, upd_eq] using this
      · have := h o
        simpa only [obj, own_ne s e, upd_other _ _ e] using this
    · cases ha
  | give t u p =>
    simp only [happen] at ha
    split at ha
    · rename_i hc
      cases ha
      by_cases e : p = o
      · subst e
        have := inv_give (t := t) (u := u) (h p) (by simp [obj, hc.1, view]) hc.2.1 hc.2.2
        have e2 : (fun w => put (put s.own t (upd (s.own t) p (s.own t p - 1))) u (upd (s.own u) p (s.own u p + 1)) w p) =
            put (put (fun w => s.own w p) t (s.own t p - 1)) u (s.own u p + 1) := by
          funext w
          unfold put upd
          split
          · simp
          · split
            · simp
            · rfl
        simpa only [obj, e2] using this
      · have := h o
        have e2 : (fun w => put (put s.own t (upd (s.own t) p (s.own t p - 1))) u (upd (s.own u) p (s.own u p + 1)) w o) = fun w => s.own w o := by
          funext w
          unfold put upd
          have e' : ¬ o = p := fun x => e x.symm
          split
          · rename_i hw; subst hw; simp [e']
          · split
            · rename_i hw; subst hw; simp [e']
            · rfl
        simpa only [obj, e2] using this
    · cases ha
  | copy t p =>
    simp only [happen] at ha
    split at ha
    · rename_i hc
      cases ha
      by_cases e : p = o
      · subst e
        have hv : (obj s p).pc t = .out := by simp [obj, hc.1, view]
        have := inv_quiet (t := t) (h p) (s.own t p) .inc0 (by unfold share; rw [hv]; rfl) (fun _ => hc.2) (by rw [hv]; exact Iff.rfl) trivial (by rw [hv]; exact Iff.rfl)
        rw [show put (obj s p).own t (s.own t p) = (obj s p).own from put_id _] at this
        simpa only [obj, pc_put, v_inc0] using this
      · have := h o
        simpa only [obj, pc_same s (o := o) (q := .inc0 p) (t := t) (by simp [hc.1, view, e])] using this
    · cases ha
  | drop t p =>
    simp only [happen] at ha
    split at ha
    · rename_i hc
      cases ha
      by_cases e : p = o
      · subst e
        have hv : (obj s p).pc t = .out := by simp [obj, hc.1, view]
        have h0 : 0 < (obj s p).own t := hc.2
        have := inv_quiet (t := t) (h p) (s.own t p - 1) .dec0 (by
          unfold share; rw [hv]
          have h1 : extra .dec0 = 1 := rfl
          have h2 : extra .out = 0 := rfl
          have h3 : (obj s p).own t = s.own t p := rfl
          omega) (fun x => False.elim x) (by rw [hv]; exact Iff.rfl) trivial (by rw [hv]; exact Iff.rfl)
        simpa only [obj, pc_put, own_put, v_dec0] using this
      · have := h o
        simpa only [obj, own_ne s e, pc_same s (o := o) (q := .dec0 p) (t := t) (by simp [hc.1, view, e])] using this
    · cases ha
  | borrow t u p => exact he.elim
  | step t => exact inv_advance h hb hb' ha o

theorem reach_inv {s : St n} (h : Reach s) : (∀ o, Inv (obj s o)) ∧ ∀ o, pointers s o + n ≤ 32767 ∨ ∀ u, s.pc u = .idle := by
  induction h with
  | init => exact ⟨fun o => inv_init o, fun _ => Or.inr fun _ => rfl⟩
  | step _ he ha hb ih => exact ⟨inv_happen ih.1 ih.2 hb he ha, fun o => Or.inl (hb o)⟩

/-! ### C137 -/

/-- C137, partial: in every execution an object to which there are pointers exists, it is deleted at most once, and when no call is under way the count of every existing object is the number of its
pointers, which is not zero: every object without pointers has been deleted.  Missing: copying variables of other threads (`C137_shared_refuted`), and more than 32767 pointers and threads
(`C46_overflow_refuted`). -/
theorem C137_counts_partial {s : St n} (h : Reach s) (o : Nat) :
    (0 < pointers s o → s.live o = true) ∧ s.freed o ≤ 1 ∧ (s.freed o = 1 ↔ s.made o = true ∧ s.live o = false) ∧
    ((∀ t, s.pc t = .idle) → s.live o = true → s.cnt o = pointers s o ∧ 0 < pointers s o) := by
  have hi := (reach_inv h).1 o
  have honce : s.freed o = if s.made o = true ∧ s.live o = false then 1 else 0 := hi.once
  refine ⟨?_, ?_, ?_, ?_⟩
  · intro hp
    by_contra hl
    have : pointers s o = 0 := by
      apply Finset.sum_eq_zero
      intro t _
      by_contra ht
      exact hl (hi.alive t (by unfold share; show 0 < s.own t o + _; omega))
    omega
  · rw [honce]; split <;> omega
  · rw [honce]
    split
    · rename_i hc; exact ⟨fun _ => hc, fun _ => rfl⟩
    · rename_i hc; exact ⟨fun x => (nomatch x), fun x => absurd x hc⟩
  · intro hidle hl
    have ht : (∑ t, share (obj s o) t) = pointers s o := by
      apply Finset.sum_congr rfl
      intro t _
      unfold share obj
      simp only [hidle t, view, extra, Nat.add_zero]
    refine ⟨?_, ?_⟩
    · have := hi.count hl
      rw [ht] at this
      exact this
    · rcases hi.kept hl with hk | ⟨t, hk⟩
      · rw [ht] at hk; exact hk
      · have e : (obj s o).pc t = .out := by simp [obj, hidle t, view]
        rw [e] at hk
        exact hk.elim

/-- C137, partial: nothing a thread can do with its own variables is undefined or stops the program: no object is used after its end, no locked mutex is destroyed, no assertion fails. -/
theorem C137_safe_partial {s : St n} (h : Reach s) {e : Ev n} (he : Own e) {r : Outcome (St n)} (hr : happen s e = some r) : ∃ s', r = .ok s' := by
  have hi := (reach_inv h).1
  have live : ∀ {t : Fin n} {o : Nat}, (inside (view o (s.pc t)) ∨ copying (view o (s.pc t)) ∨ 0 < extra (view o (s.pc t))) → s.live o = true := by
    intro t o hc
    rcases hc with hc | hc | hc
    · exact (hi o).during t hc
    · exact (hi o).alive t (Nat.lt_of_lt_of_le ((hi o).source t hc) (Nat.le_add_right _ _))
    · exact (hi o).alive t (Nat.lt_of_lt_of_le hc (Nat.le_add_left _ _))
  have nonneg : ∀ {o : Nat}, s.live o = true → ¬ s.cnt o < 0 := by
    intro o hl
    have := (hi o).count hl
    have e : (obj s o).cnt = s.cnt o := rfl
    omega
  have take_ok : ∀ {t : Fin n} {o : Nat} {q : Pc}, s.live o = true → take s t o q = some r → ∃ s', r = .ok s' := by
    intro t o q hl hr
    unfold take at hr
    rw [if_neg (by rw [hl]; decide)] at hr
    split at hr
    · cases hr
    · cases hr; exact ⟨_, rfl⟩
  cases e with
  | make t o =>
    simp only [happen] at hr
    split at hr
    · cases hr; exact ⟨_, rfl⟩
    · cases hr
  | give t u o =>
    simp only [happen] at hr
    split at hr
    · cases hr; exact ⟨_, rfl⟩
    · cases hr
  | copy t o =>
    simp only [happen] at hr
    split at hr
    · cases hr; exact ⟨_, rfl⟩
    · cases hr
  | drop t o =>
    simp only [happen] at hr
    split at hr
    · cases hr; exact ⟨_, rfl⟩
    · cases hr
  | borrow t u o => exact he.elim
  | step t =>
    have hr : advance s t = some r := hr
    unfold advance at hr
    split at hr
    · cases hr
    · rename_i o hp
      exact take_ok (live (t := t) (Or.inr (Or.inl (by rw [hp, v_inc0]; trivial)))) hr
    · rename_i o hp
      have hl : s.live o = true := live (t := t) (Or.inl (by rw [hp, v_inc1]; trivial))
      rw [if_neg (by rw [hl]; decide), if_neg (nonneg hl)] at hr
      cases hr; exact ⟨_, rfl⟩
    · rename_i o v hp
      have hl : s.live o = true := live (t := t) (Or.inl (by rw [hp, v_inc2]; trivial))
      rw [if_neg (by rw [hl]; decide)] at hr
      cases hr; exact ⟨_, rfl⟩
    · rename_i o hp
      have hl : s.live o = true := live (t := t) (Or.inl (by rw [hp, v_inc3]; trivial))
      rw [if_neg (by rw [hl]; decide)] at hr
      cases hr; exact ⟨_, rfl⟩
    · rename_i o hp
      exact take_ok (live (t := t) (Or.inr (Or.inr (by rw [hp, v_dec0]; decide)))) hr
    · rename_i o hp
      have hl : s.live o = true := live (t := t) (Or.inl (by rw [hp, v_dec1]; trivial))
      rw [if_neg (by rw [hl]; decide), if_neg (nonneg hl)] at hr
      cases hr; exact ⟨_, rfl⟩
    · rename_i o v hp
      have hl : s.live o = true := live (t := t) (Or.inl (by rw [hp, v_dec2]; trivial))
      rw [if_neg (by rw [hl]; decide)] at hr
      cases hr; exact ⟨_, rfl⟩
    · rename_i o v hp
      have hl : s.live o = true := live (t := t) (Or.inl (by rw [hp, v_dec3]; trivial))
      rw [if_neg (by rw [hl]; decide)] at hr
      cases hr; exact ⟨_, rfl⟩
    · rename_i o v hp
      by_cases hv : v ≤ 0
      · obtain ⟨hl, -, -, hk⟩ := last_alone (t := t) (hi o) (v := v) (by simp [obj, hp, view]) hv
        have hl : s.live o = true := hl
        have hk : s.lock o = none := hk
        rw [if_pos hv, if_neg (by rw [hl, hk]; exact fun x => x.elim (fun y => nomatch y) (fun y => nomatch y))] at hr
        cases hr; exact ⟨_, rfl⟩
      · rw [if_neg hv] at hr
        cases hr; exact ⟨_, rfl⟩

/-- C137, partial: nobody waits for ever: whenever a thread is in a call, it can go on, or the thread that has the mutex can. -/
theorem C137_progress_partial {s : St n} (h : Reach s) (t : Fin n) (ht : s.pc t ≠ .idle) : ∃ u s', (u = t ∨ ∃ o, s.lock o = some u) ∧ happen s (.step u) = some (.ok s') := by
  have hi := (reach_inv h).1
  have done : ∀ u, advance s u ≠ none → ∃ s', happen s (.step u) = some (.ok s') := by
    intro u hu
    cases hr : advance s u with
    | none => exact absurd hr hu
    | some r =>
      obtain ⟨s', e⟩ := C137_safe_partial h (e := .step u) trivial hr
      exact ⟨s', by rw [← e]; exact hr⟩
  have blocked : ∀ {o : Nat} {q : Pc}, take s t o q = none → ∃ u, s.lock o = some u ∧ advance s u ≠ none := by
    intro o q hq
    unfold take at hq
    split at hq
    · cases hq
    · split at hq
      · rename_i hk
        cases e : s.lock o with
        | none => rw [e] at hk; cases hk
        | some u =>
          refine ⟨u, rfl, ?_⟩
          have hin := ((hi o).locked u).1 e
          have hin : inside (view o (s.pc u)) := hin
          unfold advance
          cases hp : s.pc u with
          | idle => rw [hp] at hin; exact hin.elim
          | inc0 p => rw [hp] at hin; by_cases e : p = o <;> simp [view, e, inside] at hin
          | dec0 p => rw [hp] at hin; by_cases e : p = o <;> simp [view, e, inside] at hin
          | _ => simp only []; split_ifs <;> exact fun x => nomatch x
      · cases hq
  by_cases ha : advance s t = none
  · have : ∃ o q, take s t o q = none := by
      unfold advance at ha
      split at ha
      · rename_i hp; exact absurd hp ht
      · exact ⟨_, _, ha⟩
      · cases ha
      · cases ha
      · cases ha
      · exact ⟨_, _, ha⟩
      · cases ha
      · cases ha
      · cases ha
      · cases ha
    obtain ⟨o, q, hq⟩ := this
    obtain ⟨u, hu, hd⟩ := blocked hq
    obtain ⟨s', hs⟩ := done u hd
    exact ⟨u, s', Or.inr ⟨o, hu⟩, hs⟩
  · obtain ⟨s', hs⟩ := done t ha
    exact ⟨t, s', Or.inl rfl, hs⟩

/-- Several events. -/
def run : St n → List (Ev n) → Option (Outcome (St n))
  | s, [] => some (.ok s)
  | s, e :: es => match happen s e with
    | some (.ok s') => run s' es
    | r => r

/-- Two threads: one makes an object, copies its pointer and hands the copy over; both destroy theirs at the same time. -/
example : ∃ s, run (St.init 2) ([.make 0 7, .copy 0 7] ++ List.replicate 4 (.step 0) ++ [.give 0 1 7, .drop 0 7, .drop 1 7, .step 0, .step 0, .step 0, .step 0, .step 1, .step 1, .step 1, .step 1, .step 1, .step 0]) = some (.ok s) ∧
    s.freed 7 = 1 ∧ s.live 7 = false ∧ s.cnt 7 = 0 := ⟨_, rfl, by decide, by decide, by decide⟩

/-- C137 (negation): a thread copies a variable of another thread, which destroys it meanwhile: the object is deleted before the copy counts, and the call uses what was deleted. -/
theorem C137_shared_refuted : run (St.init 2) [.make 0 7, .borrow 1 0 7, .drop 0 7, .step 0, .step 0, .step 0, .step 0, .step 0, .step 1] = some .ub ∧
    (∃ s, run (St.init 2) [.make 0 7, .borrow 1 0 7, .drop 0 7, .step 0, .step 0, .step 0, .step 0] = some (.ok s) ∧ s.live 7 = true ∧
      run s [.step 1, .step 1, .step 1, .step 1] ≠ some .ub ∧ run s [.step 1, .step 0] = some .ub) := by
  refine ⟨rfl, _, rfl, rfl, ?_, rfl⟩
  intro h
  cases h

end Verif.Utils.RefThreads
