import Verif.Threads.Start
import Verif.Threads.MutexProps

/-
Property C178: programs that use `Thread::start`, `Thread::join` (`/repo/Threads.cpp:276-312`, `/repo/Threads.h:275-299`) and the locking and unlocking of `Mutex`es (`/repo/Threads.cpp:86-190`,
`/repo/Threads.h:74-110`) together, and the memory model of C++: the right to use data moves between threads and mutexes.  Built on the steps of `Start.lean` (caller 0 is the first thread, caller
`tid + 1` the started thread `tid`) and `Mutex.lean`.
-/

namespace Verif.Threads.Own
open Verif Verif.Threads.Start

/-- What threads use: variables of the program, the field `mThread` of a `Thread` object (`Threads.h:270`), the block that carries task and argument (`Threads.cpp:279-283`), the fields `mLockCnt`,
`mLockerFile` and `mLockerLine` of a mutex (`Threads.h:80-86`). -/
inductive Loc (I : Type)
  | user (x : Nat)
  | obj (o : Nat)
  | block (p : Nat)
  | record (i : I)
deriving DecidableEq

/-- Who has the right to use something: a thread, or whoever locks a mutex next. -/
inductive Holder (I : Type)
  | thread (a : Nat)
  | mutex (i : I)
deriving DecidableEq

/-- What counts for the order of uses: `pthread_create` and `pthread_join` return, a thread's task returns, a mutex is locked for the first time or unlocked for the last time, a thread writes (true) or
reads (false) something; `peek` is a thread reading the record of a mutex it waits for (`Threads.cpp:166-168`). -/
inductive OEv (I : Type)
  | fork (a b : Nat)
  | join (a b : Nat)
  | fin (a : Nat)
  | acq (a : Nat) (i : I)
  | rel (a : Nat) (i : I)
  | use (a : Nat) (x : Loc I) (w : Bool)
  | peek (a : Nat) (i : I)
deriving DecidableEq

variable {I : Type} {n : Nat}

/-- The thread that does it. -/
def OEv.agent : OEv I → Nat
  | .fork a _ => a
  | .join a _ => a
  | .fin a => a
  | .acq a _ => a
  | .rel a _ => a
  | .use a _ _ => a
  | .peek a _ => a

/-- What it uses, and whether it writes it. -/
def OEv.touches : OEv I → Option (Loc I × Bool)
  | .use _ x w => some (x, w)
  | .peek _ i => some (.record i, false)
  | _ => none

/-- Happens before, as in C++ (6.9.2.1, 33.4.3, 33.6.4) and POSIX: the order within a thread; from the creation of a thread to whatever it does; from its end to the return of the `join` for it; from
unlocking a mutex to locking it later; and what follows from these. -/
inductive HB (tr : List (OEv I)) : Nat → Nat → Prop where
  | order {j k e e'} : j < k → tr[j]? = some e → tr[k]? = some e' → e.agent = e'.agent → HB tr j k
  | fork {j k a b e} : j < k → tr[j]? = some (.fork a b) → tr[k]? = some e → e.agent = b → HB tr j k
  | join {j k a b} : j < k → tr[j]? = some (.fin b) → tr[k]? = some (.join a b) → HB tr j k
  | mutex {j k a b i} : j < k → tr[j]? = some (.rel a i) → tr[k]? = some (.acq b i) → HB tr j k
  | trans {j k l} : HB tr j k → HB tr k l → HB tr j l

/-- No data race on `x`: of two uses, at least one of them writing, the first happens before the second. -/
def NoRace (tr : List (OEv I)) (x : Loc I) : Prop :=
  ∀ j k e e' w w', j < k → tr[j]? = some e → tr[k]? = some e' → e.touches = some (x, w) → e'.touches = some (x, w') → (w = true ∨ w' = true) → HB tr j k

/-- The threads and objects, the mutexes, who may use what, and what has happened.  Each thing has as many shares as one likes; `who x k` has share `k` of `x`. -/
structure OSt (n : Nat) (I : Type) where
  sys : Sys
  mtx : I → MSt n
  who : Loc I → Nat → Holder I
  tr : List (OEv I)

/-- Does thread `a` execute code of the program? -/
def Active (s : Sys) : Nat → Prop
  | 0 => True
  | tid + 1 => s.th tid = some .running

/-- May thread `a` write (true) or read (false) `x`?  One share is enough to read, all are needed to write. -/
def May (who : Loc I → Nat → Holder I) (a : Nat) (x : Loc I) (w : Bool) : Prop := if w then ∀ k, who x k = .thread a else ∃ k, who x k = .thread a

/-- What programs decide about: variables and `Thread` objects. -/
def Loc.movable : Loc I → Bool
  | .user _ => true
  | .obj _ => true
  | _ => false

/-- What thread `c` gives to thread `b` when it starts it on object `o` with block `p`: the block, and shares it chooses (`gift`), but not in the object itself, which `pthread_create` is about to write. -/
def give [DecidableEq I] (who : Loc I → Nat → Holder I) (gift : Loc I → Nat → Bool) (c b o p : Nat) : Loc I → Nat → Holder I :=
  fun x k => if who x k = .thread c ∧ (x = .block p ∨ x.movable = true ∧ gift x k = true ∧ x ≠ .obj o) then .thread b else who x k

/-- `join` brings back all that thread `b` has. -/
def takeBack [DecidableEq I] (who : Loc I → Nat → Holder I) (c b : Nat) : Loc I → Nat → Holder I := fun x k => if who x k = .thread b ∧ x.movable = true then .thread c else who x k

/-- Who locks a mutex gets all that is left with it. -/
def onLock [DecidableEq I] (who : Loc I → Nat → Holder I) (a : Nat) (i : I) : Loc I → Nat → Holder I := fun x k => if who x k = .mutex i then .thread a else who x k

/-- Who unlocks a mutex leaves its record and shares it chooses with it. -/
def onUnlock [DecidableEq I] (who : Loc I → Nat → Holder I) (gift : Loc I → Nat → Bool) (a : Nat) (i : I) : Loc I → Nat → Holder I :=
  fun x k => if who x k = .thread a ∧ (x = .record i ∨ x.movable = true ∧ gift x k = true) then .mutex i else who x k

/-- The thread a step of a mutex belongs to. -/
def actor : ML n → Fin n
  | .lock t => t
  | .lockFile t _ => t
  | .trylock t => t
  | .timedlock t _ _ => t
  | .unlock t => t
  | .go t => t
  | .timeout t => t

/-- The uses a step of a mutex makes of its record: it is written after locking (`Threads.cpp:113-116, 175-178`) and before unlocking (`Threads.cpp:185-187`), and read by a thread that has waited a
second (`Threads.cpp:166-168`). -/
def recordUse (i : I) (s : MSt n) : ML n → List (OEv I)
  | .unlock t => [.use t.val (.record i) true]
  | .go t =>
    match s.pc t with
    | .got => [.use t.val (.record i) true]
    | _ => []
  | .timeout t =>
    match s.pc t with
    | .lockTimed _ => [.peek t.val i]
    | _ => []
  | _ => []

/-- Steps of programs: the steps of `Start.lean` and `Mutex.lean` and the uses of memory they make, and uses of variables between the calls.  `own` says which uses and calls the program allows itself:
programs of the property use what they may use (`May`), and call `start` and `join` on objects of which they have all shares.
Simplifications: freeing the block counts as writing it; each block has a new address (the allocator orders the uses of its memory); calls that fail an assertion end the program and are left out. -/
inductive OStep [DecidableEq I] (own : (Loc I → Nat → Holder I) → Nat → Loc I → Bool → Prop) : OSt n I → OSt n I → Prop where
  /- `Threads.cpp:297`: `mThread` is read -/
  | start (g c o j b s') : Active g.sys c → own g.who c (.obj o) true → step g.sys (.start c o j b) = some (.ok s') → OStep own g ⟨s', g.mtx, g.who, g.tr ++ [.use c (.obj o) false]⟩
  /- `Threads.cpp:304-306`: the block is written -/
  | alloc (g c s') : Active g.sys c → step g.sys (.alloc c) = some (.ok s') →
      OStep own g ⟨s', g.mtx, Function.update g.who (.block g.sys.nblk) fun _ => .thread c, g.tr ++ [.use c (.block g.sys.nblk) true]⟩
  /- `Threads.cpp:307`: the thread is there, `mThread` is written before or after its first steps -/
  | create (g c o j p s') (gift : Loc I → Nat → Bool) : Active g.sys c → g.sys.caller c = .holds o j p → step g.sys (.create c true) = some (.ok s') →
      OStep own g ⟨s', g.mtx, give g.who gift c (g.sys.nth + 1) o p, (g.tr ++ [.fork c (g.sys.nth + 1)]) ++ [.use c (.obj o) true]⟩
  /- `Threads.cpp:288-290`: the block is read -/
  | load (g tid p s') : g.sys.th tid = some (.fresh p) → step g.sys (.load tid) = some (.ok s') → OStep own g ⟨s', g.mtx, g.who, g.tr ++ [.use (tid + 1) (.block p) false]⟩
  /- `Threads.cpp:291`: the block is deleted -/
  | free (g tid p j s') : g.sys.th tid = some (.loaded p j) → step g.sys (.free tid) = some (.ok s') → OStep own g ⟨s', g.mtx, g.who, g.tr ++ [.use (tid + 1) (.block p) true]⟩
  | begin (g tid s') : step g.sys (.begin tid) = some (.ok s') → OStep own g ⟨s', g.mtx, g.who, g.tr⟩
  | finish (g tid s') : g.sys.caller (tid + 1) = .idle → step g.sys (.finish tid) = some (.ok s') → OStep own g ⟨s', g.mtx, g.who, g.tr ++ [.fin (tid + 1)]⟩
  /- `Threads.h:299`: `mThread` is read -/
  | join (g c o s') : Active g.sys c → own g.who c (.obj o) true → step g.sys (.join c o) = some (.ok s') → OStep own g ⟨s', g.mtx, g.who, g.tr ++ [.use c (.obj o) false]⟩
  /- `Threads.h:299`: `pthread_join` returns, `mThread` is written -/
  | joinEnd (g c o tid s') : Active g.sys c → g.sys.caller c = .joining o tid → step g.sys (.joinEnd c) = some (.ok s') →
      OStep own g ⟨s', g.mtx, takeBack g.who c (tid + 1), (g.tr ++ [.join c (tid + 1)]) ++ [.use c (.obj o) true]⟩
  | use (g a x w) : Active g.sys a → g.sys.caller a = .idle → own g.who a (.user x) w → OStep own g ⟨g.sys, g.mtx, g.who, g.tr ++ [.use a (.user x) w]⟩
  /- a mutex is locked -/
  | lock (g i l s') : Active g.sys (actor l).val → g.sys.caller (actor l).val = .idle → Valid l → mstep (g.mtx i) l = some s' → (g.mtx i).owner = none → s'.owner = some (actor l) →
      OStep own g ⟨g.sys, Function.update g.mtx i s', onLock g.who (actor l).val i, g.tr ++ [.acq (actor l).val i]⟩
  /- a mutex is unlocked -/
  | unlock (g i l s') (gift : Loc I → Nat → Bool) : Active g.sys (actor l).val → g.sys.caller (actor l).val = .idle → Valid l → mstep (g.mtx i) l = some s' → (g.mtx i).owner = some (actor l) →
      s'.owner = none → OStep own g ⟨g.sys, Function.update g.mtx i s', onUnlock g.who gift (actor l).val i, g.tr ++ [.rel (actor l).val i]⟩
  /- all other steps of a mutex -/
  | within (g i l s') : Active g.sys (actor l).val → g.sys.caller (actor l).val = .idle → Valid l → mstep (g.mtx i) l = some s' → s'.owner = (g.mtx i).owner →
      OStep own g ⟨g.sys, Function.update g.mtx i s', g.who, g.tr ++ recordUse i (g.mtx i) l⟩

/-- Executions; at first nothing is started, all mutexes are free and have their records, and anybody may have anything else. -/
inductive OReach [DecidableEq I] (own : (Loc I → Nat → Holder I) → Nat → Loc I → Bool → Prop) : OSt n I → Prop where
  | init (who) : (∀ i k, who (.record i) k = .mutex i) → OReach own ⟨init, fun _ => minit n, who, []⟩
  | step {g g'} : OReach own g → OStep own g g' → OReach own g'

/-! ### Traces -/

theorem get_app {tr : List (OEv I)} {j : Nat} {e} (more) (h : tr[j]? = some e) : (tr ++ more)[j]? = some e := by
  rw [List.getElem?_append_left (List.getElem?_eq_some_iff.mp h).1, h]

theorem get_lt {tr : List (OEv I)} {j : Nat} {e} (h : tr[j]? = some e) : j < tr.length := (List.getElem?_eq_some_iff.mp h).1

theorem get_last {tr : List (OEv I)} (e) : (tr ++ [e])[tr.length]? = some e := by simp

theorem get_cases {tr : List (OEv I)} {j : Nat} {e e'} (h : (tr ++ [e])[j]? = some e') : tr[j]? = some e' ∨ j = tr.length ∧ e' = e := by
  by_cases hj : j < tr.length
  · left; rwa [List.getElem?_append_left hj] at h
  · have := get_lt h
    simp only [List.length_append, List.length_singleton] at this
    have hj : j = tr.length := by omega
    subst hj
    rw [get_last] at h
    injection h with h
    exact .inr ⟨rfl, h.symm⟩

theorem HB.app {tr : List (OEv I)} {j k} (more) (h : HB tr j k) : HB (tr ++ more) j k := by
  induction h with
  | order h1 h2 h3 h4 => exact .order h1 (get_app more h2) (get_app more h3) h4
  | fork h1 h2 h3 h4 => exact .fork h1 (get_app more h2) (get_app more h3) h4
  | join h1 h2 h3 => exact .join h1 (get_app more h2) (get_app more h3)
  | mutex h1 h2 h3 => exact .mutex h1 (get_app more h2) (get_app more h3)
  | trans _ _ h1 h2 => exact .trans h1 h2

/-- An event after which thread `u` can do something: its own, or its creation. -/
def Reaches (e : OEv I) (u : Nat) : Prop := e.agent = u ∨ ∃ a, e = .fork a u

/-- Events that what a holder does next is ordered after. -/
def Meets (e : OEv I) : Holder I → Prop
  | .thread u => Reaches e u
  | .mutex i => ∃ a, e = .rel a i

/-- Whatever is done next with the shares of a holder happens after event `j`. -/
def Past (tr : List (OEv I)) (j : Nat) (h : Holder I) : Prop := ∃ k e, tr[k]? = some e ∧ Meets e h ∧ (j = k ∨ HB tr j k)

theorem Past.app {tr : List (OEv I)} {j u} (more) (h : Past tr j u) : Past (tr ++ more) j u := by
  obtain ⟨k, e, h1, h2, h3⟩ := h
  exact ⟨k, e, get_app more h1, h2, h3.imp_right (.app more)⟩

theorem Reaches.edge {tr : List (OEv I)} {j k u : Nat} {e e' : OEv I} (h : Reaches e u) (hj : j < k) (h1 : tr[j]? = some e) (h2 : tr[k]? = some e') (hu : e'.agent = u) : HB tr j k := by
  rcases h with h | ⟨a, rfl⟩
  · exact .order hj h1 h2 (h.trans hu.symm)
  · exact .fork hj h1 h2 hu

/-- The next event of the thread. -/
theorem Past.next {tr : List (OEv I)} {j u} (h : Past tr j (.thread u)) {e : OEv I} (he : e.agent = u) : HB (tr ++ [e]) j tr.length := by
  obtain ⟨k, e', h1, h2, h3⟩ := h
  have := Reaches.edge h2 (get_lt h1) (get_app [e] h1) (get_last e) he
  rcases h3 with rfl | h3
  · exact this
  · exact (h3.app [e]).trans this

theorem past_last (tr : List (OEv I)) (e : OEv I) : Past (tr ++ [e]) tr.length (.thread e.agent) := ⟨_, _, get_last e, .inl rfl, .inl rfl⟩

/-- A thread's knowledge passes to a mutex it unlocks. -/
theorem Past.unlock {tr : List (OEv I)} {j a} {i : I} (h : Past tr j (.thread a)) : Past (tr ++ [.rel a i]) j (.mutex i) :=
  ⟨tr.length, _, get_last _, ⟨a, rfl⟩, .inr (h.next rfl)⟩

/-- A mutex's knowledge passes to who locks it. -/
theorem Past.lock {tr : List (OEv I)} {j a} {i : I} (h : Past tr j (.mutex i)) : Past (tr ++ [.acq a i]) j (.thread a) := by
  obtain ⟨k, e, h1, ⟨b, rfl⟩, h3⟩ := h
  have h4 : HB (tr ++ [.acq a i]) k tr.length := .mutex (get_lt h1) (get_app _ h1) (get_last _)
  refine ⟨tr.length, _, get_last _, .inl rfl, .inr ?_⟩
  rcases h3 with rfl | h3
  · exact h4
  · exact (h3.app _).trans h4

/-- A thread's knowledge passes to a thread it creates. -/
theorem Past.fork {tr : List (OEv I)} {j a b} (h : Past tr j (.thread a)) : Past (tr ++ [.fork a b]) j (.thread b) :=
  ⟨tr.length, _, get_last _, .inr ⟨a, rfl⟩, .inr (h.next rfl)⟩

/-! ### Shares -/

/-- No race between uses (without peeks). -/
def UseFree (tr : List (OEv I)) : Prop :=
  ∀ j k a b x w w', j < k → tr[j]? = some (.use a x w) → tr[k]? = some (.use b x w') → (w = true ∨ w' = true) → HB tr j k

/-- Everyone with a share knows of all writes; of each use someone with a share knows. -/
structure SInv (who : Loc I → Nat → Holder I) (tr : List (OEv I)) : Prop where
  wrote : ∀ (j : Nat) a x, tr[j]? = some (.use a x true) → ∀ k, Past tr j (who x k)
  used : ∀ (j : Nat) a x w, tr[j]? = some (.use a x w) → ∃ k, Past tr j (who x k)
  race : UseFree tr

theorem may_read {who : Loc I → Nat → Holder I} {a x w} (h : May who a x w) : ∃ k, who x k = .thread a := by
  cases w
  · simpa [May] using h
  · simp only [May] at h; exact ⟨0, h 0⟩

theorem SInv.use {who : Loc I → Nat → Holder I} {tr : List (OEv I)} (h : SInv who tr) {a x w} (hm : May who a x w) : SInv who (tr ++ [.use a x w]) := by
  constructor
  · intro j b y hj k
    rcases get_cases hj with hj | ⟨rfl, he⟩
    · exact (h.wrote j b y hj k).app _
    · cases he
      simp only [May] at hm
      rw [hm k]
      exact past_last tr _
  · intro j b y w' hj
    rcases get_cases hj with hj | ⟨rfl, he⟩
    · obtain ⟨k, hk⟩ := h.used j b y w' hj
      exact ⟨k, hk.app _⟩
    · cases he
      obtain ⟨k, hk⟩ := may_read hm
      refine ⟨k, ?_⟩
      rw [hk]
      exact past_last tr _
  · intro j k b c y w1 w2 hjk hj hk hw
    rcases get_cases hk with hk | ⟨rfl, he⟩
    · rcases get_cases hj with hj | ⟨rfl, -⟩
      · exact (h.race j k b c y w1 w2 hjk hj hk hw).app _
      · have := get_lt hk; omega
    · cases he
      rcases get_cases hj with hj' | ⟨rfl, -⟩
      · refine Past.next (u := a) ?_ rfl
        cases hb : w
        · subst hb
          simp only [Bool.false_eq_true, or_false] at hw
          subst hw
          obtain ⟨k, hk⟩ := may_read hm
          rw [← hk]
          exact h.wrote j b x hj' k
        · subst hb
          obtain ⟨k, hk⟩ := h.used j b x w1 hj'
          simp only [May] at hm
          rw [hm k] at hk
          exact hk
      · omega

/-- An event that is no use, with shares moving along. -/
theorem SInv.move {who who' : Loc I → Nat → Holder I} {tr : List (OEv I)} (h : SInv who tr) {e : OEv I} (he : ∀ a x w, e ≠ .use a x w)
    (hm : ∀ x k j, Past tr j (who x k) → Past (tr ++ [e]) j (who' x k)) : SInv who' (tr ++ [e]) := by
  have old : ∀ {j : Nat} {a x w}, (tr ++ [e])[j]? = some (.use a x w) → tr[j]? = some (.use a x w) := by
    intro j a x w hj
    rcases get_cases hj with hj | ⟨-, hj⟩
    · exact hj
    · exact absurd hj.symm (he a x w)
  constructor
  · intro j a x hj k
    exact hm x k j (h.wrote j a x (old hj) k)
  · intro j a x w hj
    obtain ⟨k, hk⟩ := h.used j a x w (old hj)
    exact ⟨k, hm x k j hk⟩
  · intro j k a b x w w' hjk hj hk hw
    exact (h.race j k a b x w w' hjk (old hj) (old hk) hw).app _

theorem SInv.other {who : Loc I → Nat → Holder I} {tr : List (OEv I)} (h : SInv who tr) {e : OEv I} (he : ∀ a x w, e ≠ .use a x w) : SInv who (tr ++ [e]) :=
  h.move he fun _ _ _ hp => hp.app _

/-- A thing never used before. -/
theorem SInv.fresh [DecidableEq I] {who : Loc I → Nat → Holder I} {tr : List (OEv I)} (h : SInv who tr) {x : Loc I} (hx : ∀ (j : Nat) a w, tr[j]? ≠ some (.use a x w)) (f : Nat → Holder I) :
    SInv (Function.update who x f) tr := by
  refine ⟨fun j a y hj k => ?_, fun j a y w hj => ?_, h.race⟩
  · have : y ≠ x := by rintro rfl; exact hx j a true hj
    rw [Function.update_of_ne this]
    exact h.wrote j a y hj k
  · have : y ≠ x := by rintro rfl; exact hx j a w hj
    rw [Function.update_of_ne this]
    exact h.used j a y w hj

/-! ### The invariant -/

/-- The end of a thread is the last it does. -/
def FinLast (tr : List (OEv I)) (u : Nat) : Prop := ∃ k : Nat, tr[k]? = some (.fin u) ∧ ∀ (k' : Nat) e, tr[k']? = some e → Reaches e u → k' ≤ k

theorem FinLast.app {tr : List (OEv I)} {u} (h : FinLast tr u) {e : OEv I} (he : ¬ Reaches e u) : FinLast (tr ++ [e]) u := by
  obtain ⟨k, h1, h2⟩ := h
  refine ⟨k, get_app _ h1, fun k' e' h3 h4 => ?_⟩
  rcases get_cases h3 with h3 | ⟨-, rfl⟩
  · exact h2 k' e' h3 h4
  · exact absurd h4 he

/-- What the `join` for thread `u` brings. -/
theorem FinLast.joined {tr : List (OEv I)} {u c j : Nat} (h : FinLast tr u) (hp : Past tr j (.thread u)) : Past (tr ++ [.join c u]) j (.thread c) := by
  obtain ⟨k, h1, h2⟩ := h
  obtain ⟨k', e, h3, h4, h5⟩ := hp
  have hk : k' ≤ k := h2 k' e h3 h4
  have hj : HB (tr ++ [.join c u]) k tr.length := .join (get_lt h1) (get_app _ h1) (get_last _)
  have h6 : k' = k ∨ HB tr k' k := by
    rcases Nat.lt_or_eq_of_le hk with hk | hk
    · exact .inr (Reaches.edge h4 hk h3 h1 rfl)
    · exact .inl hk
  refine ⟨tr.length, _, get_last _, .inl rfl, .inr ?_⟩
  have h7 : HB (tr ++ [.join c u]) k' tr.length := by
    rcases h6 with rfl | h6
    · exact hj
    · exact (h6.app _).trans hj
  rcases h5 with rfl | h5
  · exact h7
  · exact (h5.app _).trans h7

structure OInv (g : OSt n I) : Prop where
  sys : Inv g.sys
  mtx : ∀ i, MInv (g.mtx i)
  shares : SInv g.who g.tr
  cblock : ∀ c p, callerBlock (g.sys.caller c) = some p → ∀ k, g.who (.block p) k = .thread c
  tblock : ∀ t p, thBlock (g.sys.th t) = some p → ∀ k, g.who (.block p) k = .thread (t + 1)
  busy : ∀ c o, busyOn (g.sys.caller c) = some o → ∀ k, g.who (.obj o) k = .thread c
  locked : ∀ i (t : Fin n), (g.mtx i).owner = some t → ∀ k, g.who (.record i) k = .thread t.val
  unlocked : ∀ i, (g.mtx i).owner = none → ∀ k, g.who (.record i) k = .mutex i
  active : ∀ c, g.sys.caller c ≠ .idle → Active g.sys c
  unused : ∀ p, g.sys.nblk ≤ p → ∀ (j : Nat) a w, g.tr[j]? ≠ some (.use a (.block p) w)
  ended : ∀ t, g.sys.th t = some .ended → FinLast g.tr (t + 1)

theorem oinv_init (who : Loc I → Nat → Holder I) (h : ∀ i k, who (.record i) k = .mutex i) : OInv (⟨init, fun _ => minit n, who, []⟩ : OSt n I) := by
  refine ⟨inv_init, fun _ => ⟨fun t => by simp [minit, pend], by simp [minit], by simp [minit], fun t => by simp [minit, okDeadline]⟩, ⟨?_, ?_, ?_⟩, ?_, ?_, ?_, ?_, ?_, ?_, ?_, ?_⟩ <;> simp [init, callerBlock, thBlock, busyOn, UseFree, minit, h]

theorem active_ended {s : Sys} {c t : Nat} (h : Active s c) (ht : s.th t ≠ some .running) : c ≠ t + 1 := by
  rintro rfl; exact ht h

theorem unused_app {tr : List (OEv I)} {n m : Nat} (h : ∀ p, n ≤ p → ∀ (j : Nat) a w, tr[j]? ≠ some (.use a (.block p) w)) (hm : n ≤ m) {e : OEv I} (he : ∀ p, m ≤ p → ∀ a w, e ≠ .use a (.block p) w) :
    ∀ p, m ≤ p → ∀ (j : Nat) a w, (tr ++ [e])[j]? ≠ some (.use a (.block p) w) := by
  intro p hp j a w hj
  rcases get_cases hj with hj | ⟨-, hj⟩
  · exact h p (Nat.le_trans hm hp) j a w hj
  · exact he p hp a w hj.symm

/-- The record is written by the owner only. -/
theorem record_owner {i : I} {s s' : MSt n} (h : MInv s) {l : ML n} (hs : mstep s l = some s') :
    recordUse i s l = [] ∨ (recordUse i s l = [.use (actor l).val (.record i) true] ∧ s.owner = some (actor l)) ∨ recordUse i s l = [.peek (actor l).val i] := by
  have own : ∀ t, 0 < s.held t + pend (s.pc t) → s.owner = some t := by
    intro t ht
    rw [h.1 t] at ht
    by_contra hn
    rw [if_neg hn] at ht
    omega
  cases l with
  | unlock t =>
    simp only [mstep] at hs
    split at hs
    · rename_i hc
      exact .inr (.inl ⟨rfl, own t (by omega)⟩)
    · simp at hs
  | go t =>
    cases hp : s.pc t <;> simp [recordUse, hp, actor]
    exact own t (by simp [hp, pend])
  | timeout t =>
    cases hp : s.pc t <;> simp [recordUse, hp, actor]
  | _ => exact .inl rfl

theorem oinv_step [DecidableEq I] {g g' : OSt n I} (hi : OInv g) (h : OStep May g g') : OInv g' := by
  cases h with
  | start c o j b s' ha hm hs =>
    have hsys := inv_step hi.sys hs
    simp only [step] at hs
    split at hs
    · rename_i hc
      split at hs
      · simp only [Option.some.injEq, Outcome.ok.injEq] at hs
        subst hs
        refine ⟨hsys, hi.mtx, hi.shares.use (by simp only [May] at hm ⊢; exact ⟨0, hm 0⟩), ?_, hi.tblock, ?_, hi.locked, hi.unlocked, ?_, unused_app hi.unused (Nat.le_refl _) (by simp), ?_⟩
        · intro d p hd
          by_cases h : d = c
          · subst h; simp [callerBlock] at hd
          · simp only [Function.update_of_ne h] at hd; exact hi.cblock d p hd
        · intro d q hd
          by_cases h : d = c
          · subst h; simp only [Function.update_self, busyOn, Option.some.injEq] at hd; subst hd; simpa [May] using hm
          · simp only [Function.update_of_ne h] at hd; exact hi.busy d q hd
        · intro d hd
          by_cases h : d = c
          · subst h; exact ha
          · simp only [Function.update_of_ne h] at hd; exact hi.active d hd
        · intro t ht
          refine (hi.ended t ht).app ?_
          rintro (h | ⟨_, h⟩)
          · exact active_ended ha (by rw [show g.sys.th t = _ from ht]; simp) h
          · simp at h
      · simp at hs
    · simp at hs
  | alloc c s' ha hs =>
    have hsys := inv_step hi.sys hs
    simp only [step] at hs
    split at hs
    · rename_i o j hc
      simp only [Option.some.injEq, Outcome.ok.injEq] at hs
      subst hs
      refine ⟨hsys, hi.mtx, (hi.shares.fresh (hi.unused _ (Nat.le_refl _)) _).use (by simp [May]), ?_, ?_, ?_, ?_, ?_, ?_, unused_app hi.unused (Nat.le_succ _) (by intro p hp a w h; simp at h; omega), ?_⟩
      · intro d p hd
        by_cases h : d = c
        · subst h; simp only [Function.update_self, callerBlock, Option.some.injEq] at hd; subst hd; simp
        · simp only [Function.update_of_ne h] at hd
          have hne : p ≠ g.sys.nblk := by
            rintro rfl
            cases hcd : g.sys.caller d <;> simp [hcd, callerBlock] at hd
            have := hi.sys.held d _ _ _ hcd
            rw [hd, hi.sys.bbound _ (Nat.le_refl _)] at this
            simp at this
          simp only [Function.update_of_ne (show Loc.block p ≠ Loc.block g.sys.nblk by simpa using hne)]
          exact hi.cblock d p hd
      · intro t p ht
        have hne : p ≠ g.sys.nblk := by
          rintro rfl
          have hl := hi.sys.lifeOk t
          have hb := hi.sys.bbound _ (Nat.le_refl _)
          cases hx : g.sys.th t with
          | none => simp [hx, thBlock] at ht
          | some x =>
            cases x <;> simp [hx, thBlock] at ht
            · rw [hx, ht] at hl; obtain ⟨j, h1, -⟩ := hl; rw [hb] at h1; simp at h1
            · rw [hx, ht] at hl; obtain ⟨h1, -⟩ := hl; rw [hb] at h1; simp at h1
        simp only [Function.update_of_ne (show Loc.block p ≠ Loc.block g.sys.nblk by simpa using hne)]
        exact hi.tblock t p ht
      · intro d q hd
        simp only [Function.update_of_ne (show Loc.obj q ≠ Loc.block g.sys.nblk by simp)]
        by_cases h : d = c
        · subst h
          simp only [Function.update_self, busyOn, Option.some.injEq] at hd
          exact hi.busy d q (by rw [hc]; simpa [busyOn] using hd)
        · simp only [Function.update_of_ne h] at hd; exact hi.busy d q hd
      · intro i t ho; simpa using hi.locked i t ho
      · intro i ho; simpa using hi.unlocked i ho
      · intro d hd
        by_cases h : d = c
        · subst h; exact ha
        · simp only [Function.update_of_ne h] at hd; exact hi.active d hd
      · intro t ht
        refine (hi.ended t ht).app ?_
        rintro (h | ⟨_, h⟩)
        · exact active_ended ha (by rw [show g.sys.th t = _ from ht]; simp) h
        · simp at h
    · simp at hs
  | create c o j p s' gift ha hc hs =>
    have hsys := inv_step hi.sys hs
    simp only [step, hc, if_true, Option.some.injEq, Outcome.ok.injEq] at hs
    subst hs
    have hown : ∀ k, g.who (.obj o) k = .thread c := hi.busy c o (by rw [hc]; rfl)
    have hown' : ∀ k, give g.who gift c (g.sys.nth + 1) o p (.obj o) k = .thread c := by
      intro k; simp [give, hown k]
    have hblk : ∀ k, g.who (.block p) k = .thread c := hi.cblock c p (by rw [hc]; rfl)
    have hmoved : SInv (give g.who gift c (g.sys.nth + 1) o p) (g.tr ++ [.fork c (g.sys.nth + 1)]) := by
      refine hi.shares.move (by simp) ?_
      intro x k j hp
      simp only [give]
      split
      · rename_i hx
        rw [hx.1] at hp
        exact hp.fork
      · exact hp.app _
    refine ⟨hsys, hi.mtx, hmoved.use (by simpa [May] using hown'), ?_, ?_, ?_, ?_, ?_, ?_, unused_app (unused_app hi.unused (Nat.le_refl _) (by simp)) (Nat.le_refl _) (by simp), ?_⟩
    · intro d q hd k
      by_cases h : d = c
      · subst h; simp [callerBlock] at hd
      · simp only [Function.update_of_ne h] at hd
        have := hi.cblock d q hd k
        simp only [give, this, Holder.thread.injEq, h, false_and, if_false]
    · intro t q ht k
      by_cases h : t = g.sys.nth
      · subst h
        simp only [Function.update_self, thBlock, Option.some.injEq] at ht
        subst ht
        simp [give, hblk k]
      · simp only [Function.update_of_ne h] at ht
        have := hi.tblock t q ht k
        have hne : t + 1 ≠ c := (active_ended ha (t := t) (by intro h'; rw [h'] at ht; simp [thBlock] at ht)).symm
        simp only [give, this, Holder.thread.injEq, hne, false_and, if_false]
    · intro d q hd k
      by_cases h : d = c
      · subst h; simp [busyOn] at hd
      · simp only [Function.update_of_ne h] at hd
        have := hi.busy d q hd k
        simp only [give, this, Holder.thread.injEq, h, false_and, if_false]
    · intro i t ho k; simp [give, hi.locked i t ho k, Loc.movable]
    · intro i ho k; simp [give, hi.unlocked i ho k]
    · intro d hd
      by_cases h : d = c
      · subst h; simp at hd
      · simp only [Function.update_of_ne h] at hd
        have := hi.active d hd
        cases d with
        | zero => trivial
        | succ t =>
          simp only [Active] at this ⊢
          by_cases ht : t = g.sys.nth
          · subst ht; rw [hi.sys.bound _ (Nat.le_refl _)] at this; simp at this
          · rw [Function.update_of_ne ht]; exact this
    · intro t ht
      by_cases h : t = g.sys.nth
      · subst h; simp at ht
      · simp only [Function.update_of_ne h] at ht
        have hne := active_ended ha (t := t) (by rw [ht]; simp)
        refine ((hi.ended t ht).app ?_).app ?_
        · rintro (h' | ⟨_, h'⟩)
          · exact hne h'
          · simp at h'; omega
        · rintro (h' | ⟨_, h'⟩)
          · exact hne h'
          · simp at h'
  | load tid p s' ht hs =>
    have hsys := inv_step hi.sys hs
    have hown := hi.tblock tid p (by rw [ht]; rfl)
    simp only [step, ht] at hs
    split at hs
    · rename_i j hj
      simp only [Option.some.injEq, Outcome.ok.injEq] at hs
      subst hs
      have hp : p < g.sys.nblk := by
        by_contra hp
        rw [hi.sys.bbound p (by omega)] at hj; simp at hj
      refine ⟨hsys, hi.mtx, hi.shares.use (by simp only [May]; exact ⟨0, hown 0⟩), hi.cblock, ?_, hi.busy, hi.locked, hi.unlocked, ?_, unused_app hi.unused (Nat.le_refl _) (by intro q hq a w h; simp at h; exact absurd hq (by show ¬ g.sys.nblk ≤ q; omega)), ?_⟩
      · intro t q h
        by_cases he : t = tid
        · subst he; simp only [Function.update_self, thBlock, Option.some.injEq] at h; subst h; exact hown
        · simp only [Function.update_of_ne he] at h; exact hi.tblock t q h
      · intro d hd
        have := hi.active d hd
        cases d with
        | zero => trivial
        | succ t =>
          simp only [Active] at this ⊢
          by_cases he : t = tid
          · subst he; rw [ht] at this; simp at this
          · rw [Function.update_of_ne he]; exact this
      · intro t h
        by_cases he : t = tid
        · subst he; simp at h
        · simp only [Function.update_of_ne he] at h
          refine (hi.ended t h).app ?_
          rintro (h' | ⟨_, h'⟩)
          · simp [OEv.agent] at h'; omega
          · simp at h'
    · simp at hs
  | free tid p j s' ht hs =>
    have hsys := inv_step hi.sys hs
    have hown := hi.tblock tid p (by rw [ht]; rfl)
    simp only [step, ht] at hs
    split at hs
    · rename_i j' hj
      simp only [Option.some.injEq, Outcome.ok.injEq] at hs
      subst hs
      have hp : p < g.sys.nblk := by
        by_contra hp
        rw [hi.sys.bbound p (by omega)] at hj; simp at hj
      refine ⟨hsys, hi.mtx, hi.shares.use (by simpa [May] using hown), hi.cblock, ?_, hi.busy, hi.locked, hi.unlocked, ?_, unused_app hi.unused (Nat.le_refl _) (by intro q hq a w h; simp at h; exact absurd hq (by show ¬ g.sys.nblk ≤ q; omega)), ?_⟩
      · intro t q h
        by_cases he : t = tid
        · subst he; simp [thBlock] at h
        · simp only [Function.update_of_ne he] at h; exact hi.tblock t q h
      · intro d hd
        have := hi.active d hd
        cases d with
        | zero => trivial
        | succ t =>
          simp only [Active] at this ⊢
          by_cases he : t = tid
          · subst he; rw [ht] at this; simp at this
          · rw [Function.update_of_ne he]; exact this
      · intro t h
        by_cases he : t = tid
        · subst he; simp at h
        · simp only [Function.update_of_ne he] at h
          refine (hi.ended t h).app ?_
          rintro (h' | ⟨_, h'⟩)
          · simp [OEv.agent] at h'; omega
          · simp at h'
    · simp at hs
  | begin tid s' hs =>
    have hsys := inv_step hi.sys hs
    simp only [step] at hs
    split at hs
    · rename_i j ht
      simp only [Option.some.injEq, Outcome.ok.injEq] at hs
      subst hs
      refine ⟨hsys, hi.mtx, hi.shares, hi.cblock, ?_, hi.busy, hi.locked, hi.unlocked, ?_, hi.unused, ?_⟩
      · intro t q h
        by_cases he : t = tid
        · subst he; simp [thBlock] at h
        · simp only [Function.update_of_ne he] at h; exact hi.tblock t q h
      · intro d hd
        have := hi.active d hd
        cases d with
        | zero => trivial
        | succ t =>
          simp only [Active] at this ⊢
          by_cases he : t = tid
          · subst he; simp
          · rw [Function.update_of_ne he]; exact this
      · intro t h
        by_cases he : t = tid
        · subst he; simp at h
        · simp only [Function.update_of_ne he] at h; exact hi.ended t h
    · simp at hs
  | finish tid s' hidle hs =>
    have hsys := inv_step hi.sys hs
    simp only [step] at hs
    split at hs
    · rename_i ht
      simp only [Option.some.injEq, Outcome.ok.injEq] at hs
      subst hs
      refine ⟨hsys, hi.mtx, hi.shares.other (by simp), hi.cblock, ?_, hi.busy, hi.locked, hi.unlocked, ?_, unused_app hi.unused (Nat.le_refl _) (by simp), ?_⟩
      · intro t q h
        by_cases he : t = tid
        · subst he; simp [thBlock] at h
        · simp only [Function.update_of_ne he] at h; exact hi.tblock t q h
      · intro d hd
        have := hi.active d hd
        cases d with
        | zero => trivial
        | succ t =>
          simp only [Active] at this ⊢
          by_cases he : t = tid
          · subst he; exact absurd hidle hd
          · rw [Function.update_of_ne he]; exact this
      · intro t h
        by_cases he : t = tid
        · subst he
          refine ⟨g.tr.length, get_last _, fun k' e hk _ => ?_⟩
          have := get_lt hk
          simp only [List.length_append, List.length_singleton] at this
          omega
        · simp only [Function.update_of_ne he] at h
          refine (hi.ended t h).app ?_
          rintro (h' | ⟨_, h'⟩)
          · simp [OEv.agent] at h'; omega
          · simp at h'
    · simp at hs
  | join c o s' ha hm hs =>
    have hsys := inv_step hi.sys hs
    simp only [step] at hs
    split at hs
    · rename_i hc
      split at hs
      · rename_i tid ho
        simp only [Option.some.injEq, Outcome.ok.injEq] at hs
        subst hs
        refine ⟨hsys, hi.mtx, hi.shares.use (by simp only [May] at hm ⊢; exact ⟨0, hm 0⟩), ?_, hi.tblock, ?_, hi.locked, hi.unlocked, ?_, unused_app hi.unused (Nat.le_refl _) (by simp), ?_⟩
        · intro d p hd
          by_cases h : d = c
          · subst h; simp [callerBlock] at hd
          · simp only [Function.update_of_ne h] at hd; exact hi.cblock d p hd
        · intro d q hd
          by_cases h : d = c
          · subst h; simp only [Function.update_self, busyOn, Option.some.injEq] at hd; subst hd; simpa [May] using hm
          · simp only [Function.update_of_ne h] at hd; exact hi.busy d q hd
        · intro d hd
          by_cases h : d = c
          · subst h; exact ha
          · simp only [Function.update_of_ne h] at hd; exact hi.active d hd
        · intro t ht
          refine (hi.ended t ht).app ?_
          rintro (h | ⟨_, h⟩)
          · exact active_ended ha (by rw [show g.sys.th t = _ from ht]; simp) h
          · simp at h
      · simp at hs
    · simp at hs
  | joinEnd c o tid s' ha hc hs =>
    have hsys := inv_step hi.sys hs
    simp only [step, hc] at hs
    split at hs
    · rename_i ht
      simp only [Option.some.injEq, Outcome.ok.injEq] at hs
      subst hs
      have hne : c ≠ tid + 1 := active_ended ha (by rw [ht]; simp)
      have hown : ∀ k, g.who (.obj o) k = .thread c := hi.busy c o (by rw [hc]; rfl)
      have hidle : ∀ d, g.sys.caller d ≠ .idle → d ≠ tid + 1 := fun d hd => active_ended (hi.active d hd) (by rw [ht]; simp)
      have hmoved : SInv (takeBack g.who c (tid + 1)) (g.tr ++ [.join c (tid + 1)]) := by
        refine hi.shares.move (by simp) ?_
        intro x k j hp
        simp only [takeBack]
        split
        · rename_i hx
          rw [hx.1] at hp
          exact (hi.ended tid ht).joined hp
        · exact hp.app _
      refine ⟨hsys, hi.mtx, hmoved.use (by simp only [May, if_true, takeBack]; intro k; rw [hown k]; simp [hne]), ?_, ?_, ?_, ?_, ?_, ?_, unused_app (unused_app hi.unused (Nat.le_refl _) (by simp)) (Nat.le_refl _) (by simp), ?_⟩
      · intro d p hd k
        by_cases h : d = c
        · subst h; simp [callerBlock] at hd
        · simp only [Function.update_of_ne h] at hd
          have hd2 := hidle d (by intro h'; rw [h'] at hd; simp [callerBlock] at hd)
          simp only [takeBack, hi.cblock d p hd k, Holder.thread.injEq, hd2, false_and, if_false]
      · intro t q h k
        by_cases he : t = tid
        · subst he; simp [thBlock] at h
        · simp only [Function.update_of_ne he] at h
          simp only [takeBack, hi.tblock t q h k, Holder.thread.injEq, Nat.add_right_cancel_iff, he, false_and, if_false]
      · intro d q hd k
        by_cases h : d = c
        · subst h; simp [busyOn] at hd
        · simp only [Function.update_of_ne h] at hd
          have hd2 := hidle d (by intro h'; rw [h'] at hd; simp [busyOn] at hd)
          simp only [takeBack, hi.busy d q hd k, Holder.thread.injEq, hd2, false_and, if_false]
      · intro i t ho k; simp [takeBack, hi.locked i t ho k, Loc.movable]
      · intro i ho k; simp [takeBack, hi.unlocked i ho k]
      · intro d hd
        by_cases h : d = c
        · subst h; simp at hd
        · simp only [Function.update_of_ne h] at hd
          have := hi.active d hd
          cases d with
          | zero => trivial
          | succ t =>
            simp only [Active] at this ⊢
            by_cases he : t = tid
            · subst he; rw [ht] at this; simp at this
            · rw [Function.update_of_ne he]; exact this
      · intro t h
        by_cases he : t = tid
        · subst he; simp at h
        · simp only [Function.update_of_ne he] at h
          have hne := active_ended ha (t := t) (by rw [h]; simp)
          refine ((hi.ended t h).app ?_).app ?_
          · rintro (h' | ⟨_, h'⟩)
            · exact hne h'
            · simp at h'
          · rintro (h' | ⟨_, h'⟩)
            · exact hne h'
            · simp at h'
    · simp at hs
    · simp at hs
  | use a x w ha hc hm =>
    refine ⟨hi.sys, hi.mtx, hi.shares.use hm, hi.cblock, hi.tblock, hi.busy, hi.locked, hi.unlocked, hi.active, unused_app hi.unused (Nat.le_refl _) (by simp), ?_⟩
    intro t ht
    refine (hi.ended t ht).app ?_
    rintro (h | ⟨_, h⟩)
    · exact active_ended ha (by rw [show g.sys.th t = _ from ht]; simp) h
    · simp at h
  | lock i l s' ha hc hv hs ho ho' =>
    have hm := minv_step (hi.mtx i) hv hs
    refine ⟨hi.sys, ?_, hi.shares.move (by simp) ?_, ?_, ?_, ?_, ?_, ?_, hi.active, unused_app hi.unused (Nat.le_refl _) (by simp), ?_⟩
    · intro i'
      by_cases h : i' = i
      · subst h; simpa using hm
      · simpa [Function.update_of_ne h] using hi.mtx i'
    · intro x k j hp
      simp only [onLock]
      split
      · rename_i hx
        rw [hx] at hp
        exact hp.lock
      · exact hp.app _
    · intro d p hd k; simp [onLock, hi.cblock d p hd k]
    · intro t p hd k; simp [onLock, hi.tblock t p hd k]
    · intro d o hd k; simp [onLock, hi.busy d o hd k]
    · intro i' t ht k
      by_cases h : i' = i
      · subst h
        simp only [Function.update_self] at ht
        rw [ho'] at ht
        cases ht
        simp [onLock, hi.unlocked i' ho k]
      · simp only [Function.update_of_ne h] at ht
        simp [onLock, hi.locked i' t ht k]
    · intro i' ht k
      by_cases h : i' = i
      · subst h
        simp only [Function.update_self] at ht
        rw [ho'] at ht
        cases ht
      · simp only [Function.update_of_ne h] at ht
        simp [onLock, hi.unlocked i' ht k, h]
    · intro t ht
      refine (hi.ended t ht).app ?_
      rintro (h | ⟨_, h⟩)
      · exact active_ended ha (by rw [show g.sys.th t = _ from ht]; simp) h
      · simp at h
  | unlock i l s' gift ha hc hv hs ho ho' =>
    have hm := minv_step (hi.mtx i) hv hs
    refine ⟨hi.sys, ?_, hi.shares.move (by simp) ?_, ?_, ?_, ?_, ?_, ?_, hi.active, unused_app hi.unused (Nat.le_refl _) (by simp), ?_⟩
    · intro i'
      by_cases h : i' = i
      · subst h; simpa using hm
      · simpa [Function.update_of_ne h] using hi.mtx i'
    · intro x k j hp
      simp only [onUnlock]
      split
      · rename_i hx
        rw [hx.1] at hp
        exact hp.unlock
      · exact hp.app _
    · intro d p hd k; simp [onUnlock, hi.cblock d p hd k, Loc.movable]
    · intro t p hd k; simp [onUnlock, hi.tblock t p hd k, Loc.movable]
    · intro d o hd k
      have hne : d ≠ (actor l).val := by
        rintro rfl
        rw [show g.sys.caller _ = _ from hc] at hd
        simp [busyOn] at hd
      simp [onUnlock, hi.busy d o hd k, hne]
    · intro i' t ht k
      by_cases h : i' = i
      · subst h
        simp only [Function.update_self] at ht
        rw [ho'] at ht
        cases ht
      · simp only [Function.update_of_ne h] at ht
        simp [onUnlock, hi.locked i' t ht k, Loc.movable, h]
    · intro i' ht k
      by_cases h : i' = i
      · subst h
        simp [onUnlock, hi.locked i' _ ho k]
      · simp only [Function.update_of_ne h] at ht
        simp [onUnlock, hi.unlocked i' ht k]
    · intro t ht
      refine (hi.ended t ht).app ?_
      rintro (h | ⟨_, h⟩)
      · exact active_ended ha (by rw [show g.sys.th t = _ from ht]; simp) h
      · simp at h
  | within i l s' ha hc hv hs ho =>
    have hm := minv_step (hi.mtx i) hv hs
    have hr : recordUse i (g.mtx i) l = [] ∨ (recordUse i (g.mtx i) l = [.use (actor l).val (.record i) true] ∧ (g.mtx i).owner = some (actor l)) ∨
        recordUse i (g.mtx i) l = [.peek (actor l).val i] := record_owner (hi.mtx i) hs
    have base : ∀ tr, SInv g.who tr → (∀ p, g.sys.nblk ≤ p → ∀ (j : Nat) a w, tr[j]? ≠ some (.use a (.block p) w)) → (∀ t, g.sys.th t = some .ended → FinLast tr (t + 1)) →
        OInv ⟨g.sys, Function.update g.mtx i s', g.who, tr⟩ := by
      intro tr h1 h2 h3
      refine ⟨hi.sys, ?_, h1, hi.cblock, hi.tblock, hi.busy, ?_, ?_, hi.active, h2, h3⟩
      · intro i'
        by_cases h : i' = i
        · subst h; simpa using hm
        · simpa [Function.update_of_ne h] using hi.mtx i'
      · intro i' t ht
        by_cases h : i' = i
        · subst h; simp only [Function.update_self] at ht; exact hi.locked i' t (ho ▸ ht)
        · simp only [Function.update_of_ne h] at ht; exact hi.locked i' t ht
      · intro i' ht
        by_cases h : i' = i
        · subst h; simp only [Function.update_self] at ht; exact hi.unlocked i' (ho ▸ ht)
        · simp only [Function.update_of_ne h] at ht; exact hi.unlocked i' ht
    have hend : ∀ e : OEv I, e.agent = (actor l).val → (∀ a b, e ≠ .fork a b) → ∀ t, g.sys.th t = some .ended → FinLast (g.tr ++ [e]) (t + 1) := by
      intro e h1 h2 t ht
      refine (hi.ended t ht).app ?_
      rintro (h | ⟨a, h⟩)
      · exact active_ended ha (by rw [ht]; simp) (h1.symm.trans h)
      · exact h2 _ _ h
    rcases hr with hr | ⟨hr, hown⟩ | hr <;> rw [hr]
    · rw [List.append_nil]; exact base _ hi.shares hi.unused hi.ended
    · exact base _ (hi.shares.use (by simpa [May] using hi.locked i _ hown)) (unused_app hi.unused (Nat.le_refl _) (by simp)) (hend _ rfl (by simp))
    · exact base _ (hi.shares.other (by simp)) (unused_app hi.unused (Nat.le_refl _) (by simp)) (hend _ rfl (by simp))

theorem oinv_reach [DecidableEq I] {g : OSt n I} (h : OReach May g) : OInv g := by
  induction h with
  | init who h => exact oinv_init who h
  | step _ hs ih => exact oinv_step ih hs

/-! ### The property -/

/-- C178 (threads, starts, joins and locks together), partial: programs whose threads write only what they have all shares of, read only what they have a share of, and call `start` and `join` only on
`Thread` objects of which they have all shares, where shares move only when a thread is started (chosen by the starter), joined (all to the joiner), when a mutex is unlocked for the last time (chosen
by the thread, left with the mutex) and when it is locked for the first time (all left with it, to the thread), have no data race on variables, `Thread` objects and the blocks passed to threads; nor on the
record a mutex keeps of its locks, unless a thread waits for it longer than a second and reports that.
Missing: such reports, see `C178_report_refuted`; `timedlock` with a deadline at a full second, see `C30_timedlock_refuted`. -/
theorem C178_no_race_partial [DecidableEq I] {g : OSt n I} (h : OReach May g) (x : Loc I) (hx : ∀ i, x = .record i → ∀ a, .peek a i ∉ g.tr) : NoRace g.tr x := by
  have hr := (oinv_reach h).shares.race
  have key : ∀ (j : Nat) e w, g.tr[j]? = some e → e.touches = some (x, w) → ∃ a, e = .use a x w := by
    intro j e w hj he
    cases e with
    | use a y v =>
      simp only [OEv.touches, Option.some.injEq, Prod.mk.injEq] at he
      obtain ⟨rfl, rfl⟩ := he
      exact ⟨a, rfl⟩
    | peek a i =>
      simp only [OEv.touches, Option.some.injEq, Prod.mk.injEq] at he
      exact absurd (List.mem_of_getElem? hj) (hx i he.1.symm a)
    | _ => simp [OEv.touches] at he
  intro j k e e' w w' hjk hj hk he he' hw
  obtain ⟨a, rfl⟩ := key j e w hj he
  obtain ⟨b, rfl⟩ := key k e' w' hk he'
  exact hr j k a b x w w' hjk hj hk hw

/-- C178 (calls on one object): in such programs no two calls on one object are under way at the same time, so that what `C102_polite_partial` says holds. -/
theorem C178_polite [DecidableEq I] {g : OSt n I} (h : OReach May g) : ∃ ls, PoliteRun ls g.sys := by
  have key : ∀ {g : OSt n I} {c o : Nat}, OInv g → g.sys.caller c = .idle → May g.who c (.obj o) true → ∀ d, busyOn (g.sys.caller d) ≠ some o := by
    intro g c o hi hc hm d hd
    have h1 := hi.busy d o hd 0
    simp only [May, if_true] at hm
    rw [hm 0] at h1
    injection h1 with h1
    subst h1
    rw [hc] at hd
    simp [busyOn] at hd
  induction h with
  | init who h => exact ⟨[], .init⟩
  | step hg hs ih =>
    obtain ⟨ls, hr⟩ := ih
    have hi := oinv_reach hg
    cases hs with
    | start c o j b s' ha hm hs =>
      refine ⟨_, .step hr (l := .start c o j b) (key hi ?_ hm) hs⟩
      simp only [step] at hs
      split at hs
      · assumption
      · simp at hs
    | alloc c s' ha hs => exact ⟨_, .step hr (l := .alloc c) trivial hs⟩
    | create c o j p s' gift ha hc hs => exact ⟨_, .step hr (l := .create c true) trivial hs⟩
    | load tid p s' ht hs => exact ⟨_, .step hr (l := .load tid) trivial hs⟩
    | free tid p j s' ht hs => exact ⟨_, .step hr (l := .free tid) trivial hs⟩
    | begin tid s' hs => exact ⟨_, .step hr (l := .begin tid) trivial hs⟩
    | finish tid s' hidle hs => exact ⟨_, .step hr (l := .finish tid) trivial hs⟩
    | join c o s' ha hm hs =>
      refine ⟨_, .step hr (l := .join c o) (key hi ?_ hm) hs⟩
      simp only [step] at hs
      split at hs
      · assumption
      · simp at hs
    | joinEnd c o tid s' ha hc hs => exact ⟨_, .step hr (l := .joinEnd c) trivial hs⟩
    | use a x w ha hc hm => exact ⟨ls, hr⟩
    | lock i l s' ha hc hv hs ho ho' => exact ⟨ls, hr⟩
    | unlock i l s' gift ha hc hv hs ho ho' => exact ⟨ls, hr⟩
    | within i l s' ha hc hv hs ho => exact ⟨ls, hr⟩

/-- C178 (nothing left out): every step a mutex can make while a thread of such a program is between calls of `start` and `join` is a step of the program. -/
theorem C178_covered [DecidableEq I] {g : OSt n I} (h : OReach May g) (i : I) (l : ML n) (s' : MSt n) (ha : Active g.sys (actor l).val) (hc : g.sys.caller (actor l).val = .idle) (hv : Valid l)
    (hs : mstep (g.mtx i) l = some s') : ∃ g', OStep May g g' ∧ g'.mtx = Function.update g.mtx i s' ∧ g'.sys = g.sys := by
  have hm := (oinv_reach h).mtx i
  have own : ∀ t, 0 < (g.mtx i).held t + pend ((g.mtx i).pc t) → (g.mtx i).owner = some t := by
    intro t ht
    rw [hm.1 t] at ht
    by_contra hn
    rw [if_neg hn] at ht
    omega
  have key : s'.owner = (g.mtx i).owner ∨ (g.mtx i).owner = none ∧ s'.owner = some (actor l) ∨ (g.mtx i).owner = some (actor l) ∧ s'.owner = none := by
    have take : ∀ t, (g.mtx i).free t = true → (g.mtx i).owner = some t ∨ (g.mtx i).owner = none := by
      intro t ht
      unfold MSt.free at ht
      exact (of_decide_eq_true ht).symm
    cases l with
    | lock t => simp only [mstep] at hs; split at hs <;> simp at hs; subst hs; exact .inl rfl
    | lockFile t now => simp only [mstep] at hs; split at hs <;> simp at hs; subst hs; exact .inl rfl
    | timedlock t ms now => simp only [mstep] at hs; split at hs <;> simp at hs; subst hs; exact .inl rfl
    | unlock t => simp only [mstep] at hs; split at hs <;> simp at hs; subst hs; exact .inl rfl
    | trylock t =>
      simp only [mstep] at hs
      split at hs
      · split at hs
        · rename_i hf
          simp at hs; subst hs
          rcases take t hf with e | e
          · left; rw [e]; rfl
          · exact .inr (.inl ⟨e, rfl⟩)
        · simp at hs; subst hs; exact .inl rfl
      · simp at hs
    | timeout t =>
      simp only [mstep] at hs
      split at hs
      · split at hs <;> simp at hs; subst hs; exact .inl rfl
      · split at hs <;> simp at hs; subst hs; exact .inl rfl
      · simp at hs
    | go t =>
      simp only [mstep] at hs
      split at hs
      · simp at hs
      · split at hs
        · rename_i hf
          simp at hs; subst hs
          rcases take t hf with e | e
          · left; rw [e]; rfl
          · exact .inr (.inl ⟨e, rfl⟩)
        · split at hs <;> simp at hs; subst hs; exact .inl rfl
      · split at hs
        · rename_i hf
          simp at hs; subst hs
          rcases take t hf with e | e
          · left; rw [e]; rfl
          · exact .inr (.inl ⟨e, rfl⟩)
        · simp at hs
      · simp at hs; subst hs; exact .inl rfl
      · split at hs
        · rename_i hf
          simp at hs; subst hs
          rcases take t hf with e | e
          · left; rw [e]; rfl
          · exact .inr (.inl ⟨e, rfl⟩)
        · split at hs <;> simp at hs; subst hs; exact .inl rfl
      · rename_i hp
        simp at hs; subst hs
        have ho := own t (by simp [hp, pend])
        by_cases hd : (g.mtx i).depth ≤ 1
        · exact .inr (.inr ⟨ho, by simp [MSt.release, MSt.goto, ho, hd]⟩)
        · exact .inl (by simp [MSt.release, MSt.goto, ho, hd])
  rcases key with e | ⟨e1, e2⟩ | ⟨e1, e2⟩
  · exact ⟨_, .within g i l s' ha hc hv hs e, rfl, rfl⟩
  · exact ⟨_, .lock g i l s' ha hc hv hs e1 e2, rfl, rfl⟩
  · exact ⟨_, .unlock g i l s' (fun _ _ => false) ha hc hv hs e1 e2, rfl, rfl⟩

/-! ### Examples of executions -/

/-- The state after a step of `Start.lean` (or the same, if it cannot be made). -/
def sysNext (s : Sys) (l : Lbl) : Sys :=
  match step s l with
  | some (.ok s') => s'
  | _ => s

def stepOk (s : Sys) (l : Lbl) : Bool :=
  match step s l with
  | some (.ok _) => true
  | _ => false

theorem step_next {s : Sys} {l : Lbl} (h : stepOk s l = true) : step s l = some (.ok (sysNext s l)) := by
  unfold stepOk at h
  unfold sysNext
  split at h
  · rename_i hs; rw [hs]
  · simp at h

/-- The state after a step of a program: on threads and objects, and on a mutex. -/
def onext (g : OSt n I) (l : Lbl) (who : Loc I → Nat → Holder I) (es : List (OEv I)) : OSt n I := ⟨sysNext g.sys l, g.mtx, who, g.tr ++ es⟩

def mnext [DecidableEq I] (g : OSt n I) (i : I) (l : ML n) (who : Loc I → Nat → Holder I) (es : List (OEv I)) : OSt n I :=
  ⟨g.sys, Function.update g.mtx i ((mstep (g.mtx i) l).getD (g.mtx i)), who, g.tr ++ es⟩

section
variable [DecidableEq I] {own : (Loc I → Nat → Holder I) → Nat → Loc I → Bool → Prop} {g : OSt n I}

theorem mstep_next {s : MSt n} {l : ML n} (h : (mstep s l).isSome = true) : mstep s l = some ((mstep s l).getD s) := by
  cases hs : mstep s l with
  | none => simp [hs] at h
  | some x => rfl

theorem OReach.start (h : OReach own g) (c o : Nat) (j : Job) (ha : Active g.sys c) (hm : own g.who c (.obj o) true) (hs : stepOk g.sys (.start c o j true) = true) :
    OReach own (onext g (.start c o j true) g.who [.use c (.obj o) false]) := h.step (.start g c o j true _ ha hm (step_next hs))

theorem OReach.alloc (h : OReach own g) (c p : Nat) (ha : Active g.sys c) (hp : g.sys.nblk = p) (hs : stepOk g.sys (.alloc c) = true) :
    OReach own (onext g (.alloc c) (Function.update g.who (.block p) fun _ => .thread c) [.use c (.block p) true]) := by
  subst hp; exact h.step (.alloc g c _ ha (step_next hs))

theorem OReach.create (h : OReach own g) (c b o p : Nat) {j} (gift : Loc I → Nat → Bool) (ha : Active g.sys c) (hb : g.sys.nth + 1 = b) (hc : g.sys.caller c = .holds o j p)
    (hs : stepOk g.sys (.create c true) = true) : OReach own (onext g (.create c true) (give g.who gift c b o p) [.fork c b, .use c (.obj o) true]) := by
  subst hb
  have := h.step (.create g c o j p _ gift ha hc (step_next hs))
  rwa [List.append_assoc] at this

theorem OReach.load (h : OReach own g) (tid p : Nat) (ht : g.sys.th tid = some (.fresh p)) (hs : stepOk g.sys (.load tid) = true) :
    OReach own (onext g (.load tid) g.who [.use (tid + 1) (.block p) false]) := h.step (.load g tid p _ ht (step_next hs))

theorem OReach.free (h : OReach own g) (tid p : Nat) {j} (ht : g.sys.th tid = some (.loaded p j)) (hs : stepOk g.sys (.free tid) = true) :
    OReach own (onext g (.free tid) g.who [.use (tid + 1) (.block p) true]) := h.step (.free g tid p j _ ht (step_next hs))

theorem OReach.begin (h : OReach own g) (tid : Nat) (hs : stepOk g.sys (.begin tid) = true) : OReach own (onext g (.begin tid) g.who []) := by
  have := h.step (.begin g tid _ (step_next hs))
  simpa [onext] using this

/-- The state after a use of a variable. -/
def ouse (g : OSt n I) (a x : Nat) (w : Bool) : OSt n I := ⟨g.sys, g.mtx, g.who, g.tr ++ [.use a (.user x) w]⟩

theorem OReach.use (h : OReach own g) (a x : Nat) (w : Bool) (ha : Active g.sys a) (hc : g.sys.caller a = .idle) (hm : own g.who a (.user x) w) : OReach own (ouse g a x w) :=
  h.step (.use g a x w ha hc hm)

theorem OReach.lock (h : OReach own g) (i : I) (l : ML n) (a : Nat) (e : (actor l).val = a) (ha : Active g.sys a) (hc : g.sys.caller a = .idle) (hv : Valid l) (hs : (mstep (g.mtx i) l).isSome = true)
    (ho : (g.mtx i).owner = none) (ho' : ((mstep (g.mtx i) l).getD (g.mtx i)).owner = some (actor l)) : OReach own (mnext g i l (onLock g.who a i) [.acq a i]) := by
  subst e; exact h.step (.lock g i l _ ha hc hv (mstep_next hs) ho ho')

theorem OReach.unlock (h : OReach own g) (i : I) (l : ML n) (a : Nat) (gift : Loc I → Nat → Bool) (e : (actor l).val = a) (ha : Active g.sys a) (hc : g.sys.caller a = .idle) (hv : Valid l)
    (hs : (mstep (g.mtx i) l).isSome = true) (ho : (g.mtx i).owner = some (actor l)) (ho' : ((mstep (g.mtx i) l).getD (g.mtx i)).owner = none) :
    OReach own (mnext g i l (onUnlock g.who gift a i) [.rel a i]) := by
  subst e; exact h.step (.unlock g i l _ gift ha hc hv (mstep_next hs) ho ho')

theorem OReach.within (h : OReach own g) (i : I) (l : ML n) (a : Nat) (es : List (OEv I)) (e : (actor l).val = a) (ha : Active g.sys a) (hc : g.sys.caller a = .idle) (hv : Valid l)
    (hs : (mstep (g.mtx i) l).isSome = true) (ho : ((mstep (g.mtx i) l).getD (g.mtx i)).owner = (g.mtx i).owner) (he : recordUse i (g.mtx i) l = es) : OReach own (mnext g i l g.who es) := by
  subst e he; exact h.step (.within g i l _ ha hc hv (mstep_next hs) ho)
end

/-- A program with one mutex: the first thread writes variable 1, starts a thread, and leaves variable 1 with the mutex, where the other thread finds it. -/
def sampleTrace : List (OEv Unit) :=
  [.use 0 (.user 1) true, .use 0 (.obj 5) false, .use 0 (.block 0) true, .fork 0 1, .use 0 (.obj 5) true, .use 1 (.block 0) false, .use 1 (.block 0) true, .acq 0 (), .use 0 (.record ()) true,
    .use 0 (.user 1) true, .use 0 (.record ()) true, .rel 0 (), .acq 1 (), .use 1 (.record ()) true, .use 1 (.user 1) true]

example : ∃ g : OSt 2 Unit, OReach May g ∧ g.tr = sampleTrace := by
  have h := OReach.init (n := 2) (I := Unit) (own := May) (fun x _ => match x with | .record i => .mutex i | _ => .thread 0) (fun _ _ => rfl)
  replace h := h.use 0 1 true trivial rfl (by intro k; rfl)
  replace h := h.start 0 5 ⟨1, 2⟩ trivial (by intro k; rfl) rfl
  replace h := h.alloc 0 0 trivial rfl rfl
  replace h := h.create 0 1 5 0 (fun _ _ => false) trivial rfl rfl rfl
  replace h := h.load 0 0 rfl rfl
  replace h := h.free 0 0 rfl rfl
  replace h := h.begin 0 rfl
  replace h := h.within () (.lock 0) 0 [] rfl trivial rfl trivial rfl rfl rfl
  replace h := h.lock () (.go 0) 0 rfl trivial rfl trivial rfl rfl rfl
  replace h := h.within () (.go 0) 0 [.use 0 (.record ()) true] rfl trivial rfl trivial rfl rfl rfl
  replace h := h.use 0 1 true trivial rfl (by intro k; rfl)
  replace h := h.within () (.unlock 0) 0 [.use 0 (.record ()) true] rfl trivial rfl trivial rfl rfl rfl
  replace h := h.unlock () (.go 0) 0 (fun _ _ => true) rfl trivial rfl trivial rfl rfl rfl
  replace h := h.lock () (.trylock 1) 1 rfl rfl rfl trivial rfl rfl rfl
  replace h := h.within () (.go 1) 1 [.use 1 (.record ()) true] rfl rfl rfl trivial rfl rfl rfl
  replace h := h.use 1 1 true rfl rfl (by intro k; rfl)
  exact ⟨_, h, rfl⟩

/-- The order on a trace follows any relation that its edges follow. -/
theorem HB.closed {tr : List (OEv I)} {P : Nat → Prop} (h1 : ∀ j k e e', j < k → tr[j]? = some e → tr[k]? = some e' → Reaches e e'.agent → P j → P k)
    (h2 : ∀ (j k a b : Nat), j < k → tr[j]? = some (.fin b) → tr[k]? = some (.join a b) → P j → P k)
    (h3 : ∀ (j k a b : Nat) i, j < k → tr[j]? = some (.rel a i) → tr[k]? = some (.acq b i) → P j → P k) {j k} (h : HB tr j k) : P j → P k := by
  induction h with
  | order a b c d => exact h1 _ _ _ _ a b c (.inl d)
  | fork a b c d => exact h1 _ _ _ _ a b c (.inr ⟨_, by rw [d]⟩)
  | join a b c => exact h2 _ _ _ _ a b c
  | mutex a b c => exact h3 _ _ _ _ _ a b c
  | trans _ _ i1 i2 => exact i2 ∘ i1

/-- C178, refuted for the record of a mutex when a thread has waited for it a second: it reads the record while the thread that has the mutex may be writing it (`Threads.cpp:131-133` says so). -/
theorem C178_report_refuted : ∃ g : OSt 2 Unit, OReach May g ∧ ¬ NoRace g.tr (.record ()) := by
  have h := OReach.init (n := 2) (I := Unit) (own := May) (fun x _ => match x with | .record i => .mutex i | _ => .thread 0) (fun _ _ => rfl)
  replace h := h.start 0 5 ⟨1, 2⟩ trivial (by intro k; rfl) rfl
  replace h := h.alloc 0 0 trivial rfl rfl
  replace h := h.create 0 1 5 0 (fun _ _ => false) trivial rfl rfl rfl
  replace h := h.load 0 0 rfl rfl
  replace h := h.free 0 0 rfl rfl
  replace h := h.begin 0 rfl
  replace h := h.within () (.lock 0) 0 [] rfl trivial rfl trivial rfl rfl rfl
  replace h := h.lock () (.go 0) 0 rfl trivial rfl trivial rfl rfl rfl
  replace h := h.within () (.lockFile 1 ⟨0, 0⟩) 1 [] rfl rfl rfl (by simp [Valid, Timeval.Normal]) rfl rfl rfl
  replace h := h.within () (.go 0) 0 [.use 0 (.record ()) true] rfl trivial rfl trivial rfl rfl rfl
  replace h := h.within () (.timeout 1) 1 [.peek 1 ()] rfl rfl rfl trivial rfl rfl rfl
  refine ⟨_, h, fun hr => ?_⟩
  have hb := hr 7 8 (.use 0 (.record ()) true) (.peek 1 ()) true false (by decide) rfl rfl rfl rfl (.inl rfl)
  refine absurd (HB.closed (P := fun k => k = 7) ?_ ?_ ?_ hb rfl) (by decide)
  · rintro j k e e' hjk hj hk hR rfl
    have hk9 : k < 9 := get_lt hk
    obtain rfl : k = 8 := by omega
    obtain rfl : OEv.use 0 (.record ()) true = e := Option.some.inj hj
    obtain rfl : OEv.peek 1 () = e' := Option.some.inj hk
    rcases hR with hR | ⟨a, hR⟩
    · exact absurd hR (by decide)
    · simp at hR
  · rintro j k a b hjk hj hk rfl
    exact absurd (Option.some.inj hj) (by simp)
  · rintro j k a b i hjk hj hk rfl
    exact absurd (Option.some.inj hj) (by simp)

end Verif.Threads.Own
