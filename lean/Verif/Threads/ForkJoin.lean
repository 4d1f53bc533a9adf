import Verif.Threads.Start

/-
Property C177: data given to a thread by `Thread::start` and taken back by `Thread::join` (`/repo/Threads.cpp:276-312`, `/repo/Threads.h:275-299`), and the memory model of C++.  Built on the steps of
`Start.lean`; here the callers are threads themselves: caller 0 is the first thread of the program, caller `tid + 1` is the started thread `tid` while its task runs.
-/

namespace Verif.Threads.Start
open Verif

/-- What threads use: variables of the program, the field `mThread` of a `Thread` object (`Threads.h:270`), the block `wrapArgs` that carries task and argument (`Threads.cpp:279-283`). -/
inductive Loc
  | user (x : Nat)
  | obj (o : Nat)
  | block (p : Nat)
deriving DecidableEq, Repr

/-- What counts for the order of uses: `pthread_create` and `pthread_join` return, a thread's task returns, a thread writes (true) or reads (false) something. -/
inductive FEv
  | fork (a b : Nat)
  | join (a b : Nat)
  | fin (a : Nat)
  | use (a : Nat) (x : Loc) (w : Bool)
deriving DecidableEq, Repr

/-- The thread that does it. -/
def FEv.agent : FEv → Nat
  | .fork a _ => a
  | .join a _ => a
  | .fin a => a
  | .use a _ _ => a

/-- Happens before, as in C++ (6.9.2.1, 33.4.3) and POSIX: the order within a thread; from the creation of a thread to whatever it does; from its end to the return of the `join` for it; and what follows
from these. -/
inductive FHB (tr : List FEv) : Nat → Nat → Prop where
  | order {j k e e'} : j < k → tr[j]? = some e → tr[k]? = some e' → e.agent = e'.agent → FHB tr j k
  | fork {j k a b e} : j < k → tr[j]? = some (.fork a b) → tr[k]? = some e → e.agent = b → FHB tr j k
  | join {j k a b} : j < k → tr[j]? = some (.fin b) → tr[k]? = some (.join a b) → FHB tr j k
  | trans {j k l} : FHB tr j k → FHB tr k l → FHB tr j l

/-- No data race: of two uses of one thing, at least one of them writing, the first happens before the second. -/
def FRaceFree (tr : List FEv) : Prop :=
  ∀ j k a b x w w', j < k → tr[j]? = some (.use a x w) → tr[k]? = some (.use b x w') → (w = true ∨ w' = true) → FHB tr j k

/-- The threads and objects, who may use what, and what has happened.  Each thing has as many shares as one likes; `who x k` is the thread that has share `k` of `x`. -/
structure FSt where
  sys : Sys
  who : Loc → Nat → Nat
  tr : List FEv

/-- At first the first thread has everything. -/
def finit : FSt := ⟨init, fun _ _ => 0, []⟩

/-- Does thread `a` execute code of the program? -/
def Active (s : Sys) : Nat → Prop
  | 0 => True
  | tid + 1 => s.th tid = some .running

/-- May thread `a` write (true) or read (false) `x`?  One share is enough to read, all are needed to write. -/
def May (who : Loc → Nat → Nat) (a : Nat) (x : Loc) (w : Bool) : Prop := if w then ∀ k, who x k = a else ∃ k, who x k = a

/-- What thread `c` gives to thread `b` when it starts it on object `o` with block `p`: the block, and shares it chooses (`gift`), but not in the object itself, which `pthread_create` is about to write. -/
def give (who : Loc → Nat → Nat) (gift : Loc → Nat → Prop) [∀ x k, Decidable (gift x k)] (c b o p : Nat) : Loc → Nat → Nat :=
  fun x k => if who x k = c ∧ (x = .block p ∨ gift x k ∧ x ≠ .obj o) then b else who x k

/-- `join` brings back all that thread `b` has. -/
def takeBack (who : Loc → Nat → Nat) (c b : Nat) : Loc → Nat → Nat := fun x k => if who x k = b then c else who x k

/-- Steps of programs: the steps of `Start.lean` and the uses of memory they make, and uses of variables between the calls.  `own` says which uses and calls the program allows itself: programs of the
property use what they may use (`May`), and call `start` and `join` on objects of which they have all shares.
Simplifications: freeing the block counts as writing it; each block has a new address (the allocator orders the uses of its memory); calls that fail an assertion end the program and are left out. -/
inductive FStep (own : (Loc → Nat → Nat) → Nat → Loc → Bool → Prop) : FSt → FSt → Prop where
  /- `Threads.cpp:297`: `mThread` is read -/
  | start (g c o j b s') : Active g.sys c → own g.who c (.obj o) true → step g.sys (.start c o j b) = some (.ok s') → FStep own g ⟨s', g.who, g.tr ++ [.use c (.obj o) false]⟩
  /- `Threads.cpp:304-306`: the block is written -/
  | alloc (g c s') : Active g.sys c → step g.sys (.alloc c) = some (.ok s') →
      FStep own g ⟨s', Function.update g.who (.block g.sys.nblk) fun _ => c, g.tr ++ [.use c (.block g.sys.nblk) true]⟩
  /- `Threads.cpp:307`: the thread is there, `mThread` is written before or after its first steps -/
  | create (g c o j p s') (gift : Loc → Nat → Prop) [∀ x k, Decidable (gift x k)] : Active g.sys c → g.sys.caller c = .holds o j p → step g.sys (.create c true) = some (.ok s') →
      FStep own g ⟨s', give g.who gift c (g.sys.nth + 1) o p, (g.tr ++ [.fork c (g.sys.nth + 1)]) ++ [.use c (.obj o) true]⟩
  /- `Threads.cpp:288-290`: the block is read -/
  | load (g tid p s') : g.sys.th tid = some (.fresh p) → step g.sys (.load tid) = some (.ok s') → FStep own g ⟨s', g.who, g.tr ++ [.use (tid + 1) (.block p) false]⟩
  /- `Threads.cpp:291`: the block is deleted -/
  | free (g tid p j s') : g.sys.th tid = some (.loaded p j) → step g.sys (.free tid) = some (.ok s') → FStep own g ⟨s', g.who, g.tr ++ [.use (tid + 1) (.block p) true]⟩
  | begin (g tid s') : step g.sys (.begin tid) = some (.ok s') → FStep own g ⟨s', g.who, g.tr⟩
  | finish (g tid s') : g.sys.caller (tid + 1) = .idle → step g.sys (.finish tid) = some (.ok s') → FStep own g ⟨s', g.who, g.tr ++ [.fin (tid + 1)]⟩
  /- `Threads.h:299`: `mThread` is read -/
  | join (g c o s') : Active g.sys c → own g.who c (.obj o) true → step g.sys (.join c o) = some (.ok s') → FStep own g ⟨s', g.who, g.tr ++ [.use c (.obj o) false]⟩
  /- `Threads.h:299`: `pthread_join` returns, `mThread` is written -/
  | joinEnd (g c o tid s') : Active g.sys c → g.sys.caller c = .joining o tid → step g.sys (.joinEnd c) = some (.ok s') →
      FStep own g ⟨s', takeBack g.who c (tid + 1), (g.tr ++ [.join c (tid + 1)]) ++ [.use c (.obj o) true]⟩
  | use (g a x w) : Active g.sys a → g.sys.caller a = .idle → own g.who a (.user x) w → FStep own g ⟨g.sys, g.who, g.tr ++ [.use a (.user x) w]⟩

inductive FReach (own : (Loc → Nat → Nat) → Nat → Loc → Bool → Prop) : FSt → Prop where
  | init : FReach own finit
  | step {g g'} : FReach own g → FStep own g g' → FReach own g'

/-! ### Traces -/

theorem fget_app {tr : List FEv} {j : Nat} {e} (more) (h : tr[j]? = some e) : (tr ++ more)[j]? = some e := by
  rw [List.getElem?_append_left (List.getElem?_eq_some_iff.mp h).1, h]

theorem fget_lt {tr : List FEv} {j : Nat} {e} (h : tr[j]? = some e) : j < tr.length := (List.getElem?_eq_some_iff.mp h).1

theorem fget_last {tr : List FEv} (e) : (tr ++ [e])[tr.length]? = some e := by simp

theorem fget_cases {tr : List FEv} {j : Nat} {e e'} (h : (tr ++ [e])[j]? = some e') : tr[j]? = some e' ∨ j = tr.length ∧ e' = e := by
  by_cases hj : j < tr.length
  · left; rwa [List.getElem?_append_left hj] at h
  · have := fget_lt h
    simp only [List.length_append, List.length_singleton] at this
    have hj : j = tr.length := by omega
    subst hj
    rw [fget_last] at h
    injection h with h
    exact .inr ⟨rfl, h.symm⟩

theorem FHB.app {tr : List FEv} {j k} (more) (h : FHB tr j k) : FHB (tr ++ more) j k := by
  induction h with
  | order h1 h2 h3 h4 => exact .order h1 (fget_app more h2) (fget_app more h3) h4
  | fork h1 h2 h3 h4 => exact .fork h1 (fget_app more h2) (fget_app more h3) h4
  | join h1 h2 h3 => exact .join h1 (fget_app more h2) (fget_app more h3)
  | trans _ _ h1 h2 => exact .trans h1 h2

/-- An event after which thread `u` can do something: its own, or its creation. -/
def Reaches (e : FEv) (u : Nat) : Prop := e.agent = u ∨ ∃ a, e = .fork a u

/-- Whatever thread `u` does next happens after event `j`. -/
def FPast (tr : List FEv) (j : Nat) (u : Nat) : Prop := ∃ k e, tr[k]? = some e ∧ Reaches e u ∧ (j = k ∨ FHB tr j k)

theorem FPast.app {tr : List FEv} {j u} (more) (h : FPast tr j u) : FPast (tr ++ more) j u := by
  obtain ⟨k, e, h1, h2, h3⟩ := h
  exact ⟨k, e, fget_app more h1, h2, h3.imp_right (.app more)⟩

theorem Reaches.edge {tr : List FEv} {j k u : Nat} {e e' : FEv} (h : Reaches e u) (hj : j < k) (h1 : tr[j]? = some e) (h2 : tr[k]? = some e') (hu : e'.agent = u) : FHB tr j k := by
  rcases h with h | ⟨a, rfl⟩
  · exact .order hj h1 h2 (h.trans hu.symm)
  · exact .fork hj h1 h2 hu

/-- The next event of the thread. -/
theorem FPast.next {tr : List FEv} {j u} (h : FPast tr j u) {e : FEv} (he : e.agent = u) : FHB (tr ++ [e]) j tr.length := by
  obtain ⟨k, e', h1, h2, h3⟩ := h
  have := h2.edge (fget_lt h1) (fget_app [e] h1) (fget_last e) he
  rcases h3 with rfl | h3
  · exact this
  · exact (h3.app [e]).trans this

theorem fpast_last (tr : List FEv) (e : FEv) : FPast (tr ++ [e]) tr.length e.agent := ⟨_, _, fget_last e, .inl rfl, .inl rfl⟩

/-! ### Shares -/

/-- Everyone with a share knows of all writes; of each use someone with a share knows. -/
structure SInv (who : Loc → Nat → Nat) (tr : List FEv) : Prop where
  wrote : ∀ (j : Nat) a x, tr[j]? = some (.use a x true) → ∀ k, FPast tr j (who x k)
  used : ∀ (j : Nat) a x w, tr[j]? = some (.use a x w) → ∃ k, FPast tr j (who x k)
  race : FRaceFree tr

theorem may_read {who : Loc → Nat → Nat} {a x w} (h : May who a x w) : ∃ k, who x k = a := by
  cases w
  · simpa [May] using h
  · simp only [May] at h; exact ⟨0, h 0⟩

theorem SInv.use {who : Loc → Nat → Nat} {tr : List FEv} (h : SInv who tr) {a x w} (hm : May who a x w) : SInv who (tr ++ [.use a x w]) := by
  constructor
  · intro j b y hj k
    rcases fget_cases hj with hj | ⟨rfl, he⟩
    · exact (h.wrote j b y hj k).app _
    · cases he
      simp only [May] at hm
      rw [hm k]
      exact fpast_last tr _
  · intro j b y w' hj
    rcases fget_cases hj with hj | ⟨rfl, he⟩
    · obtain ⟨k, hk⟩ := h.used j b y w' hj
      exact ⟨k, hk.app _⟩
    · cases he
      obtain ⟨k, hk⟩ := may_read hm
      refine ⟨k, ?_⟩
      rw [hk]
      exact fpast_last tr _
  · intro j k b c y w1 w2 hjk hj hk hw
    rcases fget_cases hk with hk | ⟨rfl, he⟩
    · rcases fget_cases hj with hj | ⟨rfl, -⟩
      · exact (h.race j k b c y w1 w2 hjk hj hk hw).app _
      · have := fget_lt hk; omega
    · cases he
      rcases fget_cases hj with hj' | ⟨rfl, -⟩
      · refine FPast.next (u := a) ?_ rfl
        cases hb : w
        · subst hb
          simp only [Bool.false_eq_true, or_false] at hw
          subst hw
          obtain ⟨k, hk⟩ := may_read hm
          rw [← hk]
          exact h.wrote j b x hj' k
        · subst hb
          obtain ⟨k, hk⟩ := h.used j b x w1 hj'
          simp only [May] at hm
          rw [hm k] at hk
          exact hk
      · omega

theorem SInv.other {who : Loc → Nat → Nat} {tr : List FEv} (h : SInv who tr) {e : FEv} (he : ∀ a x w, e ≠ .use a x w) : SInv who (tr ++ [e]) := by
  have old : ∀ {j : Nat} {a x w}, (tr ++ [e])[j]? = some (.use a x w) → tr[j]? = some (.use a x w) := by
    intro j a x w hj
    rcases fget_cases hj with hj | ⟨-, hj⟩
    · exact hj
    · exact absurd hj.symm (he a x w)
  constructor
  · intro j a x hj k
    exact (h.wrote j a x (old hj) k).app _
  · intro j a x w hj
    obtain ⟨k, hk⟩ := h.used j a x w (old hj)
    exact ⟨k, hk.app _⟩
  · intro j k a b x w w' hjk hj hk hw
    exact (h.race j k a b x w w' hjk (old hj) (old hk) hw).app _

theorem SInv.move {who who' : Loc → Nat → Nat} {tr : List FEv} (h : SInv who tr) (hm : ∀ x k j, FPast tr j (who x k) → FPast tr j (who' x k)) : SInv who' tr := by
  refine ⟨fun j a x hj k => hm x k j (h.wrote j a x hj k), fun j a x w hj => ?_, h.race⟩
  obtain ⟨k, hk⟩ := h.used j a x w hj
  exact ⟨k, hm x k j hk⟩

/-- A thing never used before. -/
theorem SInv.fresh {who : Loc → Nat → Nat} {tr : List FEv} (h : SInv who tr) {x : Loc} (hx : ∀ (j : Nat) a w, tr[j]? ≠ some (.use a x w)) (f : Nat → Nat) : SInv (Function.update who x f) tr := by
  refine ⟨fun j a y hj k => ?_, fun j a y w hj => ?_, h.race⟩
  · have : y ≠ x := by rintro rfl; exact hx j a true hj
    rw [Function.update_of_ne this]
    exact h.wrote j a y hj k
  · have : y ≠ x := by rintro rfl; exact hx j a w hj
    rw [Function.update_of_ne this]
    exact h.used j a y w hj

/-! ### The invariant -/

/-- The end of thread `tid` is the last it does. -/
def FinLast (tr : List FEv) (u : Nat) : Prop := ∃ k : Nat, tr[k]? = some (.fin u) ∧ ∀ (k' : Nat) e, tr[k']? = some e → Reaches e u → k' ≤ k

theorem FinLast.app {tr : List FEv} {u} (h : FinLast tr u) {e : FEv} (he : ¬ Reaches e u) : FinLast (tr ++ [e]) u := by
  obtain ⟨k, h1, h2⟩ := h
  refine ⟨k, fget_app _ h1, fun k' e' h3 h4 => ?_⟩
  rcases fget_cases h3 with h3 | ⟨-, rfl⟩
  · exact h2 k' e' h3 h4
  · exact absurd h4 he

/-- What the `join` for thread `u` brings. -/
theorem FinLast.joined {tr : List FEv} {u c j : Nat} (h : FinLast tr u) (hp : FPast tr j u) : FPast (tr ++ [.join c u]) j c := by
  obtain ⟨k, h1, h2⟩ := h
  obtain ⟨k', e, h3, h4, h5⟩ := hp
  have hk : k' ≤ k := h2 k' e h3 h4
  have hj : FHB (tr ++ [.join c u]) k tr.length := .join (fget_lt h1) (fget_app _ h1) (fget_last _)
  have h6 : k' = k ∨ FHB tr k' k := by
    rcases Nat.lt_or_eq_of_le hk with hk | hk
    · exact .inr (h4.edge hk h3 h1 rfl)
    · exact .inl hk
  refine ⟨tr.length, _, fget_last _, .inl rfl, .inr ?_⟩
  have h7 : FHB (tr ++ [.join c u]) k' tr.length := by
    rcases h6 with rfl | h6
    · exact hj
    · exact (h6.app _).trans hj
  rcases h5 with rfl | h5
  · exact h7
  · exact (h5.app _).trans h7

structure FInv (g : FSt) : Prop where
  sys : Inv g.sys
  shares : SInv g.who g.tr
  cblock : ∀ c p, callerBlock (g.sys.caller c) = some p → ∀ k, g.who (.block p) k = c
  tblock : ∀ t p, thBlock (g.sys.th t) = some p → ∀ k, g.who (.block p) k = t + 1
  busy : ∀ c o, busyOn (g.sys.caller c) = some o → ∀ k, g.who (.obj o) k = c
  active : ∀ c, g.sys.caller c ≠ .idle → Active g.sys c
  unused : ∀ p, g.sys.nblk ≤ p → ∀ (j : Nat) a w, g.tr[j]? ≠ some (.use a (.block p) w)
  ended : ∀ t, g.sys.th t = some .ended → FinLast g.tr (t + 1)

theorem finv_init : FInv finit := by
  refine ⟨inv_init, ⟨?_, ?_, ?_⟩, ?_, ?_, ?_, ?_, ?_, ?_⟩ <;> simp [finit, init, callerBlock, thBlock, busyOn, FRaceFree]

theorem active_ended {s : Sys} {c t : Nat} (h : Active s c) (ht : s.th t ≠ some .running) : c ≠ t + 1 := by
  rintro rfl; exact ht h

theorem unused_app {tr : List FEv} {n m : Nat} (h : ∀ p, n ≤ p → ∀ (j : Nat) a w, tr[j]? ≠ some (.use a (.block p) w)) (hm : n ≤ m) {e : FEv} (he : ∀ p, m ≤ p → ∀ a w, e ≠ .use a (.block p) w) :
    ∀ p, m ≤ p → ∀ (j : Nat) a w, (tr ++ [e])[j]? ≠ some (.use a (.block p) w) := by
  intro p hp j a w hj
  rcases fget_cases hj with hj | ⟨-, hj⟩
  · exact h p (Nat.le_trans hm hp) j a w hj
  · exact he p hp a w hj.symm

theorem finv_step {g g' : FSt} (hi : FInv g) (h : FStep May g g') : FInv g' := by
  cases h with
  | start c o j b s' ha hm hs =>
    have hsys := inv_step hi.sys hs
    simp only [step] at hs
    split at hs
    · rename_i hc
      split at hs
      · simp only [Option.some.injEq, Outcome.ok.injEq] at hs
        subst hs
        refine ⟨hsys, hi.shares.use (by simp only [May] at hm ⊢; exact ⟨0, hm 0⟩), ?_, hi.tblock, ?_, ?_, unused_app hi.unused (Nat.le_refl _) (by simp), ?_⟩
        · intro d p hd
          by_cases h : d = c
          · subst h; simp [callerBlock] at hd
          · simp only [Function.update_of_ne h] at hd; exact hi.cblock d p hd
        · intro d q hd
          by_cases h : d = c
          · subst h; simp only [Function.update_self, busyOn, Option.some.injEq] at hd; subst hd; simpa [May] using hm
          · simp only [Function.update_of_ne h] at hd; exact hi.busy d q hd
        · intro d hd
          by_cases h : d = c
          · subst h; exact ha
          · simp only [Function.update_of_ne h] at hd; exact hi.active d hd
        · intro t ht
          refine (hi.ended t ht).app ?_
          rintro (h | ⟨_, h⟩)
          · exact active_ended ha (by rw [show g.sys.th t = _ from ht]; simp) h
          · simp at h
      · simp at hs
    · simp at hs
  | alloc c s' ha hs =>
    have hsys := inv_step hi.sys hs
    simp only [step] at hs
    split at hs
    · rename_i o j hc
      simp only [Option.some.injEq, Outcome.ok.injEq] at hs
      subst hs
      refine ⟨hsys, (hi.shares.fresh (hi.unused _ (Nat.le_refl _)) _).use (by simp [May]), ?_, ?_, ?_, ?_, unused_app hi.unused (Nat.le_succ _) (by intro p hp a w h; simp at h; omega), ?_⟩
      · intro d p hd
        by_cases h : d = c
        · subst h; simp only [Function.update_self, callerBlock, Option.some.injEq] at hd; subst hd; simp
        · simp only [Function.update_of_ne h] at hd
          have hne : p ≠ g.sys.nblk := by
            rintro rfl
            cases hcd : g.sys.caller d <;> simp [hcd, callerBlock] at hd
            have := hi.sys.held d _ _ _ hcd
            rw [hd, hi.sys.bbound _ (Nat.le_refl _)] at this
            simp at this
          simp only [Function.update_of_ne (show Loc.block p ≠ Loc.block g.sys.nblk by simpa using hne)]
          exact hi.cblock d p hd
      · intro t p ht
        have hne : p ≠ g.sys.nblk := by
          rintro rfl
          have hl := hi.sys.lifeOk t
          have hb := hi.sys.bbound _ (Nat.le_refl _)
          cases hx : g.sys.th t with
          | none => simp [hx, thBlock] at ht
          | some x =>
            cases x <;> simp [hx, thBlock] at ht
            · rw [hx, ht] at hl; obtain ⟨j, h1, -⟩ := hl; rw [hb] at h1; simp at h1
            · rw [hx, ht] at hl; obtain ⟨h1, -⟩ := hl; rw [hb] at h1; simp at h1
        simp only [Function.update_of_ne (show Loc.block p ≠ Loc.block g.sys.nblk by simpa using hne)]
        exact hi.tblock t p ht
      · intro d q hd
        simp only [Function.update_of_ne (show Loc.obj q ≠ Loc.block g.sys.nblk by simp)]
        by_cases h : d = c
        · subst h
          simp only [Function.update_self, busyOn, Option.some.injEq] at hd
          exact hi.busy d q (by rw [hc]; simpa [busyOn] using hd)
        · simp only [Function.update_of_ne h] at hd; exact hi.busy d q hd
      · intro d hd
        by_cases h : d = c
        · subst h; exact ha
        · simp only [Function.update_of_ne h] at hd; exact hi.active d hd
      · intro t ht
        refine (hi.ended t ht).app ?_
        rintro (h | ⟨_, h⟩)
        · exact active_ended ha (by rw [show g.sys.th t = _ from ht]; simp) h
        · simp at h
    · simp at hs
  | create c o j p s' gift ha hc hs =>
    have hsys := inv_step hi.sys hs
    simp only [step, hc, if_true, Option.some.injEq, Outcome.ok.injEq] at hs
    subst hs
    have hown : ∀ k, g.who (.obj o) k = c := hi.busy c o (by rw [hc]; rfl)
    have hown' : ∀ k, give g.who gift c (g.sys.nth + 1) o p (.obj o) k = c := by
      intro k; simp [give, hown k]
    have hblk : ∀ k, g.who (.block p) k = c := hi.cblock c p (by rw [hc]; rfl)
    have hmoved : SInv (give g.who gift c (g.sys.nth + 1) o p) (g.tr ++ [.fork c (g.sys.nth + 1)]) := by
      refine (hi.shares.other (e := .fork c (g.sys.nth + 1)) (by simp)).move ?_
      intro x k j hp
      simp only [give]
      split
      · rename_i hx
        rw [hx.1] at hp
        obtain ⟨k', e, h1, h2, h3⟩ := hp
        refine ⟨g.tr.length, _, fget_last _, .inr ⟨c, rfl⟩, ?_⟩
        rcases fget_cases h1 with h1 | ⟨rfl, rfl⟩
        · have h4 := h2.edge (fget_lt h1) (fget_app [.fork c (g.sys.nth + 1)] h1) (fget_last _) rfl
          rcases h3 with rfl | h3
          · exact .inr h4
          · exact .inr (h3.trans h4)
        · exact h3
      · exact hp
    refine ⟨hsys, hmoved.use (by simpa [May] using hown'), ?_, ?_, ?_, ?_, unused_app (unused_app hi.unused (Nat.le_refl _) (by simp)) (Nat.le_refl _) (by simp), ?_⟩
    · intro d q hd k
      by_cases h : d = c
      · subst h; simp [callerBlock] at hd
      · simp only [Function.update_of_ne h] at hd
        have := hi.cblock d q hd k
        simp only [give, this, h, false_and, if_false]
    · intro t q ht k
      by_cases h : t = g.sys.nth
      · subst h
        simp only [Function.update_self, thBlock, Option.some.injEq] at ht
        subst ht
        simp [give, hblk k]
      · simp only [Function.update_of_ne h] at ht
        have := hi.tblock t q ht k
        have hne : t + 1 ≠ c := (active_ended ha (t := t) (by intro h'; rw [h'] at ht; simp [thBlock] at ht)).symm
        simp only [give, this, hne, false_and, if_false]
    · intro d q hd k
      by_cases h : d = c
      · subst h; simp [busyOn] at hd
      · simp only [Function.update_of_ne h] at hd
        have := hi.busy d q hd k
        simp only [give, this, h, false_and, if_false]
    · intro d hd
      by_cases h : d = c
      · subst h; simp at hd
      · simp only [Function.update_of_ne h] at hd
        have := hi.active d hd
        cases d with
        | zero => trivial
        | succ t =>
          simp only [Active] at this ⊢
          by_cases ht : t = g.sys.nth
          · subst ht; rw [hi.sys.bound _ (Nat.le_refl _)] at this; simp at this
          · rw [Function.update_of_ne ht]; exact this
    · intro t ht
      by_cases h : t = g.sys.nth
      · subst h; simp at ht
      · simp only [Function.update_of_ne h] at ht
        have hne := active_ended ha (t := t) (by rw [ht]; simp)
        refine ((hi.ended t ht).app ?_).app ?_
        · rintro (h' | ⟨_, h'⟩)
          · exact hne h'
          · simp at h'; omega
        · rintro (h' | ⟨_, h'⟩)
          · exact hne h'
          · simp at h'
  | load tid p s' ht hs =>
    have hsys := inv_step hi.sys hs
    have hown := hi.tblock tid p (by rw [ht]; rfl)
    simp only [step, ht] at hs
    split at hs
    · rename_i j hj
      simp only [Option.some.injEq, Outcome.ok.injEq] at hs
      subst hs
      have hp : p < g.sys.nblk := by
        by_contra hp
        rw [hi.sys.bbound p (by omega)] at hj; simp at hj
      refine ⟨hsys, hi.shares.use (by simp only [May]; exact ⟨0, hown 0⟩), hi.cblock, ?_, hi.busy, ?_, unused_app hi.unused (Nat.le_refl _) (by intro q hq a w h; simp at h; exact absurd hq (by show ¬ g.sys.nblk ≤ q; omega)), ?_⟩
      · intro t q h
        by_cases he : t = tid
        · subst he; simp only [Function.update_self, thBlock, Option.some.injEq] at h; subst h; exact hown
        · simp only [Function.update_of_ne he] at h; exact hi.tblock t q h
      · intro d hd
        have := hi.active d hd
        cases d with
        | zero => trivial
        | succ t =>
          simp only [Active] at this ⊢
          by_cases he : t = tid
          · subst he; rw [ht] at this; simp at this
          · rw [Function.update_of_ne he]; exact this
      · intro t h
        by_cases he : t = tid
        · subst he; simp at h
        · simp only [Function.update_of_ne he] at h
          refine (hi.ended t h).app ?_
          rintro (h' | ⟨_, h'⟩)
          · simp [FEv.agent] at h'; omega
          · simp at h'
    · simp at hs
  | free tid p j s' ht hs =>
    have hsys := inv_step hi.sys hs
    have hown := hi.tblock tid p (by rw [ht]; rfl)
    simp only [step, ht] at hs
    split at hs
    · rename_i j' hj
      simp only [Option.some.injEq, Outcome.ok.injEq] at hs
      subst hs
      have hp : p < g.sys.nblk := by
        by_contra hp
        rw [hi.sys.bbound p (by omega)] at hj; simp at hj
      refine ⟨hsys, hi.shares.use (by simpa [May] using hown), hi.cblock, ?_, hi.busy, ?_, unused_app hi.unused (Nat.le_refl _) (by intro q hq a w h; simp at h; exact absurd hq (by show ¬ g.sys.nblk ≤ q; omega)), ?_⟩
      · intro t q h
        by_cases he : t = tid
        · subst he; simp [thBlock] at h
        · simp only [Function.update_of_ne he] at h; exact hi.tblock t q h
      · intro d hd
        have := hi.active d hd
        cases d with
        | zero => trivial
        | succ t =>
          simp only [Active] at this ⊢
          by_cases he : t = tid
          · subst he; rw [ht] at this; simp at this
          · rw [Function.update_of_ne he]; exact this
      · intro t h
        by_cases he : t = tid
        · subst he; simp at h
        · simp only [Function.update_of_ne he] at h
          refine (hi.ended t h).app ?_
          rintro (h' | ⟨_, h'⟩)
          · simp [FEv.agent] at h'; omega
          · simp at h'
    · simp at hs
  | begin tid s' hs =>
    have hsys := inv_step hi.sys hs
    simp only [step] at hs
    split at hs
    · rename_i j ht
      simp only [Option.some.injEq, Outcome.ok.injEq] at hs
      subst hs
      refine ⟨hsys, hi.shares, hi.cblock, ?_, hi.busy, ?_, hi.unused, ?_⟩
      · intro t q h
        by_cases he : t = tid
        · subst he; simp [thBlock] at h
        · simp only [Function.update_of_ne he] at h; exact hi.tblock t q h
      · intro d hd
        have := hi.active d hd
        cases d with
        | zero => trivial
        | succ t =>
          simp only [Active] at this ⊢
          by_cases he : t = tid
          · subst he; simp
          · rw [Function.update_of_ne he]; exact this
      · intro t h
        by_cases he : t = tid
        · subst he; simp at h
        · simp only [Function.update_of_ne he] at h; exact hi.ended t h
    · simp at hs
  | finish tid s' hidle hs =>
    have hsys := inv_step hi.sys hs
    simp only [step] at hs
    split at hs
    · rename_i ht
      simp only [Option.some.injEq, Outcome.ok.injEq] at hs
      subst hs
      refine ⟨hsys, hi.shares.other (by simp), hi.cblock, ?_, hi.busy, ?_, unused_app hi.unused (Nat.le_refl _) (by simp), ?_⟩
      · intro t q h
        by_cases he : t = tid
        · subst he; simp [thBlock] at h
        · simp only [Function.update_of_ne he] at h; exact hi.tblock t q h
      · intro d hd
        have := hi.active d hd
        cases d with
        | zero => trivial
        | succ t =>
          simp only [Active] at this ⊢
          by_cases he : t = tid
          · subst he; exact absurd hidle hd
          · rw [Function.update_of_ne he]; exact this
      · intro t h
        by_cases he : t = tid
        · subst he
          refine ⟨g.tr.length, fget_last _, fun k' e hk _ => ?_⟩
          have := fget_lt hk
          simp only [List.length_append, List.length_singleton] at this
          omega
        · simp only [Function.update_of_ne he] at h
          refine (hi.ended t h).app ?_
          rintro (h' | ⟨_, h'⟩)
          · simp [FEv.agent] at h'; omega
          · simp at h'
    · simp at hs
  | join c o s' ha hm hs =>
    have hsys := inv_step hi.sys hs
    simp only [step] at hs
    split at hs
    · rename_i hc
      split at hs
      · rename_i tid ho
        simp only [Option.some.injEq, Outcome.ok.injEq] at hs
        subst hs
        refine ⟨hsys, hi.shares.use (by simp only [May] at hm ⊢; exact ⟨0, hm 0⟩), ?_, hi.tblock, ?_, ?_, unused_app hi.unused (Nat.le_refl _) (by simp), ?_⟩
        · intro d p hd
          by_cases h : d = c
          · subst h; simp [callerBlock] at hd
          · simp only [Function.update_of_ne h] at hd; exact hi.cblock d p hd
        · intro d q hd
          by_cases h : d = c
          · subst h; simp only [Function.update_self, busyOn, Option.some.injEq] at hd; subst hd; simpa [May] using hm
          · simp only [Function.update_of_ne h] at hd; exact hi.busy d q hd
        · intro d hd
          by_cases h : d = c
          · subst h; exact ha
          · simp only [Function.update_of_ne h] at hd; exact hi.active d hd
        · intro t ht
          refine (hi.ended t ht).app ?_
          rintro (h | ⟨_, h⟩)
          · exact active_ended ha (by rw [show g.sys.th t = _ from ht]; simp) h
          · simp at h
      · simp at hs
    · simp at hs
  | joinEnd c o tid s' ha hc hs =>
    have hsys := inv_step hi.sys hs
    simp only [step, hc] at hs
    split at hs
    · rename_i ht
      simp only [Option.some.injEq, Outcome.ok.injEq] at hs
      subst hs
      have hne : c ≠ tid + 1 := active_ended ha (by rw [ht]; simp)
      have hown : ∀ k, g.who (.obj o) k = c := hi.busy c o (by rw [hc]; rfl)
      have hidle : ∀ d, g.sys.caller d ≠ .idle → d ≠ tid + 1 := fun d hd => active_ended (hi.active d hd) (by rw [ht]; simp)
      have hmoved : SInv (takeBack g.who c (tid + 1)) (g.tr ++ [.join c (tid + 1)]) := by
        have h1 := hi.shares.other (e := .join c (tid + 1)) (by simp)
        refine ⟨?_, ?_, h1.race⟩
        · intro j a x hj k
          rcases fget_cases hj with hj | ⟨-, hj⟩
          · have := hi.shares.wrote j a x hj k
            simp only [takeBack]
            split
            · rename_i he; rw [he] at this; exact (hi.ended tid ht).joined this
            · exact this.app _
          · simp at hj
        · intro j a x w hj
          rcases fget_cases hj with hj | ⟨-, hj⟩
          · obtain ⟨k, this⟩ := hi.shares.used j a x w hj
            refine ⟨k, ?_⟩
            simp only [takeBack]
            split
            · rename_i he; rw [he] at this; exact (hi.ended tid ht).joined this
            · exact this.app _
          · simp at hj
      refine ⟨hsys, hmoved.use (by simp only [May, if_true, takeBack]; intro k; rw [hown k]; simp), ?_, ?_, ?_, ?_, unused_app (unused_app hi.unused (Nat.le_refl _) (by simp)) (Nat.le_refl _) (by simp), ?_⟩
      · intro d p hd k
        by_cases h : d = c
        · subst h; simp [callerBlock] at hd
        · simp only [Function.update_of_ne h] at hd
          have hd2 := hidle d (by intro h'; rw [h'] at hd; simp [callerBlock] at hd)
          simp only [takeBack, hi.cblock d p hd k, hd2, if_false]
      · intro t q h k
        by_cases he : t = tid
        · subst he; simp [thBlock] at h
        · simp only [Function.update_of_ne he] at h
          simp only [takeBack, hi.tblock t q h k, Nat.add_right_cancel_iff, he, if_false]
      · intro d q hd k
        by_cases h : d = c
        · subst h; simp [busyOn] at hd
        · simp only [Function.update_of_ne h] at hd
          have hd2 := hidle d (by intro h'; rw [h'] at hd; simp [busyOn] at hd)
          simp only [takeBack, hi.busy d q hd k, hd2, if_false]
      · intro d hd
        by_cases h : d = c
        · subst h; simp at hd
        · simp only [Function.update_of_ne h] at hd
          have := hi.active d hd
          cases d with
          | zero => trivial
          | succ t =>
            simp only [Active] at this ⊢
            by_cases he : t = tid
            · subst he; rw [ht] at this; simp at this
            · rw [Function.update_of_ne he]; exact this
      · intro t h
        by_cases he : t = tid
        · subst he; simp at h
        · simp only [Function.update_of_ne he] at h
          have hne := active_ended ha (t := t) (by rw [h]; simp)
          refine ((hi.ended t h).app ?_).app ?_
          · rintro (h' | ⟨_, h'⟩)
            · exact hne h'
            · simp at h'
          · rintro (h' | ⟨_, h'⟩)
            · exact hne h'
            · simp at h'
    · simp at hs
    · simp at hs
  | use a x w ha hc hm =>
    refine ⟨hi.sys, hi.shares.use hm, hi.cblock, hi.tblock, hi.busy, hi.active, unused_app hi.unused (Nat.le_refl _) (by simp), ?_⟩
    intro t ht
    refine (hi.ended t ht).app ?_
    rintro (h | ⟨_, h⟩)
    · exact active_ended ha (by rw [show g.sys.th t = _ from ht]; simp) h
    · simp at h

theorem finv_reach {g : FSt} (h : FReach May g) : FInv g := by
  induction h with
  | init => exact finv_init
  | step _ hs ih => exact finv_step ih hs

/-! ### The property -/

/-- C177 (what a thread is given at its start, and what `join` brings back): programs whose threads write only what they have all shares of, read only what they have a share of, call `start` and `join`
only on `Thread` objects of which they have all shares, give shares to a thread only by starting it and get shares of another thread only by joining it, have no data race: neither on the data, nor
on `mThread`, nor on the block that carries task and argument.  Any number of threads, started by any thread, joined by any thread that has got the object. -/
theorem C177_no_race {g : FSt} (h : FReach May g) : FRaceFree g.tr := (finv_reach h).shares.race

/-- C177 (calls on one object): in such programs no two calls on one object are under way at the same time, so that what `C102_polite_partial` says holds: no thread is lost, and `join` waits for the end
of the thread and succeeds. -/
theorem C177_polite {g : FSt} (h : FReach May g) : ∃ ls, PoliteRun ls g.sys := by
  have key : ∀ {g : FSt} {c o : Nat}, FInv g → g.sys.caller c = .idle → May g.who c (.obj o) true → ∀ d, busyOn (g.sys.caller d) ≠ some o := by
    intro g c o hi hc hm d hd
    have h1 := hi.busy d o hd 0
    simp only [May, if_true] at hm
    rw [hm 0] at h1
    subst h1
    rw [hc] at hd
    simp [busyOn] at hd
  induction h with
  | init => exact ⟨[], .init⟩
  | step hg hs ih =>
    obtain ⟨ls, hr⟩ := ih
    have hi := finv_reach hg
    cases hs with
    | start c o j b s' ha hm hs =>
      refine ⟨_, .step hr (l := .start c o j b) (key hi ?_ hm) hs⟩
      simp only [step] at hs
      split at hs
      · assumption
      · simp at hs
    | alloc c s' ha hs => exact ⟨_, .step hr (l := .alloc c) trivial hs⟩
    | create c o j p s' gift ha hc hs => exact ⟨_, .step hr (l := .create c true) trivial hs⟩
    | load tid p s' ht hs => exact ⟨_, .step hr (l := .load tid) trivial hs⟩
    | free tid p j s' ht hs => exact ⟨_, .step hr (l := .free tid) trivial hs⟩
    | begin tid s' hs => exact ⟨_, .step hr (l := .begin tid) trivial hs⟩
    | finish tid s' hidle hs => exact ⟨_, .step hr (l := .finish tid) trivial hs⟩
    | join c o s' ha hm hs =>
      refine ⟨_, .step hr (l := .join c o) (key hi ?_ hm) hs⟩
      simp only [step] at hs
      split at hs
      · assumption
      · simp at hs
    | joinEnd c o tid s' ha hc hs => exact ⟨_, .step hr (l := .joinEnd c) trivial hs⟩
    | use a x w ha hc hm => exact ⟨ls, hr⟩

/-! ### Examples of executions -/

/-- The state after a step (or the same, if it cannot be made). -/
def sysNext (s : Sys) (l : Lbl) : Sys :=
  match step s l with
  | some (.ok s') => s'
  | _ => s

def stepOk (s : Sys) (l : Lbl) : Bool :=
  match step s l with
  | some (.ok _) => true
  | _ => false

theorem step_next {s : Sys} {l : Lbl} (h : stepOk s l = true) : step s l = some (.ok (sysNext s l)) := by
  unfold stepOk at h
  unfold sysNext
  split at h
  · rename_i hs; rw [hs]
  · simp at h

/-- The state after a step of a program. -/
def fnext (g : FSt) (l : Lbl) (who : Loc → Nat → Nat) (es : List FEv) : FSt := ⟨sysNext g.sys l, who, g.tr ++ es⟩

variable {own : (Loc → Nat → Nat) → Nat → Loc → Bool → Prop} {g : FSt}

theorem FReach.start (h : FReach own g) (c o : Nat) (j : Job) (ha : Active g.sys c) (hm : own g.who c (.obj o) true) (hs : stepOk g.sys (.start c o j true) = true) :
    FReach own (fnext g (.start c o j true) g.who [.use c (.obj o) false]) := h.step (.start g c o j true _ ha hm (step_next hs))

theorem FReach.alloc (h : FReach own g) (c p : Nat) (ha : Active g.sys c) (hp : g.sys.nblk = p) (hs : stepOk g.sys (.alloc c) = true) :
    FReach own (fnext g (.alloc c) (Function.update g.who (.block p) fun _ => c) [.use c (.block p) true]) := by
  subst hp; exact h.step (.alloc g c _ ha (step_next hs))

theorem FReach.create (h : FReach own g) (c b o p : Nat) {j} (gift : Loc → Nat → Prop) [∀ x k, Decidable (gift x k)] (ha : Active g.sys c) (hb : g.sys.nth + 1 = b) (hc : g.sys.caller c = .holds o j p)
    (hs : stepOk g.sys (.create c true) = true) : FReach own (fnext g (.create c true) (give g.who gift c b o p) [.fork c b, .use c (.obj o) true]) := by
  subst hb
  have := h.step (.create g c o j p _ gift ha hc (step_next hs))
  rwa [List.append_assoc] at this

theorem FReach.load (h : FReach own g) (tid p : Nat) (ht : g.sys.th tid = some (.fresh p)) (hs : stepOk g.sys (.load tid) = true) :
    FReach own (fnext g (.load tid) g.who [.use (tid + 1) (.block p) false]) := h.step (.load g tid p _ ht (step_next hs))

theorem FReach.free (h : FReach own g) (tid p : Nat) {j} (ht : g.sys.th tid = some (.loaded p j)) (hs : stepOk g.sys (.free tid) = true) :
    FReach own (fnext g (.free tid) g.who [.use (tid + 1) (.block p) true]) := h.step (.free g tid p j _ ht (step_next hs))

theorem FReach.begin (h : FReach own g) (tid : Nat) (hs : stepOk g.sys (.begin tid) = true) : FReach own (fnext g (.begin tid) g.who []) := by
  have := h.step (.begin g tid _ (step_next hs))
  simpa [fnext] using this

theorem FReach.finish (h : FReach own g) (tid : Nat) (hc : g.sys.caller (tid + 1) = .idle) (hs : stepOk g.sys (.finish tid) = true) : FReach own (fnext g (.finish tid) g.who [.fin (tid + 1)]) :=
  h.step (.finish g tid _ hc (step_next hs))

theorem FReach.joinBegin (h : FReach own g) (c o : Nat) (ha : Active g.sys c) (hm : own g.who c (.obj o) true) (hs : stepOk g.sys (.join c o) = true) :
    FReach own (fnext g (.join c o) g.who [.use c (.obj o) false]) := h.step (.join g c o _ ha hm (step_next hs))

theorem FReach.joinEnd (h : FReach own g) (c o tid : Nat) (ha : Active g.sys c) (hc : g.sys.caller c = .joining o tid) (hs : stepOk g.sys (.joinEnd c) = true) :
    FReach own (fnext g (.joinEnd c) (takeBack g.who c (tid + 1)) [.join c (tid + 1), .use c (.obj o) true]) := by
  have := h.step (.joinEnd g c o tid _ ha hc (step_next hs))
  rwa [List.append_assoc] at this

/-- The state after a use of a variable. -/
def fuse (g : FSt) (a x : Nat) (w : Bool) : FSt := ⟨g.sys, g.who, g.tr ++ [.use a (.user x) w]⟩

theorem FReach.use (h : FReach own g) (a x : Nat) (w : Bool) (ha : Active g.sys a) (hc : g.sys.caller a = .idle) (hm : own g.who a (.user x) w) : FReach own (fuse g a x w) := h.step (.use g a x w ha hc hm)

/-- A program: the first thread writes variables 1 and 9, starts a thread, gives it variable 1 and half of the shares of variable 9; both read variable 9, the started thread writes variable 1; after
`join` the first thread reads variable 1 and writes variable 9. -/
def sampleTrace : List FEv :=
  [.use 0 (.user 1) true, .use 0 (.user 9) true, .use 0 (.obj 5) false, .use 0 (.block 0) true, .fork 0 1, .use 0 (.obj 5) true, .use 1 (.block 0) false, .use 0 (.user 9) false, .use 1 (.block 0) true,
    .use 1 (.user 9) false, .use 1 (.user 1) true, .use 0 (.obj 5) false, .fin 1, .join 0 1, .use 0 (.obj 5) true, .use 0 (.user 1) false, .use 0 (.user 9) true]

example : ∃ g, FReach May g ∧ g.tr = sampleTrace := by
  have h := FReach.init (own := May)
  replace h := h.use 0 1 true trivial rfl (by intro k; rfl)
  replace h := h.use 0 9 true trivial rfl (by intro k; rfl)
  replace h := h.start 0 5 ⟨1, 2⟩ trivial (by intro k; rfl) rfl
  replace h := h.alloc 0 0 trivial rfl rfl
  replace h := h.create 0 1 5 0 (fun x k => x = .user 1 ∨ x = .user 9 ∧ k % 2 = 1) trivial rfl rfl rfl
  replace h := h.load 0 0 rfl rfl
  replace h := h.use 0 9 false trivial rfl ⟨0, rfl⟩
  replace h := h.free 0 0 rfl rfl
  replace h := h.begin 0 rfl
  replace h := h.use 1 9 false rfl rfl ⟨1, rfl⟩
  replace h := h.use 1 1 true rfl rfl (by intro k; rfl)
  replace h := h.joinBegin 0 5 trivial (by intro k; rfl) rfl
  replace h := h.finish 0 rfl rfl
  replace h := h.joinEnd 0 5 0 trivial rfl rfl
  replace h := h.use 0 1 false trivial rfl ⟨0, rfl⟩
  replace h := h.use 0 9 true trivial rfl (by
    intro k
    rcases Nat.mod_two_eq_zero_or_one k with hk | hk <;> simp [fnext, fuse, takeBack, give, finit, hk])
  exact ⟨_, h, rfl⟩

/-- The order on a trace follows any relation that its edges follow. -/
theorem FHB.closed {tr : List FEv} {P : Nat → Prop} (h1 : ∀ j k e e', j < k → tr[j]? = some e → tr[k]? = some e' → Reaches e e'.agent → P j → P k)
    (h2 : ∀ (j k a b : Nat), j < k → tr[j]? = some (.fin b) → tr[k]? = some (.join a b) → P j → P k) {j k} (h : FHB tr j k) : P j → P k := by
  induction h with
  | order a b c d => exact h1 _ _ _ _ a b c (.inl d)
  | fork a b c d => exact h1 _ _ _ _ a b c (.inr ⟨_, by rw [d]⟩)
  | join a b c => exact h2 _ _ _ _ a b c
  | trans _ _ i1 i2 => exact i2 ∘ i1

/-- C177, refuted for programs that go on using what they gave away: a thread that has started another one and does not wait for `join` races with it. -/
theorem C177_early_races : ∃ g, FReach (fun who a x w => (∃ n, x = .user n) ∨ May who a x w) g ∧ ¬ FRaceFree g.tr := by
  have h := FReach.init (own := fun who a x w => (∃ n, x = .user n) ∨ May who a x w)
  replace h := h.start 0 5 ⟨1, 2⟩ trivial (.inr (by intro k; rfl)) rfl
  replace h := h.alloc 0 0 trivial rfl rfl
  replace h := h.create 0 1 5 0 (fun x _ => x = .user 1) trivial rfl rfl rfl
  replace h := h.load 0 0 rfl rfl
  replace h := h.free 0 0 rfl rfl
  replace h := h.begin 0 rfl
  replace h := h.use 1 1 true rfl rfl (.inl ⟨1, rfl⟩)
  replace h := h.use 0 1 false trivial rfl (.inl ⟨1, rfl⟩)
  refine ⟨_, h, fun hr => ?_⟩
  have hb := hr 6 7 1 0 (.user 1) true false (by decide) rfl rfl (.inl rfl)
  refine absurd (FHB.closed (P := fun k => k = 6) ?_ ?_ hb rfl) (by decide)
  · rintro j k e e' hjk hj hk hR rfl
    have hk8 : k < 8 := fget_lt hk
    obtain rfl : k = 7 := by omega
    obtain rfl : FEv.use 1 (.user 1) true = e := Option.some.inj hj
    obtain rfl : FEv.use 0 (.user 1) false = e' := Option.some.inj hk
    rcases hR with hR | ⟨a, hR⟩
    · exact absurd hR (by decide)
    · simp at hR
  · rintro j k a b hjk hj hk rfl
    exact absurd (Option.some.inj hj) (by simp)

end Verif.Threads.Start
