import Verif.Core.Outcome
import Mathlib.Logic.Function.Basic

/-
Property C102: starting and joining threads, `Thread` (`Threads.h:265-301`, `Threads.cpp:279-317`).

Any number of `Thread` objects (numbered), of callers (threads that use the objects) and of threads started; every interleaving of the steps of `start`, `thread_main` and `join`.
Tasks and arguments are opaque.  pthread is modelled as documented: `pthread_create` starts a new thread with a new nonzero identifier and stores the identifier, or fails;
`pthread_join` waits for the end of the thread, and is undefined for a thread already joined and for the identifier 0.
Not modelled: the attribute object (except that setting the stack size may be refused), and destruction of `Thread` objects.
-/

namespace Verif.Threads.Start
open Verif

/-- A task and its argument (`wrapArgs`, `Threads.cpp:279-283`). -/
structure Job where
  task : Nat
  arg : Nat
deriving DecidableEq, Repr

/-- Where a caller is. -/
inductive Caller
  | idle
  /-- in `start`, behind the first assertion and the stack size, `Threads.cpp:297-303` -/
  | checked (o : Nat) (j : Job)
  /-- in `start`, with the block filled in, `Threads.cpp:304-307` -/
  | holds (o : Nat) (j : Job) (p : Nat)
  /-- in `pthread_join`, `Threads.h:299` -/
  | joining (o tid : Nat)
deriving DecidableEq, Repr

/-- Where a started thread is (`thread_main`, `Threads.cpp:285-293`). -/
inductive Th
  /-- before reading the block -/
  | fresh (p : Nat)
  /-- before `delete` -/
  | loaded (p : Nat) (j : Job)
  /-- before calling the task -/
  | ready (j : Job)
  | running
  | ended
  | joined
deriving DecidableEq, Repr

/-- What can be observed: `pthread_create` for a job, the task called with its argument, its return, and the return of `join`. -/
inductive Ev
  | started (tid : Nat) (j : Job)
  | began (tid : Nat) (j : Job)
  | finished (tid : Nat)
  | joined (tid o : Nat)
deriving DecidableEq, Repr

/-- The thread concerned. -/
def Ev.tid : Ev → Nat
  | .started t _ => t
  | .began t _ => t
  | .finished t => t
  | .joined t _ => t

/-- The whole: `mThread` of each object (`none` is 0), the callers, the blocks allocated and their number ever, the threads and their number, and the events (last one first). -/
structure Sys where
  obj : Nat → Option Nat
  caller : Nat → Caller
  blk : Nat → Option Job
  nblk : Nat
  th : Nat → Option Th
  nth : Nat
  tr : List Ev

/-- Nothing started (`Thread::Thread`, `Threads.h:281`). -/
def init : Sys := ⟨fun _ => none, fun _ => .idle, fun _ => none, 0, fun _ => none, 0, []⟩

/-- Steps of callers (first number: the caller) and of started threads. -/
inductive Lbl
  | start (c o : Nat) (j : Job) (sizeOk : Bool)
  | alloc (c : Nat)
  | create (c : Nat) (ok : Bool)
  | load (tid : Nat)
  | free (tid : Nat)
  | begin (tid : Nat)
  | finish (tid : Nat)
  | join (c o : Nat)
  | joinEnd (c : Nat)
deriving DecidableEq, Repr

/-- One step; `none` if it cannot be made. -/
def step (s : Sys) : Lbl → Option (Outcome Sys)
  /- `Threads.cpp:297-303`: the assertions -/
  | .start c o j sizeOk =>
    match s.caller c with
    | .idle => if s.obj o = none ∧ sizeOk then some (.ok { s with caller := Function.update s.caller c (.checked o j) }) else some .assertFail
    | _ => none
  /- `Threads.cpp:304-306` -/
  | .alloc c =>
    match s.caller c with
    | .checked o j => some (.ok { s with caller := Function.update s.caller c (.holds o j s.nblk), blk := Function.update s.blk s.nblk (some j), nblk := s.nblk + 1 })
    | _ => none
  /- `Threads.cpp:307-310` -/
  | .create c ok =>
    match s.caller c with
    | .holds o j p =>
      if ok then some (.ok { s with caller := Function.update s.caller c .idle, obj := Function.update s.obj o (some s.nth), th := Function.update s.th s.nth (some (.fresh p)), nth := s.nth + 1,
                                    tr := .started s.nth j :: s.tr })
      else some .assertFail
    | _ => none
  /- `Threads.cpp:288-290` -/
  | .load tid =>
    match s.th tid with
    | some (.fresh p) =>
      match s.blk p with
      | some j => some (.ok { s with th := Function.update s.th tid (some (.loaded p j)) })
      | none => some .ub
    | _ => none
  /- `Threads.cpp:291` -/
  | .free tid =>
    match s.th tid with
    | some (.loaded p j) =>
      match s.blk p with
      | some _ => some (.ok { s with th := Function.update s.th tid (some (.ready j)), blk := Function.update s.blk p none })
      | none => some .ub
    | _ => none
  /- `Threads.cpp:292`: the call -/
  | .begin tid =>
    match s.th tid with
    | some (.ready j) => some (.ok { s with th := Function.update s.th tid (some .running), tr := .began tid j :: s.tr })
    | _ => none
  /- `Threads.cpp:292`: the return -/
  | .finish tid =>
    match s.th tid with
    | some .running => some (.ok { s with th := Function.update s.th tid (some .ended), tr := .finished tid :: s.tr })
    | _ => none
  /- `Threads.h:299`: reading `mThread` -/
  | .join c o =>
    match s.caller c with
    | .idle =>
      match s.obj o with
      | some tid => some (.ok { s with caller := Function.update s.caller c (.joining o tid) })
      | none => some .ub
    | _ => none
  /- `Threads.h:299`: the return of `pthread_join`, and `mThread = 0` -/
  | .joinEnd c =>
    match s.caller c with
    | .joining o tid =>
      match s.th tid with
      | some .ended => some (.ok { s with caller := Function.update s.caller c .idle, obj := Function.update s.obj o none, th := Function.update s.th tid (some .joined), tr := .joined tid o :: s.tr })
      | some .joined => some .ub
      | _ => none
    | _ => none

/-- Executions. -/
inductive Run : List Lbl → Sys → Prop
  | init : Run [] init
  | step {ls s l s'} : Run ls s → step s l = some (.ok s') → Run (l :: ls) s'

/-- The events of one thread, last one first. -/
def life (s : Sys) (tid : Nat) : List Ev := s.tr.filter fun e => e.tid = tid

/-- The block a thread is responsible for. -/
def thBlock : Option Th → Option Nat
  | some (.fresh p) => some p
  | some (.loaded p _) => some p
  | _ => none

/-- The block a caller is responsible for. -/
def callerBlock : Caller → Option Nat
  | .holds _ _ p => some p
  | _ => none

/-- What a thread has done so far. -/
def LifeOk (s : Sys) (tid : Nat) : Option Th → Prop
  | none => life s tid = []
  | some (.fresh p) => ∃ j, s.blk p = some j ∧ life s tid = [.started tid j]
  | some (.loaded p j) => s.blk p = some j ∧ life s tid = [.started tid j]
  | some (.ready j) => life s tid = [.started tid j]
  | some .running => ∃ j, life s tid = [.began tid j, .started tid j]
  | some .ended => ∃ j, life s tid = [.finished tid, .began tid j, .started tid j]
  | some .joined => ∃ j o, life s tid = [.joined tid o, .finished tid, .began tid j, .started tid j]

/-- The invariant. -/
structure Inv (s : Sys) : Prop where
  lifeOk : ∀ tid, LifeOk s tid (s.th tid)
  bound : ∀ tid, s.nth ≤ tid → s.th tid = none
  bbound : ∀ p, s.nblk ≤ p → s.blk p = none
  held : ∀ c o j p, s.caller c = .holds o j p → s.blk p = some j
  tt : ∀ t u p, thBlock (s.th t) = some p → thBlock (s.th u) = some p → t = u
  tc : ∀ t c p, thBlock (s.th t) = some p → callerBlock (s.caller c) ≠ some p
  cc : ∀ c d p, callerBlock (s.caller c) = some p → callerBlock (s.caller d) = some p → c = d
  owned : ∀ p, s.blk p ≠ none → (∃ t, thBlock (s.th t) = some p) ∨ ∃ c, callerBlock (s.caller c) = some p
  objs : ∀ o tid, s.obj o = some tid → tid < s.nth
  joins : ∀ c o tid, s.caller c = .joining o tid → tid < s.nth

theorem inv_init : Inv init := by
  constructor <;> simp [init, LifeOk, life, thBlock, callerBlock]

theorem life_cons (s : Sys) (e : Ev) (tid : Nat) {s' : Sys} (h : s'.tr = e :: s.tr) : life s' tid = if e.tid = tid then e :: life s tid else life s tid := by
  unfold life
  rw [h, List.filter_cons]
  by_cases h : e.tid = tid <;> simp [h]

theorem life_same {s s' : Sys} (h : s'.tr = s.tr) (tid : Nat) : life s' tid = life s tid := by unfold life; rw [h]

/-- `LifeOk` depends on the blocks and the events of the thread only. -/
theorem lifeOk_congr {s s' : Sys} {tid : Nat} {x : Option Th} (hl : life s' tid = life s tid) (hb : ∀ p, thBlock x = some p → s'.blk p = s.blk p) (h : LifeOk s tid x) : LifeOk s' tid x := by
  match x, h with
  | none, h => exact hl.trans h
  | some (.fresh p), ⟨j, h1, h2⟩ => exact ⟨j, (hb p rfl).trans h1, hl.trans h2⟩
  | some (.loaded p j), ⟨h1, h2⟩ => exact ⟨(hb p rfl).trans h1, hl.trans h2⟩
  | some (.ready j), h => exact hl.trans h
  | some .running, ⟨j, h⟩ => exact ⟨j, hl.trans h⟩
  | some .ended, ⟨j, h⟩ => exact ⟨j, hl.trans h⟩
  | some .joined, ⟨j, o, h⟩ => exact ⟨j, o, hl.trans h⟩

/-- A step of one caller that touches no block and no thread. -/
theorem inv_caller {s : Sys} (hi : Inv s) (c : Nat) (x : Caller) (hx : callerBlock x = none) (hb : callerBlock (s.caller c) = none) (hj : ∀ o tid, x = .joining o tid → tid < s.nth) :
    Inv { s with caller := Function.update s.caller c x } := by
  have hc : ∀ d, callerBlock (Function.update s.caller c x d) = callerBlock (s.caller d) := by
    intro d
    by_cases h : d = c
    · subst h; rw [Function.update_self, hx, hb]
    · rw [Function.update_of_ne h]
  have hnx : ∀ o j p, x ≠ .holds o j p := by rintro o j p rfl; simp [callerBlock] at hx
  refine ⟨fun tid => lifeOk_congr (life_same rfl tid) (fun _ _ => rfl) (hi.lifeOk tid), hi.bound, hi.bbound, ?_, hi.tt, ?_, ?_, ?_, hi.objs, ?_⟩
  · intro d o j p h
    by_cases hd : d = c
    · subst hd; simp only [Function.update_self] at h; exact absurd h (hnx o j p)
    · simp only [Function.update_of_ne hd] at h; exact hi.held d o j p h
  · intro t d p h; simp only [hc]; exact hi.tc t d p h
  · intro d e p h1 h2; simp only [hc] at h1 h2; exact hi.cc d e p h1 h2
  · intro p h
    rcases hi.owned p h with h | ⟨d, h⟩
    · exact Or.inl h
    · exact Or.inr ⟨d, by simp only [hc]; exact h⟩
  · intro d o tid h
    by_cases hd : d = c
    · subst hd; simp only [Function.update_self] at h; exact hj o tid h
    · simp only [Function.update_of_ne hd] at h; exact hi.joins d o tid h

/-- A step of one thread that keeps its block. -/
theorem inv_thread {s s' : Sys} (hi : Inv s) (tid : Nat) (x : Th) (ht : tid < s.nth) (h1 : s'.obj = s.obj) (h2 : s'.caller = s.caller) (h3 : s'.blk = s.blk) (h4 : s'.nblk = s.nblk)
    (h5 : s'.th = Function.update s.th tid (some x)) (h6 : s'.nth = s.nth) (hx : thBlock (some x) = thBlock (s.th tid)) (hl : LifeOk s' tid (some x))
    (hr : ∀ u, u ≠ tid → life s' u = life s u) : Inv s' := by
  have hb : ∀ u, thBlock (s'.th u) = thBlock (s.th u) := by
    intro u
    rw [h5]
    by_cases h : u = tid
    · subst h; rw [Function.update_self, hx]
    · rw [Function.update_of_ne h]
  refine ⟨?_, ?_, ?_, ?_, ?_, ?_, ?_, ?_, ?_, ?_⟩
  · intro u
    by_cases h : u = tid
    · subst h; rw [h5, Function.update_self]; exact hl
    · rw [h5, Function.update_of_ne h]; exact lifeOk_congr (hr u h) (fun _ _ => by rw [h3]) (hi.lifeOk u)
  · intro u hu
    rw [h6] at hu
    rw [h5, Function.update_of_ne (by omega)]
    exact hi.bound u hu
  · rw [h3, h4]; exact hi.bbound
  · rw [h2, h3]; exact hi.held
  · intro t u p ha hb'; rw [hb] at ha hb'; exact hi.tt t u p ha hb'
  · intro t c p ha; rw [hb] at ha; rw [h2]; exact hi.tc t c p ha
  · rw [h2]; exact hi.cc
  · intro p h
    rw [h3] at h
    rcases hi.owned p h with ⟨t, h⟩ | h
    · exact Or.inl ⟨t, by rw [hb]; exact h⟩
    · rw [h2]; exact Or.inr h
  · rw [h1, h6]; exact hi.objs
  · rw [h2, h6]; exact hi.joins

theorem lt_of_th {s : Sys} (hi : Inv s) {tid : Nat} {x : Th} (h : s.th tid = some x) : tid < s.nth := by
  by_cases hh : tid < s.nth
  · exact hh
  · rw [hi.bound tid (by omega)] at h; simp at h

theorem inv_step {s s' : Sys} (hi : Inv s) {l : Lbl} (h : step s l = some (.ok s')) : Inv s' := by
  cases l with
  | start c o j sizeOk =>
    simp only [step] at h
    split at h
    · rename_i hc
      split at h
      · simp only [Option.some.injEq, Outcome.ok.injEq] at h
        subst h
        exact inv_caller hi c _ rfl (by rw [hc]; rfl) (by intro o t h; cases h)
      · simp at h
    · simp at h
  | alloc c =>
    simp only [step] at h
    split at h
    · rename_i o j hc
      simp only [Option.some.injEq, Outcome.ok.injEq] at h
      subst h
      have hcb : ∀ d, callerBlock (Function.update s.caller c (.holds o j s.nblk) d) = if d = c then some s.nblk else callerBlock (s.caller d) := by
        intro d
        by_cases hd : d = c
        · subst hd; rw [Function.update_self, if_pos rfl]; rfl
        · rw [Function.update_of_ne hd, if_neg hd]
      have hnew : s.blk s.nblk = none := hi.bbound _ (Nat.le_refl _)
      have htn : ∀ t, thBlock (s.th t) ≠ some s.nblk := by
        intro t ht
        have := hi.lifeOk t
        revert this ht
        rcases s.th t with - | (p | ⟨p, j'⟩ | j' | - | - | -) <;> simp only [thBlock, LifeOk] <;> intro ht <;> try (cases ht)
        · rintro ⟨j', h1, -⟩; rw [hnew] at h1; cases h1
        · rintro ⟨h1, -⟩; rw [hnew] at h1; cases h1
      have hcn : ∀ d, callerBlock (s.caller d) ≠ some s.nblk := by
        intro d hd
        cases hcd : s.caller d with
        | holds o' j' p =>
          rw [hcd] at hd
          have hpe : p = s.nblk := by simpa [callerBlock] using hd
          have := hi.held d o' j' p hcd
          rw [hpe, hnew] at this
          cases this
        | _ => rw [hcd] at hd; simp [callerBlock] at hd
      refine ⟨fun tid => lifeOk_congr (s := s) (life_same rfl tid) ?_ (hi.lifeOk tid), hi.bound, ?_, ?_, hi.tt, ?_, ?_, ?_, hi.objs, ?_⟩
      · intro p hp
        have : p ≠ s.nblk := fun e => htn tid (by rw [hp, e])
        exact Function.update_of_ne this _ _
      · intro p hp
        have hp : s.nblk + 1 ≤ p := hp
        show Function.update s.blk s.nblk (some j) p = none
        rw [Function.update_of_ne (by omega)]
        exact hi.bbound p (by omega)
      · intro d o' j' p hd
        show Function.update s.blk s.nblk (some j) p = some j'
        by_cases hdc : d = c
        · subst hdc
          simp only [Function.update_self, Caller.holds.injEq] at hd
          obtain ⟨-, rfl, rfl⟩ := hd
          rw [Function.update_self]
        · simp only [Function.update_of_ne hdc] at hd
          have hh := hi.held d o' j' p hd
          have : p ≠ s.nblk := by rintro rfl; rw [hnew] at hh; cases hh
          rw [Function.update_of_ne this]
          exact hh
      · intro t d p ht
        show callerBlock (Function.update s.caller c _ d) ≠ some p
        rw [hcb]
        split
        · intro e
          injection e with e
          exact htn t (by rw [e]; exact ht)
        · exact hi.tc t d p ht
      · intro d e p h1 h2
        have h1 : callerBlock (Function.update s.caller c _ d) = some p := h1
        have h2 : callerBlock (Function.update s.caller c _ e) = some p := h2
        rw [hcb] at h1 h2
        split at h1 <;> split at h2
        · simp_all
        · injection h1 with h1; rw [← h1] at h2; exact absurd h2 (hcn e)
        · injection h2 with h2; rw [← h2] at h1; exact absurd h1 (hcn d)
        · exact hi.cc d e p h1 h2
      · intro p hp
        have hp : Function.update s.blk s.nblk (some j) p ≠ none := hp
        by_cases hpn : p = s.nblk
        · exact Or.inr ⟨c, by show callerBlock (Function.update s.caller c _ c) = some p; rw [hcb, if_pos rfl, hpn]⟩
        · rw [Function.update_of_ne hpn] at hp
          rcases hi.owned p hp with h | ⟨d, h⟩
          · exact Or.inl h
          · refine Or.inr ⟨d, ?_⟩
            show callerBlock (Function.update s.caller c _ d) = some p
            rw [hcb, if_neg ?_, h]
            rintro rfl
            rw [hc] at h
            simp [callerBlock] at h
      · intro d o' tid hd
        have hd : Function.update s.caller c _ d = _ := hd
        by_cases hdc : d = c
        · subst hdc; rw [Function.update_self] at hd; cases hd
        · rw [Function.update_of_ne hdc] at hd; exact hi.joins d o' tid hd
    · simp at h
  | create c ok =>
    simp only [step] at h
    split at h
    · rename_i o j p hc
      split at h
      · simp only [Option.some.injEq, Outcome.ok.injEq] at h
        subst h
        have hp : s.blk p = some j := hi.held c o j p hc
        have hcp : callerBlock (s.caller c) = some p := by rw [hc]; rfl
        have hcb : ∀ d, callerBlock (Function.update s.caller c .idle d) = if d = c then none else callerBlock (s.caller d) := by
          intro d
          by_cases hd : d = c
          · subst hd; rw [Function.update_self, if_pos rfl]; rfl
          · rw [Function.update_of_ne hd, if_neg hd]
        have htb : ∀ t, thBlock (Function.update s.th s.nth (some (.fresh p)) t) = if t = s.nth then some p else thBlock (s.th t) := by
          intro t
          by_cases ht : t = s.nth
          · subst ht; rw [Function.update_self, if_pos rfl]; rfl
          · rw [Function.update_of_ne ht, if_neg ht]
        refine ⟨?_, ?_, hi.bbound, ?_, ?_, ?_, ?_, ?_, ?_, ?_⟩
        · intro t
          show LifeOk _ t (Function.update s.th s.nth (some (.fresh p)) t)
          by_cases ht : t = s.nth
          · subst ht
            rw [Function.update_self]
            refine ⟨j, hp, ?_⟩
            rw [life_cons s (.started s.nth j) s.nth rfl, if_pos (show Ev.tid (.started s.nth j) = s.nth from rfl)]
            have := hi.lifeOk s.nth
            rw [hi.bound _ (Nat.le_refl _)] at this
            rw [this]
          · rw [Function.update_of_ne ht]
            refine lifeOk_congr (s := s) ?_ (fun _ _ => rfl) (hi.lifeOk t)
            rw [life_cons s (.started s.nth j) t rfl, if_neg]
            exact fun e => ht e.symm
        · intro t ht
          have ht : s.nth + 1 ≤ t := ht
          show Function.update s.th s.nth (some (.fresh p)) t = none
          rw [Function.update_of_ne (by omega)]
          exact hi.bound t (by omega)
        · intro d o' j' q hd
          have hd : Function.update s.caller c _ d = _ := hd
          by_cases hdc : d = c
          · subst hdc; rw [Function.update_self] at hd; cases hd
          · rw [Function.update_of_ne hdc] at hd; exact hi.held d o' j' q hd
        · intro t u q h1 h2
          have h1 : thBlock (Function.update s.th s.nth _ t) = some q := h1
          have h2 : thBlock (Function.update s.th s.nth _ u) = some q := h2
          rw [htb] at h1 h2
          split at h1 <;> split at h2
          · simp_all
          · injection h1 with h1; subst h1; exact absurd hcp (hi.tc u c p h2)
          · injection h2 with h2; subst h2; exact absurd hcp (hi.tc t c p h1)
          · exact hi.tt t u q h1 h2
        · intro t d q h1
          have h1 : thBlock (Function.update s.th s.nth _ t) = some q := h1
          show callerBlock (Function.update s.caller c _ d) ≠ some q
          rw [htb] at h1
          rw [hcb]
          split
          · simp
          · rename_i hdc
            split at h1
            · injection h1 with h1; subst h1
              intro hd
              exact hdc (hi.cc d c p hd hcp)
            · exact hi.tc t d q h1
        · intro d e q h1 h2
          have h1 : callerBlock (Function.update s.caller c _ d) = some q := h1
          have h2 : callerBlock (Function.update s.caller c _ e) = some q := h2
          rw [hcb] at h1 h2
          split at h1 <;> split at h2
          · simp_all
          · simp at h1
          · simp at h2
          · exact hi.cc d e q h1 h2
        · intro q hq
          rcases hi.owned q hq with ⟨t, h⟩ | ⟨d, h⟩
          · refine Or.inl ⟨t, ?_⟩
            show thBlock (Function.update s.th s.nth _ t) = some q
            rw [htb, if_neg ?_, h]
            rintro rfl
            rw [hi.bound _ (Nat.le_refl _)] at h
            simp [thBlock] at h
          · by_cases hdc : d = c
            · subst hdc
              rw [hcp] at h
              injection h with h
              exact Or.inl ⟨s.nth, by show thBlock (Function.update s.th s.nth _ s.nth) = some q; rw [htb, if_pos rfl, h]⟩
            · exact Or.inr ⟨d, by show callerBlock (Function.update s.caller c _ d) = some q; rw [hcb, if_neg hdc, h]⟩
        · intro o' t ho
          have ho : Function.update s.obj o _ o' = some t := ho
          show t < s.nth + 1
          by_cases hoo : o' = o
          · subst hoo; rw [Function.update_self] at ho; injection ho with ho; omega
          · rw [Function.update_of_ne hoo] at ho; have := hi.objs o' t ho; omega
        · intro d o' t hd
          have hd : Function.update s.caller c _ d = _ := hd
          show t < s.nth + 1
          by_cases hdc : d = c
          · subst hdc; rw [Function.update_self] at hd; cases hd
          · rw [Function.update_of_ne hdc] at hd; have := hi.joins d o' t hd; omega
      · simp at h
    · simp at h
  | load tid =>
    simp only [step] at h
    split at h
    · rename_i p ht
      split at h
      · rename_i j hj
        simp only [Option.some.injEq, Outcome.ok.injEq] at h
        subst h
        have hl := hi.lifeOk tid
        rw [ht] at hl
        obtain ⟨j', h1, h2⟩ := hl
        rw [hj] at h1
        injection h1 with h1
        subst h1
        exact inv_thread hi tid _ (lt_of_th hi ht) rfl rfl rfl rfl rfl rfl (by rw [ht]; rfl) ⟨hj, h2⟩ (fun u _ => rfl)
      · simp at h
    · simp at h
  | free tid =>
    simp only [step] at h
    split at h
    · rename_i p j ht
      split at h
      · simp only [Option.some.injEq, Outcome.ok.injEq] at h
        subst h
        have hl := hi.lifeOk tid
        rw [ht] at hl
        obtain ⟨h1, h2⟩ := hl
        have htp : thBlock (s.th tid) = some p := by rw [ht]; rfl
        have hlt := lt_of_th hi ht
        have htb : ∀ t, thBlock (Function.update s.th tid (some (.ready j)) t) = if t = tid then none else thBlock (s.th t) := by
          intro t
          by_cases ht : t = tid
          · subst ht; rw [Function.update_self, if_pos rfl]; rfl
          · rw [Function.update_of_ne ht, if_neg ht]
        refine ⟨?_, ?_, ?_, ?_, ?_, ?_, hi.cc, ?_, hi.objs, hi.joins⟩
        · intro t
          show LifeOk _ t (Function.update s.th tid _ t)
          by_cases htt : t = tid
          · subst htt; rw [Function.update_self]; exact h2
          · rw [Function.update_of_ne htt]
            refine lifeOk_congr (s := s) rfl ?_ (hi.lifeOk t)
            intro q hq
            show Function.update s.blk p none q = s.blk q
            rw [Function.update_of_ne]
            rintro rfl
            exact htt (hi.tt t tid q hq htp)
        · intro t h
          show Function.update s.th tid _ t = none
          have h : s.nth ≤ t := h
          rw [Function.update_of_ne (by omega)]
          exact hi.bound t h
        · intro q hq
          show Function.update s.blk p none q = none
          by_cases hqp : q = p
          · subst hqp; rw [Function.update_self]
          · rw [Function.update_of_ne hqp]; exact hi.bbound q hq
        · intro d o j' q hd
          show Function.update s.blk p none q = some j'
          have hd : s.caller d = .holds o j' q := hd
          rw [Function.update_of_ne]
          · exact hi.held d o j' q hd
          · rintro rfl
            exact hi.tc tid d q htp (by rw [hd]; rfl)
        · intro t u q h1 h2
          have h1 : thBlock (Function.update s.th tid _ t) = some q := h1
          have h2 : thBlock (Function.update s.th tid _ u) = some q := h2
          rw [htb] at h1 h2
          split at h1 <;> split at h2
          · simp_all
          · simp at h1
          · simp at h2
          · exact hi.tt t u q h1 h2
        · intro t d q h1
          have h1 : thBlock (Function.update s.th tid _ t) = some q := h1
          rw [htb] at h1
          split at h1
          · simp at h1
          · exact hi.tc t d q h1
        · intro q hq
          have hq : Function.update s.blk p none q ≠ none := hq
          have hqp : q ≠ p := by rintro rfl; rw [Function.update_self] at hq; exact hq rfl
          rw [Function.update_of_ne hqp] at hq
          rcases hi.owned q hq with ⟨t, h⟩ | h
          · refine Or.inl ⟨t, ?_⟩
            show thBlock (Function.update s.th tid _ t) = some q
            rw [htb, if_neg ?_, h]
            rintro rfl
            rw [htp] at h
            injection h with h
            exact hqp h.symm
          · exact Or.inr h
      · simp at h
    · simp at h
  | begin tid =>
    simp only [step] at h
    split at h
    · rename_i j ht
      simp only [Option.some.injEq, Outcome.ok.injEq] at h
      subst h
      have hl := hi.lifeOk tid
      rw [ht] at hl
      refine inv_thread hi tid .running (lt_of_th hi ht) rfl rfl rfl rfl rfl rfl (by rw [ht]; rfl) ⟨j, ?_⟩ (fun u hu => ?_)
      · rw [life_cons s (.began tid j) tid rfl, if_pos (show Ev.tid (.began tid j) = tid from rfl), hl]
      · rw [life_cons s (.began tid j) u rfl, if_neg]; exact fun e => hu e.symm
    · simp at h
  | finish tid =>
    simp only [step] at h
    split at h
    · rename_i ht
      simp only [Option.some.injEq, Outcome.ok.injEq] at h
      subst h
      have hl := hi.lifeOk tid
      rw [ht] at hl
      obtain ⟨j, hl⟩ := hl
      refine inv_thread hi tid .ended (lt_of_th hi ht) rfl rfl rfl rfl rfl rfl (by rw [ht]; rfl) ⟨j, ?_⟩ (fun u hu => ?_)
      · rw [life_cons s (.finished tid) tid rfl, if_pos (show Ev.tid (.finished tid) = tid from rfl), hl]
      · rw [life_cons s (.finished tid) u rfl, if_neg]; exact fun e => hu e.symm
    · simp at h
  | join c o =>
    simp only [step] at h
    split at h
    · rename_i hc
      split at h
      · rename_i tid ho
        simp only [Option.some.injEq, Outcome.ok.injEq] at h
        subst h
        exact inv_caller hi c _ rfl (by rw [hc]; rfl) (by intro o' t e; injection e with _ e; subst e; exact hi.objs o tid ho)
      · simp at h
    · simp at h
  | joinEnd c =>
    simp only [step] at h
    split at h
    · rename_i o tid hc
      split at h
      · rename_i ht
        simp only [Option.some.injEq, Outcome.ok.injEq] at h
        subst h
        have hl := hi.lifeOk tid
        rw [ht] at hl
        obtain ⟨j, hl⟩ := hl
        have h1 := inv_caller hi c .idle rfl (by rw [hc]; rfl) (by intro o t h; cases h)
        have h2 : Inv { s with caller := Function.update s.caller c .idle, th := Function.update s.th tid (some .joined), tr := .joined tid o :: s.tr } := by
          refine inv_thread h1 tid .joined (lt_of_th hi ht) rfl rfl rfl rfl rfl rfl (by show _ = thBlock (s.th tid); rw [ht]; rfl) ⟨j, o, ?_⟩ (fun u hu => ?_)
          · rw [life_cons s (.joined tid o) tid rfl, if_pos (show Ev.tid (.joined tid o) = tid from rfl), hl]
          · rw [life_cons s (.joined tid o) u rfl, if_neg]
            · rfl
            · exact fun e => hu e.symm
        refine ⟨h2.lifeOk, h2.bound, h2.bbound, h2.held, h2.tt, h2.tc, h2.cc, h2.owned, ?_, h2.joins⟩
        intro o' t ho
        have ho : Function.update s.obj o none o' = some t := ho
        by_cases hoo : o' = o
        · subst hoo; rw [Function.update_self] at ho; cases ho
        · rw [Function.update_of_ne hoo] at ho; exact hi.objs o' t ho
      · simp at h
      · simp at h
    · simp at h

theorem inv_run {ls : List Lbl} {s : Sys} (h : Run ls s) : Inv s := by
  induction h with
  | init => exact inv_init
  | step _ hs ih => exact inv_step ih hs

/-- C102 (once, with its own argument): in every execution the events of a thread are, in this order and each at most once: it is started for a job, the task of this very job is called with the
argument of this job, the task returns, `join` returns.  In particular a task runs at most once for every `start`, never without one, and `join` returns only after the task. -/
theorem C102_life {ls : List Lbl} {s : Sys} (h : Run ls s) (tid : Nat) : ∃ j o, life s tid <:+ [.joined tid o, .finished tid, .began tid j, .started tid j] := by
  have hl := (inv_run h).lifeOk tid
  revert hl
  rcases s.th tid with - | (p | ⟨p, j⟩ | j | - | - | -)
  · intro hl; exact ⟨⟨0, 0⟩, 0, by rw [show life s tid = [] from hl]; exact List.nil_suffix⟩
  · rintro ⟨j, -, hl⟩; exact ⟨j, 0, by rw [hl]; exact ⟨[.joined tid 0, .finished tid, .began tid j], rfl⟩⟩
  · rintro ⟨-, hl⟩; exact ⟨j, 0, by rw [hl]; exact ⟨[.joined tid 0, .finished tid, .began tid j], rfl⟩⟩
  · intro hl; exact ⟨j, 0, by rw [show life s tid = _ from hl]; exact ⟨[.joined tid 0, .finished tid, .began tid j], rfl⟩⟩
  · rintro ⟨j, hl⟩; exact ⟨j, 0, by rw [hl]; exact ⟨[.joined tid 0, .finished tid], rfl⟩⟩
  · rintro ⟨j, hl⟩; exact ⟨j, 0, by rw [hl]; exact ⟨[.joined tid 0], rfl⟩⟩
  · rintro ⟨j, o, hl⟩; exact ⟨j, o, by rw [hl]; exact ⟨[], rfl⟩⟩

/-- C102 (blocks): the block handed to a thread is read and freed exactly once, before the task is called: reading and freeing never meet a block already freed, and when no caller is inside
`start` and all threads have come to their tasks every block has been freed. -/
theorem C102_blocks {ls : List Lbl} {s : Sys} (h : Run ls s) :
    (∀ tid, step s (.load tid) ≠ some .ub ∧ step s (.free tid) ≠ some .ub) ∧
      ((∀ c o j p, s.caller c ≠ .holds o j p) → (∀ tid j, .started tid j ∈ s.tr → .began tid j ∈ s.tr) → ∀ p, s.blk p = none) := by
  have hi := inv_run h
  refine ⟨fun tid => ⟨?_, ?_⟩, ?_⟩
  · intro hu
    simp only [step] at hu
    split at hu
    · rename_i p ht
      have := hi.lifeOk tid
      rw [ht] at this
      obtain ⟨j, h1, -⟩ := this
      rw [h1] at hu
      simp at hu
    · simp at hu
  · intro hu
    simp only [step] at hu
    split at hu
    · rename_i p j ht
      have := hi.lifeOk tid
      rw [ht] at this
      rw [this.1] at hu
      simp at hu
    · simp at hu
  · intro hc ht p
    by_cases hp : s.blk p = none
    · exact hp
    · exfalso
      have key : ∀ tid j, life s tid = [.started tid j] → False := by
        intro tid j hl
        have h1 : Ev.started tid j ∈ life s tid := by rw [hl]; simp
        have h2 := ht tid j (List.mem_filter.1 h1).1
        have h3 : Ev.began tid j ∈ life s tid := List.mem_filter.2 ⟨h2, by simp [Ev.tid]⟩
        rw [hl] at h3
        simp at h3
      rcases hi.owned p hp with ⟨t, h⟩ | ⟨c, h⟩
      · have hl := hi.lifeOk t
        revert hl h
        rcases s.th t with - | (p' | ⟨p', j⟩ | j | - | - | -) <;> intro h hl <;> simp [thBlock] at h
        · obtain ⟨j, -, hl⟩ := hl; exact key t j hl
        · exact key t j hl.2
      · cases hcc : s.caller c with
        | holds o j q => exact hc c o j q hcc
        | _ => rw [hcc] at h; simp [callerBlock] at h

/-- A run of two threads on two objects, one of them joined. -/
def sample : List Lbl := [.joinEnd 1, .finish 0, .join 1 7, .begin 0, .free 1, .load 1, .create 1 true, .free 0, .load 0, .create 0 true, .alloc 1, .start 1 8 ⟨3, 4⟩ true, .alloc 0, .start 0 7 ⟨1, 2⟩ true]

theorem run_of {ls : List Lbl} {s : Sys} (h : ls.foldr (fun l (x : Option Sys) => x.bind fun s => match step s l with | some (.ok s') => some s' | _ => none) (some init) = some s) : Run ls s := by
  induction ls generalizing s with
  | nil => simp at h; subst h; exact .init
  | cons l ls ih =>
    rw [List.foldr_cons, Option.bind_eq_some_iff] at h
    obtain ⟨s1, h1, h2⟩ := h
    split at h2
    · rename_i s' hs
      injection h2 with h2
      subst h2
      exact .step (ih h1) hs
    · simp at h2

example : ∃ s, Run sample s ∧ s.tr = [.joined 0 7, .finished 0, .began 0 ⟨1, 2⟩, .started 1 ⟨3, 4⟩, .started 0 ⟨1, 2⟩] ∧ s.obj 7 = none ∧ s.obj 8 = some 1 :=
  ⟨_, run_of rfl, by decide, by decide, by decide⟩

/-! ### One caller at a time for each object -/

/-- The object a caller is working on. -/
def busyOn : Caller → Option Nat
  | .idle => none
  | .checked o _ => some o
  | .holds o _ _ => some o
  | .joining o _ => some o

/-- A new call is made on an object only while no other call on it is under way. -/
def Polite (s : Sys) : Lbl → Prop
  | .start _ o _ _ => ∀ d, busyOn (s.caller d) ≠ some o
  | .join _ o => ∀ d, busyOn (s.caller d) ≠ some o
  | _ => True

/-- Executions with polite callers. -/
inductive PoliteRun : List Lbl → Sys → Prop
  | init : PoliteRun [] init
  | step {ls s l s'} : PoliteRun ls s → Polite s l → step s l = some (.ok s') → PoliteRun (l :: ls) s'

theorem PoliteRun.run {ls : List Lbl} {s : Sys} (h : PoliteRun ls s) : Run ls s := by
  induction h with
  | init => exact .init
  | step _ _ hs ih => exact .step ih hs

/-- The invariant of polite callers. -/
structure GInv (s : Sys) : Prop where
  g1 : ∀ o tid, s.obj o = some tid → ∃ x, s.th tid = some x ∧ x ≠ .joined
  g2 : ∀ o o' tid, s.obj o = some tid → s.obj o' = some tid → o = o'
  g3 : ∀ tid x, s.th tid = some x → x ≠ .joined → ∃ o, s.obj o = some tid
  g4 : ∀ c d o, busyOn (s.caller c) = some o → busyOn (s.caller d) = some o → c = d
  g5 : ∀ c o tid, s.caller c = .joining o tid → s.obj o = some tid
  g6 : ∀ c o j, s.caller c = .checked o j → s.obj o = none
  g7 : ∀ c o j p, s.caller c = .holds o j p → s.obj o = none

/-- A step of a thread that does not end with joining. -/
theorem ginv_thread {s : Sys} (g : GInv s) (tid : Nat) (y x : Th) (hy : s.th tid = some y) (hy2 : y ≠ .joined) (hx : x ≠ .joined) (b : Nat → Option Job) (tr : List Ev) :
    GInv { s with th := Function.update s.th tid (some x), blk := b, tr := tr } := by
  refine ⟨?_, g.g2, ?_, g.g4, g.g5, g.g6, g.g7⟩
  · intro o t ho
    by_cases h : t = tid
    · subst h; exact ⟨x, Function.update_self .., hx⟩
    · obtain ⟨z, hz, hz2⟩ := g.g1 o t ho
      exact ⟨z, by show Function.update s.th tid _ t = _; rw [Function.update_of_ne h]; exact hz, hz2⟩
  · intro t z hz hz2
    by_cases h : t = tid
    · subst h; exact g.g3 t y hy hy2
    · have hz : Function.update s.th tid _ t = some z := hz
      rw [Function.update_of_ne h] at hz
      exact g.g3 t z hz hz2

/-- A caller moves on without touching objects or threads. -/
theorem ginv_caller {s : Sys} (g : GInv s) (c : Nat) (x : Caller) (b : Nat → Option Job) (nb : Nat)
    (h4 : ∀ o, busyOn x = some o → ∀ d, d ≠ c → busyOn (s.caller d) ≠ some o)
    (h5 : ∀ o tid, x = .joining o tid → s.obj o = some tid) (h6 : ∀ o j, x = .checked o j → s.obj o = none) (h7 : ∀ o j p, x = .holds o j p → s.obj o = none) :
    GInv { s with caller := Function.update s.caller c x, blk := b, nblk := nb } := by
  have upd : ∀ d, d ≠ c → Function.update s.caller c x d = s.caller d := fun d hd => Function.update_of_ne hd _ _
  refine ⟨g.g1, g.g2, g.g3, ?_, ?_, ?_, ?_⟩
  · intro d e o h1 h2
    have h1 : busyOn (Function.update s.caller c x d) = some o := h1
    have h2 : busyOn (Function.update s.caller c x e) = some o := h2
    by_cases hd : d = c <;> by_cases he : e = c
    · rw [hd, he]
    · subst hd; rw [Function.update_self] at h1; rw [upd e he] at h2; exact absurd h2 (h4 o h1 e he)
    · subst he; rw [Function.update_self] at h2; rw [upd d hd] at h1; exact absurd h1 (h4 o h2 d hd)
    · rw [upd d hd] at h1; rw [upd e he] at h2; exact g.g4 d e o h1 h2
  · intro d o tid h
    have h : Function.update s.caller c x d = _ := h
    by_cases hd : d = c
    · subst hd; rw [Function.update_self] at h; exact h5 o tid h
    · rw [upd d hd] at h; exact g.g5 d o tid h
  · intro d o j h
    have h : Function.update s.caller c x d = _ := h
    by_cases hd : d = c
    · subst hd; rw [Function.update_self] at h; exact h6 o j h
    · rw [upd d hd] at h; exact g.g6 d o j h
  · intro d o j p h
    have h : Function.update s.caller c x d = _ := h
    by_cases hd : d = c
    · subst hd; rw [Function.update_self] at h; exact h7 o j p h
    · rw [upd d hd] at h; exact g.g7 d o j p h

theorem ginv_step {s s' : Sys} (hi : Inv s) (g : GInv s) {l : Lbl} (hp : Polite s l) (h : step s l = some (.ok s')) : GInv s' := by
  cases l with
  | start c o j sizeOk =>
    simp only [step] at h
    split at h
    · split at h
      · rename_i hc ho
        simp only [Option.some.injEq, Outcome.ok.injEq] at h
        subst h
        refine ginv_caller g c (.checked o j) s.blk s.nblk ?_ (by intro o t h; cases h) ?_ (by intro o j p h; cases h)
        · intro o' ho' d hd
          injection ho' with ho'
          subst ho'
          exact hp d
        · intro o' j' h
          injection h with h
          subst h
          exact ho.1
      · simp at h
    · simp at h
  | alloc c =>
    simp only [step] at h
    split at h
    · rename_i o j hc
      simp only [Option.some.injEq, Outcome.ok.injEq] at h
      subst h
      refine ginv_caller g c (.holds o j s.nblk) _ _ ?_ (by intro o t h; cases h) (by intro o t h; cases h) ?_
      · intro o' ho' d hd hb
        injection ho' with ho'
        subst ho'
        exact hd (g.g4 d c o hb (by rw [hc]; rfl))
      · intro o' j' p h
        injection h with h
        subst h
        exact g.g6 c o j hc
    · simp at h
  | create c ok =>
    simp only [step] at h
    split at h
    · rename_i o j p hc
      split at h
      · simp only [Option.some.injEq, Outcome.ok.injEq] at h
        subst h
        have ho := g.g7 c o j p hc
        have hob : ∀ d, d ≠ c → busyOn (s.caller d) ≠ some o := fun d hd hb => hd (g.g4 d c o hb (by rw [hc]; rfl))
        have hn : s.th s.nth = none := hi.bound _ (Nat.le_refl _)
        have hnew : ∀ o', s.obj o' ≠ some s.nth := fun o' h => by have := hi.objs o' _ h; omega
        have upd : ∀ d, d ≠ c → Function.update s.caller c .idle d = s.caller d := fun d hd => Function.update_of_ne hd _ _
        refine ⟨?_, ?_, ?_, ?_, ?_, ?_, ?_⟩
        · intro o' t h
          have h : Function.update s.obj o _ o' = some t := h
          by_cases hoo : o' = o
          · subst hoo
            rw [Function.update_self] at h
            injection h with h
            subst h
            exact ⟨.fresh p, Function.update_self .., by simp⟩
          · rw [Function.update_of_ne hoo] at h
            obtain ⟨z, hz, hz2⟩ := g.g1 o' t h
            refine ⟨z, ?_, hz2⟩
            show Function.update s.th s.nth _ t = _
            rw [Function.update_of_ne]
            · exact hz
            · rintro rfl; exact hnew o' h
        · intro o1 o2 t h1 h2
          have h1 : Function.update s.obj o _ o1 = some t := h1
          have h2 : Function.update s.obj o _ o2 = some t := h2
          by_cases e1 : o1 = o <;> by_cases e2 : o2 = o
          · rw [e1, e2]
          · subst e1; rw [Function.update_self] at h1; rw [Function.update_of_ne e2] at h2; injection h1 with h1; subst h1; exact absurd h2 (hnew o2)
          · subst e2; rw [Function.update_self] at h2; rw [Function.update_of_ne e1] at h1; injection h2 with h2; subst h2; exact absurd h1 (hnew o1)
          · rw [Function.update_of_ne e1] at h1; rw [Function.update_of_ne e2] at h2; exact g.g2 o1 o2 t h1 h2
        · intro t x hx hx2
          have hx : Function.update s.th s.nth _ t = some x := hx
          by_cases ht : t = s.nth
          · subst ht; exact ⟨o, Function.update_self ..⟩
          · rw [Function.update_of_ne ht] at hx
            obtain ⟨o', h⟩ := g.g3 t x hx hx2
            refine ⟨o', ?_⟩
            show Function.update s.obj o _ o' = _
            rw [Function.update_of_ne]
            · exact h
            · rintro rfl; rw [ho] at h; cases h
        · intro d e o' h1 h2
          have h1 : busyOn (Function.update s.caller c .idle d) = some o' := h1
          have h2 : busyOn (Function.update s.caller c .idle e) = some o' := h2
          by_cases hd : d = c
          · subst hd; rw [Function.update_self] at h1; cases h1
          · by_cases he : e = c
            · subst he; rw [Function.update_self] at h2; cases h2
            · rw [upd d hd] at h1; rw [upd e he] at h2; exact g.g4 d e o' h1 h2
        all_goals
          intro d o'
          by_cases hd : d = c
          · subst hd
            intros
            rename_i h
            simp at h
          · show ∀ _, _
            intros
            rename_i h
            have h0 := h
            simp only [upd d hd] at h0
            have hne : o' ≠ o := by
              rintro rfl
              exact hob d hd (by rw [h0]; rfl)
            simp only [Function.update_of_ne hne]
            first
            | exact g.g5 _ _ _ h0
            | exact g.g6 _ _ _ h0
            | exact g.g7 _ _ _ _ h0
      · simp at h
    · simp at h
  | load tid =>
    simp only [step] at h
    split at h
    · rename_i p ht
      split at h
      · simp only [Option.some.injEq, Outcome.ok.injEq] at h
        subst h
        exact ginv_thread g tid _ _ ht (by simp) (by simp) s.blk s.tr
      · simp at h
    · simp at h
  | free tid =>
    simp only [step] at h
    split at h
    · rename_i p j ht
      split at h
      · simp only [Option.some.injEq, Outcome.ok.injEq] at h
        subst h
        exact ginv_thread g tid _ _ ht (by simp) (by simp) _ s.tr
      · simp at h
    · simp at h
  | begin tid =>
    simp only [step] at h
    split at h
    · rename_i j ht
      simp only [Option.some.injEq, Outcome.ok.injEq] at h
      subst h
      exact ginv_thread g tid _ _ ht (by simp) (by simp) s.blk _
    · simp at h
  | finish tid =>
    simp only [step] at h
    split at h
    · rename_i ht
      simp only [Option.some.injEq, Outcome.ok.injEq] at h
      subst h
      exact ginv_thread g tid _ _ ht (by simp) (by simp) s.blk _
    · simp at h
  | join c o =>
    simp only [step] at h
    split at h
    · split at h
      · rename_i tid ho
        simp only [Option.some.injEq, Outcome.ok.injEq] at h
        subst h
        refine ginv_caller g c (.joining o tid) s.blk s.nblk ?_ ?_ (by intro o t h; cases h) (by intro o j p h; cases h)
        · intro o' ho' d hd
          injection ho' with ho'
          subst ho'
          exact hp d
        · intro o' t h
          injection h with h1 h2
          subst h1 h2
          exact ho
      · simp at h
    · simp at h
  | joinEnd c =>
    simp only [step] at h
    split at h
    · rename_i o tid hc
      split at h
      · rename_i ht
        simp only [Option.some.injEq, Outcome.ok.injEq] at h
        subst h
        have ho := g.g5 c o tid hc
        have hob : ∀ d, d ≠ c → busyOn (s.caller d) ≠ some o := fun d hd hb => hd (g.g4 d c o hb (by rw [hc]; rfl))
        have upd : ∀ d, d ≠ c → Function.update s.caller c .idle d = s.caller d := fun d hd => Function.update_of_ne hd _ _
        refine ⟨?_, ?_, ?_, ?_, ?_, ?_, ?_⟩
        · intro o' t h
          have h : Function.update s.obj o none o' = some t := h
          have hoo : o' ≠ o := by rintro rfl; rw [Function.update_self] at h; cases h
          rw [Function.update_of_ne hoo] at h
          have hk := h
          obtain ⟨z, hz, hz2⟩ := g.g1 o' t hk
          refine ⟨z, ?_, hz2⟩
          show Function.update s.th tid _ t = _
          rw [Function.update_of_ne]
          · exact hz
          · intro e; exact hoo (g.g2 o' o t hk (by rw [e]; exact ho))
        · intro o1 o2 t h1 h2
          have h1 : Function.update s.obj o none o1 = some t := h1
          have h2 : Function.update s.obj o none o2 = some t := h2
          have e1 : o1 ≠ o := by rintro rfl; rw [Function.update_self] at h1; cases h1
          have e2 : o2 ≠ o := by rintro rfl; rw [Function.update_self] at h2; cases h2
          rw [Function.update_of_ne e1] at h1; rw [Function.update_of_ne e2] at h2; exact g.g2 o1 o2 t h1 h2
        · intro t x hx hx2
          have hx : Function.update s.th tid _ t = some x := hx
          have htt : t ≠ tid := by rintro rfl; rw [Function.update_self] at hx; injection hx with hx; exact hx2 hx.symm
          rw [Function.update_of_ne htt] at hx
          obtain ⟨o', h⟩ := g.g3 t x hx hx2
          refine ⟨o', ?_⟩
          show Function.update s.obj o _ o' = _
          rw [Function.update_of_ne]
          · exact h
          · rintro rfl; rw [ho] at h; injection h with h; exact htt h.symm
        · intro d e o' h1 h2
          have h1 : busyOn (Function.update s.caller c .idle d) = some o' := h1
          have h2 : busyOn (Function.update s.caller c .idle e) = some o' := h2
          by_cases hd : d = c
          · subst hd; rw [Function.update_self] at h1; cases h1
          · by_cases he : e = c
            · subst he; rw [Function.update_self] at h2; cases h2
            · rw [upd d hd] at h1; rw [upd e he] at h2; exact g.g4 d e o' h1 h2
        all_goals
          intro d o'
          by_cases hd : d = c
          · subst hd
            intros
            rename_i h
            simp at h
          · show ∀ _, _
            intros
            rename_i h
            have h0 := h
            simp only [upd d hd] at h0
            have hne : o' ≠ o := by
              rintro rfl
              exact hob d hd (by rw [h0]; rfl)
            simp only [Function.update_of_ne hne]
            first
            | exact g.g5 _ _ _ h0
            | exact g.g6 _ _ _ h0
            | exact g.g7 _ _ _ _ h0
      · simp at h
      · simp at h
    · simp at h

theorem ginv_run {ls : List Lbl} {s : Sys} (h : PoliteRun ls s) : GInv s := by
  induction h with
  | init => constructor <;> simp [init, busyOn]
  | step hr hp hs ih => exact ginv_step (inv_run hr.run) ih hp hs

theorem unjoined {s : Sys} (hi : Inv s) (tid : Nat) : (∃ x, s.th tid = some x ∧ x ≠ .joined) ↔ (∃ j, .started tid j ∈ s.tr) ∧ ∀ o, .joined tid o ∉ s.tr := by
  have hl := hi.lifeOk tid
  have m : ∀ e : Ev, e.tid = tid → (e ∈ s.tr ↔ e ∈ life s tid) := fun e he => by simp [life, he]
  have ms : ∀ j, (.started tid j ∈ s.tr ↔ .started tid j ∈ life s tid) := fun j => m _ rfl
  have mj : ∀ o, (.joined tid o ∈ s.tr ↔ .joined tid o ∈ life s tid) := fun o => m _ rfl
  simp only [ms, mj]
  revert hl
  rcases s.th tid with - | (p | ⟨p, j⟩ | j | - | - | -)
  · intro hl; simp [show life s tid = [] from hl]
  · rintro ⟨j, -, hl⟩; simp [hl]
  · rintro ⟨-, hl⟩; simp [hl]
  · intro hl; simp [show life s tid = [.started tid j] from hl]
  · rintro ⟨j, hl⟩; simp [hl]
  · rintro ⟨j, hl⟩; simp [hl]
  · rintro ⟨j, o, hl⟩; simp [hl]

/-- C102 (no thread is lost), partial: if no two calls on the same object are under way at the same time, exactly the threads started and not joined are held by an object, each by one; joining such
an object is well defined (it waits until the task has ended, and then succeeds), and an object that holds no thread can be started again.
Not covered: simultaneous calls on one object, see `C102_race_refuted`, and joining an object that holds no thread, see `C102_unstarted_refuted`. -/
theorem C102_polite_partial {ls : List Lbl} {s : Sys} (h : PoliteRun ls s) :
    (∀ tid, ((∃ j, .started tid j ∈ s.tr) ∧ ∀ o, .joined tid o ∉ s.tr) ↔ ∃ o, s.obj o = some tid ∧ ∀ o', s.obj o' = some tid → o' = o) ∧
      (∀ c o tid, s.caller c = .joining o tid → ((∃ s', step s (.joinEnd c) = some (.ok s')) ↔ .finished tid ∈ s.tr) ∧ step s (.joinEnd c) ≠ some .ub) ∧
      (∀ c o j, s.caller c = .idle → s.obj o = none → ∃ s', step s (.start c o j true) = some (.ok s')) := by
  have hi := inv_run h.run
  have g := ginv_run h
  refine ⟨?_, ?_, ?_⟩
  · intro tid
    rw [← unjoined hi]
    constructor
    · rintro ⟨x, hx, hx2⟩
      obtain ⟨o, ho⟩ := g.g3 tid x hx hx2
      exact ⟨o, ho, fun o' ho' => g.g2 o' o tid ho' ho⟩
    · rintro ⟨o, ho, -⟩
      exact g.g1 o tid ho
  · intro c o tid hc
    obtain ⟨x, hx, hx2⟩ := g.g1 o tid (g.g5 c o tid hc)
    have mf : (.finished tid ∈ s.tr ↔ .finished tid ∈ life s tid) := by simp [life, Ev.tid]
    have hl := hi.lifeOk tid
    rw [hx] at hl
    rw [mf]
    simp only [step, hc, hx]
    cases x
    · obtain ⟨j, -, hl⟩ := hl; simp [hl]
    · obtain ⟨-, hl⟩ := hl; simp [hl]
    · rename_i j; simp [show life s tid = [.started tid j] from hl]
    · obtain ⟨j, hl⟩ := hl; simp [hl]
    · obtain ⟨j, hl⟩ := hl; simp [hl]
    · exact absurd rfl hx2
  · intro c o j hc ho
    simp [step, hc, ho]

/-- A thread that no object holds and nobody is joining will never be joined. -/
theorem lost_step {s s' : Sys} {tid : Nat} (ht : tid < s.nth) (ho : ∀ o, s.obj o ≠ some tid) (hc : ∀ c o, s.caller c ≠ .joining o tid) {l : Lbl} (h : step s l = some (.ok s')) :
    tid < s'.nth ∧ (∀ o, s'.obj o ≠ some tid) ∧ (∀ c o, s'.caller c ≠ .joining o tid) ∧ ∀ o, .joined tid o ∈ s'.tr → .joined tid o ∈ s.tr := by
  have hcu : ∀ c x, (∀ o, x ≠ .joining o tid) → ∀ d o, Function.update s.caller c x d ≠ .joining o tid := by
    intro c x hx d o
    by_cases hd : d = c
    · subst hd; rw [Function.update_self]; exact hx o
    · rw [Function.update_of_ne hd]; exact hc d o
  cases l <;> simp only [step] at h <;> split at h <;> try (simp at h; done)
  · split at h
    · simp only [Option.some.injEq, Outcome.ok.injEq] at h; subst h
      exact ⟨ht, ho, hcu _ _ (by simp), fun o h => h⟩
    · simp at h
  · simp only [Option.some.injEq, Outcome.ok.injEq] at h; subst h
    exact ⟨ht, ho, hcu _ _ (by simp), fun o h => h⟩
  · split at h
    · simp only [Option.some.injEq, Outcome.ok.injEq] at h; subst h
      refine ⟨Nat.lt_succ_of_lt ht, ?_, hcu _ _ (by simp), fun o h => by simpa using h⟩
      intro o'
      rename_i o _ _ _ _
      show Function.update s.obj o _ o' ≠ _
      by_cases hoo : o' = o
      · subst hoo; rw [Function.update_self]; intro h; injection h with h; omega
      · rw [Function.update_of_ne hoo]; exact ho o'
    · simp at h
  · split at h
    · simp only [Option.some.injEq, Outcome.ok.injEq] at h; subst h
      exact ⟨ht, ho, hc, fun o h => h⟩
    · simp at h
  · split at h
    · simp only [Option.some.injEq, Outcome.ok.injEq] at h; subst h
      exact ⟨ht, ho, hc, fun o h => h⟩
    · simp at h
  · simp only [Option.some.injEq, Outcome.ok.injEq] at h; subst h
    exact ⟨ht, ho, hc, fun o h => by simpa using h⟩
  · simp only [Option.some.injEq, Outcome.ok.injEq] at h; subst h
    exact ⟨ht, ho, hc, fun o h => by simpa using h⟩
  · split at h
    · rename_i hob
      simp only [Option.some.injEq, Outcome.ok.injEq] at h; subst h
      refine ⟨ht, ho, hcu _ _ ?_, fun o h => h⟩
      intro o' e
      injection e with _ e
      subst e
      exact ho _ hob
    · simp at h
  · split at h
    · rename_i o t hcc _ _
      simp only [Option.some.injEq, Outcome.ok.injEq] at h; subst h
      refine ⟨ht, ?_, hcu _ _ (by simp), ?_⟩
      · intro o'
        show Function.update s.obj o none o' ≠ _
        by_cases hoo : o' = o
        · subst hoo; rw [Function.update_self]; simp
        · rw [Function.update_of_ne hoo]; exact ho o'
      · intro o' h
        simp only [List.mem_cons, Ev.joined.injEq] at h
        rcases h with ⟨h, -⟩ | h
        · subst h; exact absurd hcc (hc _ _)
        · exact h
    · simp at h
    · simp at h

theorem run_det {ls : List Lbl} {s s' : Sys} (h : Run ls s) (h' : Run ls s') : s = s' := by
  induction h generalizing s' with
  | init => cases h'; rfl
  | step _ hs ih =>
    cases h' with
    | step hr' hs' =>
      have := ih hr'
      subst this
      rw [hs] at hs'
      injection hs' with hs'
      injection hs'

/-- C102 is refuted for two callers that start the same object at the same time: both find it unused, both threads run, and the first can never be joined, whatever happens later. -/
theorem C102_race_refuted : ∃ ls, (∃ s, Run ls s ∧ .started 0 ⟨1, 1⟩ ∈ s.tr ∧ .started 1 ⟨2, 2⟩ ∈ s.tr) ∧ ∀ more s, Run (more ++ ls) s → ∀ o, .joined 0 o ∉ s.tr := by
  refine ⟨[.create 1 true, .create 0 true, .alloc 1, .alloc 0, .start 1 5 ⟨2, 2⟩ true, .start 0 5 ⟨1, 1⟩ true], ⟨_, run_of rfl, by decide, by decide⟩, ?_⟩
  have base : ∃ s, Run [.create 1 true, .create 0 true, .alloc 1, .alloc 0, .start 1 5 ⟨2, 2⟩ true, .start 0 5 ⟨1, 1⟩ true] s ∧ (0 < s.nth ∧ (∀ o, s.obj o ≠ some 0) ∧
      (∀ c o, s.caller c ≠ .joining o 0) ∧ ∀ o, .joined 0 o ∉ s.tr) := by
    refine ⟨_, run_of rfl, by decide, ?_, ?_, by intro o; simp [init]⟩
    · intro o
      by_cases h : o = 5 <;> simp [init, Function.update, h]
    · intro c o
      by_cases h1 : c = 1 <;> by_cases h0 : c = 0 <;> simp [init, Function.update, h1, h0]
  obtain ⟨s0, h0, i0⟩ := base
  intro more
  have key : ∀ s, Run (more ++ [.create 1 true, .create 0 true, .alloc 1, .alloc 0, .start 1 5 ⟨2, 2⟩ true, .start 0 5 ⟨1, 1⟩ true]) s → 0 < s.nth ∧ (∀ o, s.obj o ≠ some 0) ∧
      (∀ c o, s.caller c ≠ .joining o 0) ∧ ∀ o, .joined 0 o ∉ s.tr := by
    induction more with
    | nil => intro s hs; rw [run_det hs h0]; exact i0
    | cons l more ih =>
      intro s hs
      cases hs with
      | step hr hst =>
        obtain ⟨a, b, c, d⟩ := ih _ hr
        obtain ⟨a', b', c', d'⟩ := lost_step a b c hst
        exact ⟨a', b', c', fun o ho => d o (d' o ho)⟩
  intro s hs
  exact (key s hs).2.2.2

/-- C102 is refuted for `join` without a thread: the identifier 0 is given to `pthread_join`, which is undefined. -/
theorem C102_unstarted_refuted (c o : Nat) : step init (.join c o) = some .ub := rfl

/-- The error number in the alarm of a failed `start`: `bool res` (`Threads.cpp:298,307-309`) turns every number other than 0 into 1. -/
def reportedError (err : Nat) : Nat := if err = 0 then 0 else 1

/-- C102 (message) is refuted: whatever number `pthread_create` returns, the message is that of number 1. -/
theorem C102_error_refuted (err : Nat) (h : err ≠ 0) (h1 : err ≠ 1) : reportedError err = 1 ∧ reportedError err ≠ err := by simp [reportedError, h]; omega

end Verif.Threads.Start
