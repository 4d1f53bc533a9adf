import Mathlib.Logic.Function.Basic
import Mathlib.Algebra.BigOperators.Fin
import Mathlib.Algebra.Order.BigOperators.Group.Finset

/-
Property C113: the locks of the logger, the configuration table and the report table (`Logger.cpp`, `Configuration.cpp`, `Reporting.cpp`, `sqlite3util.cpp`) cannot make threads wait for each other for ever.
-/

namespace Verif.Logger.Locks

/-- The mutexes: `sLogCacheLock` (`Logger.cpp:145`), `alarmsLock` (`Logger.cpp:48`), `mLock` of `gConfig` (`Configuration.h:199`), `gLogToLock` (`Logger.cpp:75`), `mLock` of `gReports` (`Reporting.h:49`).
All are recursive (`Threads.cpp:96`). -/
inductive Lock
  | cache | alarms | config | output | batch
deriving DecidableEq, Repr

/-- What a function does with locks; everything else is left out, so all branches are possible and loops run any number of times. -/
inductive Prog
  | skip
  | locked (l : Lock) (body : Prog)
  | seq (a b : Prog)
  | alt (a b : Prog)
  | star (a : Prog)
deriving Repr

/-- An action of a thread. -/
inductive Act
  | acq (l : Lock)
  | rel (l : Lock)
deriving DecidableEq, Repr

/-- The sequences of actions of a program. -/
inductive Runs : Prog → List Act → Prop
  | skip : Runs .skip []
  | locked {l b t} : Runs b t → Runs (.locked l b) (.acq l :: t ++ [.rel l])
  | seq {a b s t} : Runs a s → Runs b t → Runs (.seq a b) (s ++ t)
  | left {a b s} : Runs a s → Runs (.alt a b) s
  | right {a b s} : Runs b s → Runs (.alt a b) s
  | done {a} : Runs (.star a) []
  | again {a s t} : Runs a s → Runs (.star a) t → Runs (.star a) (s ++ t)

/-- An optional part. -/
def opt (p : Prog) : Prog := .alt p .skip

/-- Sequence of programs. -/
def seqs : List Prog → Prog
  | [] => .skip
  | p :: ps => .seq p (seqs ps)

/-- A choice of one of the programs. -/
def alts : List Prog → Prog
  | [] => .skip
  | p :: ps => .alt p (alts ps)

/-! ### The functions -/

/-- The last part of `Log::~Log` (`Logger.cpp:221-237`): console and file, if wanted. -/
def toFiles : Prog := opt (.locked .output .skip)

/-- SQLite calls (`sqlite3util.cpp:60-66, 81-84`): errors are logged with `_LOG(ERR)`, which is above `LOG_CRIT`, so that no alarm is added.
The update hook (`Configuration.cpp:947-951`) is not part of the library; see `C113_hook_refuted`. -/
def sql : Prog := .star toFiles

/-- The functions of `ConfigurationTable` that take the lock: `defines`, `getStr`, `getNum`, `getFloat`, `getVectorOfStrings`, `getVector`, `remove`, `set`, `purge` (`Configuration.cpp:344-354, 713-838, 892-907, 935-944`).
`gLogEarly` is `syslog` only (`Logger.cpp:324-331`); the lock is released when an exception is thrown. -/
def config : Prog := .locked .config sql

/-- Those that do not take it: `find`, `getAllPairs` (`Configuration.cpp:842-890`). -/
def configUnlocked : Prog := sql

/-- `addAlarm` (`Logger.cpp:198-205`): `getNum` with the lock of the alarms held. -/
def addAlarm : Prog := .locked .alarms config

/-- `gGetLoggerAlarms` (`Logger.cpp:185-195`). -/
def getAlarms : Prog := .locked .alarms .skip

/-- `Log::~Log` (`Logger.cpp:208-239`). -/
def record (priority : Nat) : Prog := .seq (if priority ≤ 2 then opt addAlarm else .skip) toFiles

/-- `lookupLevel2` (`Logger.cpp:98-110`): an unknown level is logged as critical and replaced. -/
def lookupLevel2 : Prog := opt (.seq (record 2) config)

/-- `getLoggingLevel` (`Logger.cpp:119-138`). -/
def getLevel : Prog := .seq (opt (.seq config (opt (.seq config (opt lookupLevel2))))) (opt (.seq config lookupLevel2))

/-- `gGetLoggingLevel` (`Logger.cpp:141-178`): the lock of the cache is not held while the level is looked up. -/
def getCachedLevel : Prog := .seq (.locked .cache .skip) (opt (.seq getLevel (.locked .cache .skip)))

/-- The macro `LOG` (`Logger.h:71-77`). -/
def log (priority : Nat) : Prog := .seq getCachedLevel (opt (record priority))

/-- `LogGroup::setAll` (`Logger.cpp:386-410`). -/
def setAll : Prog := .seq (log 7) (.star (.seq config (opt (.seq config (opt lookupLevel2)))))

/-- `gLogInit`, `gLogInitWithFile` (`Logger.cpp:264-321`). -/
def logInit : Prog := seqs [opt config, .star config, .star getCachedLevel, opt (log 6)]

/-- `ReportingTable::incr` (`Reporting.cpp:86-93`). -/
def incr : Prog := .locked .batch .skip

/-- `ReportingTable::create`, `max`, `clear` (`Reporting.cpp:65-131`). -/
def report : Prog := .seq (opt incr) sql

/-- `ReportingTable::commit` (`Reporting.cpp:168-206`). -/
def commit : Prog := seqs [.locked .batch .skip, .star (.seq sql (opt (log 2))), opt (log 6)]

/-- The program of a thread: any calls in any order; messages of each priority, also with `_LOG`. -/
def api : Prog := .star (alts [config, configUnlocked, getAlarms, alts ((List.range 8).map log), alts ((List.range 8).map record), getCachedLevel, setAll, logInit, incr, report, commit])

/-! ### Threads -/

/-- A thread: the locks it holds, the last one first, and what it still does. -/
structure Th where
  held : List Lock := []
  todo : List Act
deriving DecidableEq, Repr

/-- Thread `i` of `n` threads does its next action: it gets a lock if no other thread holds it. -/
def step {n : Nat} (s : Fin n → Th) (i : Fin n) : Option (Fin n → Th) :=
  match (s i).todo with
  | [] => none
  | .acq l :: rest => if ∀ j, j ≠ i → l ∉ (s j).held then some (Function.update s i ⟨l :: (s i).held, rest⟩) else none
  | .rel l :: rest => if (s i).held.head? = some l then some (Function.update s i ⟨(s i).held.tail, rest⟩) else none

/-- An execution: the threads in the order of their actions. -/
def exec {n : Nat} (s : Fin n → Th) : List (Fin n) → Option (Fin n → Th)
  | [] => some s
  | i :: is => (step s i).bind fun t => exec t is

/-! ### Proof -/

/-- The order of the locks. -/
def rank : Lock → Nat
  | .cache => 0
  | .batch => 0
  | .alarms => 1
  | .config => 2
  | .output => 3

/-- The locks are taken in order. -/
def inOrder (held : List Lock) : Prog → Bool
  | .skip => true
  | .locked l b => (held.contains l || held.all (fun h => rank h < rank l)) && inOrder (l :: held) b
  | .seq a b => inOrder held a && inOrder held b
  | .alt a b => inOrder held a && inOrder held b
  | .star a => inOrder held a

/-- The rest of a thread's actions is in order. -/
def Good : List Lock → List Act → Prop
  | held, [] => held = []
  | held, .acq l :: rest => (l ∈ held ∨ ∀ h ∈ held, rank h < rank l) ∧ Good (l :: held) rest
  | held, .rel l :: rest => ∃ held', held = l :: held' ∧ Good held' rest

theorem good_append {p : Prog} {t : List Act} (hr : Runs p t) : ∀ (held : List Lock) (rest : List Act), inOrder held p = true → Good held rest → Good held (t ++ rest) := by
  induction hr with
  | skip => intro held rest _ h; exact h
  | @locked l b t _ ih =>
    intro held rest ho h
    simp only [inOrder, Bool.and_eq_true, Bool.or_eq_true, List.contains_iff_mem, List.all_eq_true, decide_eq_true_eq] at ho
    rw [List.append_assoc, List.cons_append]
    exact ⟨ho.1, ih _ _ ho.2 ⟨held, rfl, h⟩⟩
  | seq _ _ iha ihb =>
    intro held rest ho h
    simp only [inOrder, Bool.and_eq_true] at ho
    rw [List.append_assoc]
    exact iha _ _ ho.1 (ihb _ _ ho.2 h)
  | left _ ih =>
    intro held rest ho h
    simp only [inOrder, Bool.and_eq_true] at ho
    exact ih _ _ ho.1 h
  | right _ ih =>
    intro held rest ho h
    simp only [inOrder, Bool.and_eq_true] at ho
    exact ih _ _ ho.2 h
  | done => intro held rest _ h; exact h
  | again _ _ iha ihb =>
    intro held rest ho h
    rw [List.append_assoc]
    exact iha _ _ ho (ihb _ _ ho h)

theorem good_of_runs {p : Prog} {t : List Act} (ho : inOrder [] p = true) (h : Runs p t) : Good [] t := by
  simpa using good_append h [] [] ho rfl

/-- In every reachable state: all threads in order, no lock held twice. -/
def Inv {n : Nat} (s : Fin n → Th) : Prop :=
  (∀ i, Good (s i).held (s i).todo) ∧ ∀ i j l, i ≠ j → l ∈ (s i).held → l ∉ (s j).held

theorem inv_step {n : Nat} {s t : Fin n → Th} {i : Fin n} (h : Inv s) (hs : step s i = some t) : Inv t := by
  obtain ⟨hg, hx⟩ := h
  have hgi := hg i
  unfold step at hs
  split at hs
  · cases hs
  · rename_i l rest he
    split at hs
    · rename_i hf
      cases hs
      rw [he] at hgi
      refine ⟨fun j => ?_, fun a b m hab hm => ?_⟩
      · by_cases hj : j = i
        · subst hj; simp only [Function.update_self]; exact hgi.2
        · simp only [Function.update_of_ne hj]; exact hg j
      · by_cases ha : a = i
        · subst ha
          have hb : b ≠ a := fun e => hab e.symm
          simp only [Function.update_self, Function.update_of_ne hb] at hm ⊢
          rcases List.mem_cons.1 hm with rfl | hm
          · exact hf b hb
          · exact hx a b m hab hm
        · by_cases hb : b = i
          · subst hb
            simp only [Function.update_self, Function.update_of_ne ha] at hm ⊢
            intro hc
            rcases List.mem_cons.1 hc with rfl | hc
            · exact hf a ha hm
            · exact hx a b m hab hm hc
          · simp only [Function.update_of_ne ha, Function.update_of_ne hb] at hm ⊢
            exact hx a b m hab hm
    · cases hs
  · rename_i l rest he
    split at hs
    · cases hs
      rw [he] at hgi
      obtain ⟨held', hh, hgi⟩ := hgi
      have hsub : ∀ a m, m ∈ (Function.update s i ⟨(s i).held.tail, rest⟩ a).held → m ∈ (s a).held := by
        intro a m hm
        by_cases ha : a = i
        · subst ha
          simp only [Function.update_self] at hm
          exact List.mem_of_mem_tail hm
        · simpa only [Function.update_of_ne ha] using hm
      refine ⟨fun j => ?_, fun a b m hab hm hc => hx a b m hab (hsub _ _ hm) (hsub _ _ hc)⟩
      by_cases hj : j = i
      · subst hj; simp only [Function.update_self, hh, List.tail_cons]; exact hgi
      · simp only [Function.update_of_ne hj]; exact hg j
    · cases hs

theorem inv_exec {n : Nat} {is : List (Fin n)} {s t : Fin n → Th} (h : Inv s) (hs : exec s is = some t) : Inv t := by
  induction is generalizing s with
  | nil => cases hs; exact h
  | cons i is ih =>
    simp only [exec, Option.bind_eq_some_iff] at hs
    obtain ⟨u, h1, h2⟩ := hs
    exact ih (inv_step h h1) h2

theorem rank_le (l : Lock) : rank l ≤ 3 := by cases l <;> decide

/-- A thread that waits for a lock of rank `r`: impossible if nothing can happen. -/
theorem no_wait {n : Nat} {s : Fin n → Th} (h : Inv s) (hn : ∀ i, step s i = none) :
    ∀ (k : Nat) (i : Fin n) (l : Lock) (rest : List Act), (s i).todo = .acq l :: rest → 3 - rank l ≤ k → False := by
  intro k
  induction k with
  | zero =>
    intro i l rest he hk
    have h1 := hn i
    unfold step at h1
    rw [he] at h1
    simp only at h1
    split at h1
    · cases h1
    · rename_i hf
      simp only [not_forall, not_not] at hf
      obtain ⟨j, hj, hl⟩ := hf
      have hg := h.1 j
      have h2 := hn j
      unfold step at h2
      match ht : (s j).todo with
      | [] => rw [ht] at hg; unfold Good at hg; rw [hg] at hl; cases hl
      | .rel m :: r =>
        rw [ht] at hg h2
        obtain ⟨held', hh, -⟩ := hg
        simp [hh] at h2
      | .acq m :: r =>
        rw [ht] at hg h2
        simp only at h2
        rcases hg.1 with hm | hm
        · rw [if_pos fun a ha hma => h.2 j a m (Ne.symm ha) hm hma] at h2
          cases h2
        · have := hm l hl
          have := rank_le m
          omega
  | succ k ih =>
    intro i l rest he hk
    have h1 := hn i
    unfold step at h1
    rw [he] at h1
    simp only at h1
    split at h1
    · cases h1
    · rename_i hf
      simp only [not_forall, not_not] at hf
      obtain ⟨j, hj, hl⟩ := hf
      have hg := h.1 j
      have h2 := hn j
      unfold step at h2
      match ht : (s j).todo with
      | [] => rw [ht] at hg; unfold Good at hg; rw [hg] at hl; cases hl
      | .rel m :: r =>
        rw [ht] at hg h2
        obtain ⟨held', hh, -⟩ := hg
        simp [hh] at h2
      | .acq m :: r =>
        rw [ht] at hg h2
        simp only at h2
        rcases hg.1 with hm | hm
        · rw [if_pos fun a ha hma => h.2 j a m (Ne.symm ha) hm hma] at h2
          cases h2
        · have := hm l hl
          exact ih j m r ht (by omega)

theorem stuck_done {n : Nat} {s : Fin n → Th} (h : Inv s) (hn : ∀ i, step s i = none) (i : Fin n) : (s i).todo = [] ∧ (s i).held = [] := by
  have hg := h.1 i
  match ht : (s i).todo with
  | [] => rw [ht] at hg; exact ⟨rfl, hg⟩
  | .acq l :: r => exact (no_wait h hn 3 i l r ht (by omega)).elim
  | .rel l :: r =>
    rw [ht] at hg
    obtain ⟨held', hh, -⟩ := hg
    have h1 := hn i
    unfold step at h1
    simp [ht, hh] at h1

theorem step_length {n : Nat} {s t : Fin n → Th} {i : Fin n} (hs : step s i = some t) :
    (∑ j, (t j).todo.length) + 1 = ∑ j, (s j).todo.length := by
  have key : ∀ x : Th, x.todo.length + 1 = (s i).todo.length → (∑ j, ((Function.update s i x) j).todo.length) + 1 = ∑ j, (s j).todo.length := by
    intro x hx
    rw [← Finset.add_sum_erase _ _ (Finset.mem_univ i), ← Finset.add_sum_erase Finset.univ (fun j => (s j).todo.length) (Finset.mem_univ i)]
    simp only [Function.update_self]
    rw [Finset.sum_congr rfl (g := fun j => (s j).todo.length) fun j hj => by rw [Function.update_of_ne (Finset.ne_of_mem_erase hj)]]
    omega
  unfold step at hs
  split at hs
  · cases hs
  · rename_i l rest he
    split at hs
    · cases hs; exact key _ (by simp [he])
    · cases hs
  · rename_i l rest he
    split at hs
    · cases hs; exact key _ (by simp [he])
    · cases hs

/-! ### Property -/

/-- **C113.**  Any number of threads that log, read and change the configuration and report, in any order: every execution of their actions is bounded, and one that cannot go on has all threads at their ends without locks.
So no thread waits for ever. -/
theorem C113_no_deadlock (n : Nat) (calls : Fin n → List Act) (hc : ∀ i, Runs api (calls i)) (is : List (Fin n)) (s : Fin n → Th)
    (hs : exec (fun i => { todo := calls i }) is = some s) :
    is.length ≤ ∑ i, (calls i).length ∧ ((∀ i, step s i = none) → ∀ i, (s i).todo = [] ∧ (s i).held = []) := by
  have h0 : Inv (fun i => ({ todo := calls i } : Th)) := ⟨fun i => good_of_runs (by decide +kernel) (hc i), fun i j l _ h => by cases h⟩
  refine ⟨?_, fun hn i => stuck_done (inv_exec h0 hs) hn i⟩
  have key : ∀ (is : List (Fin n)) (s t : Fin n → Th), exec s is = some t → is.length + (∑ j, (t j).todo.length) = ∑ j, (s j).todo.length := by
    intro is
    induction is with
    | nil => intro s t h; cases h; simp
    | cons i is ih =>
      intro s t h
      simp only [exec, Option.bind_eq_some_iff] at h
      obtain ⟨u, h1, h2⟩ := h
      have := ih u t h2
      have := step_length h1
      simp only [List.length_cons]
      omega
  have := key is _ s hs
  simp only at this
  omega

/-- **C113 (refuted for update hooks).**  SQLite calls the update hook inside `set`, with the lock of the configuration held.  A hook that logs a critical message, and a critical message of another thread: both wait for ever. -/
theorem C113_hook_refuted : ∃ (a b : List Act) (s : Fin 2 → Th), Runs (.locked .config (record 2)) a ∧ Runs (record 2) b ∧
    exec ![{ todo := a }, { todo := b }] [0, 1] = some s ∧ (∀ i, step s i = none) ∧ ∀ i, (s i).todo ≠ [] := by
  have hc : Runs config [.acq .config, .rel .config] := Runs.locked .done
  have hr : Runs (record 2) [.acq .alarms, .acq .config, .rel .config, .rel .alarms] :=
    Runs.seq (s := [.acq .alarms, .acq .config, .rel .config, .rel .alarms]) (t := []) (.left (Runs.locked hc)) (.right .skip)
  refine ⟨_, _, ![⟨[.config], [.acq .alarms, .acq .config, .rel .config, .rel .alarms, .rel .config]⟩, ⟨[.alarms], [.acq .config, .rel .config, .rel .alarms]⟩],
    Runs.locked hr, hr, by decide +kernel, by decide +kernel, by decide +kernel⟩

/-- **C113 (refuted for signal handlers).**  A signal handler that logs a notice (as `SelfDetect::Exit`, `SelfDetect.cpp:113`) interrupts a thread that is writing to the log file; another thread reads the configuration and has to log a database error: both wait for ever. -/
theorem C113_signal_refuted : ∃ (a b : List Act) (s : Fin 2 → Th), Runs (.locked .output (log 5)) a ∧ Runs config b ∧
    exec ![{ todo := a }, { todo := b }] [0, 0, 0, 1] = some s ∧ (∀ i, step s i = none) ∧ ∀ i, (s i).todo ≠ [] := by
  have hc : Runs config [.acq .config, .rel .config] := Runs.locked .done
  have he : Runs config [.acq .config, .acq .output, .rel .output, .rel .config] :=
    Runs.locked (Runs.again (s := [.acq .output, .rel .output]) (t := []) (.left (Runs.locked .skip)) .done)
  have hk : Runs (.locked .cache .skip) [.acq .cache, .rel .cache] := Runs.locked .skip
  have hv : Runs getLevel [.acq .config, .rel .config] :=
    Runs.seq (s := []) (t := [.acq .config, .rel .config]) (.right .skip) (.left (Runs.seq (s := [.acq .config, .rel .config]) (t := []) hc (.right .skip)))
  have hl : Runs (log 5) [.acq .cache, .rel .cache, .acq .config, .rel .config, .acq .cache, .rel .cache] :=
    Runs.seq (s := [.acq .cache, .rel .cache, .acq .config, .rel .config, .acq .cache, .rel .cache]) (t := [])
      (Runs.seq (s := [.acq .cache, .rel .cache]) hk (.left (Runs.seq (s := [.acq .config, .rel .config]) hv hk))) (.right .skip)
  exact ⟨_, _, ![⟨[.output], [.acq .config, .rel .config, .acq .cache, .rel .cache, .rel .output]⟩, ⟨[.config], [.acq .output, .rel .output, .rel .config]⟩],
    Runs.locked hl, he, by decide +kernel, by decide +kernel, by decide +kernel⟩

/-- A critical message: the lock of the alarms, within it that of the configuration, then that of the output. -/
example : Runs (record 2) [.acq .alarms, .acq .config, .rel .config, .rel .alarms, .acq .output, .rel .output] :=
  Runs.seq (s := [.acq .alarms, .acq .config, .rel .config, .rel .alarms]) (t := [.acq .output, .rel .output]) (.left (Runs.locked (Runs.locked .done))) (.left (Runs.locked .skip))

/-- The lock of the cache could be kept during the look-up (`Logger.cpp:170`: "Figure out why unlock and lock below fix the config table deadlock"): these locks would still be in order. -/
example : inOrder [] (.locked .cache getLevel) = true := by decide +kernel

/-- Two threads with critical messages: the second one waits, then goes on. -/
example : let m : List Act := [.acq .alarms, .acq .config, .rel .config, .rel .alarms]
    step ![⟨[.alarms], m.tail⟩, { todo := m }] 1 = none ∧ (exec ![⟨[.alarms], m.tail⟩, { todo := m }] [0, 0, 0, 1]).isSome = true := by decide +kernel

end Verif.Logger.Locks
