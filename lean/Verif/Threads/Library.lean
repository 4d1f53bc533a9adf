import Verif.Threads.Guarded

/-
Property C176: the variables the library shares between threads -- alarm list, caches, batches, callbacks, flags -- and data races on them when threads call the library
as they like.

Of each function only this is kept: which mutexes it locks and unlocks, and which shared variables it reads and writes in between, along every path through it.  The
mutexes are those of `Verif.Threads.Mutex`; what a data race is, is defined in `Verif.Threads.Guarded`.

Simplifications: callbacks of signals use none of these variables; the report of a blocked mutex (`Threads.cpp:136-169`, see C129) is left out; a container is one variable.
-/

namespace Verif.Threads.Library
open Verif Verif.Threads

/-- Shared variables. -/
inductive Var where
  /-- `alarmsList`, Logger.cpp:49 -/
  | alarms
  /-- `sLogCache`, `sCacheCount`, Logger.cpp:146-147 -/
  | logCache
  | cacheCount
  /-- `mCache`, `mSchema` of a configuration table, Configuration.h:197-206 -/
  | cache (k : Nat)
  | schema (k : Nat)
  /-- `timeOfLastPurge`, Configuration.cpp:919: one variable for all tables -/
  | purgeTime
  /-- `mBatch`, `mReportRunning`, Reporting.h:48,55 -/
  | batch
  | running
  /-- `mListHandlers[s]`, UnixSignal.h:32 -/
  | handlers (s : Nat)
  /-- `gMemStats`, Utils.cpp:70 -/
  | memory
  /-- `gLogToConsole`, `gLogToFile`, Logger.cpp:73-74 -/
  | console
  | file
  /-- `mDebugLevel`, `mWatchLevel` of `gLogGroup`, Logger.h:174-175 -/
  | levels
  /-- `gMutexLogLevel`, Threads.cpp:39 -/
  | mutexLevel
  /-- `gPid`, Logger.cpp:54 -/
  | pid
  deriving DecidableEq

/-- Mutexes: `alarmsLock` (Logger.cpp:48), `sLogCacheLock` (Logger.cpp:145), `mLock` of a configuration table (Configuration.h:199), `mLock` of the reports (Reporting.h:49),
`mLock[s]` (UnixSignal.h:33), `memChkLock` (Utils.cpp:72), `gLogToLock` (Logger.cpp:75). -/
inductive Lk where
  | alarms
  | logCache
  | conf (k : Nat)
  | report
  | sig (s : Nat)
  | memory
  | logTo
  deriving DecidableEq

/-- What a thread does next; `await`: wait for the end of the call on the mutex. -/
inductive Act where
  | lock (l : Lk)
  | unlock (l : Lk)
  | await (l : Lk)
  | use (x : Var) (w : Bool)
  deriving DecidableEq

/-- Code: which branch is taken and how often a loop is run is left open. -/
inductive Code where
  | skip
  | act (a : Act)
  | seq (c d : Code)
  | alt (c d : Code)
  | loop (c : Code)

/-- The paths through code. -/
inductive Path : Code → List Act → Prop where
  | skip : Path .skip []
  | act (a) : Path (.act a) [a]
  | seq {c d p q} : Path c p → Path d q → Path (.seq c d) (p ++ q)
  | left {c d p} : Path c p → Path (.alt c d) p
  | right {c d p} : Path d p → Path (.alt c d) p
  | stop {c} : Path (.loop c) []
  | again {c p q} : Path c p → Path (.loop c) q → Path (.loop c) (p ++ q)

infixr:65 " ⨟ " => Code.seq
def rd (x : Var) : Code := .act (.use x false)
def wr (x : Var) : Code := .act (.use x true)
def maybe (c : Code) : Code := .alt .skip c
/-- Code between lock and unlock, by `ScopedLock` or by hand. -/
def locked (l : Lk) (c : Code) : Code := .act (.lock l) ⨟ c ⨟ .act (.unlock l)

/-! ### The functions -/

/-- The end of `Log::~Log` without alarm, Logger.cpp:219-237. -/
def logOut : Code := rd .console ⨟ rd .file ⨟ maybe (locked .logTo (rd .console ⨟ rd .file))

/-- A statement for the database: an error is logged, sqlite3util.cpp:52-86; the message begins with `gPid`, Logger.h:56-58. -/
def database : Code := maybe (rd .pid ⨟ logOut)

/-- `lookup` with `checkCacheAge`, Configuration.cpp:658-697,916-932. -/
def lookup (k : Nat) : Code :=
  rd .purgeTime ⨟ maybe (wr .purgeTime ⨟ wr (.cache k)) ⨟ rd (.cache k) ⨟ maybe (database ⨟ rd (.schema k) ⨟ wr (.cache k) ⨟ rd (.cache k))

/-- `getStr`, `getNum`, `getBool`, `getFloat`, `getVector`, `getVectorOfStrings`, `defines`: Configuration.cpp:344-354,713-822. -/
def confGet (k : Nat) : Code := locked (.conf k) (lookup k)

/-- `set`, Configuration.cpp:892-914. -/
def confSet (k : Nat) : Code := locked (.conf k) (rd (.schema k) ⨟ database ⨟ maybe (wr (.cache k)))

/-- `remove`, Configuration.cpp:827-838. -/
def confRemove (k : Nat) : Code := locked (.conf k) (rd (.cache k) ⨟ maybe (wr (.cache k)) ⨟ database)

/-- `purge`, Configuration.cpp:935-944. -/
def confPurge (k : Nat) : Code := locked (.conf k) (wr (.cache k))

/-- `isValidValue`, Configuration.cpp:361-364: `mSchema[name]` makes an entry if there is none. -/
def confValidate (k : Nat) : Code := rd (.schema k) ⨟ maybe (wr (.schema k))

/-- `getSimilarKeys`, `isStatic`, `keyDefinedInSchema`, Configuration.cpp:356-359,644-656,701-708. -/
def confSchema (k : Nat) : Code := rd (.schema k)

/-- `addAlarm`, Logger.cpp:198-205; the configuration used by the logger is table 0. -/
def addAlarm : Code := locked .alarms (wr .alarms ⨟ confGet 0 ⨟ .loop (wr .alarms))

/-- `gGetLoggerAlarms`, Logger.cpp:185-195. -/
def getAlarms : Code := locked .alarms (rd .alarms)

/-- `Log::~Log`, Logger.cpp:208-238. -/
def logEnd : Code := maybe addAlarm ⨟ logOut

/-- `lookupLevel2`, Logger.cpp:98-110. -/
def level2 : Code := maybe (rd (.schema 0) ⨟ rd .pid ⨟ logEnd ⨟ confSet 0)

/-- `getLoggingLevel`, Logger.cpp:112-138. -/
def getLevel : Code := maybe (confGet 0 ⨟ maybe (confGet 0)) ⨟ .alt (confGet 0) .skip ⨟ level2

/-- `gGetLoggingLevel`, Logger.cpp:141-178. -/
def gGetLevel : Code :=
  .act (.lock .logCache) ⨟ rd .cacheCount ⨟ maybe (wr .logCache ⨟ wr .cacheCount) ⨟ rd .logCache ⨟ wr .cacheCount ⨟ .act (.unlock .logCache) ⨟
    maybe (getLevel ⨟ locked .logCache (wr .logCache))

/-- `LOG(...)`, Logger.h:56-77. -/
def logMessage : Code := gGetLevel ⨟ maybe (rd .pid ⨟ logEnd)

/-- `gLogInit`, `gLogInitWithFile`, Logger.cpp:266-321. -/
def logInit : Code :=
  maybe (confSet 0) ⨟ maybe (wr .pid) ⨟ maybe (confGet 0) ⨟ rd .file ⨟ maybe (wr .file ⨟ rd .file) ⨟ gGetLevel ⨟ wr .mutexLevel

/-- `LogGroup::setAll`, Logger.cpp:377-410. -/
def setGroups : Code := logMessage ⨟ .loop (confGet 0 ⨟ maybe (confGet 0) ⨟ level2 ⨟ wr .levels)

/-- `gCheckGroupLogLevel`, `gCheckGroupWatchLevel`, Logger.h:185-194. -/
def checkGroup : Code := rd .levels

/-- `ReportingTable::create`, Reporting.cpp:65-82. -/
def create : Code := locked .report (rd .batch ⨟ maybe (wr .batch)) ⨟ database

/-- `ReportingTable::incr`, Reporting.cpp:86-93. -/
def incr : Code := locked .report (wr .batch)

/-- `ReportingTable::commit`, Reporting.cpp:168-206. -/
def commit : Code := locked .report (.loop (rd .batch ⨟ maybe (wr .batch))) ⨟ .loop (database ⨟ maybe logMessage) ⨟ maybe logMessage

/-- `reportingBatchCommitter`, Reporting.cpp:209-218. -/
def committer : Code := wr .running ⨟ rd .running ⨟ .loop (commit ⨟ rd .running)

/-- `reportShutdown`, Reporting.h:96. -/
def shutdown : Code := wr .running

/-- `UnixSignal::Register`, UnixSignal.cpp:130-141. -/
def register (s : Nat) : Code := .alt logMessage (locked (.sig s) (wr (.handlers s)))

/-- `UnixSignal::Handler`, UnixSignal.cpp:100-106. -/
def handle (s : Nat) : Code := locked (.sig s) (.loop (rd (.handlers s)))

/-- `UnixSignal::Dump`, UnixSignal.cpp:143-160: the signals from `s` on. -/
def dump : Nat → Nat → Code
  | 0, _ => .skip
  | n + 1, s => locked (.sig s) (rd (.handlers s) ⨟ .loop (rd (.handlers s))) ⨟ dump n (s + 1)

/-- `memChkNew`, `memChkDel`, Utils.cpp:89-110. -/
def memNew : Code := locked .memory (wr .memory)
def memDel : Code := locked .memory (wr .memory ⨟ maybe (rd .memory ⨟ maybe logMessage))

/-- `MemStats::text`, Utils.cpp:81-87. -/
def memText : Code := rd .memory

/-- What threads may call. -/
inductive Call where
  | confGet (k : Nat)
  | confSet (k : Nat)
  | confRemove (k : Nat)
  | confPurge (k : Nat)
  | confValidate (k : Nat)
  | confSchema (k : Nat)
  | alarm
  | getAlarms
  | logMessage
  | logInit
  | setGroups
  | checkGroup
  | create
  | incr
  | commit
  | committer
  | shutdown
  | register (s : Nat)
  | handle (s : Nat)
  | dump
  | memNew
  | memDel
  | memText

def Call.code : Call → Code
  | .confGet k => Library.confGet k
  | .confSet k => Library.confSet k
  | .confRemove k => Library.confRemove k
  | .confPurge k => Library.confPurge k
  | .confValidate k => Library.confValidate k
  | .confSchema k => Library.confSchema k
  | .alarm => addAlarm
  | .getAlarms => Library.getAlarms
  | .logMessage => Library.logMessage
  | .logInit => Library.logInit
  | .setGroups => Library.setGroups
  | .checkGroup => Library.checkGroup
  | .create => Library.create
  | .incr => Library.incr
  | .commit => Library.commit
  | .committer => Library.committer
  | .shutdown => Library.shutdown
  | .register s => Library.register s
  | .handle s => Library.handle s
  | .dump => Library.dump 64 0
  | .memNew => Library.memNew
  | .memDel => Library.memDel
  | .memText => Library.memText

/-! ### Execution -/

variable {n : Nat}

/-- The mutexes and what has happened, and what each thread has yet to do in its call. -/
structure PSt (n : Nat) where
  g : GState n Lk Empty Var
  todo : Fin n → List Act

/-- The events by which a thread enters `Mutex::lock`: with or without telling the place. -/
def LockEvent (t : Fin n) (e : ML n) : Prop := e = .lock t ∨ ∃ now, e = .lockFile t now ∧ Timeval.Normal now

/-- A mutex makes a step. -/
def GState.move (g : GState n Lk Empty Var) (l : Lk) (s' : MSt n) : GState n Lk Empty Var :=
  { g with mtx := Function.update g.mtx l s', tr := g.tr ++ mtxEvent l (g.mtx l).owner s'.owner }

/-- Steps.  Threads make the calls allowed by `ok`; uses of the variables looked at are recorded. -/
inductive PStep (ok : Call → Prop) (look : Var → Prop) : PSt n → PSt n → Prop where
  | call (s : PSt n) (t c p) : s.todo t = [] → ok c → Path c.code p → PStep ok look s { s with todo := Function.update s.todo t p }
  | lock (s : PSt n) (t l k e s') : s.todo t = .lock l :: k → LockEvent t e → mstep (s.g.mtx l) e = some s' →
      PStep ok look s ⟨GState.move s.g l s', Function.update s.todo t (.await l :: k)⟩
  | unlock (s : PSt n) (t l k s') : s.todo t = .unlock l :: k → mstep (s.g.mtx l) (.unlock t) = some s' →
      PStep ok look s ⟨GState.move s.g l s', Function.update s.todo t (.await l :: k)⟩
  | inner (s : PSt n) (t l e s') : (e = .go t ∨ e = .timeout t) → mstep (s.g.mtx l) e = some s' → PStep ok look s { s with g := GState.move s.g l s' }
  | await (s : PSt n) (t l k) : s.todo t = .await l :: k → (s.g.mtx l).pc t = .idle → PStep ok look s { s with todo := Function.update s.todo t k }
  | use (s : PSt n) (t x w k) : s.todo t = .use x w :: k → look x →
      PStep ok look s ⟨{ s.g with tr := s.g.tr ++ [.use t x w] }, Function.update s.todo t k⟩
  | other (s : PSt n) (t x w k) : s.todo t = .use x w :: k → ¬ look x → PStep ok look s { s with todo := Function.update s.todo t k }

inductive PReach (ok : Call → Prop) (look : Var → Prop) : PSt n → Prop where
  | init : PReach ok look ⟨ginit, fun _ => []⟩
  | step {s s'} : PReach ok look s → PStep ok look s s' → PReach ok look s'

/-- No data race on the variables looked at, for any number of threads. -/
def NoRace (ok : Call → Prop) (look : Var → Prop) : Prop := ∀ (n : Nat) (s : PSt n), PReach ok look s → RaceFree s.g.tr

/-! ### Checking that variables are used under their locks -/

/-- The locks held after a path, if all of the variables looked at are used with their guards held. -/
def walk (look : Var → Prop) [DecidablePred look] (guard : Var → Lk) : List Act → List Lk → Option (List Lk)
  | [], h => some h
  | .lock l :: p, h => walk look guard p (l :: h)
  | .unlock l :: p, h => if l ∈ h then walk look guard p (h.erase l) else none
  | .await _ :: _, _ => none
  | .use x _ :: p, h => if look x → guard x ∈ h then walk look guard p h else none

variable {look : Var → Prop} [DecidablePred look] {guard : Var → Lk}

theorem walk_append : ∀ (p q : List Act) (h : List Lk), walk look guard (p ++ q) h = (walk look guard p h).bind (walk look guard q)
  | [], _, _ => rfl
  | .lock l :: p, q, h => walk_append p q (l :: h)
  | .unlock l :: p, q, h => by
    simp only [List.cons_append, walk]
    split
    · exact walk_append p q _
    · rfl
  | .await _ :: _, _, _ => rfl
  | .use x _ :: p, q, h => by
    simp only [List.cons_append, walk]
    split
    · exact walk_append p q h
    · rfl

/-- Begun with at least the locks `need`, the code ends with the same locks, and uses all variables under their guards. -/
def Fine (look : Var → Prop) [DecidablePred look] (guard : Var → Lk) (need : List Lk) (c : Code) : Prop :=
  ∀ p h, Path c p → (∀ l ∈ need, l ∈ h) → walk look guard p h = some h

theorem fine_skip {need : List Lk} : Fine look guard need .skip := by
  intro p h hp _; cases hp; rfl

theorem fine_use {need : List Lk} {x : Var} {w : Bool} (hx : look x → guard x ∈ need) : Fine look guard need (.act (.use x w)) := by
  intro p h hp hn
  cases hp
  simp only [walk]
  exact if_pos fun hl => hn _ (hx hl)

theorem fine_seq {need : List Lk} {c d : Code} (hc : Fine look guard need c) (hd : Fine look guard need d) : Fine look guard need (c ⨟ d) := by
  intro p h hp hn
  cases hp with
  | seq h1 h2 => rw [walk_append, hc _ h h1 hn]; exact hd _ h h2 hn

theorem fine_alt {need : List Lk} {c d : Code} (hc : Fine look guard need c) (hd : Fine look guard need d) : Fine look guard need (.alt c d) := by
  intro p h hp hn
  cases hp with
  | left h1 => exact hc _ h h1 hn
  | right h1 => exact hd _ h h1 hn

theorem fine_maybe {need : List Lk} {c : Code} (hc : Fine look guard need c) : Fine look guard need (maybe c) := fine_alt fine_skip hc

theorem fine_loop {need : List Lk} {c : Code} (hc : Fine look guard need c) : Fine look guard need (.loop c) := by
  intro p h hp hn
  generalize hd : Code.loop c = d at hp
  induction hp with
  | skip => cases hd
  | act => cases hd
  | seq => cases hd
  | left => cases hd
  | right => cases hd
  | stop => rfl
  | again h1 _ _ ih => cases hd; rw [walk_append, hc _ h h1 hn]; exact ih rfl

theorem fine_lock_then {need : List Lk} {l : Lk} {c d : Code} (hc : Fine look guard (l :: need) c) (hd : Fine look guard need d) :
    Fine look guard need (.act (.lock l) ⨟ c ⨟ .act (.unlock l) ⨟ d) := by
  intro p h hp hn
  cases hp with
  | seq h1 h2 =>
    cases h1
    cases h2 with
    | seq h2 h3 =>
      cases h3 with
      | seq h3 h4 =>
        cases h3
        show walk look guard (_ ++ ([Act.unlock l] ++ _)) (l :: h) = some h
        rw [walk_append, hc _ (l :: h) h2 (by
          intro m hm
          rcases List.mem_cons.1 hm with rfl | hm
          · exact .head _
          · exact .tail _ (hn m hm))]
        simp only [Option.bind_some, List.singleton_append, walk, List.mem_cons, true_or, if_true, List.erase_cons_head]
        exact hd _ h h4 hn

theorem fine_locked {need : List Lk} {l : Lk} {c : Code} (hc : Fine look guard (l :: need) c) : Fine look guard need (locked l c) := by
  intro p h hp hn
  have : Path (.act (.lock l) ⨟ c ⨟ .act (.unlock l) ⨟ .skip) p := by
    cases hp with
    | seq h1 h2 =>
      cases h2 with
      | seq h2 h3 => 
        refine .seq h1 (.seq h2 ?_)
        have := Path.seq h3 .skip
        rwa [List.append_nil] at this
  exact fine_lock_then hc fine_skip p h this hn

theorem fine_mono {need more : List Lk} {c : Code} (hc : Fine look guard need c) (hm : ∀ l ∈ need, l ∈ more) : Fine look guard more c :=
  fun p h hp hn => hc p h hp fun l hl => hn l (hm l hl)

theorem fine_any {more : List Lk} {c : Code} (hc : Fine look guard [] c) : Fine look guard more c := fine_mono hc (fun _ h => nomatch h)

/-! ### Locks counted by the checker are held -/

/-- How often thread `t` has mutex `s`, the lock being taken included. -/
def eff (s : MSt n) (t : Fin n) : Nat := s.held t + (match s.pc t with | .idle => 0 | .unlocking => 0 | _ => 1)

/-- What is to be done after the call on a mutex. -/
def strip : List Act → List Act
  | .await _ :: k => k
  | k => k

/-- One thread. -/
structure TInv (look : Var → Prop) [DecidablePred look] (guard : Var → Lk) (s : PSt n) (t : Fin n) : Prop where
  /-- inside a call on a mutex it waits for its end -/
  busy : ∀ l, (s.g.mtx l).pc t ≠ .idle → ∃ k, s.todo t = .await l :: k
  noTimed : ∀ l ts, (s.g.mtx l).pc t ≠ .timed ts
  /-- the rest of the call is fine -/
  rest : ∃ h h', (∀ l, h.count l = eff (s.g.mtx l) t) ∧ walk look guard (strip (s.todo t)) h = some h'

/-- The thread an event is of. -/
def thr : ML n → Fin n
  | .lock t => t
  | .lockFile t _ => t
  | .trylock t => t
  | .timedlock t _ _ => t
  | .unlock t => t
  | .go t => t
  | .timeout t => t

theorem release_held (s : MSt n) (t : Fin n) : (s.release t).held = s.held ∧ (s.release t).pc = s.pc := by
  unfold MSt.release; split <;> exact ⟨rfl, rfl⟩

theorem frame_step {s s' : MSt n} {e : ML n} (h : mstep s e = some s') {t : Fin n} (ht : t ≠ thr e) : s'.pc t = s.pc t ∧ s'.held t = s.held t := by
  have up : ∀ {α : Type} (f : Fin n → α) (a : α) (u : Fin n), t ≠ u → Function.update f u a t = f t := fun f a u hu => Function.update_of_ne hu a f
  cases e with
  | lock u => simp only [mstep] at h; split at h <;> cases h; exact ⟨up _ _ _ ht, rfl⟩
  | lockFile u now => simp only [mstep] at h; split at h <;> cases h; exact ⟨up _ _ _ ht, rfl⟩
  | timedlock u ms now => simp only [mstep] at h; split at h <;> cases h; exact ⟨up _ _ _ ht, rfl⟩
  | trylock u =>
    simp only [mstep] at h
    split at h
    · split at h <;> cases h
      · exact ⟨up _ _ _ ht, rfl⟩
      · exact ⟨rfl, rfl⟩
    · cases h
  | unlock u => simp only [mstep] at h; split at h <;> cases h; exact ⟨up _ _ _ ht, up _ _ _ ht⟩
  | go u =>
    simp only [mstep] at h
    split at h
    · cases h
    · split at h
      · cases h; exact ⟨up _ _ _ ht, rfl⟩
      · split at h <;> cases h; exact ⟨up _ _ _ ht, rfl⟩
    · split at h <;> cases h; exact ⟨up _ _ _ ht, rfl⟩
    · cases h; exact ⟨up _ _ _ ht, up _ _ _ ht⟩
    · split at h
      · cases h; exact ⟨up _ _ _ ht, up _ _ _ ht⟩
      · split at h <;> cases h; exact ⟨up _ _ _ ht, up _ _ _ ht⟩
    · cases h
      refine ⟨(up _ _ _ ht).trans ?_, ?_⟩
      · rw [(release_held s u).2]
      · show (s.release u).held t = s.held t
        rw [(release_held s u).1]
  | timeout u =>
    simp only [mstep] at h
    split at h
    · split at h <;> cases h; exact ⟨up _ _ _ ht, rfl⟩
    · split at h <;> cases h; exact ⟨up _ _ _ ht, rfl⟩
    · cases h

theorem lock_step {s s' : MSt n} {e : ML n} {t : Fin n} (he : LockEvent t e) (h : mstep s e = some s') :
    eff s' t = eff s t + 1 ∧ ∀ ts, s'.pc t ≠ .timed ts := by
  rcases he with rfl | ⟨now, rfl, _⟩ <;> (simp only [mstep] at h; split at h <;> cases h) <;> rename_i hp
  · simp [eff, MSt.goto, hp]
  · simp [eff, MSt.goto, hp]

theorem unlock_step {s s' : MSt n} {t : Fin n} (h : mstep s (.unlock t) = some s') : eff s' t + 1 = eff s t ∧ ∀ ts, s'.pc t ≠ .timed ts := by
  simp only [mstep] at h
  split at h <;> cases h
  rename_i hp
  simp [eff, hp.1]
  omega

theorem inner_step {s s' : MSt n} {e : ML n} {t : Fin n} (he : e = .go t ∨ e = .timeout t) (h : mstep s e = some s') (hnt : ∀ ts, s.pc t ≠ .timed ts) :
    eff s' t = eff s t ∧ s.pc t ≠ .idle ∧ ∀ ts, s'.pc t ≠ .timed ts := by
  rcases he with rfl | rfl
  · simp only [mstep] at h
    split at h
    · cases h
    · rename_i hp
      split at h
      · cases h; simp [eff, MSt.goto, MSt.take, hp]
      · split at h <;> cases h; simp [eff, MSt.goto, hp]
    · rename_i hp
      split at h <;> cases h; simp [eff, MSt.goto, MSt.take, hp]
    · rename_i hp
      cases h; simp [eff, MSt.success, hp]
    · rename_i ts hp; exact absurd hp (hnt ts)
    · rename_i hp
      cases h
      have := (release_held s t).1
      simp [eff, MSt.goto, hp, this]
  · simp only [mstep] at h
    split at h
    · rename_i hp
      split at h <;> cases h; simp [eff, MSt.goto, hp]
    · rename_i ts hp; exact absurd hp (hnt ts)
    · cases h

/-- A thread is not affected by the steps of others. -/
theorem tinv_frame {s : PSt n} {t : Fin n} (hi : TInv look guard s t) {l : Lk} {m : MSt n} {todo : Fin n → List Act} {g : GState n Lk Empty Var}
    (hg : g.mtx = Function.update s.g.mtx l m) (hpc : m.pc t = (s.g.mtx l).pc t) (hh : m.held t = (s.g.mtx l).held t) (ht : todo t = s.todo t) : TInv look guard ⟨g, todo⟩ t := by
  have e1 : ∀ l', (g.mtx l').pc t = (s.g.mtx l').pc t ∧ (g.mtx l').held t = (s.g.mtx l').held t := by
    intro l'
    rw [hg]
    by_cases hl : l' = l
    · subst hl; rw [Function.update_self]; exact ⟨hpc, hh⟩
    · rw [Function.update_of_ne hl]; exact ⟨rfl, rfl⟩
  refine ⟨fun l' h => ?_, fun l' ts => ?_, ?_⟩
  · obtain ⟨k, hk⟩ := hi.busy l' ((e1 l').1 ▸ h)
    exact ⟨k, ht.trans hk⟩
  · show (g.mtx l').pc t ≠ _
    rw [(e1 l').1]; exact hi.noTimed l' ts
  · obtain ⟨h, h', hc, hw⟩ := hi.rest
    refine ⟨h, h', fun l' => ?_, ?_⟩
    · rw [hc l']; simp only [eff, (e1 l').1, (e1 l').2]
    · show walk look guard (strip (todo t)) h = some h'
      rw [ht]; exact hw

/-- The same if the mutexes are as they were. -/
theorem tinv_same {s : PSt n} {t : Fin n} (hi : TInv look guard s t) {todo : Fin n → List Act} {g : GState n Lk Empty Var} (hg : g.mtx = s.g.mtx) (ht : todo t = s.todo t) :
    TInv look guard ⟨g, todo⟩ t :=
  tinv_frame hi (l := .memory) (m := s.g.mtx .memory) (by rw [Function.update_eq_self]; exact hg) rfl rfl ht

theorem idle_of {s : PSt n} {t : Fin n} (hi : TInv look guard s t) (hn : ∀ l k, s.todo t ≠ .await l :: k) (l : Lk) : (s.g.mtx l).pc t = .idle := by
  by_contra h
  obtain ⟨k, hk⟩ := hi.busy l h
  exact hn l k hk

theorem strip_of_walk {k : List Act} {h h' : List Lk} (hw : walk look guard k h = some h') : strip k = k := by
  cases k with
  | nil => rfl
  | cons a k => cases a <;> first | rfl | (simp [walk] at hw)

theorem lib_reach {ok : Call → Prop} (hok : ∀ c, ok c → Fine look guard [] c.code) {s : PSt n} (hr : PReach ok look s) :
    GReach 0 (fun x => .mutex (guard x)) Valid s.g ∧ ∀ t, TInv look guard s t := by
  induction hr with
  | init =>
    refine ⟨.init, fun t => ⟨fun l h => absurd rfl h, fun l ts h => (nomatch h), [], [], fun l => ?_, rfl⟩⟩
    simp [eff, ginit, minit]
  | @step s _ _ hs ih =>
    obtain ⟨hg, ht⟩ := ih
    cases hs with
    | call t c p h0 hc hp =>
      refine ⟨hg, fun u => ?_⟩
      by_cases hu : u = t
      · subst hu
        have hid := idle_of (ht u) (by rw [h0]; exact fun _ _ h => nomatch h)
        obtain ⟨h, _, hcnt, _⟩ := (ht u).rest
        have hw := hok c hc p h hp (fun _ h => nomatch h)
        refine ⟨fun l hl => absurd (hid l) hl, (ht u).noTimed, h, h, hcnt, ?_⟩
        show walk look guard (strip (Function.update s.todo u p u)) h = some h
        rw [Function.update_self, strip_of_walk hw]; exact hw
      · exact tinv_same (ht u) rfl (Function.update_of_ne hu _ _)
    | lock t l k e s' h0 he hm =>
      refine ⟨hg.step (.mtx _ l e s' ?_ hm), fun u => ?_⟩
      · rcases he with rfl | ⟨now, rfl, hn⟩
        · trivial
        · exact hn
      by_cases hu : u = t
      · subst hu
        have hid := idle_of (ht u) (by rw [h0]; exact fun _ _ h => nomatch h)
        obtain ⟨h, h', hcnt, hw⟩ := (ht u).rest
        obtain ⟨e1, e2⟩ := lock_step he hm
        refine ⟨fun l' hl => ?_, fun l' ts => ?_, l :: h, h', fun l' => ?_, ?_⟩
        · by_cases hll : l' = l
          · subst hll; exact ⟨k, Function.update_self _ _ _⟩
          · refine absurd ?_ hl
            show (Function.update s.g.mtx l s' l').pc u = _
            rw [Function.update_of_ne hll]; exact hid l'
        · show (Function.update s.g.mtx l s' l').pc u ≠ _
          by_cases hll : l' = l
          · subst hll; rw [Function.update_self]; exact e2 ts
          · rw [Function.update_of_ne hll]; exact (ht u).noTimed l' ts
        · show _ = eff (Function.update s.g.mtx l s' l') u
          by_cases hll : l' = l
          · subst hll; rw [Function.update_self, e1, List.count_cons_self, hcnt]
          · rw [Function.update_of_ne hll, List.count_cons_of_ne (Ne.symm hll), hcnt]
        · show walk look guard (strip (Function.update s.todo u (.await l :: k) u)) (l :: h) = some h'
          rw [Function.update_self]
          rw [h0] at hw
          exact hw
      · have hne : u ≠ thr e := by rcases he with rfl | ⟨now, rfl, _⟩ <;> exact hu
        obtain ⟨a, b⟩ := frame_step hm hne
        exact tinv_frame (ht u) rfl a b (Function.update_of_ne hu _ _)
    | unlock t l k s' h0 hm =>
      refine ⟨hg.step (.mtx _ l (.unlock t) s' trivial hm), fun u => ?_⟩
      by_cases hu : u = t
      · subst hu
        have hid := idle_of (ht u) (by rw [h0]; exact fun _ _ h => nomatch h)
        obtain ⟨h, h', hcnt, hw⟩ := (ht u).rest
        obtain ⟨e1, e2⟩ := unlock_step hm
        rw [h0] at hw
        simp only [strip, walk] at hw
        split at hw
        · rename_i hmem
          refine ⟨fun l' hl => ?_, fun l' ts => ?_, h.erase l, h', fun l' => ?_, ?_⟩
          · by_cases hll : l' = l
            · subst hll; exact ⟨k, Function.update_self _ _ _⟩
            · refine absurd ?_ hl
              show (Function.update s.g.mtx l s' l').pc u = _
              rw [Function.update_of_ne hll]; exact hid l'
          · show (Function.update s.g.mtx l s' l').pc u ≠ _
            by_cases hll : l' = l
            · subst hll; rw [Function.update_self]; exact e2 ts
            · rw [Function.update_of_ne hll]; exact (ht u).noTimed l' ts
          · show _ = eff (Function.update s.g.mtx l s' l') u
            by_cases hll : l' = l
            · subst hll
              rw [Function.update_self, List.count_erase_self, hcnt]
              omega
            · rw [Function.update_of_ne hll, List.count_erase_of_ne hll, hcnt]
          · show walk look guard (strip (Function.update s.todo u (.await l :: k) u)) _ = some h'
            rw [Function.update_self]
            exact hw
        · cases hw
      · obtain ⟨a, b⟩ := frame_step hm (t := u) hu
        exact tinv_frame (ht u) rfl a b (Function.update_of_ne hu _ _)
    | inner t l e s' he hm =>
      have hv : Valid e := by rcases he with rfl | rfl <;> trivial
      refine ⟨hg.step (.mtx _ l e s' hv hm), fun u => ?_⟩
      by_cases hu : u = t
      · subst hu
        obtain ⟨e1, e2, e3⟩ := inner_step he hm ((ht u).noTimed l)
        obtain ⟨k, hk⟩ := (ht u).busy l e2
        obtain ⟨h, h', hcnt, hw⟩ := (ht u).rest
        refine ⟨fun l' hl => ?_, fun l' ts => ?_, h, h', fun l' => ?_, hw⟩
        · by_cases hll : l' = l
          · subst hll; exact ⟨k, hk⟩
          · have hl : (Function.update s.g.mtx l s' l').pc u ≠ .idle := hl
            rw [Function.update_of_ne hll] at hl
            exact (ht u).busy l' hl
        · show (Function.update s.g.mtx l s' l').pc u ≠ _
          by_cases hll : l' = l
          · subst hll; rw [Function.update_self]; exact e3 ts
          · rw [Function.update_of_ne hll]; exact (ht u).noTimed l' ts
        · show _ = eff (Function.update s.g.mtx l s' l') u
          by_cases hll : l' = l
          · subst hll; rw [Function.update_self, e1, hcnt]
          · rw [Function.update_of_ne hll, hcnt]
      · have hne : u ≠ thr e := by rcases he with rfl | rfl <;> exact hu
        obtain ⟨a, b⟩ := frame_step hm hne
        exact tinv_frame (ht u) rfl a b rfl
    | await t l k h0 hpc =>
      refine ⟨hg, fun u => ?_⟩
      by_cases hu : u = t
      · subst hu
        obtain ⟨h, h', hcnt, hw⟩ := (ht u).rest
        rw [h0] at hw
        have hw : walk look guard k h = some h' := hw
        refine ⟨fun l' hl => ?_, (ht u).noTimed, h, h', hcnt, ?_⟩
        · obtain ⟨k', hk'⟩ := (ht u).busy l' hl
          rw [h0] at hk'
          cases hk'
          exact absurd hpc hl
        · show walk look guard (strip (Function.update s.todo u k u)) h = some h'
          rw [Function.update_self, strip_of_walk hw]; exact hw
      · exact tinv_same (ht u) rfl (Function.update_of_ne hu _ _)
    | use t x w k h0 hx =>
      have hid := idle_of (ht t) (by rw [h0]; exact fun _ _ h => nomatch h)
      obtain ⟨h, h', hcnt, hw⟩ := (ht t).rest
      rw [h0] at hw
      simp only [strip, walk] at hw
      split at hw
      · rename_i hmem
        have hheld : 0 < (s.g.mtx (guard x)).held t := by
          have h1 := List.count_pos_iff.2 (hmem hx)
          rw [hcnt, eff, hid] at h1
          exact h1
        refine ⟨hg.step (.use _ t x w hheld), fun u => ?_⟩
        by_cases hu : u = t
        · subst hu
          refine ⟨fun l hl => absurd (hid l) hl, (ht u).noTimed, h, h', hcnt, ?_⟩
          show walk look guard (strip (Function.update s.todo u k u)) h = some h'
          rw [Function.update_self, strip_of_walk hw]; exact hw
        · exact tinv_same (ht u) rfl (Function.update_of_ne hu _ _)
      · cases hw
    | other t x w k h0 hx =>
      refine ⟨hg, fun u => ?_⟩
      by_cases hu : u = t
      · subst hu
        have hid := idle_of (ht u) (by rw [h0]; exact fun _ _ h => nomatch h)
        obtain ⟨h, h', hcnt, hw⟩ := (ht u).rest
        rw [h0] at hw
        simp only [strip, walk, hx, false_implies, if_true] at hw
        refine ⟨fun l hl => absurd (hid l) hl, (ht u).noTimed, h, h', hcnt, ?_⟩
        show walk look guard (strip (Function.update s.todo u k u)) h = some h'
        rw [Function.update_self, strip_of_walk hw]; exact hw
      · exact tinv_same (ht u) rfl (Function.update_of_ne hu _ _)

theorem noRace_of_fine {ok : Call → Prop} (hok : ∀ c, ok c → Fine look guard [] c.code) : NoRace ok look :=
  fun _ _ hr => C174_no_race (lib_reach hok hr).1

/-! ### Which variables are guarded -/

/-- The mutex that guards each variable, as far as there is one; `purgeTime` is guarded if table 0 is the only one. -/
def guards : Var → Lk
  | .alarms => .alarms
  | .logCache => .logCache
  | .cacheCount => .logCache
  | .cache k => .conf k
  | .purgeTime => .conf 0
  | .batch => .report
  | .handlers s => .sig s
  | _ => .memory

/-- Variables used without data races whatever is called. -/
def Safe : Var → Prop
  | .alarms => True
  | .logCache => True
  | .cacheCount => True
  | .cache _ => True
  | .batch => True
  | .handlers _ => True
  | _ => False

/-- The tables a call uses. -/
def OneTable : Call → Prop
  | .confGet k => k = 0
  | _ => True

/-- Not `MemStats::text`. -/
def NoText (c : Call) : Prop := c ≠ .memText

/-- What is looked at in the proofs: variables that are safe, and others under conditions. -/
def Look (time mem : Bool) : Var → Prop
  | .purgeTime => time = true
  | .memory => mem = true
  | x => Safe x

instance (time mem : Bool) : DecidablePred (Look time mem) := fun x => by cases x <;> simp only [Look, Safe] <;> infer_instance

section
variable {time mem : Bool} {need : List Lk}

local notation "F" => Fine (Look time mem) guards

theorem fine_free {x : Var} (w : Bool) (h : ¬ Look time mem x) : F need (.act (.use x w)) := fine_use fun hl => absurd hl h

theorem fine_logOut : F need logOut :=
  fine_seq (fine_free _ id) (fine_seq (fine_free _ id) (fine_maybe (fine_locked (fine_seq (fine_free _ id) (fine_free _ id)))))

theorem fine_database : F need database := fine_maybe (fine_seq (fine_free _ id) fine_logOut)

theorem fine_cache {k : Nat} {w : Bool} (h : .conf k ∈ need) : F need (.act (.use (.cache k) w)) := fine_use fun _ => h

theorem fine_purge {k : Nat} {w : Bool} (hk : time = true → k = 0) (h : .conf k ∈ need) : F need (.act (.use .purgeTime w)) :=
  fine_use fun hl => by
    have e := hk hl
    subst e
    exact h

theorem fine_confGet {k : Nat} (hk : time = true → k = 0) : F need (confGet k) := by
  have h : (.conf k : Lk) ∈ Lk.conf k :: need := .head _
  exact fine_locked (fine_seq (fine_purge hk h) (fine_seq (fine_maybe (fine_seq (fine_purge hk h) (fine_cache h))) (fine_seq (fine_cache h)
    (fine_maybe (fine_seq fine_database (fine_seq (fine_free _ id) (fine_seq (fine_cache h) (fine_cache h))))))))

theorem fine_confSet {k : Nat} : F need (confSet k) :=
  fine_locked (fine_seq (fine_free _ id) (fine_seq fine_database (fine_maybe (fine_cache (.head _)))))

theorem fine_addAlarm : F need addAlarm :=
  fine_locked (fine_seq (fine_use fun _ => .head _) (fine_seq (fine_confGet fun _ => rfl) (fine_loop (fine_use fun _ => .head _))))

theorem fine_logEnd : F need logEnd := fine_seq (fine_maybe fine_addAlarm) fine_logOut

theorem fine_level2 : F need level2 := fine_maybe (fine_seq (fine_free _ id) (fine_seq (fine_free _ id) (fine_seq fine_logEnd fine_confSet)))

theorem fine_getLevel : F need getLevel :=
  fine_seq (fine_maybe (fine_seq (fine_confGet fun _ => rfl) (fine_maybe (fine_confGet fun _ => rfl)))) (fine_seq (fine_alt (fine_confGet fun _ => rfl) fine_skip) fine_level2)

/-- Sequences may be read with the brackets elsewhere. -/
theorem fine_assoc {c d e : Code} (h : F need ((c ⨟ d) ⨟ e)) : F need (c ⨟ d ⨟ e) := by
  intro p hd hp hn
  cases hp with
  | seq h1 h2 =>
    cases h2 with
    | seq h2 h3 =>
      have := h _ hd (.seq (.seq h1 h2) h3) hn
      rwa [List.append_assoc] at this

theorem fine_gGetLevel : F need gGetLevel := by
  intro p hd hp hn
  have : Path (.act (.lock .logCache) ⨟ (rd .cacheCount ⨟ maybe (wr .logCache ⨟ wr .cacheCount) ⨟ rd .logCache ⨟ wr .cacheCount) ⨟ .act (.unlock .logCache) ⨟
      maybe (getLevel ⨟ locked .logCache (wr .logCache))) p := by
    cases hp with
    | seq h1 hp => cases hp with
      | seq h2 hp => cases hp with
        | seq h3 hp => cases hp with
          | seq h4 hp => cases hp with
            | seq h5 hp =>
              have := Path.seq h1 (Path.seq (.seq h2 (.seq h3 (.seq h4 h5))) hp)
              simpa only [List.append_assoc] using this
  refine fine_lock_then (c := rd .cacheCount ⨟ maybe (wr .logCache ⨟ wr .cacheCount) ⨟ rd .logCache ⨟ wr .cacheCount) ?_ ?_ p hd this hn
  · have h : (.logCache : Lk) ∈ Lk.logCache :: need := .head _
    exact fine_seq (fine_use fun _ => h) (fine_seq (fine_maybe (fine_seq (fine_use fun _ => h) (fine_use fun _ => h))) (fine_seq (fine_use fun _ => h) (fine_use fun _ => h)))
  · exact fine_maybe (fine_seq fine_getLevel (fine_locked (fine_use fun _ => .head _)))

theorem fine_logMessage : F need logMessage := fine_seq fine_gGetLevel (fine_maybe (fine_seq (fine_free _ id) fine_logEnd))

theorem fine_batch {w : Bool} : F (.report :: need) (.act (.use .batch w)) := fine_use fun _ => .head _

theorem fine_commit : F need commit :=
  fine_seq (fine_locked (fine_loop (fine_seq fine_batch (fine_maybe fine_batch))))
    (fine_seq (fine_loop (fine_seq fine_database (fine_maybe fine_logMessage))) (fine_maybe fine_logMessage))

theorem fine_dump : ∀ n s, F need (dump n s)
  | 0, _ => fine_skip
  | n + 1, s => fine_seq (fine_locked (fine_seq (fine_use fun _ => .head _) (fine_loop (fine_use fun _ => .head _)))) (fine_dump n (s + 1))

theorem fine_call (c : Call) (ht : time = true → OneTable c) (hm : mem = true → NoText c) : F [] c.code := by
  cases c with
  | confGet k => exact fine_confGet ht
  | confSet k => exact fine_confSet
  | confRemove k => exact fine_locked (fine_seq (fine_cache (.head _)) (fine_seq (fine_maybe (fine_cache (.head _))) fine_database))
  | confPurge k => exact fine_locked (fine_cache (.head _))
  | confValidate k => exact fine_seq (fine_free _ id) (fine_maybe (fine_free _ id))
  | confSchema k => exact fine_free _ id
  | alarm => exact fine_addAlarm
  | getAlarms => exact fine_locked (fine_use fun _ => .head _)
  | logMessage => exact fine_logMessage
  | logInit =>
    exact fine_seq (fine_maybe fine_confSet) (fine_seq (fine_maybe (fine_free _ id)) (fine_seq (fine_maybe (fine_confGet fun _ => rfl)) (fine_seq (fine_free _ id)
      (fine_seq (fine_maybe (fine_seq (fine_free _ id) (fine_free _ id))) (fine_seq fine_gGetLevel (fine_free _ id))))))
  | setGroups =>
    exact fine_seq fine_logMessage (fine_loop (fine_seq (fine_confGet fun _ => rfl) (fine_seq (fine_maybe (fine_confGet fun _ => rfl)) (fine_seq fine_level2 (fine_free _ id)))))
  | checkGroup => exact fine_free _ id
  | create => exact fine_seq (fine_locked (fine_seq fine_batch (fine_maybe fine_batch))) fine_database
  | incr => exact fine_locked fine_batch
  | commit => exact fine_commit
  | committer => exact fine_seq (fine_free _ id) (fine_seq (fine_free _ id) (fine_loop (fine_seq fine_commit (fine_free _ id))))
  | shutdown => exact fine_free _ id
  | register s => exact fine_alt fine_logMessage (fine_locked (fine_use fun _ => .head _))
  | handle s => exact fine_locked (fine_loop (fine_use fun _ => .head _))
  | dump => exact fine_dump 64 0
  | memNew => exact fine_locked (fine_use fun _ => .head _)
  | memDel => exact fine_locked (fine_seq (fine_use fun _ => .head _) (fine_maybe (fine_seq (fine_use fun _ => .head _) (fine_maybe fine_logMessage))))
  | memText => exact fine_free _ fun h => hm h rfl

end

/-- **C176.** Threads may make any of the calls, as many and as often as they like: there is no data race on the alarm list, the cache of log levels and its counter, the
caches of the configuration tables, the batch of the reports, and the callbacks of the signals. -/
theorem C176_no_race_partial : NoRace (fun _ => True) Safe := by
  have e : Safe = Look false false := by
    funext x
    cases x <;> simp [Look, Safe]
  rw [e]
  exact noRace_of_fine fun c _ => fine_call c (fun h => nomatch h) (fun h => nomatch h)

/-- **C176.** With one configuration table there is none on the time of the last purge either. -/
theorem C176_one_table_partial : NoRace OneTable (fun x => Safe x ∨ x = .purgeTime) := by
  have e : (fun x => Safe x ∨ x = .purgeTime) = Look true false := by
    funext x
    cases x <;> simp [Look, Safe]
  rw [e]
  exact noRace_of_fine fun c hc => fine_call c (fun _ => hc) (fun h => nomatch h)

/-- **C176.** If nobody prints the memory statistics, there is none on them either. -/
theorem C176_memory_partial : NoRace NoText (fun x => Safe x ∨ x = .memory) := by
  have e : (fun x => Safe x ∨ x = .memory) = Look false true := by
    funext x
    cases x <;> simp [Look, Safe]
  rw [e]
  exact noRace_of_fine fun c hc => fine_call c (fun h => nomatch h) (fun _ => hc)

/-! ### Data races -/

/-- Two uses next to each other by different threads are not ordered. -/
theorem adjacent {I J X : Type} {tr pre : List (GEv 2 I J X)} {x : X} {a b : Bool} (e : tr = pre ++ [.use 0 x a, .use 1 x b]) (h : a = true ∨ b = true) : ¬ RaceFree tr := by
  intro hr
  have e0 : tr[pre.length]? = some (.use 0 x a) := by rw [e]; simp
  have e1 : tr[pre.length + 1]? = some (.use 1 x b) := by rw [e]; simp
  have hlen : tr.length = pre.length + 2 := by rw [e]; simp
  have key : ∀ j k, GHB tr j k → j = pre.length → False := by
    intro j k hb
    induction hb with
    | order h1 h2 h3 h4 =>
      rintro rfl
      have hk := (List.getElem?_eq_some_iff.mp h3).1
      rw [hlen] at hk
      rename_i k _ _
      obtain rfl : k = pre.length + 1 := by omega
      rw [e0] at h2; rw [e1] at h3
      cases h2; cases h3
      exact absurd h4 (show (0 : Fin 2) ≠ 1 by decide)
    | mutex h1 h2 h3 => rintro rfl; rw [e0] at h2; cases h2
    | rw h1 h2 h3 h4 => rintro rfl; rw [e0] at h2; cases h2
    | trans _ _ ih _ => exact ih
  exact key _ _ (hr _ _ 0 1 x a b (by omega) e0 e1 h) rfl

/-- The next step of a thread. -/
def next (look : Var → Prop) [DecidablePred look] (s : PSt 2) (t : Fin 2) : Option (PSt 2) :=
  match s.todo t with
  | [] => none
  | .lock l :: k => (mstep (s.g.mtx l) (.lock t)).map fun s' => ⟨GState.move s.g l s', Function.update s.todo t (.await l :: k)⟩
  | .unlock l :: k => (mstep (s.g.mtx l) (.unlock t)).map fun s' => ⟨GState.move s.g l s', Function.update s.todo t (.await l :: k)⟩
  | .await l :: k =>
    if (s.g.mtx l).pc t = .idle then some { s with todo := Function.update s.todo t k }
    else (mstep (s.g.mtx l) (.go t)).map fun s' => { s with g := GState.move s.g l s' }
  | .use x w :: k =>
    if look x then some ⟨{ s.g with tr := s.g.tr ++ [.use t x w] }, Function.update s.todo t k⟩
    else some { s with todo := Function.update s.todo t k }

omit [DecidablePred look] in
theorem next_step [DecidablePred look] {ok : Call → Prop} {s s' : PSt 2} {t : Fin 2} (h : next look s t = some s') : PStep ok look s s' := by
  unfold next at h
  split at h
  · cases h
  · rename_i l k h0
    obtain ⟨m, h1, rfl⟩ := Option.map_eq_some_iff.1 h
    exact .lock s t l k _ m h0 (.inl rfl) h1
  · rename_i l k h0
    obtain ⟨m, h1, rfl⟩ := Option.map_eq_some_iff.1 h
    exact .unlock s t l k m h0 h1
  · rename_i l k h0
    split at h
    · cases h; exact .await s t l k h0 ‹_›
    · obtain ⟨m, h1, rfl⟩ := Option.map_eq_some_iff.1 h
      exact .inner s t l _ m (.inl rfl) h1
  · rename_i x w k h0
    split at h <;> cases h
    · exact .use s t x w k h0 ‹_›
    · exact .other s t x w k h0 ‹_›

/-- Steps of the threads in the given order. -/
def nexts (look : Var → Prop) [DecidablePred look] (s : PSt 2) : List (Fin 2) → Option (PSt 2)
  | [] => some s
  | t :: ts => (next look s t).bind fun s' => nexts look s' ts

theorem nexts_reach {ok : Call → Prop} : ∀ (ts : List (Fin 2)) {s s' : PSt 2}, PReach ok look s → nexts look s ts = some s' → PReach ok look s'
  | [], _, _, hr, h => by cases h; exact hr
  | _ :: ts, _, _, hr, h => by
    obtain ⟨s1, h1, h2⟩ := Option.bind_eq_some_iff.1 h
    exact nexts_reach ts (hr.step (next_step h1)) h2

/-- Thread 0 begins one call and thread 1 another. -/
def begin2 (p q : List Act) : PSt 2 := ⟨ginit, fun t => if t = 0 then p else q⟩

theorem begin2_reach {ok : Call → Prop} {look : Var → Prop} {a b : Call} {p q : List Act} (ha : ok a) (hb : ok b) (hp : Path a.code p) (hq : Path b.code q) :
    PReach ok look (begin2 p q) := by
  have h1 : PReach ok look (⟨ginit, fun _ => []⟩ : PSt 2) := .init
  have h2 := h1.step (.call _ 0 a p rfl ha hp)
  have h3 := h2.step (.call _ 1 b q (by rfl) hb hq)
  have e : (begin2 p q).todo = Function.update (Function.update (fun _ => []) 0 p) 1 q := by
    funext t
    match t with
    | 0 => rfl
    | 1 => rfl
  have e' : begin2 p q = ⟨ginit, Function.update (Function.update (fun _ => []) 0 p) 1 q⟩ := by rw [← e]; rfl
  rw [e']
  exact h3

/-- Two calls by two threads in which there may be a data race on a variable. -/
def Races (a b : Call) (x : Var) : Prop := ∃ s : PSt 2, PReach (fun c => c = a ∨ c = b) (· = x) s ∧ ¬ RaceFree s.g.tr

theorem races_of {a b : Call} {x : Var} {p q : List Act} (hp : Path a.code p) (hq : Path b.code q) (ts : List (Fin 2)) (pre : List (GEv 2 Lk Empty Var)) (w : Bool)
    (h : (nexts (· = x) (begin2 p q) ts).map (·.g.tr) = some (pre ++ [.use 0 x true, .use 1 x w])) : Races a b x := by
  obtain ⟨s, h1, h2⟩ := Option.map_eq_some_iff.1 h
  exact ⟨s, nexts_reach ts (begin2_reach (.inl rfl) (.inr rfl) hp hq) h1, adjacent h2 (.inl rfl)⟩

/-- A level found in the cache. -/
def cached : List Act := [.lock .logCache, .use .cacheCount false, .use .logCache false, .use .cacheCount true, .unlock .logCache]

theorem path_cached : Path gGetLevel cached :=
  .seq (p := [_]) (.act _) (.seq (p := [_]) (.act _) (.seq (p := []) (.left .skip) (.seq (p := [_]) (.act _) (.seq (p := [_]) (.act _) (.seq (p := [_]) (q := []) (.act _) (.left .skip))))))

/-- A value found in the cache, and not. -/
def found (k : Nat) : List Act := [.lock (.conf k), .use .purgeTime false, .use (.cache k) false, .unlock (.conf k)]

theorem path_found (k : Nat) : Path (confGet k) (found k) :=
  .seq (p := [_]) (.act _) (.seq (p := [_, _]) (q := [_]) (.seq (p := [_]) (.act _) (.seq (p := []) (.left .skip) (.seq (p := [_]) (q := []) (.act _) (.left .skip)))) (.act _))

def aged (k : Nat) : List Act := [.lock (.conf k), .use .purgeTime false, .use .purgeTime true, .use (.cache k) true, .use (.cache k) false, .unlock (.conf k)]

theorem path_aged (k : Nat) : Path (confGet k) (aged k) :=
  .seq (p := [_]) (.act _) (.seq (p := [_, _, _, _]) (q := [_]) (.seq (p := [_]) (.act _) (.seq (p := [_, _]) (.right (.seq (p := [_]) (.act _) (.act _)))
    (.seq (p := [_]) (q := []) (.act _) (.left .skip)))) (.act _))

/-- A message for the log file. -/
theorem path_message : Path logMessage (cached ++ [.use .pid false, .use .console false, .use .file false]) :=
  .seq path_cached (.right (.seq (p := [_]) (.act _) (.seq (p := []) (.left .skip) (.seq (p := [_]) (.act _) (.seq (p := [_]) (q := []) (.act _) (.left .skip))))))

/-- Starting the logger: the number of the process, the file, the level for mutexes. -/
theorem path_init : Path logInit ([.use .pid true, .use .file false, .use .file true, .use .file false] ++ cached ++ [.use .mutexLevel true]) :=
  .seq (p := []) (.left .skip) (.seq (p := [_]) (.right (.act _)) (.seq (p := []) (.left .skip) (.seq (p := [_]) (.act _)
    (.seq (p := [_, _]) (.right (.seq (p := [_]) (.act _) (.act _))) (.seq (p := cached) (q := [_]) path_cached (.act _))))))

theorem path_groups : Path setGroups (cached ++ (found 0 ++ [.use .levels true])) := by
  have h1 : Path logMessage cached := .seq (p := cached) (q := []) path_cached (.left .skip)
  have h2 : Path (confGet 0 ⨟ maybe (confGet 0) ⨟ level2 ⨟ wr .levels) (found 0 ++ [.use .levels true]) :=
    .seq (path_found 0) (.seq (p := []) (.left .skip) (.seq (p := []) (.left .skip) (.act _)))
  exact .seq h1 (by have := Path.again h2 .stop; rwa [List.append_nil] at this)

/-- **C176 refuted** for the other variables: two calls suffice.  The log file, the number of the process and the log level of mutexes, when the logger is started while
another thread logs or starts it, too; the levels of groups, when they are set while another thread asks for one; the flag of the committer of reports, when it is
stopped; the schema of the configuration, when a value of an unknown key is checked; the time of the last purge, when two tables are read; the memory statistics, when
they are printed. -/
theorem C176_races_refuted :
    Races .logInit .logMessage .file ∧ Races .logInit .logMessage .pid ∧ Races .logInit .logInit .mutexLevel ∧ Races .setGroups .checkGroup .levels ∧
    Races .committer .shutdown .running ∧ Races (.confValidate 0) (.confSchema 0) (.schema 0) ∧ Races (.confGet 0) (.confGet 1) .purgeTime ∧ Races .memNew .memText .memory := by
  refine ⟨?_, ?_, ?_, ?_, ?_, ?_, ?_, ?_⟩
  · exact races_of path_init path_message (.replicate 12 1 ++ [0, 0, 0, 1]) [.acq 1 .logCache, .rel 1 .logCache, .use 0 .file false] false (by decide +kernel)
  · exact races_of path_init path_message (.replicate 10 1 ++ [0, 1]) [.acq 1 .logCache, .rel 1 .logCache] false (by decide +kernel)
  · exact races_of path_init path_init (.replicate 14 0 ++ .replicate 14 1 ++ [0, 1]) [.acq 0 .logCache, .rel 0 .logCache, .acq 1 .logCache, .rel 1 .logCache] true (by decide +kernel)
  · exact races_of (b := .checkGroup) path_groups (.act _) (.replicate 19 0 ++ [0, 1]) [.acq 0 .logCache, .rel 0 .logCache, .acq 0 (.conf 0), .rel 0 (.conf 0)] false (by decide +kernel)
  · exact races_of (a := .committer) (b := .shutdown) (.seq (p := [_]) (.act _) (.seq (p := [_]) (.act _) .stop)) (.act _) [0, 1] [] true (by decide +kernel)
  · exact races_of (a := .confValidate 0) (b := .confSchema 0) (.seq (p := [_]) (.act _) (.right (.act _))) (.act _) [0, 0, 1] [.use 0 (.schema 0) false] false (by decide +kernel)
  · exact races_of (a := .confGet 0) (b := .confGet 1) (path_aged 0) (path_found 1) (.replicate 5 0 ++ .replicate 4 1 ++ [0, 1])
      [.acq 0 (.conf 0), .use 0 .purgeTime false, .acq 1 (.conf 1)] false (by decide +kernel)
  · exact races_of (a := .memNew) (b := .memText) (.seq (p := [_]) (.act _) (.seq (p := [_]) (.act _) (.act _))) (.act _) (.replicate 4 0 ++ [0, 1]) [.acq 0 .memory] false (by decide +kernel)

/-- Non-trivial case: thread 0 increments a count and thread 1 another one right afterwards; the release of the lock orders the two. -/
example : ∃ s : PSt 2, PReach (fun _ => True) Safe s ∧ s.g.tr = [.acq 0 .report, .use 0 .batch true, .rel 0 .report, .acq 1 .report, .use 1 .batch true] := by
  have hp : Path Call.incr.code [.lock .report, .use .batch true, .unlock .report] := .seq (p := [_]) (.act _) (.seq (p := [_]) (.act _) (.act _))
  have e : Safe = Look false false := by
    funext x
    cases x <;> simp [Look, Safe]
  rw [e]
  have h : (nexts (Look false false) (begin2 [.lock .report, .use .batch true, .unlock .report] [.lock .report, .use .batch true, .unlock .report])
      (.replicate 8 0 ++ .replicate 5 1)).map (·.g.tr) = some [.acq 0 .report, .use 0 .batch true, .rel 0 .report, .acq 1 .report, .use 1 .batch true] := by decide +kernel
  obtain ⟨s, h1, h2⟩ := Option.map_eq_some_iff.1 h
  exact ⟨s, nexts_reach _ (begin2_reach (a := .incr) (b := .incr) trivial trivial hp hp) h1, h2⟩

end Verif.Threads.Library
