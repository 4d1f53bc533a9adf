import Verif.Core.Outcome
import Verif.Core.Str
import Mathlib.Data.List.Nodup
import Mathlib.Tactic.Tauto

/-
Property C139: messages from the constructors and destructors of static objects.

The objects with static storage in the files of a program are constructed in the order of each file, the files in an order that the linker chooses, and destroyed in the opposite order.  The comment at
`Logger.cpp:57-60` says that messages logged before the objects of the logger are constructed crash the program, and that `sLoggerInited` prevents it.

The global objects that logging needs: those of `Logger.cpp` (lines 49, 50, 62-64, 75, 76), the configuration table of the program (`extern` at `Logger.cpp:43`), and the two objects inside
`gGetLoggingLevel`, constructed when it is first called (`Logger.cpp:143-144`).  The streams and the variables with constant initial values (`levelNames`, `gLogToFile`, ...) are always there.
Using an object before its constructor or after its destructor is undefined.  A program has one thread here, `exit` is called by returning from `main`, the configuration answers all requests, and
the level of all files is the same.
-/

namespace Verif.Logger.Statics
open Verif

/-- Objects with static storage. -/
inductive Obj
  | alarmsLock
  | alarmsList
  | flag
  | logToLock
  | logGroup
  | config
  | cacheLock
  | cache
  | user (n : Nat)
deriving DecidableEq, Repr

/-- What constructors, destructors and `main` do with the logger. -/
inductive Act
  /-- `gLogEarly(LOG_INFO,...)` -/
  | early (m : Str)
  /-- `_LOG(p)` -/
  | forced (p : Nat) (m : Str)
  /-- `LOG(p)` -/
  | log (p : Nat) (m : Str)
  /-- `gLogInit`; `file` says whether it opens a log file. -/
  | logInit (file : Bool)
  /-- `gGetLoggerAlarms` -/
  | alarms
deriving DecidableEq, Repr

/-- A definition of a static object: what its constructor and its destructor do. -/
structure Def where
  obj : Obj
  ctor : List Act
  dtor : List Act
deriving DecidableEq, Repr

/-- `alive`: objects whose constructor has begun its body and whose destructor has not ended; `gone`: destroyed ones; `stack`: those to destroy, the last first. -/
structure St where
  alive : List Obj
  gone : List Obj
  stack : List Def
  inited : Bool
  toFile : Bool
  syslog : List (Nat × Str)
  stderr : List Str
  alarmed : List Str
deriving DecidableEq, Repr

/-- Before the first constructor. -/
def start : St := ⟨[], [], [], false, false, [], [], []⟩

/-- Using global objects. -/
def need (os : List Obj) (s : St) : Outcome Unit := if ∀ o ∈ os, o ∈ s.alive then .ok () else .ub

/-- Reaching the definition of a static object inside a function. -/
def firstUse (o : Obj) (s : St) : Outcome St :=
  if o ∈ s.alive then .ok s
  else if o ∈ s.gone then .ub
  else .ok { s with alive := o :: s.alive, stack := ⟨o, [], []⟩ :: s.stack }

/-- The settings "Log.Level" and "Log.Alarms.Max". -/
structure Env where
  level : Nat
  maxAlarms : Nat

/-- `addAlarm` (`Logger.cpp:198-205`). -/
def addAlarm (env : Env) (m : Str) (s : St) : Outcome St :=
  (need [.alarmsLock, .alarmsList, .config] s).bind fun _ => .ok { s with alarmed := (s.alarmed ++ [m]).drop (s.alarmed.length + 1 - env.maxAlarms) }

/-- `Log::~Log` (`Logger.cpp:208-239`, without the console and what is written to the file, for which see C108). -/
def write (env : Env) (p : Nat) (m : Str) (s : St) : Outcome St :=
  (if p ≤ 2 then (if s.inited then addAlarm env m s else .ok s).bind fun s => .ok { s with stderr := s.stderr ++ [m] } else .ok s).bind fun s =>
  let s := { s with syslog := s.syslog ++ [(p, m)] }
  if s.toFile then (need [.logToLock] s).bind fun _ => .ok s else .ok s

/-- `gGetLoggingLevel` (`Logger.cpp:138-176`). -/
def getLevel (s : St) : Outcome St :=
  (firstUse .cacheLock s).bind fun s => (firstUse .cache s).bind fun s => (need [.config] s).bind fun _ => .ok s

/-- One use of the logger: `gLogEarly` (`Logger.cpp:322-329`), `_LOG` and `LOG` (`Logger.h:53-55,69-75`), `gLogInit` without a level (`Logger.cpp:292-319`), `gGetLoggerAlarms` (`Logger.cpp:183-195`). -/
def act (env : Env) : Act → St → Outcome St
  | .early m, s => .ok { s with syslog := s.syslog ++ [(6, m)] }
  | .forced p m, s => write env p m s
  | .log p m, s => (getLevel s).bind fun s => if p ≤ env.level then write env p m s else .ok s
  | .logInit f, s => (need [.config] s).bind fun _ => getLevel { s with toFile := s.toFile || f }
  | .alarms, s => (need [.alarmsLock, .alarmsList] s).bind fun _ => .ok s

/-- A sequence of uses. -/
def actAll (env : Env) : List Act → St → Outcome St
  | [], s => .ok s
  | a :: as, s => (act env a s).bind (actAll env as)

/-- Constructing an object; `sCheckloggerInitStatus` sets the flag (`Logger.cpp:61-64`). -/
def construct (env : Env) (d : Def) (s : St) : Outcome St :=
  (actAll env d.ctor { s with alive := d.obj :: s.alive, inited := s.inited || decide (d.obj = .flag) }).bind fun s => .ok { s with stack := d :: s.stack }

/-- All constructors. -/
def constructAll (env : Env) : List Def → St → Outcome St
  | [], s => .ok s
  | d :: ds, s => (construct env d s).bind (constructAll env ds)

/-- The end of the program, with at most `k` objects to destroy. -/
def finish (env : Env) : Nat → St → Outcome St
  | 0, s => if s.stack = [] then .ok s else .diverge
  | k + 1, s => match s.stack with
    | [] => .ok s
    | d :: ds => (actAll env d.dtor { s with stack := ds }).bind fun s => finish env k { s with alive := s.alive.filter (· ≠ d.obj), gone := d.obj :: s.gone }

/-- A program: its static objects in the order of construction, and `main`. -/
structure Program where
  defs : List Def
  main : List Act

/-- A complete execution; destructors can still bring the two objects of `gGetLoggingLevel` into being. -/
def run (env : Env) (P : Program) : Outcome St :=
  (constructAll env P.defs start).bind fun s => (actAll env P.main s).bind fun s => finish env (s.stack.length + 2) s

/-- The objects of `Logger.cpp`, in order (`Logger.cpp:49,50,62-64,75,76`). -/
def loggerUnit : List Def := [⟨.alarmsLock, [], []⟩, ⟨.alarmsList, [], []⟩, ⟨.flag, [], []⟩, ⟨.logToLock, [], []⟩, ⟨.logGroup, [], []⟩]

/-- The configuration table; its constructor logs that it opens the file, and the parameters that differ from the defaults (`Configuration.cpp:96-211`). -/
def configDef (m1 m2 : Str) (ms : List (Nat × Str)) : Def := ⟨.config, .early m1 :: .log 6 m2 :: ms.map (fun x => .log x.1 x.2), []⟩

/-! ### Specification -/

/-- The objects of the program: those of the logger as one unit somewhere, the configuration table once, and others. -/
structure WellFormed (P : Program) : Prop where
  unit : loggerUnit <:+: P.defs
  config : ∃ m1 m2 ms, configDef m1 m2 ms ∈ P.defs
  once : (P.defs.map Def.obj).Nodup
  statics : Obj.cacheLock ∉ P.defs.map Def.obj ∧ Obj.cache ∉ P.defs.map Def.obj

/-- What a constructor may do once the objects `os` exist (its own included). -/
def Allowed (os : List Obj) : Act → Prop
  | .early _ => True
  | .forced p _ => p ≤ 2 → Obj.flag ∈ os → Obj.config ∈ os
  | .log _ _ => Obj.config ∈ os
  | .logInit f => Obj.config ∈ os ∧ (f = true → Obj.logToLock ∈ os)
  | .alarms => Obj.alarmsList ∈ os

/-- What a destructor may do if the objects `os` were constructed before its object. -/
def AllowedAtEnd (os : List Obj) : Act → Prop
  | .early _ => True
  | .forced p _ => Obj.logToLock ∈ os ∧ (p ≤ 2 → Obj.config ∈ os)
  | .log _ _ => Obj.logToLock ∈ os ∧ Obj.config ∈ os
  | .logInit _ => Obj.config ∈ os
  | .alarms => Obj.alarmsList ∈ os

/-- Every constructor and destructor keeps to the rules. -/
def Rules (P : Program) : Prop := ∀ A d B, P.defs = A ++ d :: B →
  (∀ a ∈ d.ctor, Allowed ((A.map Def.obj) ++ [d.obj]) a) ∧ ∀ a ∈ d.dtor, AllowedAtEnd (A.map Def.obj) a

/-- The message of a use, if it is to be logged. -/
def message (env : Env) : Act → Option (Nat × Str)
  | .early m => some (6, m)
  | .forced p m => some (p, m)
  | .log p m => if p ≤ env.level then some (p, m) else none
  | _ => none

/-- The alarm of a use: a message with CRIT or a more severe level through `LOG` or `_LOG`. -/
def alarm (env : Env) : Act → Option Str
  | .forced p m => if p ≤ 2 then some m else none
  | .log p m => if p ≤ 2 ∧ p ≤ env.level then some m else none
  | _ => none

/-- Everything the program does, in order. -/
def Program.uses (P : Program) : List Act := P.defs.flatMap Def.ctor ++ P.main ++ P.defs.reverse.flatMap Def.dtor

/-! ### Lemmas -/

/-- What a successful use of the logger does. -/
structure Acted (env : Env) (ms : List (Nat × Str)) (ns : List Str) (s s' : St) : Prop where
  syslog : s'.syslog = s.syslog ++ ms
  stderr : s'.stderr = s.stderr ++ ns
  gone : s'.gone = s.gone
  inited : s'.inited = s.inited
  alive : ∀ o ∈ s'.alive, o ∈ s.alive ∨ o = .cacheLock ∨ o = .cache
  more : ∀ o ∈ s'.alive, o ∈ s.alive ∨ o ∈ s'.stack.map Def.obj
  stack : ∃ t, s'.stack = t ++ s.stack ∧ ∀ d ∈ t, d.dtor = [] ∧ (d.obj = .cacheLock ∨ d.obj = .cache)

theorem Acted.refl (env : Env) (s : St) : Acted env [] [] s s := ⟨by simp, by simp, rfl, rfl, fun _ h => .inl h, fun _ h => .inl h, [], by simp⟩

theorem Acted.trans {env : Env} {m1 m2 : List (Nat × Str)} {n1 n2 : List Str} {s s1 s2 : St} (h : Acted env m1 n1 s s1) (h' : Acted env m2 n2 s1 s2) : Acted env (m1 ++ m2) (n1 ++ n2) s s2 := by
  obtain ⟨t, e, f⟩ := h.stack
  obtain ⟨t', e', f'⟩ := h'.stack
  refine ⟨by rw [h'.syslog, h.syslog, List.append_assoc], by rw [h'.stderr, h.stderr, List.append_assoc], h'.gone.trans h.gone, h'.inited.trans h.inited, ?_, ?_, t' ++ t, by rw [e', e, List.append_assoc], ?_⟩
  · intro o ho
    rcases h'.alive o ho with ho | ho
    · exact h.alive o ho
    · exact .inr ho
  · intro o ho
    rcases h'.more o ho with ho | ho
    · rcases h.more o ho with ho | ho
      · exact .inl ho
      · exact .inr (by rw [e', List.map_append]; exact List.mem_append_right _ ho)
    · exact .inr ho
  intro d hd
  rcases List.mem_append.1 hd with hd | hd
  · exact f' d hd
  · exact f d hd

theorem bind_ok_inv {α β : Type} {x : Outcome α} {f : α → Outcome β} {b : β} (h : x.bind f = .ok b) : ∃ a, x = .ok a ∧ f a = .ok b := by
  cases x <;> simp_all [Outcome.bind]

theorem need_ok {os : List Obj} {s : St} {u : Unit} (h : need os s = .ok u) : ∀ o ∈ os, o ∈ s.alive := by
  unfold need at h
  split at h
  · assumption
  · cases h

theorem firstUse_acted {env : Env} {o : Obj} {s s' : St} (ho : o = .cacheLock ∨ o = .cache) (h : firstUse o s = .ok s') : Acted env [] [] s s' := by
  unfold firstUse at h
  split at h
  · cases h; exact .refl _ _
  · split at h
    · cases h
    · cases h
      refine ⟨by simp, by simp, rfl, rfl, ?_, ?_, [⟨o, [], []⟩], rfl, by simpa using ho⟩
      · intro x hx
        rcases List.mem_cons.1 hx with rfl | hx
        · exact .inr ho
        · exact .inl hx
      · intro x hx
        rcases List.mem_cons.1 hx with rfl | hx
        · exact .inr (by simp)
        · exact .inl hx

theorem getLevel_acted {env : Env} {s s' : St} (h : getLevel s = .ok s') : Acted env [] [] s s' := by
  unfold getLevel at h
  obtain ⟨a, h1, h⟩ := bind_ok_inv h
  obtain ⟨b, h2, h⟩ := bind_ok_inv h
  obtain ⟨c, h3, h⟩ := bind_ok_inv h
  cases h
  exact (firstUse_acted (.inl rfl) h1).trans (firstUse_acted (.inr rfl) h2)

theorem write_acted {env : Env} {p : Nat} {m : Str} {s s' : St} (h : write env p m s = .ok s') : Acted env [(p, m)] (if p ≤ 2 then [m] else []) s s' ∧ s'.alive = s.alive ∧ s'.stack = s.stack := by
  unfold write at h
  obtain ⟨a, h1, h⟩ := bind_ok_inv h
  have ha : a.stderr = s.stderr ++ (if p ≤ 2 then [m] else []) ∧ a.syslog = s.syslog ∧ a.gone = s.gone ∧ a.inited = s.inited ∧ a.stack = s.stack ∧ a.alive = s.alive := by
    split at h1
    · rename_i hp
      obtain ⟨b, h2, h1⟩ := bind_ok_inv h1
      cases h1
      split at h2
      · unfold addAlarm at h2
        obtain ⟨_, -, h2⟩ := bind_ok_inv h2
        cases h2
        exact ⟨by simp [hp], rfl, rfl, rfl, rfl, rfl⟩
      · cases h2
        exact ⟨by simp [hp], rfl, rfl, rfl, rfl, rfl⟩
    · rename_i hp
      cases h1
      exact ⟨by simp [hp], rfl, rfl, rfl, rfl, rfl⟩
  obtain ⟨e0, e1, e2, e3, e4, e5⟩ := ha
  simp only at h
  split at h
  · obtain ⟨_, -, h⟩ := bind_ok_inv h
    cases h
    exact ⟨⟨by simp [e1], e0, e2, e3, fun o h => .inl (e5 ▸ h), fun o h => .inl (e5 ▸ h), [], by simp [e4], by simp⟩, e5, e4⟩
  · cases h
    exact ⟨⟨by simp [e1], e0, e2, e3, fun o h => .inl (e5 ▸ h), fun o h => .inl (e5 ▸ h), [], by simp [e4], by simp⟩, e5, e4⟩

theorem act_acted {env : Env} {a : Act} {s s' : St} (h : act env a s = .ok s') : Acted env (message env a).toList (alarm env a).toList s s' := by
  cases a with
  | early m => cases h; exact ⟨rfl, by simp [alarm], rfl, rfl, fun _ h => .inl h, fun _ h => .inl h, [], rfl, by simp⟩
  | forced p m =>
    have := (write_acted h).1
    by_cases hp : p ≤ 2 <;> simpa [message, alarm, hp] using this
  | log p m =>
    obtain ⟨b, h1, h⟩ := bind_ok_inv h
    have := getLevel_acted (env := env) h1
    unfold message
    split at h
    · rename_i hp
      have := this.trans (write_acted h).1
      by_cases h2 : p ≤ 2 <;> simpa [alarm, hp, h2] using this
    · rename_i hp
      cases h
      simpa [alarm, hp] using this
  | logInit f =>
    obtain ⟨_, -, h⟩ := bind_ok_inv h
    have := getLevel_acted (env := env) h
    exact ⟨this.syslog, this.stderr, this.gone, this.inited, this.alive, this.more, this.stack⟩
  | alarms =>
    obtain ⟨_, -, h⟩ := bind_ok_inv h
    cases h
    exact .refl _ _

theorem actAll_acted {env : Env} : ∀ {as : List Act} {s s' : St}, actAll env as s = .ok s' → Acted env (as.filterMap (message env)) (as.filterMap (alarm env)) s s'
  | [], s, s', h => by cases h; exact .refl _ _
  | a :: as, s, s', h => by
    obtain ⟨b, h1, h⟩ := bind_ok_inv h
    have := (act_acted h1).trans (actAll_acted h)
    rw [List.filterMap_cons, List.filterMap_cons]
    cases e : message env a <;> cases e' : alarm env a <;> simpa [e, e'] using this

/-- The destructors still to run. -/
def pending (st : List Def) : List Act := st.flatMap Def.dtor

theorem pending_append (t st : List Def) (h : ∀ d ∈ t, d.dtor = []) : pending (t ++ st) = pending st := by
  unfold pending
  rw [List.flatMap_append, List.flatMap_eq_nil_iff.2 h, List.nil_append]

theorem constructAll_log {env : Env} : ∀ {ds : List Def} {s s' : St}, constructAll env ds s = .ok s' →
    s'.syslog = s.syslog ++ (ds.flatMap Def.ctor).filterMap (message env) ∧ s'.stderr = s.stderr ++ (ds.flatMap Def.ctor).filterMap (alarm env) ∧ pending s'.stack = ds.reverse.flatMap Def.dtor ++ pending s.stack
  | [], s, s', h => by cases h; simp
  | d :: ds, s, s', h => by
    obtain ⟨b, h1, h⟩ := bind_ok_inv h
    obtain ⟨c, h2, h1⟩ := bind_ok_inv h1
    cases h1
    have k := actAll_acted h2
    obtain ⟨i1, i0, i2⟩ := constructAll_log h
    obtain ⟨t, e, f⟩ := k.stack
    refine ⟨?_, ?_, ?_⟩
    · rw [i1]
      simp only [k.syslog, List.flatMap_cons, List.filterMap_append, List.append_assoc]
    · rw [i0]
      simp only [k.stderr, List.flatMap_cons, List.filterMap_append, List.append_assoc]
    · rw [i2]
      simp only [e]
      have : pending (d :: (t ++ s.stack)) = d.dtor ++ pending s.stack := by
        rw [← pending_append t s.stack fun d hd => (f d hd).1]
        rfl
      rw [this]
      simp

theorem finish_log {env : Env} : ∀ {k : Nat} {s s' : St}, finish env k s = .ok s' → s'.syslog = s.syslog ++ (pending s.stack).filterMap (message env) ∧ s'.stderr = s.stderr ++ (pending s.stack).filterMap (alarm env) ∧ s'.stack = []
  | 0, s, s', h => by
    unfold finish at h
    split at h
    · rename_i hs
      cases h
      simp [hs, pending]
    · cases h
  | k + 1, s, s', h => by
    unfold finish at h
    split at h
    · rename_i hs
      cases h
      simp [hs, pending]
    · rename_i d ds hs
      obtain ⟨b, h1, h⟩ := bind_ok_inv h
      have k1 := actAll_acted h1
      obtain ⟨i1, i0, i2⟩ := finish_log h
      obtain ⟨t, e, f⟩ := k1.stack
      refine ⟨?_, ?_, i2⟩
      · rw [i1]
        simp only [k1.syslog, e]
        rw [pending_append t ds fun d hd => (f d hd).1, hs]
        simp [pending]
      · rw [i0]
        simp only [k1.stderr, e]
        rw [pending_append t ds fun d hd => (f d hd).1, hs]
        simp [pending]

/-- C139 (messages): whenever the program ends properly, every message of a constructor, of `main` or of a destructor is in the system log, once and in the order of the program, except those that the level
suppresses; and those with CRIT or a more severe level are on the standard error output too. -/
theorem C139_messages (env : Env) (P : Program) (s : St) (h : run env P = .ok s) : s.syslog = P.uses.filterMap (message env) ∧ s.stderr = P.uses.filterMap (alarm env) := by
  unfold run at h
  obtain ⟨a, h1, h⟩ := bind_ok_inv h
  obtain ⟨b, h2, h⟩ := bind_ok_inv h
  obtain ⟨i1, i0, i2⟩ := constructAll_log h1
  have k := actAll_acted h2
  obtain ⟨t, e, f⟩ := k.stack
  obtain ⟨j1, j0, -⟩ := finish_log h
  refine ⟨?_, ?_⟩
  · rw [j1, k.syslog, i1, e, pending_append t _ fun d hd => (f d hd).1, i2]
    simp [Program.uses, start, pending]
  · rw [j0, k.stderr, i0, e, pending_append t _ fun d hd => (f d hd).1, i2]
    simp [Program.uses, start, pending]

/-! ### Safety -/

/-- The stack of objects to destroy is in order. -/
def Stk : List Def → Prop
  | [] => True
  | d :: V => Stk V ∧ (∀ a ∈ d.dtor, AllowedAtEnd (V.map Def.obj) a) ∧ d.obj ∉ V.map Def.obj ∧
      (d.obj = .config → Obj.cacheLock ∈ V.map Def.obj ∧ Obj.cache ∈ V.map Def.obj) ∧
      (d.obj = .logToLock → Obj.alarmsLock ∈ V.map Def.obj ∧ Obj.alarmsList ∈ V.map Def.obj) ∧ (d.obj = .alarmsList → Obj.alarmsLock ∈ V.map Def.obj)

theorem Stk.config : ∀ {V : List Def}, Stk V → Obj.config ∈ V.map Def.obj → Obj.cacheLock ∈ V.map Def.obj ∧ Obj.cache ∈ V.map Def.obj
  | d :: V, h, hc => by
    simp only [List.map_cons, List.mem_cons] at hc ⊢
    rcases hc with hc | hc
    · exact ⟨.inr (h.2.2.2.1 hc.symm).1, .inr (h.2.2.2.1 hc.symm).2⟩
    · exact ⟨.inr (Stk.config h.1 hc).1, .inr (Stk.config h.1 hc).2⟩

theorem Stk.logToLock : ∀ {V : List Def}, Stk V → Obj.logToLock ∈ V.map Def.obj → Obj.alarmsLock ∈ V.map Def.obj ∧ Obj.alarmsList ∈ V.map Def.obj
  | d :: V, h, hc => by
    simp only [List.map_cons, List.mem_cons] at hc ⊢
    rcases hc with hc | hc
    · exact ⟨.inr (h.2.2.2.2.1 hc.symm).1, .inr (h.2.2.2.2.1 hc.symm).2⟩
    · exact ⟨.inr (Stk.logToLock h.1 hc).1, .inr (Stk.logToLock h.1 hc).2⟩

theorem Stk.alarmsList : ∀ {V : List Def}, Stk V → Obj.alarmsList ∈ V.map Def.obj → Obj.alarmsLock ∈ V.map Def.obj
  | d :: V, h, hc => by
    simp only [List.map_cons, List.mem_cons] at hc ⊢
    rcases hc with hc | hc
    · exact .inr (h.2.2.2.2.2 hc.symm)
    · exact .inr (Stk.alarmsList h.1 hc)

theorem AllowedAtEnd.mono {os os' : List Obj} (h : ∀ o ∈ os, o ∈ os') {a : Act} (ha : AllowedAtEnd os a) : AllowedAtEnd os' a := by
  cases a with
  | early m => trivial
  | forced p m => exact ⟨h _ ha.1, fun hp => h _ (ha.2 hp)⟩
  | log p m => exact ⟨h _ ha.1, h _ ha.2⟩
  | logInit f => exact h _ ha
  | alarms => exact h _ ha

/-- The objects of the logger come in their order. -/
structure Ordered (os : List Obj) : Prop where
  flag : Obj.flag ∈ os → Obj.alarmsList ∈ os
  list : Obj.alarmsList ∈ os → Obj.alarmsLock ∈ os
  lock : Obj.logToLock ∈ os → Obj.flag ∈ os

/-- While objects are constructed and during `main`: `os` have been constructed, of which `cur` is not complete. -/
structure Up (os cur : List Obj) (s : St) : Prop where
  here : ∀ o ∈ os, o ∈ s.alive
  only : ∀ o ∈ s.alive, o ∈ os ∨ o = .cacheLock ∨ o = .cache
  alive : ∀ o, o ∈ s.alive ↔ o ∈ cur ∨ o ∈ s.stack.map Def.obj
  stk : Stk s.stack
  gone : s.gone = []
  inited : s.inited = true ↔ Obj.flag ∈ os
  file : s.toFile = true → Obj.logToLock ∈ os

theorem need_of {os : List Obj} {s : St} (h : ∀ o ∈ os, o ∈ s.alive) : need os s = .ok () := by
  unfold need
  rw [if_pos h]

theorem write_ok {env : Env} {p : Nat} {m : Str} {s : St} (h1 : p ≤ 2 → s.inited = true → Obj.alarmsLock ∈ s.alive ∧ Obj.alarmsList ∈ s.alive ∧ Obj.config ∈ s.alive)
    (h2 : s.toFile = true → Obj.logToLock ∈ s.alive) : ∃ s', write env p m s = .ok s' ∧ s'.alive = s.alive ∧ s'.stack = s.stack ∧ s'.gone = s.gone ∧ s'.inited = s.inited ∧ s'.toFile = s.toFile := by
  unfold write addAlarm
  by_cases hp : p ≤ 2
  · by_cases hi : s.inited = true
    · obtain ⟨a, b, c⟩ := h1 hp hi
      rw [if_pos hp, if_pos hi, need_of (by simp [a, b, c])]
      simp only [Outcome.bind]
      by_cases hf : s.toFile = true
      · rw [if_pos hf, need_of (by simp [h2 hf])]
        exact ⟨_, rfl, rfl, rfl, rfl, rfl, rfl⟩
      · rw [if_neg hf]
        exact ⟨_, rfl, rfl, rfl, rfl, rfl, rfl⟩
    · rw [if_pos hp, if_neg hi]
      simp only [Outcome.bind]
      by_cases hf : s.toFile = true
      · rw [if_pos hf, need_of (by simp [h2 hf])]
        exact ⟨_, rfl, rfl, rfl, rfl, rfl, rfl⟩
      · rw [if_neg hf]
        exact ⟨_, rfl, rfl, rfl, rfl, rfl, rfl⟩
  · rw [if_neg hp]
    simp only [Outcome.bind]
    by_cases hf : s.toFile = true
    · rw [if_pos hf, need_of (by simp [h2 hf])]
      exact ⟨_, rfl, rfl, rfl, rfl, rfl, rfl⟩
    · rw [if_neg hf]
      exact ⟨_, rfl, rfl, rfl, rfl, rfl, rfl⟩

theorem Up.of_write {os cur : List Obj} {s s' : St} (h : Up os cur s) (e1 : s'.alive = s.alive) (e2 : s'.stack = s.stack) (e3 : s'.gone = s.gone) (e4 : s'.inited = s.inited) (e5 : s'.toFile = s.toFile) :
    Up os cur s' := ⟨e1 ▸ h.here, e1 ▸ h.only, by rw [e1, e2]; exact h.alive, e2 ▸ h.stk, e3 ▸ h.gone, e4 ▸ h.inited, e5 ▸ h.file⟩

theorem Up.firstUse {os cur : List Obj} {s : St} (h : Up os cur s) {o : Obj} (ho : o = .cacheLock ∨ o = .cache) :
    ∃ s', firstUse o s = .ok s' ∧ Up os cur s' ∧ o ∈ s'.alive ∧ ∀ x ∈ s.alive, x ∈ s'.alive := by
  unfold Statics.firstUse
  by_cases h1 : o ∈ s.alive
  · rw [if_pos h1]
    exact ⟨_, rfl, h, h1, fun _ h => h⟩
  · rw [if_neg h1, if_neg (by rw [h.gone]; simp)]
    refine ⟨_, rfl, ⟨fun x hx => List.mem_cons_of_mem _ (h.here x hx), ?_, ?_, ?_, h.gone, h.inited, h.file⟩, List.mem_cons_self, fun x hx => List.mem_cons_of_mem _ hx⟩
    · intro x hx
      rcases List.mem_cons.1 hx with rfl | hx
      · exact .inr ho
      · exact h.only x hx
    · intro x
      simp only [List.mem_cons, List.map_cons]
      rw [h.alive x]
      tauto
    · refine ⟨h.stk, by simp, fun hx => h1 ((h.alive o).2 (.inr hx)), ?_, ?_, ?_⟩ <;> intro e <;> simp only at e <;> rw [e] at ho <;> simp at ho

theorem Up.getLevel {os cur : List Obj} {s : St} (h : Up os cur s) (hc : Obj.config ∈ os) :
    ∃ s', getLevel s = .ok s' ∧ Up os cur s' ∧ Obj.cacheLock ∈ s'.alive ∧ Obj.cache ∈ s'.alive := by
  obtain ⟨s1, e1, u1, a1, -⟩ := h.firstUse (.inl rfl)
  obtain ⟨s2, e2, u2, a2, m2⟩ := u1.firstUse (.inr rfl)
  unfold Statics.getLevel
  rw [e1]
  simp only [Outcome.bind]
  rw [e2]
  simp only
  rw [need_of (by simpa using u2.here _ hc)]
  exact ⟨s2, rfl, u2, m2 _ a1, a2⟩

/-- The use is one of `LOG`. -/
def isLog : Act → Prop
  | .log _ _ => True
  | _ => False

theorem Up.write {env : Env} {os cur : List Obj} {s : St} (h : Up os cur s) (hO : Ordered os) {p : Nat} {m : Str} (ha : p ≤ 2 → Obj.flag ∈ os → Obj.config ∈ os) :
    ∃ s', write env p m s = .ok s' ∧ Up os cur s' ∧ s'.alive = s.alive := by
  obtain ⟨s', e, e1, e2, e3, e4, e5⟩ := write_ok (env := env) (p := p) (m := m) (s := s)
    (fun hp hi => by
      have hf := h.inited.1 hi
      exact ⟨h.here _ (hO.list (hO.flag hf)), h.here _ (hO.flag hf), h.here _ (ha hp hf)⟩) (fun hf => h.here _ (h.file hf))
  exact ⟨s', e, h.of_write e1 e2 e3 e4 e5, e1⟩

theorem Up.act {env : Env} {os cur : List Obj} {s : St} (h : Up os cur s) (hO : Ordered os) {a : Act} (ha : Allowed os a) :
    ∃ s', act env a s = .ok s' ∧ Up os cur s' ∧ (∀ x ∈ s.alive, x ∈ s'.alive) ∧ (isLog a → Obj.cacheLock ∈ s'.alive ∧ Obj.cache ∈ s'.alive) := by
  cases a with
  | early m => exact ⟨_, rfl, h.of_write rfl rfl rfl rfl rfl, fun _ h => h, fun hf => hf.elim⟩
  | forced p m =>
    obtain ⟨s', e, u, e1⟩ := h.write (env := env) hO (m := m) ha
    exact ⟨s', e, u, fun x hx => e1 ▸ hx, fun hf => hf.elim⟩
  | log p m =>
    obtain ⟨s1, e1, u1, c1, c2⟩ := h.getLevel ha
    have hm : ∀ x ∈ s.alive, x ∈ s1.alive := by
      intro x hx
      rcases h.only x hx with hx | rfl | rfl
      · exact u1.here x hx
      · exact c1
      · exact c2
    simp only [Statics.act]
    rw [e1]
    simp only [Outcome.bind]
    split
    · obtain ⟨s', e, u, e2⟩ := u1.write (env := env) hO (p := p) (m := m) (fun _ _ => ha)
      exact ⟨s', e, u, fun x hx => e2 ▸ hm x hx, fun _ => e2 ▸ ⟨c1, c2⟩⟩
    · exact ⟨s1, rfl, u1, hm, fun _ => ⟨c1, c2⟩⟩
  | logInit f =>
    have u0 : Up os cur { s with toFile := s.toFile || f } := ⟨h.here, h.only, h.alive, h.stk, h.gone, h.inited, by
      intro hf
      rcases Bool.or_eq_true_iff.1 hf with hf | hf
      · exact h.file hf
      · exact ha.2 hf⟩
    obtain ⟨s1, e1, u1, c1, c2⟩ := u0.getLevel ha.1
    simp only [Statics.act]
    rw [need_of (by simpa using h.here _ ha.1)]
    simp only [Outcome.bind]
    refine ⟨s1, e1, u1, ?_, fun hf => hf.elim⟩
    intro x hx
    rcases h.only x hx with hx | rfl | rfl
    · exact u1.here x hx
    · exact c1
    · exact c2
  | alarms =>
    simp only [Statics.act]
    have := hO.list ha
    rw [need_of (by simp [h.here _ ha, h.here _ this])]
    exact ⟨s, rfl, h, fun _ h => h, fun hf => hf.elim⟩

theorem Up.actAll {env : Env} {os cur : List Obj} (hO : Ordered os) : ∀ {as : List Act} {s : St}, Up os cur s → (∀ a ∈ as, Allowed os a) →
    ∃ s', actAll env as s = .ok s' ∧ Up os cur s' ∧ (∀ x ∈ s.alive, x ∈ s'.alive) ∧ ((∃ a ∈ as, isLog a) → Obj.cacheLock ∈ s'.alive ∧ Obj.cache ∈ s'.alive)
  | [], s, h, _ => ⟨s, rfl, h, fun _ h => h, fun ⟨a, ha, _⟩ => by simp at ha⟩
  | a :: as, s, h, ha => by
    obtain ⟨s1, e1, u1, m1, c1⟩ := h.act (env := env) hO (ha a List.mem_cons_self)
    obtain ⟨s2, e2, u2, m2, c2⟩ := Up.actAll hO u1 fun a h => ha a (List.mem_cons_of_mem _ h)
    refine ⟨s2, ?_, u2, fun x hx => m2 x (m1 x hx), ?_⟩
    · unfold Statics.actAll
      rw [e1]
      exact e2
    · rintro ⟨b, hb, hl⟩
      rcases List.mem_cons.1 hb with rfl | hb
      · exact ⟨m2 _ (c1 hl).1, m2 _ (c1 hl).2⟩
      · exact c2 ⟨b, hb, hl⟩

/-- In a list without repetitions, a prefix with an element has what comes before that element. -/
theorem prefix_before {α : Type} {X Z Y p : List α} {a b : α} (hn : (X ++ a :: Z ++ b :: Y).Nodup) (hp : p <+: X ++ a :: Z ++ b :: Y) (hb : b ∈ p) : a ∈ p := by
  obtain ⟨n, rfl⟩ : ∃ n, p = (X ++ a :: Z ++ b :: Y).take n := ⟨p.length, List.prefix_iff_eq_take.1 hp⟩
  by_cases h : n ≤ (X ++ a :: Z).length
  · rw [List.take_append_of_le_length h] at hb
    have hb := List.mem_of_mem_take hb
    exact absurd rfl ((List.nodup_append.1 hn).2.2 b hb b List.mem_cons_self)
  · rw [List.take_append, List.take_of_length_le (by omega)]
    simp

theorem WellFormed.ordered {P : Program} (w : WellFormed P) {p : List Obj} (hp : p <+: P.defs.map Def.obj) : Ordered p := by
  obtain ⟨X, Y, e⟩ := w.unit
  have e' : P.defs.map Def.obj = X.map Def.obj ++ [.alarmsLock, .alarmsList, .flag, .logToLock, .logGroup] ++ Y.map Def.obj := by
    rw [← e]
    simp [loggerUnit]
  have hn := w.once
  rw [e'] at hp hn
  refine ⟨?_, ?_, ?_⟩
  · refine prefix_before (X := X.map Def.obj ++ [.alarmsLock]) (Z := []) (Y := [.logToLock, .logGroup] ++ Y.map Def.obj) ?_ ?_
    · simpa using hn
    · simpa using hp
  · refine prefix_before (X := X.map Def.obj) (Z := []) (Y := [.flag, .logToLock, .logGroup] ++ Y.map Def.obj) ?_ ?_
    · simpa using hn
    · simpa using hp
  · refine prefix_before (X := X.map Def.obj ++ [.alarmsLock, .alarmsList]) (Z := []) (Y := [.logGroup] ++ Y.map Def.obj) ?_ ?_
    · simpa using hn
    · simpa using hp

theorem WellFormed.config_unique {P : Program} (w : WellFormed P) {d : Def} (hd : d ∈ P.defs) (ho : d.obj = .config) : ∃ a ∈ d.ctor, isLog a := by
  obtain ⟨m1, m2, ms, hc⟩ := w.config
  have : d = configDef m1 m2 ms := by
    have hn := w.once
    by_contra hne
    have := List.inj_on_of_nodup_map hn hd hc (by rw [ho]; rfl)
    exact hne this
  subst this
  exact ⟨.log 6 m2, by simp [configDef], trivial⟩

theorem constructAll_up {env : Env} {P : Program} (w : WellFormed P) (r : Rules P) : ∀ (B A : List Def) (s : St), P.defs = A ++ B → Up (A.map Def.obj) [] s →
    ∃ s', constructAll env B s = .ok s' ∧ Up (P.defs.map Def.obj) [] s'
  | [], A, s, e, h => ⟨s, rfl, by rw [e, List.append_nil]; exact h⟩
  | d :: B, A, s, e, h => by
    obtain ⟨r1, r2⟩ := r A d B e
    have hn := w.once
    rw [e, List.map_append, List.map_cons] at hn
    have hd : d.obj ∉ A.map Def.obj := fun hx => (List.nodup_append.1 hn).2.2 _ hx _ List.mem_cons_self rfl
    have hst := w.statics
    have hmem : d.obj ∈ P.defs.map Def.obj := by rw [e]; simp
    have hal : d.obj ∉ s.alive := by
      intro hx
      rcases h.only _ hx with hx | hx | hx
      · exact hd hx
      · exact hst.1 (hx ▸ hmem)
      · exact hst.2 (hx ▸ hmem)
    have hO : Ordered (A.map Def.obj ++ [d.obj]) := w.ordered ⟨B.map Def.obj, by rw [e]; simp⟩
    have u0 : Up (A.map Def.obj ++ [d.obj]) [d.obj] { s with alive := d.obj :: s.alive, inited := s.inited || decide (d.obj = .flag) } := by
      refine ⟨?_, ?_, ?_, h.stk, h.gone, ?_, fun hf => List.mem_append_left _ (h.file hf)⟩
      · intro o ho
        rcases List.mem_append.1 ho with ho | ho
        · exact List.mem_cons_of_mem _ (h.here o ho)
        · rw [List.mem_singleton.1 ho]; exact List.mem_cons_self
      · intro o ho
        rcases List.mem_cons.1 ho with rfl | ho
        · exact .inl (by simp)
        · rcases h.only o ho with ho | ho
          · exact .inl (List.mem_append_left _ ho)
          · exact .inr ho
      · intro o
        have := h.alive o
        simp only [List.not_mem_nil, false_or] at this
        simp only [List.mem_cons, List.not_mem_nil, or_false, this]
      · simp only [Bool.or_eq_true, decide_eq_true_eq, List.mem_append, List.mem_singleton, h.inited]
        exact or_congr Iff.rfl ⟨Eq.symm, Eq.symm⟩
    obtain ⟨s1, e1, u1, m1, c1⟩ := u0.actAll (env := env) hO r1
    have inStack : ∀ o ∈ s1.alive, o ≠ d.obj → o ∈ s1.stack.map Def.obj := by
      intro o ho hne
      rcases (u1.alive o).1 ho with hx | hx
      · exact absurd (List.mem_singleton.1 hx) hne
      · exact hx
    have hsub : ∀ o ∈ A.map Def.obj, o ∈ s1.stack.map Def.obj := fun o ho => inStack o (u1.here o (List.mem_append_left _ ho)) fun e => hd (e ▸ ho)
    have hdst : d.obj ∉ s1.stack.map Def.obj := by
      obtain ⟨t, e2, f2⟩ := (actAll_acted e1).stack
      rw [e2]
      simp only [List.map_append, List.mem_append, not_or]
      refine ⟨?_, fun hx => hal ((h.alive _).2 (.inr hx))⟩
      intro hx
      obtain ⟨x, hx, ex⟩ := List.mem_map.1 hx
      rcases (f2 x hx).2 with ey | ey
      · exact hst.1 (by rw [← ey, ex]; exact hmem)
      · exact hst.2 (by rw [← ey, ex]; exact hmem)
    have u2 : Up ((A ++ [d]).map Def.obj) [] { s1 with stack := d :: s1.stack } := by
      refine ⟨by simpa using u1.here, by simpa using u1.only, ?_, ⟨u1.stk, fun a ha => (r2 a ha).mono hsub, hdst, ?_, ?_, ?_⟩, u1.gone, by simpa using u1.inited, by simpa using u1.file⟩
      · intro o
        simp only [List.not_mem_nil, false_or, List.map_cons, List.mem_cons]
        rw [u1.alive o, List.mem_singleton]
      · intro ho
        obtain ⟨k1, k2⟩ := c1 (w.config_unique (by rw [e]; simp) ho)
        exact ⟨inStack _ k1 (by rw [ho]; simp), inStack _ k2 (by rw [ho]; simp)⟩
      · intro ho
        have h1 := hO.lock (by rw [ho]; simp)
        have h2 := hO.flag h1
        have h3 := hO.list h2
        exact ⟨inStack _ (u1.here _ h3) (by rw [ho]; simp), inStack _ (u1.here _ h2) (by rw [ho]; simp)⟩
      · intro ho
        have h3 := hO.list (by rw [ho]; simp)
        exact inStack _ (u1.here _ h3) (by rw [ho]; simp)
    obtain ⟨s', e3, u3⟩ := constructAll_up w r B (A ++ [d]) { s1 with stack := d :: s1.stack } (by rw [e]; simp) u2
    refine ⟨s', ?_, u3⟩
    unfold constructAll construct
    rw [e1]
    exact e3

/-- A permitted use in a destructor: it works, and changes nothing but the messages. -/
theorem act_down {env : Env} {V : List Def} {s : St} (hs : Stk V) (hal : ∀ o ∈ V.map Def.obj, o ∈ s.alive) {a : Act} (ha : AllowedAtEnd (V.map Def.obj) a) :
    ∃ s', act env a s = .ok s' ∧ s'.alive = s.alive ∧ s'.stack = s.stack := by
  have level : Obj.config ∈ V.map Def.obj → ∀ f, getLevel { s with toFile := f } = .ok { s with toFile := f } := by
    intro hc f
    obtain ⟨c1, c2⟩ := hs.config hc
    unfold getLevel firstUse
    rw [if_pos (hal _ c1)]
    simp only [Outcome.bind]
    rw [if_pos (hal _ c2)]
    simp only
    rw [need_of (by simpa using hal _ hc)]
  have wr : ∀ p m, Obj.logToLock ∈ V.map Def.obj → (p ≤ 2 → Obj.config ∈ V.map Def.obj) → ∃ s', write env p m s = .ok s' ∧ s'.alive = s.alive ∧ s'.stack = s.stack := by
    intro p m h1 h2
    obtain ⟨a1, a2⟩ := hs.logToLock h1
    obtain ⟨s', e, e1, e2, -⟩ := write_ok (env := env) (p := p) (m := m) (s := s) (fun hp _ => ⟨hal _ a1, hal _ a2, hal _ (h2 hp)⟩) (fun _ => hal _ h1)
    exact ⟨s', e, e1, e2⟩
  cases a with
  | early m => exact ⟨_, rfl, rfl, rfl⟩
  | forced p m => exact wr p m ha.1 ha.2
  | log p m =>
    simp only [act]
    rw [level ha.2 s.toFile]
    simp only [Outcome.bind]
    split
    · exact wr p m ha.1 fun _ => ha.2
    · exact ⟨_, rfl, rfl, rfl⟩
  | logInit f =>
    simp only [act]
    rw [need_of (by simpa using hal _ ha)]
    simp only [Outcome.bind]
    rw [level ha]
    exact ⟨_, rfl, rfl, rfl⟩
  | alarms =>
    simp only [act]
    rw [need_of (by simp [hal _ ha, hal _ (hs.alarmsList ha)])]
    exact ⟨_, rfl, rfl, rfl⟩

theorem actAll_down {env : Env} {V : List Def} (hs : Stk V) : ∀ {as : List Act} {s : St}, (∀ o ∈ V.map Def.obj, o ∈ s.alive) → (∀ a ∈ as, AllowedAtEnd (V.map Def.obj) a) →
    ∃ s', actAll env as s = .ok s' ∧ s'.alive = s.alive ∧ s'.stack = s.stack
  | [], s, _, _ => ⟨s, rfl, rfl, rfl⟩
  | a :: as, s, hal, ha => by
    obtain ⟨s1, e1, f1, g1⟩ := act_down (env := env) hs hal (ha a List.mem_cons_self)
    obtain ⟨s2, e2, f2, g2⟩ := actAll_down hs (s := s1) (f1 ▸ hal) fun a h => ha a (List.mem_cons_of_mem _ h)
    refine ⟨s2, ?_, f2.trans f1, g2.trans g1⟩
    unfold actAll
    rw [e1]
    exact e2

theorem finish_ok {env : Env} : ∀ (k : Nat) (s : St), Stk s.stack → (∀ o ∈ s.stack.map Def.obj, o ∈ s.alive) → s.stack.length ≤ k → ∃ s', finish env k s = .ok s'
  | 0, s, _, _, hk => ⟨s, by unfold finish; rw [if_pos (List.length_eq_zero_iff.1 (by omega))]⟩
  | k + 1, s, hs, hal, hk => by
    unfold finish
    cases e : s.stack with
    | nil => exact ⟨s, rfl⟩
    | cons d V =>
      rw [e] at hs hal hk
      obtain ⟨s1, e1, f1, g1⟩ := actAll_down (env := env) hs.1 (s := { s with stack := V }) (fun o ho => hal o (List.mem_cons_of_mem _ ho)) hs.2.1
      simp only at f1 g1 ⊢
      rw [e1]
      simp only [Outcome.bind]
      refine finish_ok k _ (by simp only [g1]; exact hs.1) ?_ (by simp only [g1]; simpa using hk)
      simp only [g1, f1]
      intro o ho
      refine List.mem_filter.2 ⟨hal o (List.mem_cons_of_mem _ ho), ?_⟩
      have : o ≠ d.obj := fun e => hs.2.2.1 (e ▸ ho)
      simpa using this

/-- C139, partial: a program whose constructors and destructors keep to the rules never uses an object of the logger or the configuration table too early or too late, in whatever order the files are
linked.  Missing: programs that break the rules (C139_constructor_refuted, C139_destructor_refuted), threads that still run at the end. -/
theorem C139_safe_partial (env : Env) (P : Program) (w : WellFormed P) (r : Rules P) : ∃ s, run env P = .ok s := by
  have u0 : Up (([] : List Def).map Def.obj) [] start := ⟨by simp, by simp [start], by simp [start], trivial, rfl, by simp [start], by simp [start]⟩
  obtain ⟨s1, e1, u1⟩ := constructAll_up (env := env) w r P.defs [] start rfl u0
  have hO := w.ordered (List.prefix_refl _)
  have hc : Obj.config ∈ P.defs.map Def.obj := by
    obtain ⟨m1, m2, ms, h⟩ := w.config
    exact List.mem_map.2 ⟨_, h, rfl⟩
  have hu : ∀ d ∈ loggerUnit, d.obj ∈ P.defs.map Def.obj := fun d hd => List.mem_map.2 ⟨d, w.unit.subset hd, rfl⟩
  have hl : Obj.logToLock ∈ P.defs.map Def.obj := hu ⟨.logToLock, [], []⟩ (by decide)
  have ha : Obj.alarmsList ∈ P.defs.map Def.obj := hu ⟨.alarmsList, [], []⟩ (by decide)
  have hm : ∀ a ∈ P.main, Allowed (P.defs.map Def.obj) a := by
    intro a _
    cases a with
    | early m => trivial
    | forced p m => exact fun _ _ => hc
    | log p m => exact hc
    | logInit f => exact ⟨hc, fun _ => hl⟩
    | alarms => exact ha
  obtain ⟨s2, e2, u2, -⟩ := u1.actAll (env := env) hO hm
  obtain ⟨s3, e3⟩ := finish_ok (env := env) (s2.stack.length + 2) s2 u2.stk (fun o ho => (u2.alive o).2 (.inr ho)) (by omega)
  refine ⟨s3, ?_⟩
  unfold run
  rw [e1]
  simp only [Outcome.bind]
  rw [e2]
  exact e3

/-! ### Breaking the rules -/

/-- Uses that need the configuration table; alarms only once the flag is set. -/
def UsesConfig (flag : Prop) : Act → Prop
  | .log _ _ => True
  | .logInit _ => True
  | .forced p _ => p ≤ 2 ∧ flag
  | _ => False

theorem getLevel_config {s s' : St} (h : getLevel s = .ok s') : Obj.config ∈ s.alive := by
  unfold getLevel at h
  obtain ⟨a, h1, h⟩ := bind_ok_inv h
  obtain ⟨b, h2, h⟩ := bind_ok_inv h
  obtain ⟨c, h3, h⟩ := bind_ok_inv h
  have k := (firstUse_acted (env := ⟨0, 0⟩) (.inl rfl) h1).trans (firstUse_acted (.inr rfl) h2)
  simpa using k.alive .config (need_ok h3 _ (by simp))

theorem act_config {env : Env} {a : Act} {s s' : St} (h : act env a s = .ok s') (ha : UsesConfig (s.inited = true) a) : Obj.config ∈ s.alive := by
  cases a with
  | early m => exact ha.elim
  | forced p m =>
    simp only [act, write, if_pos ha.1, if_pos ha.2, addAlarm] at h
    obtain ⟨_, h, -⟩ := bind_ok_inv h
    obtain ⟨_, h, -⟩ := bind_ok_inv h
    obtain ⟨_, h, -⟩ := bind_ok_inv h
    exact need_ok h _ (by simp)
  | log p m =>
    obtain ⟨_, h, -⟩ := bind_ok_inv h
    exact getLevel_config h
  | logInit f =>
    obtain ⟨_, h, -⟩ := bind_ok_inv h
    exact need_ok h _ (by simp)
  | alarms => exact ha.elim

theorem actAll_config {env : Env} {a : Act} : ∀ {as : List Act} {s s' : St}, actAll env as s = .ok s' → a ∈ as → UsesConfig (s.inited = true) a → Obj.config ∈ s.alive
  | b :: as, s, s', h, ha, hu => by
    obtain ⟨s1, h1, h⟩ := bind_ok_inv h
    rcases List.mem_cons.1 ha with rfl | ha
    · exact act_config h1 hu
    · have k := act_acted h1
      have := actAll_config h ha (by rw [k.inited]; exact hu)
      simpa using k.alive _ this

theorem constructAll_append (env : Env) : ∀ (A B : List Def) (s : St), constructAll env (A ++ B) s = (constructAll env A s).bind (constructAll env B)
  | [], B, s => rfl
  | d :: A, B, s => by
    simp only [List.cons_append, constructAll]
    cases construct env d s with
    | ok s1 => simp only [Outcome.bind]; exact constructAll_append env A B s1
    | assertFail => rfl
    | ub => rfl
    | diverge => rfl

/-- What construction leaves. -/
structure Built (ds : List Def) (s s' : St) : Prop where
  alive : ∀ o ∈ s'.alive, o ∈ s.alive ∨ o ∈ ds.map Def.obj ∨ o = .cacheLock ∨ o = .cache
  inited : s'.inited = true ↔ s.inited = true ∨ Obj.flag ∈ ds.map Def.obj
  stack : ∃ t, s'.stack = t ++ s.stack ∧ ∀ o ∈ t.map Def.obj, o ∈ ds.map Def.obj ∨ o = .cacheLock ∨ o = .cache
  cover : (∀ o ∈ s.alive, o ∈ s.stack.map Def.obj) → ∀ o ∈ s'.alive, o ∈ s'.stack.map Def.obj

theorem construct_built {env : Env} {d : Def} {s s' : St} (h : construct env d s = .ok s') : Built [d] s s' ∧ ∃ t, s'.stack = d :: t ++ s.stack ∧ ∀ o ∈ t.map Def.obj, o = .cacheLock ∨ o = .cache := by
  unfold construct at h
  obtain ⟨s1, h1, h⟩ := bind_ok_inv h
  cases h
  have k := actAll_acted h1
  obtain ⟨t, e, f⟩ := k.stack
  have ft : ∀ o ∈ t.map Def.obj, o = .cacheLock ∨ o = .cache := by
    intro o ho
    obtain ⟨x, hx, rfl⟩ := List.mem_map.1 ho
    exact (f x hx).2
  refine ⟨⟨?_, ?_, ⟨d :: t, by simp [e], ?_⟩, ?_⟩, t, by simp [e], ft⟩
  · intro o ho
    rcases k.alive o ho with ho | ho
    · rcases List.mem_cons.1 ho with rfl | ho
      · exact .inr (.inl (by simp))
      · exact .inl ho
    · exact .inr (.inr ho)
  · simp only [k.inited, Bool.or_eq_true, decide_eq_true_eq, List.map_cons, List.map_nil, List.mem_singleton]
    exact or_congr Iff.rfl ⟨Eq.symm, Eq.symm⟩
  · intro o ho
    rcases List.mem_cons.1 ho with rfl | ho
    · exact .inl (by simp)
    · exact .inr (ft o ho)
  · intro hc o ho
    simp only [List.map_cons, List.mem_cons]
    rcases k.more o ho with ho | ho
    · rcases List.mem_cons.1 ho with ho | ho
      · exact .inl ho
      · refine .inr ?_
        rw [e, List.map_append]
        exact List.mem_append_right _ (hc o ho)
    · exact .inr ho

theorem constructAll_built {env : Env} : ∀ {ds : List Def} {s s' : St}, constructAll env ds s = .ok s' → Built ds s s'
  | [], s, s', h => by cases h; exact ⟨fun _ h => .inl h, by simp, ⟨[], by simp⟩, fun h => h⟩
  | d :: ds, s, s', h => by
    obtain ⟨s1, h1, h⟩ := bind_ok_inv h
    have b1 := (construct_built h1).1
    have b2 := constructAll_built h
    obtain ⟨t1, e1, f1⟩ := b1.stack
    obtain ⟨t2, e2, f2⟩ := b2.stack
    refine ⟨?_, ?_, ⟨t2 ++ t1, by rw [e2, e1, List.append_assoc], ?_⟩, fun hc => b2.cover (b1.cover hc)⟩
    · intro o ho
      rcases b2.alive o ho with ho | ho | ho
      · rcases b1.alive o ho with ho | ho | ho
        · exact .inl ho
        · exact .inr (.inl (by simp only [List.map_cons, List.map_nil, List.mem_singleton] at ho; simp [ho]))
        · exact .inr (.inr ho)
      · exact .inr (.inl (by simp only [List.map_cons, List.mem_cons]; exact .inr ho))
      · exact .inr (.inr ho)
    · rw [b2.inited, b1.inited]
      simp only [List.map_cons, List.map_nil, List.mem_cons, List.not_mem_nil, or_false]
      tauto
    · intro o ho
      rw [List.map_append, List.mem_append] at ho
      simp only [List.map_cons, List.mem_cons]
      rcases ho with ho | ho
      · rcases f2 o ho with ho | ho
        · exact .inl (.inr ho)
        · exact .inr ho
      · rcases f1 o ho with ho | ho
        · exact .inl (.inl (by simpa using ho))
        · exact .inr ho

/-- C139 (negation, constructors): if an object is constructed before the configuration table and its constructor uses `LOG` or `gLogInit`, or, after the objects of the logger, `_LOG` with CRIT or a more
severe level, then the program goes wrong, whatever else it does: `sLoggerInited` only helps before the objects of the logger are constructed. -/
theorem C139_constructor_refuted (env : Env) (P : Program) (A B : List Def) (d : Def) (a : Act) (e : P.defs = A ++ d :: B) (hc : Obj.config ∉ A.map Def.obj) (hd : d.obj ≠ .config)
    (ha : a ∈ d.ctor) (hu : UsesConfig (Obj.flag ∈ A.map Def.obj) a) (s : St) : run env P ≠ .ok s := by
  intro h
  unfold run at h
  obtain ⟨s0, h, -⟩ := bind_ok_inv h
  rw [e, constructAll_append] at h
  obtain ⟨s1, h1, h⟩ := bind_ok_inv h
  obtain ⟨s2, h2, -⟩ := bind_ok_inv h
  have b := constructAll_built h1
  unfold construct at h2
  obtain ⟨s3, h3, -⟩ := bind_ok_inv h2
  have hu' : UsesConfig (({ s1 with alive := d.obj :: s1.alive, inited := s1.inited || decide (d.obj = .flag) } : St).inited = true) a := by
    cases a with
    | forced p m => exact ⟨hu.1, by simp [b.inited.2 (.inr hu.2)]⟩
    | _ => exact hu
  have := actAll_config h3 ha hu'
  rcases List.mem_cons.1 this with hx | hx
  · exact hd hx.symm
  · rcases b.alive _ hx with hx | hx | hx | hx
    · simp [start] at hx
    · exact hc hx
    · cases hx
    · cases hx

theorem finish_reach {env : Env} {W : List Def} : ∀ {k : Nat} {s s' : St} {U : List Def}, finish env k s = .ok s' → s.stack = U ++ W → (∀ o ∈ s.alive, o ∈ s.stack.map Def.obj) →
    ∃ k' s1, finish env k' s1 = .ok s' ∧ s1.stack = W ∧ (∀ o ∈ s1.alive, o ∈ s1.stack.map Def.obj) ∧ s1.inited = s.inited
  | k, s, s', [], h, e, hc => ⟨k, s, h, e, hc, rfl⟩
  | 0, s, s', u :: U, h, e, hc => by
    unfold finish at h
    rw [if_neg (by rw [e]; simp)] at h
    cases h
  | k + 1, s, s', u :: U, h, e, hc => by
    unfold finish at h
    rw [e] at h
    simp only [List.cons_append] at h
    obtain ⟨s1, h1, h⟩ := bind_ok_inv h
    have k1 := actAll_acted h1
    obtain ⟨t, e1, f1⟩ := k1.stack
    obtain ⟨k', s2, h2, e2, c2, i2⟩ := finish_reach (W := W) (U := t ++ U) h (by simp [e1]) (by
      intro o ho
      obtain ⟨ho, hne⟩ := List.mem_filter.1 ho
      have hne : o ≠ u.obj := by simpa using hne
      simp only
      rcases k1.more o ho with ho | ho
      · have := hc o ho
        rw [e] at this
        simp only [List.cons_append, List.map_cons, List.mem_cons] at this
        rw [e1, List.map_append]
        exact List.mem_append_right _ (this.resolve_left hne)
      · exact ho)
    exact ⟨k', s2, h2, e2, c2, i2.trans k1.inited⟩
termination_by k _ _ _ => k

/-- C139 (negation, destructors): if an object is constructed before the configuration table and its destructor uses `LOG` or `gLogInit`, or `_LOG` with CRIT or a more severe level, then the program goes
wrong: the configuration table is destroyed before. -/
theorem C139_destructor_refuted (env : Env) (P : Program) (A B : List Def) (d : Def) (a : Act) (e : P.defs = A ++ d :: B) (hc : Obj.config ∉ A.map Def.obj) (hd : d.obj ≠ .config)
    (ha : a ∈ d.dtor) (hu : UsesConfig (Obj.flag ∈ P.defs.map Def.obj) a) (s : St) : run env P ≠ .ok s := by
  intro h
  unfold run at h
  obtain ⟨s0, h0, h⟩ := bind_ok_inv h
  obtain ⟨sm, hm, h⟩ := bind_ok_inv h
  have b0 := constructAll_built h0
  rw [e, constructAll_append] at h0
  obtain ⟨s1, h1, h0⟩ := bind_ok_inv h0
  obtain ⟨s2, h2, h0⟩ := bind_ok_inv h0
  have b1 := constructAll_built h1
  obtain ⟨b2, t, e2, f2⟩ := construct_built h2
  have b3 := constructAll_built h0
  have k := actAll_acted hm
  obtain ⟨t1, e1, f1⟩ := b1.stack
  obtain ⟨t3, e3, -⟩ := b3.stack
  obtain ⟨tm, em, fm⟩ := k.stack
  have cover : ∀ o ∈ sm.alive, o ∈ sm.stack.map Def.obj := by
    intro o ho
    rcases k.more o ho with ho | ho
    · rw [em, List.map_append]
      exact List.mem_append_right _ (b0.cover (by simp [start]) o ho)
    · exact ho
  have est : sm.stack = (tm ++ t3) ++ (d :: (t ++ t1)) := by
    rw [em, e3, e2, e1]
    simp [start]
  obtain ⟨k', sf, hf, ef, cf, inf⟩ := finish_reach h est cover
  cases k' with
  | zero =>
    unfold finish at hf
    rw [if_neg (by rw [ef]; simp)] at hf
    cases hf
  | succ k' =>
    unfold finish at hf
    rw [ef] at hf
    obtain ⟨sd, hd1, -⟩ := bind_ok_inv hf
    have hin : sf.inited = s0.inited := inf.trans k.inited
    have hu' : UsesConfig (({ sf with stack := t ++ t1 } : St).inited = true) a := by
      cases a with
      | forced p m => exact ⟨hu.1, by simp only [hin]; exact b0.inited.2 (.inr hu.2)⟩
      | _ => exact hu
    have hx := cf _ (show Obj.config ∈ sf.alive from actAll_config (s := { sf with stack := t ++ t1 }) hd1 ha hu')
    rw [ef] at hx
    simp only [List.map_cons, List.mem_cons, List.map_append, List.mem_append] at hx
    rcases hx with hx | hx | hx
    · exact hd hx.symm
    · rcases f2 _ hx with hx | hx <;> cases hx
    · rcases f1 _ hx with hx | hx | hx
      · exact hc hx
      · cases hx
      · cases hx

/-! ### Alarms -/

/-- The last `n` elements. -/
def lastOf {α : Type} (n : Nat) (l : List α) : List α := l.drop (l.length - n)

theorem lastOf_snoc {α : Type} (n : Nat) (l : List α) (x : α) : lastOf n (lastOf n l ++ [x]) = lastOf n (l ++ [x]) := by
  unfold lastOf
  by_cases h : l.length ≤ n
  · rw [show l.length - n = 0 by omega, List.drop_zero]
  · cases n with
    | zero => simp
    | succ n =>
      simp only [List.length_append, List.length_drop, List.length_singleton]
      rw [List.drop_append_of_le_length (by simp), List.drop_append_of_le_length (by omega), List.drop_drop]
      congr 2
      omega

theorem act_alarm {env : Env} {a : Act} {s s' : St} (h : act env a s = .ok s') :
    s'.alarmed = if s.inited = true then (match alarm env a with | some m => lastOf env.maxAlarms (s.alarmed ++ [m]) | none => s.alarmed) else s.alarmed := by
  have first : ∀ {o : Obj} {s s' : St}, firstUse o s = .ok s' → s'.alarmed = s.alarmed ∧ s'.inited = s.inited := by
    intro o s s' h
    unfold firstUse at h
    split at h
    · cases h; exact ⟨rfl, rfl⟩
    · split at h
      · cases h
      · cases h; exact ⟨rfl, rfl⟩
  have level : ∀ {s s' : St}, getLevel s = .ok s' → s'.alarmed = s.alarmed ∧ s'.inited = s.inited := by
    intro s s' h
    unfold getLevel at h
    obtain ⟨a, h1, h⟩ := bind_ok_inv h
    obtain ⟨b, h2, h⟩ := bind_ok_inv h
    obtain ⟨c, h3, h⟩ := bind_ok_inv h
    cases h
    exact ⟨(first h2).1.trans (first h1).1, (first h2).2.trans (first h1).2⟩
  have wr : ∀ {p : Nat} {m : Str} {s s' : St}, write env p m s = .ok s' → s'.alarmed = if s.inited = true ∧ p ≤ 2 then lastOf env.maxAlarms (s.alarmed ++ [m]) else s.alarmed := by
    intro p m s s' h
    unfold write at h
    obtain ⟨b, h1, h⟩ := bind_ok_inv h
    have hb : s'.alarmed = b.alarmed := by
      simp only at h
      split at h
      · obtain ⟨_, -, h⟩ := bind_ok_inv h
        cases h; rfl
      · cases h; rfl
    rw [hb]
    split at h1
    · rename_i hp
      obtain ⟨c, h2, h1⟩ := bind_ok_inv h1
      cases h1
      split at h2
      · rename_i hi
        unfold addAlarm at h2
        obtain ⟨_, -, h2⟩ := bind_ok_inv h2
        cases h2
        simp [hi, hp, lastOf]
      · rename_i hi
        cases h2
        simp [hi]
    · rename_i hp
      cases h1
      simp [hp]
  cases a with
  | early m => cases h; simp [alarm]
  | forced p m =>
    rw [wr h]
    by_cases hp : p ≤ 2 <;> simp [alarm, hp]
  | log p m =>
    obtain ⟨s1, h1, h⟩ := bind_ok_inv h
    obtain ⟨e1, e2⟩ := level h1
    split at h
    · rename_i hp
      rw [wr h, e1, e2]
      by_cases h2 : p ≤ 2 <;> simp [alarm, hp, h2]
    · rename_i hp
      cases h
      simp [alarm, hp, e1]
  | logInit f =>
    obtain ⟨_, -, h⟩ := bind_ok_inv h
    obtain ⟨e1, e2⟩ := level h
    simp [alarm, e1]
  | alarms =>
    obtain ⟨_, -, h⟩ := bind_ok_inv h
    cases h
    simp [alarm]

theorem actAll_alarm {env : Env} : ∀ {as : List Act} {s s' : St} {l : List Str}, actAll env as s = .ok s' → s.inited = true → s.alarmed = lastOf env.maxAlarms l →
    s'.alarmed = lastOf env.maxAlarms (l ++ as.filterMap (alarm env)) ∧ s'.inited = true
  | [], s, s', l, h, hi, hl => by cases h; simpa [hi] using hl
  | a :: as, s, s', l, h, hi, hl => by
    obtain ⟨s1, h1, h⟩ := bind_ok_inv h
    have e1 := act_alarm h1
    have i1 : s1.inited = true := (act_acted h1).inited.trans hi
    rw [if_pos hi] at e1
    rw [List.filterMap_cons]
    cases ha : alarm env a with
    | none =>
      rw [ha] at e1
      exact actAll_alarm h i1 (e1.trans hl)
    | some m =>
      rw [ha] at e1
      simp only at e1
      rw [hl, lastOf_snoc] at e1
      have := actAll_alarm h i1 e1
      simpa using this

theorem actAll_quiet {env : Env} : ∀ {as : List Act} {s s' : St}, actAll env as s = .ok s' → s.inited = false → s'.alarmed = s.alarmed
  | [], s, s', h, _ => by cases h; rfl
  | a :: as, s, s', h, hi => by
    obtain ⟨s1, h1, h⟩ := bind_ok_inv h
    have e1 := act_alarm h1
    rw [if_neg (by simp [hi])] at e1
    exact (actAll_quiet h ((act_acted h1).inited.trans hi)).trans e1

theorem constructAll_quiet {env : Env} : ∀ {ds : List Def} {s s' : St}, constructAll env ds s = .ok s' → s.inited = false → Obj.flag ∉ ds.map Def.obj → s'.alarmed = s.alarmed
  | [], s, s', h, _, _ => by cases h; rfl
  | d :: ds, s, s', h, hi, hf => by
    obtain ⟨s1, h1, h⟩ := bind_ok_inv h
    have b := (construct_built h1).1
    unfold construct at h1
    obtain ⟨s2, h2, h1⟩ := bind_ok_inv h1
    cases h1
    simp only [List.map_cons, List.mem_cons, not_or] at hf
    have hd : d.obj ≠ .flag := fun e => hf.1 e.symm
    have i2 : s2.inited = false := by
      rw [(actAll_acted h2).inited]
      simp [hi, hd]
    have := actAll_quiet h2 (by simp [hi, hd])
    exact (constructAll_quiet h i2 hf.2).trans this

theorem constructAll_alarm {env : Env} : ∀ {ds : List Def} {s s' : St} {l : List Str}, constructAll env ds s = .ok s' → s.inited = true → s.alarmed = lastOf env.maxAlarms l →
    s'.alarmed = lastOf env.maxAlarms (l ++ (ds.flatMap Def.ctor).filterMap (alarm env)) ∧ s'.inited = true
  | [], s, s', l, h, hi, hl => by cases h; simpa [hi] using hl
  | d :: ds, s, s', l, h, hi, hl => by
    obtain ⟨s1, h1, h⟩ := bind_ok_inv h
    unfold construct at h1
    obtain ⟨s2, h2, h1⟩ := bind_ok_inv h1
    cases h1
    obtain ⟨k1, k2⟩ := actAll_alarm (l := l) h2 (by simp [hi]) hl
    have := constructAll_alarm h k2 k1
    simpa using this

theorem finish_alarm {env : Env} : ∀ {k : Nat} {s s' : St} {l : List Str}, finish env k s = .ok s' → s.inited = true → s.alarmed = lastOf env.maxAlarms l →
    s'.alarmed = lastOf env.maxAlarms (l ++ (pending s.stack).filterMap (alarm env))
  | 0, s, s', l, h, hi, hl => by
    unfold finish at h
    split at h
    · rename_i hs
      cases h
      simpa [hs, pending] using hl
    · cases h
  | k + 1, s, s', l, h, hi, hl => by
    unfold finish at h
    split at h
    · rename_i hs
      cases h
      simpa [hs, pending] using hl
    · rename_i d ds hs
      obtain ⟨b, h1, h⟩ := bind_ok_inv h
      obtain ⟨k1, k2⟩ := actAll_alarm (l := l) h1 hi hl
      obtain ⟨t, e, f⟩ := (actAll_acted h1).stack
      have := finish_alarm h k2 k1
      rw [this]
      simp only [e]
      rw [pending_append t ds fun d hd => (f d hd).1, hs]
      simp [pending]

/-- C139 (alarms): whenever the program ends properly, the list of alarms has the most recent messages with CRIT or a more severe level, counted from the construction of the objects of the logger on; earlier
ones are only in the system log and on the standard error output. -/
theorem C139_alarms (env : Env) (P : Program) (A B : List Def) (d : Def) (e : P.defs = A ++ d :: B) (hd : d.obj = .flag) (hA : Obj.flag ∉ A.map Def.obj) (s : St) (h : run env P = .ok s) :
    s.alarmed = lastOf env.maxAlarms (((d :: B).flatMap Def.ctor ++ P.main ++ P.defs.reverse.flatMap Def.dtor).filterMap (alarm env)) := by
  unfold run at h
  obtain ⟨s0, h0, h⟩ := bind_ok_inv h
  obtain ⟨sm, hm, h⟩ := bind_ok_inv h
  obtain ⟨-, -, p0⟩ := constructAll_log h0
  rw [e, constructAll_append] at h0
  obtain ⟨s1, h1, h0⟩ := bind_ok_inv h0
  have q1 := constructAll_quiet h1 rfl hA
  obtain ⟨s2, h2, h0⟩ := bind_ok_inv h0
  unfold construct at h2
  obtain ⟨s3, h3, h2⟩ := bind_ok_inv h2
  cases h2
  obtain ⟨k1, k2⟩ := actAll_alarm (l := []) h3 (by simp [hd]) (by simpa [lastOf, start] using q1)
  obtain ⟨k3, k4⟩ := constructAll_alarm h0 k2 k1
  obtain ⟨k5, k6⟩ := actAll_alarm hm k4 k3
  obtain ⟨tm, em, fm⟩ := (actAll_acted hm).stack
  rw [finish_alarm h k6 k5, em, pending_append tm _ fun d hd => (fm d hd).1, p0]
  simp [start, pending]

/-! ### Examples -/

/-- A program as they are: the logger, the configuration table, and an object that logs in its constructor and its destructor. -/
def usual : Program := ⟨loggerUnit ++ [configDef (lit "opening") (lit "List") [(6, lit "Config Variable")], ⟨.user 0, [.log 3 (lit "up")], [.log 2 (lit "down")]⟩],
  [.logInit true, .log 7 (lit "debugging"), .log 1 (lit "alert")]⟩

/-- C139: such a program is safe, and its messages. -/
example : (run ⟨5, 20⟩ usual).bind (fun s => .ok (s.syslog, s.alarmed)) =
    .ok ([(6, lit "opening"), (3, lit "up"), (1, lit "alert"), (2, lit "down")], [lit "alert", lit "down"]) := by decide +kernel

theorem rules_iff {P : Program} : Rules P ↔ ∀ n (h : n < P.defs.length), (∀ a ∈ P.defs[n].ctor, Allowed ((P.defs.take n).map Def.obj ++ [P.defs[n].obj]) a) ∧
    ∀ a ∈ P.defs[n].dtor, AllowedAtEnd ((P.defs.take n).map Def.obj) a := by
  constructor
  · intro r n h
    exact r (P.defs.take n) P.defs[n] (P.defs.drop (n + 1)) (by simp)
  · intro h A d B e
    have := h A.length (by rw [e]; simp)
    have e1 : P.defs.take A.length = A := by rw [e]; simp
    have e2 : P.defs[A.length]'(by rw [e]; simp) = d := by simp [e]
    rw [e1, e2] at this
    exact this

instance (os : List Obj) (a : Act) : Decidable (Allowed os a) := by cases a <;> unfold Allowed <;> infer_instance
instance (os : List Obj) (a : Act) : Decidable (AllowedAtEnd os a) := by cases a <;> unfold AllowedAtEnd <;> infer_instance

/-- C139: it is well formed and keeps to the rules. -/
example : WellFormed usual ∧ Rules usual := by
  refine ⟨⟨⟨[], _, rfl⟩, ⟨_, _, _, List.mem_append_right _ List.mem_cons_self⟩, by decide, by decide⟩, rules_iff.2 (by decide)⟩

/-- C139: with the order of the files changed it is safe to log an alarm before both, and not between the two. -/
example : (∃ s, run ⟨5, 20⟩ ⟨⟨.user 0, [.forced 1 (lit "early")], []⟩ :: loggerUnit ++ [configDef [] [] []], []⟩ = .ok s ∧ s.stderr = [lit "early"] ∧ s.alarmed = []) ∧
    run ⟨5, 20⟩ ⟨loggerUnit ++ [⟨.user 0, [.forced 1 (lit "early")], []⟩, configDef [] [] []], []⟩ = .ub := by
  refine ⟨⟨_, rfl, by decide, by decide⟩, by decide +kernel⟩

end Verif.Logger.Statics
