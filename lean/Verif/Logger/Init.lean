import Verif.Logger.Props
import Verif.Config.TableProps
import Verif.Config.Builtin

/-
Property C111: starting the logger (`Logger.cpp:264-321`) and the names of groups (`Logger.cpp:333-364`).
-/

namespace Verif.Logger.Init
open Verif Verif.Config Verif.Logger

/-- The state of the logger: the configuration, `gLogToFile` by the name of the file, `gMutexLogLevel`, the files opened, that is truncated, so far, and the levels kept by `gGetLoggingLevel`
(`Logger.cpp:145-148`). -/
structure St where
  cfg : Table
  file : Option Str
  mutexLevel : Int
  opened : List Str
  seen : LevelCache := {}

/-- `fopen(name,"w")` into `gLogToFile` (`Logger.cpp:274, 306`); `can`: the files that can be opened. -/
def openFile (can : Str → Bool) (s : St) (name : Str) : St := if can name then { s with file := some name, opened := s.opened ++ [name] } else s

/-- The test on `gCmdName` (`Logger.cpp:303`). -/
def allowed (cmd : Str) : Bool := (lit "Open").isPrefixOf cmd || (lit "RMSC").isPrefixOf cmd || (lit "RangeFinderGW").isPrefixOf cmd

/-- Setting the level, if one is given (`Logger.cpp:269-271, 295-297`). -/
def setLevel (level : Option Str) (s : St) : St :=
  match level with
  | some l => { s with cfg := (setStr s.cfg (lit "Log.Level") l).1 }
  | none => s

/-- `gGetLoggingLevel` (`Logger.cpp:141-178`) without interference by other threads, with the configuration it reads; `none` is an exception. -/
def fileLevel (s : St) (f : Str) : St × Option Int :=
  match beginCheck s.seen f with
  | (c1, some l) => ({ s with seen := c1 }, some l)
  | (c1, none) =>
    match getLoggingLevel s.cfg (some f) with
    | (c, some l) => ({ s with cfg := c, seen := endCheck c1 f l }, some l)
    | (c, none) => ({ s with cfg := c, seen := c1 }, none)

/-- The last step: the level of `Mutex.cpp` (`Logger.cpp:287, 320`); `false` is an exception. -/
def setMutexLevel (s : St) : St × Bool :=
  match fileLevel s (lit "Mutex.cpp") with
  | (s1, some l) => ({ s1 with mutexLevel := l }, true)
  | (s1, none) => (s1, false)

/-- `gLogInit` (`Logger.cpp:292-321`); `cmd` is `gCmdName`.  Left out: `gPid`, the line written first, and `openlog`. -/
def gLogInit (can : Str → Bool) (cmd : Str) (level : Option Str) (s : St) : St × Bool :=
  let s := setLevel level s
  match getStr s.cfg (lit "Log.File") with
  | (c, none) => ({ s with cfg := c }, false)
  | (c, some str) =>
    let s := { s with cfg := c }
    setMutexLevel (if s.file = none ∧ str ≠ [] ∧ allowed cmd ∧ (cText str).length > 3 then openFile can s (cText str) else s)

/-- `gLogInitWithFile` (`Logger.cpp:266-288`); `path = none` is a null pointer. -/
def gLogInitWithFile (can : Str → Bool) (level path : Option Str) (s : St) : St × Bool :=
  let s := setLevel level s
  setMutexLevel (match path with
    | some p => if s.file = none ∧ cText p ≠ [] then openFile can s (cText p) else s
    | none => s)

/-- A call. -/
inductive Call
  | init (can : Str → Bool) (cmd : Str) (level : Option Str)
  | withFile (can : Str → Bool) (level path : Option Str)
  | config (c : Table) (seen : LevelCache)

/-- A call; `config`: anything happens to the configuration and to the levels kept. -/
def call (s : St) : Call → St
  | .init can cmd level => (gLogInit can cmd level s).1
  | .withFile can level path => (gLogInitWithFile can level path s).1
  | .config c seen => { s with cfg := c, seen := seen }

/-- `groupNameToIndex` (`Logger.cpp:334-340`). -/
def groupScan (name : Str) : List Str → Nat → Nat
  | [], g => g
  | n :: l, g => if upper n = upper name then g else groupScan name l (g + 1)

/-- `groupNameToIndex` with `mGroupNames` (`Logger.cpp:334-345`). -/
def groupNameToIndex (name : Str) : Nat := groupScan name groupNames 0

/-- `LogGroupInit` (`Logger.cpp:347-364`): the levels, all 0, or a failed assertion. -/
def logGroupInit (names : List Str) : Outcome (List (Int × Int)) :=
  if names.take 5 = [lit "Control", lit "SIP", lit "GSM", lit "GPRS", lit "Layer2"] ∧ names.length = 6 then .ok (List.replicate 6 (0, 0)) else .assertFail

/-! ### Proof -/

theorem setMutexLevel_file (s : St) : (setMutexLevel s).1.file = s.file ∧ (setMutexLevel s).1.opened = s.opened := by
  have h : (fileLevel s (lit "Mutex.cpp")).1.file = s.file ∧ (fileLevel s (lit "Mutex.cpp")).1.opened = s.opened := by
    unfold fileLevel
    split
    · exact ⟨rfl, rfl⟩
    · split <;> exact ⟨rfl, rfl⟩
  unfold setMutexLevel
  split
  · rename_i e; rw [e] at h; exact h
  · rename_i e; rw [e] at h; exact h

theorem setLevel_file (level : Option Str) (s : St) : (setLevel level s).file = s.file ∧ (setLevel level s).opened = s.opened := by
  cases level <;> exact ⟨rfl, rfl⟩

/-- What one call does to the file. -/
theorem call_file (s : St) (c : Call) : ((call s c).file = s.file ∧ (call s c).opened = s.opened) ∨ (s.file = none ∧ ∃ n, (call s c).file = some n ∧ (call s c).opened = s.opened ++ [n]) := by
  have ho : ∀ (can : Str → Bool) (t : St) (n : Str), t.file = none → ((openFile can t n).file = t.file ∧ (openFile can t n).opened = t.opened) ∨
      (t.file = none ∧ ∃ x, (openFile can t n).file = some x ∧ (openFile can t n).opened = t.opened ++ [x]) := by
    intro can t n h
    unfold openFile
    split
    · exact Or.inr ⟨h, n, rfl, rfl⟩
    · exact Or.inl ⟨rfl, rfl⟩
  cases c with
  | config c seen => exact Or.inl ⟨rfl, rfl⟩
  | init can cmd level =>
    obtain ⟨l1, l2⟩ := setLevel_file level s
    show (((gLogInit can cmd level s).1.file = s.file ∧ _)) ∨ _
    rw [show call s (.init can cmd level) = (gLogInit can cmd level s).1 from rfl]
    unfold gLogInit
    simp only
    split
    · exact Or.inl ⟨l1, l2⟩
    · rename_i c str _
      obtain ⟨m1, m2⟩ := setMutexLevel_file (if ({ setLevel level s with cfg := c } : St).file = none ∧ str ≠ [] ∧ allowed cmd = true ∧ (cText str).length > 3 then
        openFile can { setLevel level s with cfg := c } (cText str) else { setLevel level s with cfg := c })
      rw [m1, m2]
      split
      · rename_i h
        have := ho can { setLevel level s with cfg := c } (cText str) h.1
        rw [show ({ setLevel level s with cfg := c } : St).file = s.file from l1, show ({ setLevel level s with cfg := c } : St).opened = s.opened from l2] at this
        exact this
      · exact Or.inl ⟨l1, l2⟩
  | withFile can level path =>
    obtain ⟨l1, l2⟩ := setLevel_file level s
    rw [show call s (.withFile can level path) = (gLogInitWithFile can level path s).1 from rfl]
    unfold gLogInitWithFile
    simp only
    cases path with
    | none =>
      obtain ⟨m1, m2⟩ := setMutexLevel_file (setLevel level s)
      exact Or.inl ⟨m1.trans l1, m2.trans l2⟩
    | some p =>
      obtain ⟨m1, m2⟩ := setMutexLevel_file (if (setLevel level s).file = none ∧ cText p ≠ [] then openFile can (setLevel level s) (cText p) else setLevel level s)
      simp only
      rw [m1, m2]
      split
      · rename_i h
        have := ho can (setLevel level s) (cText p) h.1
        rw [l1, l2] at this
        exact this
      · exact Or.inl ⟨l1, l2⟩

/-- C111: whatever is called how often, and whatever happens to the configuration, at most one file is opened, and it stays the log file. -/
theorem C111_once (c : Table) (m : Int) (cs : List Call) : let s := cs.foldl call ⟨c, none, m, [], {}⟩
    (s.file = none ∧ s.opened = []) ∨ ∃ n, s.file = some n ∧ s.opened = [n] := by
  have key : ∀ (cs : List Call) (s : St), ((s.file = none ∧ s.opened = []) ∨ ∃ n, s.file = some n ∧ s.opened = [n]) →
      ((cs.foldl call s).file = none ∧ (cs.foldl call s).opened = []) ∨ ∃ n, (cs.foldl call s).file = some n ∧ (cs.foldl call s).opened = [n] := by
    intro cs
    induction cs with
    | nil => intro s h; exact h
    | cons x cs ih =>
      intro s h
      refine ih (call s x) ?_
      rcases call_file s x with ⟨e1, e2⟩ | ⟨e0, n, e1, e2⟩
      · rw [e1, e2]; exact h
      · rcases h with ⟨_, h2⟩ | ⟨n', h1, _⟩
        · exact Or.inr ⟨n, e1, by rw [e2, h2]; rfl⟩
        · rw [e0] at h1; cases h1
  exact key cs _ (Or.inl ⟨rfl, rfl⟩)

/-- A configuration with a log file. -/
def withLog (f : String) : Table := fresh [(lit "Log.File", some (lit f))] (fun k => if k = lit "Log.Level" then some ⟨lit "NOTICE", []⟩ else none) 0 1

example : (gLogInit (fun _ => true) (lit "OpenBTS:") none ⟨withLog "/var/log/bts", none, 0, [], {}⟩).1.file = some (lit "/var/log/bts") ∧
    (gLogInit (fun _ => true) (lit "transceiver:") none ⟨withLog "/var/log/bts", none, 0, [], {}⟩).1.file = none := by decide +kernel

theorem prefix_take {p name : Str} {x : Byte} (h : p.length ≤ 18) (hx : x ∉ p) : p.isPrefixOf (name.take 18 ++ [x]) = true ↔ p <+: name := by
  rw [List.isPrefixOf_iff_prefix]
  constructor
  · intro hp
    have : p <+: name.take 18 := by
      rcases List.prefix_concat_iff.1 hp with e | e
      · exact absurd (by rw [e]; simp) hx
      · exact e
    exact this.trans (List.take_prefix _ _)
  · intro hp
    have : p <+: name.take 18 := by
      obtain ⟨t, rfl⟩ := hp
      rw [List.take_append]
      rw [List.take_of_length_le h]
      exact List.prefix_append _ _
    exact this.trans (List.prefix_append _ _)

/-- C111: the log file of the configuration is used by exactly those programs whose name begins with `Open`, `RMSC` or `RangeFinderGW`, however long the name is. -/
theorem C111_program (buf name b : Str) (hb : buf.length = 20) (h0 : (0 : Byte) ∉ name) (h : Builtin.setCmdName buf name = .ok b) :
    allowed (cText b) = true ↔ lit "Open" <+: name ∨ lit "RMSC" <+: name ∨ lit "RangeFinderGW" <+: name := by
  obtain ⟨b', e, _, ht⟩ := Builtin.C109_name buf name hb h0
  rw [h] at e
  cases e
  have : cText b = name.take 18 ++ lit ":" := ht
  rw [this]
  unfold allowed
  rw [Bool.or_eq_true, Bool.or_eq_true, or_assoc]
  rw [show lit ":" = [chr ':'] from rfl, prefix_take (by decide) (by decide), prefix_take (by decide) (by decide), prefix_take (by decide +kernel) (by decide +kernel)]

example : ∃ b, Builtin.setCmdName (List.replicate 20 0) (lit "RangeFinderGateway") = .ok b ∧ allowed (cText b) = false := ⟨_, rfl, by decide +kernel⟩

/-! #### Levels -/

/-- A configuration that agrees with ideal contents. -/
structure Good (m : Str → Option Str) (s : Table) : Prop where
  db : DbOk m s
  cache : CacheOk m s
  schema : CleanSchema s.schema

theorem Good.read {m : Str → Option Str} {s : Table} (h : Good m s) {k : Str} (hk : CleanKey k) : (lookup s k).2 = answer s.schema m k ∧ Good m (lookup s k).1 ∧ (lookup s k).1.schema = s.schema := by
  have h1 := (lookup_of_cacheOk hk h.db (cacheOk_age h.cache)).1
  have h2 := step_dbOk (op := .read k) h.schema hk h.db
  have h3 := step_cacheOk (op := .read k) h.schema hk h.db h.cache
  have hsch : (lookup s k).1.schema = s.schema := (lookup_db s k).2.1
  exact ⟨h1, ⟨h2.1, h3, by rw [hsch]; exact h.schema⟩, hsch⟩

theorem Good.set {m : Str → Option Str} {s : Table} (h : Good m s) {k v : Str} (hk : CleanKey k) (hv : CleanValue v) :
    Good (fun x => if x = k then some v else m x) (setStr s k v).1 ∧ (setStr s k v).1.schema = s.schema := by
  have h2 := step_dbOk (op := .set k v) h.schema ⟨hk, hv⟩ h.db
  have h3 := step_cacheOk (op := .set k v) h.schema ⟨hk, hv⟩ h.db h.cache
  exact ⟨⟨h2.1, h3, by show CleanSchema (step s (.set k v)).schema; rw [h2.2]; exact h.schema⟩, h2.2⟩

theorem Good.level {m : Str → Option Str} {s : Table} (h : Good m s) {v : Str} {l : Int} (hl : answer s.schema m (lit "Log.Level") = some v) (hv : (v, l) ∈ Spec.levels) :
    ∃ t, lookupLevel s (lit "Log.Level") = (t, some l) ∧ Good m t ∧ t.schema = s.schema := by
  obtain ⟨e1, e2, e3⟩ := h.read (k := lit "Log.Level") (by decide +kernel)
  obtain ⟨h1, h2⟩ := (C66_names v l).2 hv
  refine ⟨(lookup s (lit "Log.Level")).1, ?_, e2, e3⟩
  unfold lookupLevel getStr
  have hp : lookup s (lit "Log.Level") = ((lookup s (lit "Log.Level")).1, some v) := Prod.ext rfl (e1.trans hl)
  rw [hp]
  simp only [lookupLevel2]
  rw [if_neg (by rw [h1]; exact h2), h1]

theorem Good.fileLevel {m : Str → Option Str} {s : Table} (h : Good m s) {f v : Str} {l : Int} (hf : CleanKey (lit "Log.Level." ++ f))
    (hn : answer s.schema m (lit "Log.Level." ++ f) = none ∨ answer s.schema m (lit "Log.Level." ++ f) = some []) (hl : answer s.schema m (lit "Log.Level") = some v) (hv : (v, l) ∈ Spec.levels) :
    ∃ t, getLoggingLevel s (some f) = (t, some l) ∧ Good m t ∧ t.schema = s.schema := by
  obtain ⟨a1, a2, a3⟩ := h.read hf
  rcases hn with hn | hn
  · have hd : defines s (lit "Log.Level." ++ f) = ((lookup s (lit "Log.Level." ++ f)).1, false) := by
      unfold defines
      rw [a1, hn]
      rfl
    obtain ⟨t, e, g, es⟩ := a2.level (by rw [a3]; exact hl) hv
    refine ⟨t, ?_, g, es.trans a3⟩
    unfold getLoggingLevel
    simp only
    rw [hd]
    exact e
  · obtain ⟨b1, b2, b3⟩ := a2.read hf
    have hd : defines s (lit "Log.Level." ++ f) = ((lookup s (lit "Log.Level." ++ f)).1, true) := by
      unfold defines
      rw [a1, hn]
      rfl
    obtain ⟨t, e, g, es⟩ := b2.level (by rw [b3, a3]; exact hl) hv
    refine ⟨t, ?_, g, es.trans (b3.trans a3)⟩
    unfold getLoggingLevel
    simp only
    rw [hd]
    have hp : getStr (lookup s (lit "Log.Level." ++ f)).1 (lit "Log.Level." ++ f) = ((lookup (lookup s (lit "Log.Level." ++ f)).1 (lit "Log.Level." ++ f)).1, some []) :=
      Prod.ext rfl (b1.trans (by rw [a3]; exact hn))
    simp only [hp]
    exact e

/-- A level not in force any more or not kept. -/
theorem fileLevel_new {s : St} {f : Str} {t : Table} {n : Int} (h : 1000 < s.seen.count ∨ s.seen.cache (Config.hash f) = none) (e : getLoggingLevel s.cfg (some f) = (t, some n)) :
    ∃ seen, fileLevel s f = ({ s with cfg := t, seen := seen }, some n) ∧
      ∀ k, (1000 < s.seen.count ∨ s.seen.cache k = none) → seen.count ≤ 1001 ∧ (seen.cache k = none ∨ seen.cache k = some n) := by
  have hb : (beginCheck s.seen f).2 = none := by
    unfold beginCheck
    simp only
    by_cases hc : s.seen.count > 1000
    · rw [if_pos hc]
    · rw [if_neg hc]; exact h.resolve_left hc
  have hc : ∀ k, (1000 < s.seen.count ∨ s.seen.cache k = none) → (beginCheck s.seen f).1.cache k = none ∧ (beginCheck s.seen f).1.count ≤ 1001 := by
    intro k hk
    unfold beginCheck
    simp only
    by_cases hc : s.seen.count > 1000
    · rw [if_pos hc]; exact ⟨rfl, by decide⟩
    · rw [if_neg hc]; exact ⟨hk.resolve_left hc, by omega⟩
  refine ⟨endCheck (beginCheck s.seen f).1 f n, ?_, ?_⟩
  · unfold fileLevel
    have hbc : beginCheck s.seen f = ((beginCheck s.seen f).1, none) := Prod.ext rfl hb
    rw [hbc]
    simp only [e]
  · intro k hk
    obtain ⟨h1, h2⟩ := hc k hk
    refine ⟨h2, ?_⟩
    unfold endCheck
    simp only
    split
    · rw [h1]; exact Or.inr rfl
    · exact Or.inl h1

/-- C111, partial: starting the logger with the name of a level makes it the level of every file without level of its own, also of `Mutex.cpp`, and stores it in the database.
Missing: levels that are not names of levels, a level of `Mutex.cpp`, and files whose level is kept from an earlier check (see `C111_kept_refuted`). -/
theorem C111_level_partial (db : Db) (schema : Str → Option Key) (last now : Int) (ops : List Op) (hs : CleanSchema schema) (hc : ∀ op ∈ ops, CleanOp schema op)
    (level : Str) (n : Int) (hv : (level, n) ∈ Spec.levels) (hfile : answer schema (idealRun (contents db) ops) (lit "Log.File") ≠ none)
    (hm : answer schema (idealRun (contents db) ops) (lit "Log.Level.Mutex.cpp") = none ∨ answer schema (idealRun (contents db) ops) (lit "Log.Level.Mutex.cpp") = some [])
    (can : Str → Bool) (cmd : Str) (file : Option Str) (ml : Int) (opened : List Str) (seen : LevelCache) (hk : 1000 < seen.count ∨ seen.cache (Config.hash (lit "Mutex.cpp")) = none) :
    ∃ s', gLogInit can cmd (some level) ⟨run (fresh db schema last now) ops, file, ml, opened, seen⟩ = (s', true) ∧ s'.mutexLevel = n ∧ contents s'.cfg.db (lit "Log.Level") = some level ∧
      ∀ f, CleanKey (lit "Log.Level." ++ f) → (answer schema (idealRun (contents db) ops) (lit "Log.Level." ++ f) = none ∨ answer schema (idealRun (contents db) ops) (lit "Log.Level." ++ f) = some []) →
        (1000 < seen.count ∨ seen.cache (Config.hash f) = none) → (fileLevel s' f).2 = some n := by
  obtain ⟨r1, r2, r3⟩ := run_ok (m := contents db) (s := fresh db schema last now) hs hc (fun _ _ => rfl) (by intro x r _ hr; cases hr)
  let c0 := run (fresh db schema last now) ops
  let m := idealRun (contents db) ops
  have hsch : c0.schema = schema := r3
  have g0 : Good m c0 := ⟨r1, r2, by rw [hsch]; exact hs⟩
  have hclean : CleanValue level := by
    simp only [Spec.levels, List.mem_cons, List.not_mem_nil, or_false, Prod.mk.injEq] at hv
    rcases hv with ⟨rfl, -⟩ | ⟨rfl, -⟩ | ⟨rfl, -⟩ | ⟨rfl, -⟩ | ⟨rfl, -⟩ | ⟨rfl, -⟩ | ⟨rfl, -⟩ | ⟨rfl, -⟩ | ⟨rfl, -⟩ | ⟨rfl, -⟩ | ⟨rfl, -⟩ | ⟨rfl, -⟩ | ⟨rfl, -⟩ <;> decide +kernel
  obtain ⟨g1, s1⟩ := g0.set (k := lit "Log.Level") (by decide +kernel) hclean
  let m1 : Str → Option Str := fun x => if x = lit "Log.Level" then some level else m x
  have hsame : ∀ k, k ≠ lit "Log.Level" → answer schema m1 k = answer schema m k := by
    intro k hk
    show (if k = lit "Log.Level" then some level else m k).or _ = (m k).or _
    rw [if_neg hk]
  have hlev : answer schema m1 (lit "Log.Level") = some level := by
    show (if lit "Log.Level" = lit "Log.Level" then some level else m _).or _ = _
    rw [if_pos rfl]; rfl
  have hdot : ∀ f, lit "Log.Level." ++ f ≠ lit "Log.Level" := by
    intro f e
    have := congrArg List.length e
    rw [List.length_append, show (lit "Log.Level.").length = 10 from by decide +kernel, show (lit "Log.Level").length = 9 from by decide +kernel] at this
    omega
  obtain ⟨f1, g2, s2⟩ := g1.read (k := lit "Log.File") (by decide +kernel)
  rw [s1, hsch] at s2
  obtain ⟨str, hstr⟩ : ∃ str, answer schema m (lit "Log.File") = some str := Option.ne_none_iff_exists'.1 hfile
  have f2 : (lookup (setStr c0 (lit "Log.Level") level).1 (lit "Log.File")).2 = some str := by
    rw [f1, s1, hsch]
    exact (hsame (lit "Log.File") (by decide +kernel)).trans hstr
  have hm' : answer (lookup (setStr c0 (lit "Log.Level") level).1 (lit "Log.File")).1.schema m1 (lit "Log.Level." ++ lit "Mutex.cpp") = none ∨
      answer (lookup (setStr c0 (lit "Log.Level") level).1 (lit "Log.File")).1.schema m1 (lit "Log.Level." ++ lit "Mutex.cpp") = some [] := by
    rw [s2, hsame _ (hdot _)]
    exact hm
  obtain ⟨t, e, g3, s3⟩ := g2.fileLevel (f := lit "Mutex.cpp") (v := level) (l := n) (by decide +kernel) hm' (by rw [s2]; exact hlev) hv
  have hp : getStr (setStr c0 (lit "Log.Level") level).1 (lit "Log.File") = ((lookup (setStr c0 (lit "Log.Level") level).1 (lit "Log.File")).1, some str) := Prod.ext rfl f2
  have hcfg : ∀ x : St, x.cfg = (lookup (setStr c0 (lit "Log.Level") level).1 (lit "Log.File")).1 → x.seen = seen →
      ∃ s', setMutexLevel x = (s', true) ∧ s'.cfg = t ∧ s'.mutexLevel = n ∧ ∀ k, (1000 < seen.count ∨ seen.cache k = none) → s'.seen.count ≤ 1001 ∧ (s'.seen.cache k = none ∨ s'.seen.cache k = some n) := by
    intro x hx hxs
    obtain ⟨sn, e1, e2⟩ := fileLevel_new (s := x) (f := lit "Mutex.cpp") (t := t) (n := n) (by rw [hxs]; exact hk) (by rw [hx, e])
    rw [hxs] at e2
    exact ⟨{ x with cfg := t, seen := sn, mutexLevel := n }, by unfold setMutexLevel; rw [e1], rfl, rfl, e2⟩
  have hopen : ∀ x : St, ∀ nm, (openFile can x nm).cfg = x.cfg ∧ (openFile can x nm).seen = x.seen := by
    intro x nm; unfold openFile; split <;> exact ⟨rfl, rfl⟩
  have hfin : ∃ s', gLogInit can cmd (some level) ⟨c0, file, ml, opened, seen⟩ = (s', true) ∧ s'.cfg = t ∧ s'.mutexLevel = n ∧
      ∀ k, (1000 < seen.count ∨ seen.cache k = none) → s'.seen.count ≤ 1001 ∧ (s'.seen.cache k = none ∨ s'.seen.cache k = some n) := by
    unfold gLogInit setLevel
    simp only [hp]
    split
    · exact hcfg _ (hopen _ _).1 (hopen _ _).2
    · exact hcfg _ rfl rfl
  obtain ⟨s', q1, q2, q3, q4⟩ := hfin
  refine ⟨s', q1, q3, ?_, ?_⟩
  · rw [q2, g3.db _ (by decide +kernel)]
    exact if_pos rfl
  · intro f hf hn hkf
    have hst : t.schema = schema := s3.trans s2
    have hn' : answer t.schema m1 (lit "Log.Level." ++ f) = none ∨ answer t.schema m1 (lit "Log.Level." ++ f) = some [] := by
      rw [hst, hsame _ (hdot _)]
      exact hn
    obtain ⟨u, e', -, -⟩ := g3.fileLevel hf hn' (by rw [hst]; exact hlev) hv
    rcases (q4 _ hkf).2 with h | h
    · obtain ⟨_, e1, -⟩ := fileLevel_new (s := s') (f := f) (t := u) (n := n) (.inr h) (by rw [q2, e'])
      rw [e1]
    · by_cases hc : s'.seen.count > 1000
      · obtain ⟨_, e1, -⟩ := fileLevel_new (s := s') (f := f) (t := u) (n := n) (.inl hc) (by rw [q2, e'])
        rw [e1]
      · have hb : beginCheck s'.seen f = ({ s'.seen with count := s'.seen.count + 1 }, some n) := by
          unfold beginCheck
          simp only [if_neg hc, h]
        unfold fileLevel
        rw [hb]

example : (gLogInit (fun _ => true) (lit "OpenBTS:") (some (lit "DEBUG")) ⟨withLog "/var/log/bts", none, 0, [], {}⟩).1.mutexLevel = 7 := by decide +kernel

/-- C111 is refuted for texts that are not names of levels: they are stored, and then replaced by the default, so that the level set before is lost. -/
theorem C111_unknown_refuted : let s : St := ⟨(setStr (withLog "/var/log/bts") (lit "Log.Level") (lit "ERR")).1, none, 0, [], {}⟩
    let s' := (gLogInit (fun _ => true) (lit "OpenBTS:") (some (lit "LOUD")) s).1
    (getLoggingLevel s.cfg none).2 = some 3 ∧ s'.mutexLevel = 5 ∧ contents s'.cfg.db (lit "Log.Level") = some (lit "NOTICE") := by decide +kernel

/-- C111 is refuted for the level of `Mutex.cpp`: later changes of the configuration are not noticed. -/
theorem C111_stale_refuted : let s := (gLogInit (fun _ => true) (lit "OpenBTS:") (some (lit "ERR")) ⟨withLog "/var/log/bts", none, 0, [], {}⟩).1
    let s' := call s (.config (setStr s.cfg (lit "Log.Level") (lit "DEBUG")).1 {})
    (getLoggingLevel s'.cfg (some (lit "Mutex.cpp"))).2 = some 7 ∧ s'.mutexLevel = 3 := by decide +kernel

/-- C111 is refuted for files whose level is kept: a file checked before, and `Mutex.cpp` after an earlier start, go on with the level before, though the configuration has the new one. -/
theorem C111_kept_refuted : let s := (fileLevel (gLogInit (fun _ => true) (lit "OpenBTS:") (some (lit "ERR")) ⟨withLog "/var/log/bts", none, 0, [], {}⟩).1 (lit "GSM.cpp")).1
    let s' := (gLogInit (fun _ => true) (lit "OpenBTS:") (some (lit "DEBUG")) s).1
    (getLoggingLevel s'.cfg none).2 = some 7 ∧ s'.mutexLevel = 3 ∧ (fileLevel s' (lit "GSM.cpp")).2 = some 3 ∧ (fileLevel s' (lit "SMS.cpp")).2 = some 7 := by decide +kernel

/-- C111 is refuted for short names: a log file of up to three characters is silently not used, and without `Log.File` the start is an exception. -/
theorem C111_short_refuted : (gLogInit (fun _ => true) (lit "OpenBTS:") none ⟨withLog "log", none, 0, [], {}⟩).1.file = none ∧
    (gLogInit (fun _ => true) (lit "OpenBTS:") none ⟨fresh [] (fun _ => none) 0 1, none, 0, [], {}⟩).2 = false := by decide +kernel

/-- C111 is refuted for configurations without `Log.Level`: with a file name given the file is opened, and then the start is an exception; with the level given it is not. -/
theorem C111_no_level_refuted : (gLogInitWithFile (fun _ => true) none (some (lit "/var/log/bts")) ⟨fresh [] (fun _ => none) 0 1, none, 0, [], {}⟩).2 = false ∧
    (gLogInitWithFile (fun _ => true) none (some (lit "/var/log/bts")) ⟨fresh [] (fun _ => none) 0 1, none, 0, [], {}⟩).1.opened = [lit "/var/log/bts"] ∧
    (gLogInitWithFile (fun _ => true) (some (lit "ERR")) (some (lit "/var/log/bts")) ⟨fresh [] (fun _ => none) 0 1, none, 0, [], {}⟩).2 = true := by decide +kernel

/-! #### Groups -/

/-- C111: the index of a name of a group, in any case of letters; 6 for everything else. -/
theorem C111_groups (name : Str) (g : Nat) (hg : g < 6) : (groupNameToIndex name = g ↔ (groupNames[g]?).map upper = some (upper name)) ∧
    (groupNameToIndex name = 6 ↔ ∀ n ∈ groupNames, upper n ≠ upper name) := by
  have hu : groupNames.map upper = [lit "CONTROL", lit "SIP", lit "GSM", lit "GPRS", lit "LAYER2", lit "SMS"] := by decide +kernel
  have hl : ∀ (l : List Str) (k : Nat), groupScan name l k = k + (l.map upper).idxOf (upper name) := by
    intro l
    induction l with
    | nil => intro k; rfl
    | cons x l ih =>
      intro k
      rw [groupScan, List.map_cons, List.idxOf_cons]
      by_cases e : upper x = upper name
      · rw [if_pos e]; simp [e]
      · rw [if_neg e, ih]
        have : (upper x == upper name) = false := by simpa using e
        rw [this]; simp; omega
  have hi : groupNameToIndex name = (groupNames.map upper).idxOf (upper name) := by
    unfold groupNameToIndex
    rw [hl]; omega
  have hlen : (groupNames.map upper).length = 6 := by decide
  have hnd : (groupNames.map upper).Nodup := by rw [hu]; decide +kernel
  rw [hi]
  constructor
  · rw [← List.getElem?_map]
    constructor
    · intro h
      rw [← h]
      have hlt : (groupNames.map upper).idxOf (upper name) < (groupNames.map upper).length := by rw [hlen, h]; exact hg
      rw [List.getElem?_eq_getElem hlt, List.getElem_idxOf hlt]
    · intro h
      obtain ⟨hlt, he⟩ := List.getElem?_eq_some_iff.1 h
      rw [← he]
      exact hnd.idxOf_getElem g hlt
  · constructor
    · intro h n hn e
      have : upper name ∈ groupNames.map upper := e ▸ List.mem_map_of_mem hn
      have := List.idxOf_lt_length_of_mem this
      omega
    · intro h
      have : upper name ∉ groupNames.map upper := by
        intro hm
        obtain ⟨n, hn, e⟩ := List.mem_map.1 hm
        exact h n hn e
      rw [List.idxOf_eq_length this, hlen]

example : groupNameToIndex (lit "gprs") = 3 ∧ groupNameToIndex (lit "GPR") = 6 := by decide +kernel

/-- C111: the checks on the names of groups never fail; a table with other names or another number of names would have been noticed. -/
theorem C111_group_init : logGroupInit groupNames = .ok (List.replicate 6 (0, 0)) ∧
    ∀ names, logGroupInit names ≠ .assertFail → names.length = 6 ∧ ∀ i < 5, names[i]? = groupNames[i]? := by
  refine ⟨by decide +kernel, fun names h => ?_⟩
  simp only [logGroupInit] at h
  split at h
  · rename_i hc
    refine ⟨hc.2, fun i hi => ?_⟩
    have e : (names.take 5)[i]? = (groupNames.take 5)[i]? := by rw [hc.1]; rfl
    simpa [List.getElem?_take, hi] using e
  · exact absurd rfl h

end Verif.Logger.Init
