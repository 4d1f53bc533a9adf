import Verif.Logger.Model
import Verif.Core.Outcome

/-
Property C108: what becomes of a log record (`Logger.cpp:208-239,257-262`).

The text of a record is what `Log::get` and the statement put into the stream.  The destructor writes it out; threads destroy records at the same time.  Every call of an output function is one
atomic action of the thread.  `gLogToConsole` and `gLogToFile` are fixed during the execution.  Texts are shorter than 2^31 characters.
-/

namespace Verif.Logger.Record
open Verif Verif.Config

/-- A record: its priority and the text of its stream. -/
structure Rec where
  prio : Nat
  text : Str
deriving DecidableEq, Repr

/-- `Log::get` and what the statement adds (`Logger.cpp:257-262`). -/
def make (prio : Int) (msg : Str) : Outcome Rec :=
  if 8 ≤ prio then .assertFail
  else if prio < 0 then .ub
  else .ok ⟨prio.toNat, levelNames.getD prio.toNat [] ++ lit " " ++ msg⟩

/-- The text as a C string. -/
def cstr (s : Str) : Str := s.takeWhile (· ≠ 0)

/-- `neednl` (`Logger.cpp:223`). -/
def neednl (s : Str) : Bool := s.getLast? ≠ some (chr '\n')

/-- Actions of a thread. -/
inductive Act
  | alarm (s : Str)
  | err (s : Str)
  | sys (prio : Nat) (s : Str)
  | lock
  | file (s : Str)
  | unlock
deriving DecidableEq, Repr

/-- The settings: `sLoggerInited`, `gLogToConsole`, and whether `gLogToFile` is open. -/
structure Env where
  inited : Bool
  console : Bool
  toFile : Bool

/-- `Log::~Log` of a record (`Logger.cpp:208-239`). -/
def acts (env : Env) (r : Rec) : List Act :=
  (if r.prio ≤ 2 then (if env.inited then [.alarm (cstr r.text)] else []) ++ [.err r.text, .err (lit "\n")] else []) ++
  [.sys r.prio (cstr r.text)] ++
  (if env.console ∨ env.toFile then
    [.lock] ++ (if env.console then .err r.text :: (if neednl r.text then [.err (lit "\n")] else []) else []) ++
    (if env.toFile then .file (cstr r.text) :: (if neednl r.text then [.file (lit "\n")] else []) else []) ++ [.unlock] else [])

/-- What the threads still have to do, and what was written. -/
structure St where
  todo : Nat → List Act
  owner : Option Nat
  alarms : List Str
  err : Str
  sys : List (Nat × Str)
  file : Str

/-- An action of thread `i`; `none`: it must wait for the lock. -/
def step (s : St) (i : Nat) : Option St :=
  match s.todo i with
  | [] => none
  | a :: t =>
    let s' := { s with todo := fun j => if j = i then t else s.todo j }
    match a with
    | .alarm x => some { s' with alarms := s.alarms ++ [x] }
    | .err x => some { s' with err := s.err ++ x }
    | .sys p x => some { s' with sys := s.sys ++ [(p, x)] }
    | .lock => if s.owner = none then some { s' with owner := some i } else none
    | .file x => some { s' with file := s.file ++ x }
    | .unlock => some { s' with owner := none }

/-- The threads destroy the records given, in order. -/
def start (env : Env) (prog : Nat → List Rec) : St := ⟨fun i => (prog i).flatMap (acts env), none, [], [], [], []⟩

/-- Executions: any thread makes the next step. -/
inductive Exec : St → St → Prop
  | refl {s : St} : Exec s s
  | step {s t u : St} {i : Nat} : Exec s t → step t i = some u → Exec s u

/-! ### Specification -/

/-- The line of a record in the file. -/
def lineOf (r : Rec) : Str := cstr r.text ++ (if neednl r.text then lit "\n" else [])

/-- The records, each with its thread, contain the records of every thread in their order and nothing else. -/
def Interleaves {α : Type} (l : List (Nat × α)) (prog : Nat → List α) : Prop := ∀ i, (l.filter fun p => p.1 = i).map (·.2) = prog i

/-! ### Proof -/

/-- What the actions write to the file. -/
def fileOut : List Act → Str
  | [] => []
  | .file x :: t => x ++ fileOut t
  | _ :: t => fileOut t

def quiet : Act → Bool
  | .lock => false
  | .unlock => false
  | .file _ => false
  | _ => true

def inner : Act → Bool
  | .lock => false
  | .unlock => false
  | _ => true

/-- The actions still hold the locked sections of the records. -/
inductive Rem : List Act → List Rec → Prop
  | nil : Rem [] []
  | quiet {a : Act} {t : List Act} {rs : List Rec} : quiet a = true → Rem t rs → Rem (a :: t) rs
  | sec {m t : List Act} {r : Rec} {rs : List Rec} : (∀ a ∈ m, inner a = true) → fileOut m = lineOf r → Rem t rs → Rem (.lock :: (m ++ .unlock :: t)) (r :: rs)

theorem rem_quiet {l t : List Act} {rs : List Rec} (h : ∀ a ∈ l, quiet a = true) (ht : Rem t rs) : Rem (l ++ t) rs := by
  induction l with
  | nil => exact ht
  | cons a l ih => exact .quiet (h a (by simp)) (ih fun b hb => h b (by simp [hb]))

theorem rem_acts {env : Env} (hf : env.toFile = true) (r : Rec) {t : List Act} {rs : List Rec} (ht : Rem t rs) : Rem (acts env r ++ t) (r :: rs) := by
  unfold acts
  rw [if_pos (Or.inr hf), hf]
  simp only [if_true, List.append_assoc]
  refine rem_quiet ?_ (rem_quiet (by simp [quiet]) ?_)
  · intro a ha
    split at ha
    · split at ha <;> simp at ha <;> rcases ha with rfl | rfl | rfl <;> rfl
    · simp at ha
  · have := Rem.sec (m := (if env.console = true then Act.err r.text :: (if neednl r.text then [.err (lit "\n")] else []) else []) ++
      (.file (cstr r.text) :: (if neednl r.text then [.file (lit "\n")] else []))) (r := r) ?_ ?_ ht
    · simpa using this
    · intro a ha
      rcases List.mem_append.1 ha with ha | ha
      · split at ha
        · split at ha <;> simp at ha <;> rcases ha with rfl | rfl <;> rfl
        · simp at ha
      · split at ha <;> simp at ha <;> rcases ha with rfl | rfl <;> rfl
    · unfold lineOf
      cases env.console <;> cases neednl r.text <;> simp [fileOut]

theorem rem_start {env : Env} (hf : env.toFile = true) (rs : List Rec) : Rem (rs.flatMap (acts env)) rs := by
  induction rs with
  | nil => exact .nil
  | cons r rs ih => rw [List.flatMap_cons]; exact rem_acts hf r ih

/-- The invariant: the records written, with their threads, and what the owner of the lock still writes. -/
structure Inv (prog : Nat → List Rec) (s : St) (l : List (Nat × Rec)) : Prop where
  free : s.owner = none → s.file = (l.map (·.2)).flatMap lineOf ∧ ∀ i, ∃ rs, Rem (s.todo i) rs ∧ (l.filter fun p => p.1 = i).map (·.2) ++ rs = prog i
  held : ∀ k, s.owner = some k → ∃ m t, ∃ r : Rec, ∃ rs, s.todo k = m ++ .unlock :: t ∧ (∀ a ∈ m, inner a = true) ∧ Rem t rs ∧
    s.file ++ fileOut m = ((l ++ [(k, r)]).map (·.2)).flatMap lineOf ∧ ((l ++ [(k, r)]).filter fun p => p.1 = k).map (·.2) ++ rs = prog k ∧
    ∀ i, i ≠ k → ∃ rs, Rem (s.todo i) rs ∧ (l.filter fun p => p.1 = i).map (·.2) ++ rs = prog i

theorem rem_cons {a : Act} {t : List Act} {rs : List Rec} (h : Rem (a :: t) rs) :
    (quiet a = true ∧ Rem t rs) ∨ ∃ m u r qs, a = .lock ∧ t = m ++ .unlock :: u ∧ (∀ a ∈ m, inner a = true) ∧ fileOut m = lineOf r ∧ Rem u qs ∧ rs = r :: qs := by
  cases h with
  | quiet h1 h2 => exact Or.inl ⟨h1, h2⟩
  | sec h1 h2 h3 => exact Or.inr ⟨_, _, _, _, rfl, rfl, h1, h2, h3, rfl⟩

theorem filter_other {l : List (Nat × Rec)} {i k : Nat} (r : Rec) (h : i ≠ k) : ((l ++ [(k, r)]).filter fun p : Nat × Rec => p.1 = i).map Prod.snd = (l.filter fun p : Nat × Rec => p.1 = i).map Prod.snd := by
  rw [List.filter_append, List.filter_cons_of_neg (by simpa using fun e : k = i => h e.symm)]
  simp

theorem step_inv {prog : Nat → List Rec} {s s' : St} {l : List (Nat × Rec)} {i : Nat} (h : Inv prog s l) (hs : step s i = some s') : ∃ l', Inv prog s' l' := by
  unfold step at hs
  split at hs
  · cases hs
  rename_i a t ht
  cases ho : s.owner with
  | none =>
    obtain ⟨hfile, hall⟩ := h.free ho
    obtain ⟨rs, hrem, hrs⟩ := hall i
    rw [ht] at hrem
    rcases rem_cons hrem with ⟨hq, hrem'⟩ | ⟨m, u, r, qs, rfl, rfl, hm, hout, hrem', rfl⟩
    · -- an action outside the lock
      have hnew : ∀ j, ∃ rs, Rem (if j = i then t else s.todo j) rs ∧ (l.filter fun p => p.1 = j).map (·.2) ++ rs = prog j := by
        intro j
        by_cases hj : j = i
        · subst hj; exact ⟨rs, by rw [if_pos rfl]; exact hrem', hrs⟩
        · rw [if_neg hj]; exact hall j
      refine ⟨l, ?_⟩
      cases a <;> simp [quiet] at hq <;> simp only [Option.some.injEq] at hs <;> subst hs
      all_goals 
          refine ⟨fun _ => ⟨hfile, hnew⟩, fun k hk => ?_⟩
          have hk : s.owner = some k := hk
          rw [ho] at hk
          cases hk
    · -- taking the lock
      simp only [ho, if_true, Option.some.injEq] at hs
      subst hs
      refine ⟨l, ⟨fun hn => by (cases hn), fun k hk => ?_⟩⟩
      have hk : some i = some k := hk
      injection hk with hk
      subst hk
      refine ⟨m, u, r, qs, by show (if i = i then _ else _) = _; rw [if_pos rfl], hm, hrem', ?_, ?_, fun j hj => ?_⟩
      · show s.file ++ fileOut m = _
        rw [hfile, hout]; simp
      · rw [List.filter_append, List.filter_cons_of_pos (by simp)]
        simpa using hrs
      · show ∃ rs, Rem (if j = i then _ else s.todo j) rs ∧ _
        rw [if_neg hj]; exact hall j
  | some k =>
    obtain ⟨m, u, r, rs, htk, hm, hrem, hfile, hrs, hall⟩ := h.held k ho
    by_cases hik : i = k
    · -- the owner
      subst hik
      rw [ht] at htk
      cases m with
      | nil =>
        injection htk with h1 h2
        subst h1; subst h2
        simp only [Option.some.injEq] at hs
        subst hs
        refine ⟨l ++ [(i, r)], ⟨fun _ => ⟨by simpa [fileOut] using hfile, fun j => ?_⟩, fun k hk => by cases hk⟩⟩
        show ∃ rs, Rem (if j = i then t else s.todo j) rs ∧ _
        by_cases hj : j = i
        · subst hj; exact ⟨rs, by rw [if_pos rfl]; exact hrem, hrs⟩
        · rw [if_neg hj, filter_other r hj]; exact hall j hj
      | cons b m =>
        injection htk with h1 h2
        subst h1; subst h2
        have hb := hm a (by simp)
        have hm' : ∀ a ∈ m, inner a = true := fun c hc => hm c (by simp [hc])
        have hnew : ∀ j, j ≠ i → ∃ rs, Rem (if j = i then m ++ Act.unlock :: u else s.todo j) rs ∧ (l.filter fun p => p.1 = j).map (·.2) ++ rs = prog j := by
          intro j hj
          rw [if_neg hj]; exact hall j hj
        refine ⟨l, ?_⟩
        cases a <;> simp [inner] at hb <;> simp only [Option.some.injEq] at hs <;> subst hs
        all_goals
          refine ⟨fun hn => by (have hn : s.owner = none := hn); rw [ho] at hn; exact (nomatch hn), fun k hk => ?_⟩
          have hk : s.owner = some k := hk
          rw [ho] at hk
          injection hk with hk
          subst hk
          refine ⟨m, u, r, rs, by show (if i = i then _ else _) = _; rw [if_pos rfl]; rfl, hm', hrem, ?_, hrs, hnew⟩
          simpa [fileOut] using hfile
    · -- another thread
      obtain ⟨rs', hrem', hrs'⟩ := hall i hik
      rw [ht] at hrem'
      rcases rem_cons hrem' with ⟨hq, hrem'⟩ | ⟨m', u', r', qs, rfl, -⟩
      · refine ⟨l, ?_⟩
        have hnew : ∀ j, j ≠ k → ∃ rs, Rem (if j = i then t else s.todo j) rs ∧ (l.filter fun p => p.1 = j).map (·.2) ++ rs = prog j := by
          intro j hjk
          by_cases hj : j = i
          · subst hj; exact ⟨rs', by rw [if_pos rfl]; exact hrem', hrs'⟩
          · rw [if_neg hj]; exact hall j hjk
        cases a <;> simp [quiet] at hq <;> simp only [Option.some.injEq] at hs <;> subst hs
        all_goals
          refine ⟨fun hn => by (have hn : s.owner = none := hn); rw [ho] at hn; exact (nomatch hn), fun k' hk => ?_⟩
          have hk : s.owner = some k' := hk
          rw [ho] at hk
          injection hk with hk
          subst hk
          exact ⟨m, u, r, rs, by show (if k = i then _ else s.todo k) = _; rw [if_neg (fun e => hik e.symm)]; exact htk, hm, hrem, hfile, hrs, hnew⟩
      · simp [ho] at hs

theorem exec_inv {env : Env} (hf : env.toFile = true) {prog : Nat → List Rec} {s : St} (h : Exec (start env prog) s) : ∃ l, Inv prog s l := by
  induction h with
  | refl =>
    exact ⟨[], ⟨fun _ => ⟨rfl, fun i => ⟨prog i, rem_start hf _, rfl⟩⟩, fun k hk => by cases hk⟩⟩
  | step _ h2 ih =>
    obtain ⟨l, hl⟩ := ih
    exact step_inv hl h2

/-- C108: when all threads have finished, however they were interleaved, the file consists of the lines of all records, none split or mixed, those of each thread in its order. -/
theorem C108_file (env : Env) (hf : env.toFile = true) (prog : Nat → List Rec) (s : St) (h : Exec (start env prog) s) (hd : ∀ i, s.todo i = []) :
    ∃ l, s.file = (l.map (·.2)).flatMap lineOf ∧ Interleaves l prog := by
  obtain ⟨l, hl⟩ := exec_inv hf h
  cases ho : s.owner with
  | none =>
    obtain ⟨h1, h2⟩ := hl.free ho
    refine ⟨l, h1, fun i => ?_⟩
    obtain ⟨rs, hrem, hrs⟩ := h2 i
    rw [hd i] at hrem
    cases hrem
    simpa using hrs
  | some k =>
    obtain ⟨m, u, r, rs, htk, -⟩ := hl.held k ho
    rw [hd k] at htk
    simp at htk

/-- Two threads, with console and file. -/
def two : Nat → List Rec := fun i => if i = 0 then [⟨6, lit "INFO a"⟩] else if i = 1 then [⟨3, lit "ERR b\n"⟩] else []

/-- A scheduler's choices. -/
def runs (s : St) : List Nat → Option St
  | [] => some s
  | i :: is => (step s i).bind fun t => runs t is

theorem exec_runs {s t u : St} {is : List Nat} (h : Exec s t) (hr : runs t is = some u) : Exec s u := by
  induction is generalizing t with
  | nil => simp only [runs, Option.some.injEq] at hr; subst hr; exact h
  | cons i is ih =>
    simp only [runs] at hr
    cases hs : step t i with
    | none => rw [hs] at hr; cases hr
    | some v => rw [hs] at hr; exact ih (h.step hs) hr

example : ((runs (start ⟨true, true, true⟩ two) [1, 0, 0, 0, 0, 0, 0, 0, 1, 1, 1, 1]).map fun s => (s.file, s.err, s.sys)) =
    some (lit "INFO a\nERR b\n", lit "INFO a\nERR b\n", [(3, lit "ERR b\n"), (6, lit "INFO a")]) := by decide +kernel
example : ((runs (start ⟨true, true, true⟩ two) [1, 0, 0, 1])).isNone := by decide +kernel

/-- The complete lines of a text; `cur` is the beginning of the first. -/
def linesFrom (cur : Str) : Str → List Str
  | [] => []
  | c :: s => if c = chr '\n' then cur :: linesFrom [] s else linesFrom (cur ++ [c]) s

/-- The complete lines of a text. -/
def linesOf (s : Str) : List Str := linesFrom [] s

theorem linesFrom_append : ∀ (cur a b : Str), chr '\n' ∉ a → linesFrom cur (a ++ chr '\n' :: b) = (cur ++ a) :: linesFrom [] b
  | cur, [], b, _ => by simp [linesFrom]
  | cur, c :: a, b, h => by
    have hc : ¬ c = chr '\n' := fun e => h (by simp [e])
    rw [List.cons_append, linesFrom, if_neg hc, linesFrom_append _ a b (fun e => h (by simp [e]))]
    simp

theorem linesOf_cons (a b : Str) (h : chr '\n' ∉ a) : linesOf (a ++ chr '\n' :: b) = a :: linesOf b := by
  simp [linesOf, linesFrom_append _ a b h]

theorem cstr_self {s : Str} (h : (0 : Byte) ∉ s) : cstr s = s :=
  by
  have : ∀ l : Str, (0 : Byte) ∉ l → cstr l = l := by
    intro l
    induction l with
    | nil => intro _; rfl
    | cons c l ih =>
      intro hl
      have hc : c ≠ 0 := fun e => hl (by simp [e])
      unfold cstr at ih ⊢
      rw [List.takeWhile_cons_of_pos (by simpa using hc), ih fun e => hl (List.mem_cons_of_mem _ e)]
  exact this s h

theorem neednl_of {s : Str} (h : chr '\n' ∉ s) : neednl s = true :=
  decide_eq_true fun e => h (List.mem_of_getLast? e)

/-- C108: if no text has a line end or a zero inside, the lines of the file are the texts of the records, one line for each. -/
theorem C108_lines (env : Env) (hf : env.toFile = true) (prog : Nat → List Rec) (hp : ∀ i, ∀ r ∈ prog i, chr '\n' ∉ r.text ∧ (0 : Byte) ∉ r.text) (s : St) (h : Exec (start env prog) s) (hd : ∀ i, s.todo i = []) :
    ∃ l, linesOf s.file = l.map (·.2.text) ∧ Interleaves l prog := by
  obtain ⟨l, h1, h2⟩ := C108_file env hf prog s h hd
  refine ⟨l, ?_, h2⟩
  have hl : ∀ p ∈ l, chr '\n' ∉ p.2.text ∧ (0 : Byte) ∉ p.2.text := by
    intro p hpl
    refine hp p.1 p.2 ?_
    rw [← h2 p.1]
    exact List.mem_map.2 ⟨p, List.mem_filter.2 ⟨hpl, by simp⟩, rfl⟩
  rw [h1]
  clear h1 h2
  induction l with
  | nil => rfl
  | cons p l ih =>
    obtain ⟨n1, n2⟩ := hl p (by simp)
    have e : lineOf p.2 = p.2.text ++ [chr '\n'] := by
      unfold lineOf
      rw [cstr_self n2, neednl_of n1]; rfl
    rw [List.map_cons, List.flatMap_cons, e, List.append_assoc]
    show linesOf (p.2.text ++ chr '\n' :: _) = _
    rw [linesOf_cons _ _ n1]
    exact congrArg _ (ih fun q hq => hl q (by simp [hq]))

example : linesOf (lit "INFO a\nERR b\nx") = [lit "INFO a", lit "ERR b"] := by decide

/-- C108: every record reaches the system log exactly once, with its priority and its text (as a C string), and the alarm list exactly if it is at least critical and the logger was initialised. -/
theorem C108_sys (env : Env) (r : Rec) : ((acts env r).filterMap fun a => match a with | .sys p x => some (p, x) | _ => none) = [(r.prio, cstr r.text)] ∧
    ((acts env r).filterMap fun a => match a with | .alarm x => some x | _ => none) = if r.prio ≤ 2 ∧ env.inited then [cstr r.text] else [] := by
  unfold acts
  obtain ⟨i, c, f⟩ := env
  by_cases hp : r.prio ≤ 2 <;> cases i <;> cases c <;> cases f <;> cases neednl r.text <;> simp [hp]

example : (make 2 (lit "x")) = .ok ⟨2, lit "CRIT x"⟩ := by decide

/-- C108: the text of a record is the name of its level, a blank and the message, for the eight levels; the message can be got back. -/
theorem C108_text (prio : Int) (msg : Str) (h0 : 0 ≤ prio) (h1 : prio < 8) : ∃ r name, make prio msg = .ok r ∧ r.text = name ++ lit " " ++ msg ∧ chr ' ' ∉ name ∧ (name, prio) ∈
    [(lit "EMERG", (0 : Int)), (lit "ALERT", 1), (lit "CRIT", 2), (lit "ERR", 3), (lit "WARNING", 4), (lit "NOTICE", 5), (lit "INFO", 6), (lit "DEBUG", 7)] := by
  refine ⟨_, levelNames.getD prio.toNat [], by simp only [make, if_neg (show ¬ 8 ≤ prio by omega), if_neg (show ¬ prio < 0 by omega)]; rfl, rfl, ?_⟩
  have : prio = 0 ∨ prio = 1 ∨ prio = 2 ∨ prio = 3 ∨ prio = 4 ∨ prio = 5 ∨ prio = 6 ∨ prio = 7 := by omega
  rcases this with rfl | rfl | rfl | rfl | rfl | rfl | rfl | rfl <;> decide

/-- C108 is refuted for texts with a zero: the rest is lost in system log and file, and so is the end of the line; the next record follows on the same line. -/
theorem C108_zero_refuted : ∃ s, Exec (start ⟨true, false, true⟩ fun i => if i = 0 then [⟨6, [chr 'a', 0, chr '\n']⟩, ⟨6, lit "b"⟩] else []) s ∧ (∀ i, s.todo i = []) ∧ s.file = lit "ab\n" := by
  refine ⟨_, exec_runs (is := [0, 0, 0, 0, 0, 0, 0, 0, 0]) .refl rfl, fun i => ?_, by decide +kernel⟩
  by_cases h : i = 0
  · subst h; rfl
  · simp [start, h]

/-- C108 is refuted for the standard error stream: lines of alarms, which are written without the lock, can be mixed. -/
theorem C108_stderr_refuted : ∃ s, Exec (start ⟨true, false, false⟩ fun i => if i = 0 then [⟨2, lit "CRIT a"⟩] else if i = 1 then [⟨2, lit "CRIT b"⟩] else []) s ∧ (∀ i, s.todo i = []) ∧ s.err = lit "CRIT aCRIT b\n\n" := by
  refine ⟨_, exec_runs (is := [0, 1, 0, 1, 0, 1, 0, 1]) .refl rfl, fun i => ?_, by decide +kernel⟩
  by_cases h : i = 0
  · subst h; rfl
  · by_cases h1 : i = 1
    · subst h1; rfl
    · simp [start, h, h1]

end Verif.Logger.Record
