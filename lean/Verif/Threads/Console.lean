import Verif.Core.Str
import Mathlib.Data.List.Flatten

/-
Property C118: lines on the console.

`COUT` and `CERR` (`Threads.h:55-56` with `Threads.cpp:53-81`) write to a terminal under `gStreamLock`; a log record written to the console (`Logger.cpp:220-239`) goes to the same
terminal under `gLogToLock`.  The terminal shows what is written, in the order in which it is written; an insertion into a stream is one step.  The text of the time (`Timeval.cpp:84-89`), of the thread and of the arguments is any text; what the arguments do to the format of the stream (precision,
width), and a `COUT` inside the arguments of another one, are left out.
-/

namespace Verif.Threads.Console

open Verif

/-- Who writes. -/
inductive Kind
  | cout
  | cerr
  | log
deriving DecidableEq

/-- The two locks. -/
inductive Lock
  /-- `gStreamLock` (`Threads.cpp:53`). -/
  | stream
  /-- `gLogToLock` (`Logger.cpp:75`). -/
  | logTo
deriving DecidableEq

/-- The lock each takes (`Threads.cpp:57, 72`, `Logger.cpp:224`). -/
def Kind.lock : Kind → Lock
  | .cout => .stream
  | .cerr => .stream
  | .log => .logTo

/-- One use of a macro, or one log record. -/
structure Msg where
  kind : Kind
  pieces : List Str
deriving DecidableEq

/-- `COUT(text)` (`Threads.h:55`, `Threads.cpp:55-67`): time and thread, the parts of the text, end of line. -/
def cout (time self : Str) (text : List Str) : Msg := ⟨.cout, [time, lit " ", self, lit ": "] ++ text ++ [[10]]⟩

/-- `CERR(text)` (`Threads.h:56`, `Threads.cpp:70-81`): with file and line too. -/
def cerr (time self file line : Str) (text : List Str) : Msg := ⟨.cerr, [time, lit " ", self, lit ": ", file, lit ":", line, lit ": "] ++ text ++ [[10]]⟩

/-- A log record on the console (`Logger.cpp:222-230`): an end of line is added unless there is one. -/
def log (text : Str) : Msg := ⟨.log, if text.getLast? = some 10 then [text] else [text, [10]]⟩

/-- Where a thread is: outside, before the lock, or writing with the rest of the pieces. -/
inductive Pc
  | idle
  | enter (m : Msg)
  | write (m : Msg) (rest : List Str)
deriving DecidableEq

/-- What the terminal has got, who has the locks, and the threads. -/
structure St where
  out : Str
  owner : Lock → Option Nat
  pc : Nat → Pc

/-- What happens: a thread begins to write a message, or makes a step. -/
inductive Ev
  | call (t : Nat) (m : Msg)
  | step (t : Nat)

/-- A thread elsewhere. -/
def St.at (s : St) (t : Nat) (p : Pc) : St := { s with pc := fun u => if u = t then p else s.pc u }

/-- A lock with another owner. -/
def setOwner (f : Lock → Option Nat) (l : Lock) (o : Option Nat) : Lock → Option Nat := fun x => if x = l then o else f x

/-- One step of a thread (`Threads.cpp:55-81`, `Logger.cpp:224-236`): taking the lock, writing a piece, giving the lock back. -/
def next (s : St) (t : Nat) : Option St :=
  match s.pc t with
  | .idle => none
  | .enter m => if s.owner m.kind.lock = none then some ({ s with owner := setOwner s.owner m.kind.lock (some t) }.at t (.write m m.pieces)) else none
  | .write m (p :: ps) => some ({ s with out := s.out ++ p }.at t (.write m ps))
  | .write m [] => some ({ s with owner := setOwner s.owner m.kind.lock none }.at t .idle)

/-- One event. -/
def happen (s : St) : Ev → Option St
  | .call t m => if s.pc t = .idle then some (s.at t (.enter m)) else none
  | .step t => next s t

/-- An execution. -/
def exec (s : St) : List Ev → Option St
  | [] => some s
  | e :: es => (happen s e).bind fun s' => exec s' es

/-- The start. -/
def start : St := ⟨[], fun _ => none, fun _ => .idle⟩

/-! ### Specification -/

/-- The whole text of a message. -/
def Msg.text (m : Msg) : Str := m.pieces.flatten

/-- The messages a thread has begun to write, in order. -/
def calls (t : Nat) : List Ev → List Msg
  | [] => []
  | .call u m :: es => if u = t then m :: calls t es else calls t es
  | .step _ :: es => calls t es

/-- The message a thread is in the middle of. -/
def Pc.pending : Pc → List Msg
  | .idle => []
  | .enter m => [m]
  | .write m _ => [m]

/-- Nobody uses the log, or nobody uses the macros. -/
def Apart (es : List Ev) : Prop := (∀ t m, Ev.call t m ∈ es → m.kind ≠ .log) ∨ ∀ t m, Ev.call t m ∈ es → m.kind = .log

/-! ### Lemmas -/

/-- The invariant: with everybody using the lock `L`, `ls` the messages that are complete, with their threads, `c` what has been called. -/
structure Inv (L : Lock) (c : Nat → List Msg) (s : St) (ls : List (Nat × Msg)) : Prop where
  lock : ∀ t m, m ∈ (s.pc t).pending → m.kind.lock = L
  calls : ∀ t, ((ls.filter fun x => x.1 = t).map (·.2)) ++ (s.pc t).pending = c t
  holds : ∀ t m rest, s.pc t = .write m rest → s.owner L = some t
  free : s.owner L = none → s.out = (ls.map fun x => x.2.text).flatten
  held : ∀ t, s.owner L = some t → ∃ m done rest, s.pc t = .write m rest ∧ m.pieces = done ++ rest ∧ s.out = (ls.map fun x => x.2.text).flatten ++ done.flatten

theorem at_same (s : St) (t : Nat) (p : Pc) : (s.at t p).pc t = p := if_pos rfl

theorem at_other (s : St) (t u : Nat) (p : Pc) (h : u ≠ t) : (s.at t p).pc u = s.pc u := if_neg h

theorem inv_next {L : Lock} {c : Nat → List Msg} {s s' : St} {ls : List (Nat × Msg)} {t : Nat} (h : Inv L c s ls) (hn : next s t = some s') : ∃ ls', Inv L c s' ls' := by
  have hlock := h.lock t
  have hcalls := h.calls t
  have hholds := h.holds t
  unfold next at hn
  generalize hpc : s.pc t = p at hn hlock hcalls hholds
  cases p with
  | idle => cases hn
  | enter m =>
    have hm : m.kind.lock = L := hlock m (by simp [Pc.pending])
    simp only [hm] at hn
    split at hn
    · next ho =>
      cases hn
      refine ⟨ls, ?_, ?_, ?_, ?_, ?_⟩
      · intro u x hx
        by_cases e : u = t
        · subst e
          rw [at_same] at hx
          exact hlock x hx
        · rw [at_other _ _ _ _ e] at hx; exact h.lock u x hx
      · intro u
        by_cases e : u = t
        · subst e; rw [at_same]; exact hcalls
        · rw [at_other _ _ _ _ e]; exact h.calls u
      · intro u x rest hu
        by_cases e : u = t
        · subst e; exact if_pos rfl
        · rw [at_other _ _ _ _ e] at hu
          have := h.holds u x rest hu
          rw [ho] at this; cases this
      · intro e
        have : (if L = L then some t else s.owner L) = none := e
        rw [if_pos rfl] at this; cases this
      · intro u hu
        have : (if L = L then some t else s.owner L) = some u := hu
        rw [if_pos rfl] at this; cases this
        exact ⟨m, [], m.pieces, at_same _ _ _, rfl, by rw [List.flatten_nil, List.append_nil]; exact h.free ho⟩
    · cases hn
  | write m rest =>
    have hm : m.kind.lock = L := hlock m (by simp [Pc.pending])
    have ho := hholds m rest rfl
    obtain ⟨m', done, rest', h1, h2, h3⟩ := h.held t ho
    rw [hpc] at h1
    cases h1
    cases rest with
    | cons p ps =>
      simp only [Option.some.injEq] at hn
      subst hn
      refine ⟨ls, ?_, ?_, ?_, ?_, ?_⟩
      · intro u x hx
        by_cases e : u = t
        · subst e
          rw [at_same] at hx
          exact hlock x hx
        · rw [at_other _ _ _ _ e] at hx; exact h.lock u x hx
      · intro u
        by_cases e : u = t
        · subst e; rw [at_same]; exact hcalls
        · rw [at_other _ _ _ _ e]; exact h.calls u
      · intro u x rest hu
        by_cases e : u = t
        · subst e; exact ho
        · rw [at_other _ _ _ _ e] at hu; exact h.holds u x rest hu
      · intro e
        have : s.owner L = none := e
        rw [ho] at this; cases this
      · intro u hu
        have : s.owner L = some u := hu
        rw [ho] at this; cases this
        refine ⟨m, done ++ [p], ps, at_same _ _ _, by rw [h2]; simp, ?_⟩
        show s.out ++ p = _
        rw [h3]; simp
    | nil =>
      simp only [Option.some.injEq] at hn
      subst hn
      rw [hm]
      have hdone : done = m.pieces := by rw [h2]; simp
      refine ⟨ls ++ [(t, m)], ?_, ?_, ?_, ?_, ?_⟩
      · intro u x hx
        by_cases e : u = t
        · subst e
          rw [at_same] at hx
          cases hx
        · rw [at_other _ _ _ _ e] at hx; exact h.lock u x hx
      · intro u
        by_cases e : u = t
        · subst e
          rw [at_same, ← hcalls]
          simp [Pc.pending]
        · rw [at_other _ _ _ _ e, List.filter_append, List.map_append]
          have : ([(t, m)].filter fun x => x.1 = u) = [] := by simp [Ne.symm e]
          rw [this]
          simpa using h.calls u
      · intro u x rest hu
        by_cases e : u = t
        · subst e
          rw [at_same] at hu; cases hu
        · rw [at_other _ _ _ _ e] at hu
          have := h.holds u x rest hu
          rw [ho] at this
          exact absurd (Option.some.inj this).symm e
      · intro _
        show s.out = _
        rw [h3, hdone]
        simp [Msg.text]
      · intro u hu
        have : (if L = L then none else s.owner L) = some u := hu
        rw [if_pos rfl] at this; cases this

theorem inv_call {L : Lock} {c : Nat → List Msg} {s : St} {ls : List (Nat × Msg)} {t : Nat} {m : Msg} (h : Inv L c s ls) (hi : s.pc t = .idle) (hm : m.kind.lock = L) :
    Inv L (fun u => if t = u then c u ++ [m] else c u) (s.at t (.enter m)) ls := by
  refine ⟨?_, ?_, ?_, h.free, ?_⟩
  · intro u x hx
    by_cases e : u = t
    · subst e
      rw [at_same] at hx
      rw [List.mem_singleton.1 hx]; exact hm
    · rw [at_other _ _ _ _ e] at hx; exact h.lock u x hx
  · intro u
    have := h.calls u
    by_cases e : u = t
    · subst e
      rw [at_same, if_pos rfl, ← this, hi]
      simp [Pc.pending]
    · rw [at_other _ _ _ _ e, if_neg (Ne.symm e)]; exact this
  · intro u x rest hu
    by_cases e : u = t
    · subst e
      rw [at_same] at hu; cases hu
    · rw [at_other _ _ _ _ e] at hu; exact h.holds u x rest hu
  · intro u hu
    obtain ⟨x, d, r, h1, h2⟩ := h.held u hu
    have e : u ≠ t := by
      intro e; subst e
      rw [hi] at h1; cases h1
    exact ⟨x, d, r, by rw [at_other _ _ _ _ e]; exact h1, h2⟩

theorem inv_exec {L : Lock} {es : List Ev} {c : Nat → List Msg} {s s' : St} {ls : List (Nat × Msg)} (hL : ∀ t m, Ev.call t m ∈ es → m.kind.lock = L) (h : Inv L c s ls)
    (he : exec s es = some s') : ∃ ls', Inv L (fun t => c t ++ calls t es) s' ls' := by
  induction es generalizing c s ls with
  | nil =>
    simp only [exec, Option.some.injEq] at he
    subst he
    exact ⟨ls, by simpa [calls] using h⟩
  | cons e es ih =>
    simp only [exec, Option.bind_eq_some_iff] at he
    obtain ⟨s1, h1, h2⟩ := he
    have hL' : ∀ t m, Ev.call t m ∈ es → m.kind.lock = L := fun t m hm => hL t m (by simp [hm])
    cases e with
    | step t =>
      obtain ⟨ls1, hi⟩ := inv_next h h1
      exact ih hL' hi h2
    | call t m =>
      simp only [happen] at h1
      split at h1
      · next hidle =>
        cases h1
        obtain ⟨ls1, hi⟩ := ih hL' (inv_call h hidle (hL t m (by simp))) h2
        refine ⟨ls1, ?_⟩
        have : (fun u => (if t = u then c u ++ [m] else c u) ++ calls u es) = fun u => c u ++ calls u (.call t m :: es) := by
          funext u
          simp only [calls]
          split <;> simp
        rw [this] at hi
        exact hi
      · cases h1

/-- A thread that does nothing stays where it is. -/
theorem others (es : List Ev) (s s' : St) (t : Nat) (h : ∀ e ∈ es, match e with | .call u _ => u ≠ t | .step u => u ≠ t) (he : exec s es = some s') : s'.pc t = s.pc t := by
  induction es generalizing s with
  | nil => simp only [exec, Option.some.injEq] at he; rw [he]
  | cons e es ih =>
    simp only [exec, Option.bind_eq_some_iff] at he
    obtain ⟨s1, h1, h2⟩ := he
    rw [ih s1 (fun e he => h e (by simp [he])) h2]
    have hu := h e (by simp)
    cases e with
    | call u m =>
      simp only [happen] at h1
      split at h1
      · cases h1; exact at_other _ _ _ _ (Ne.symm hu)
      · cases h1
    | step u =>
      simp only [happen, next] at h1
      split at h1
      · cases h1
      · split at h1
        · cases h1; exact at_other _ _ _ _ (Ne.symm hu)
        · cases h1
      · cases h1; exact at_other _ _ _ _ (Ne.symm hu)
      · cases h1; exact at_other _ _ _ _ (Ne.symm hu)

/-! ### C118 -/

/-- C118, partial: when all threads use `COUT` and `CERR`, or all the log, the console shows whole messages one after the other, those of each thread in the order in which it wrote
them; only the last one may be incomplete, when it is being written.  Missing: macros and log used together, see `C118_mixed_refuted`. -/
theorem C118_lines_partial (es : List Ev) (s : St) (hL : Apart es) (h : exec start es = some s) :
    ∃ (ls : List (Nat × Msg)) (rest : Str), s.out = (ls.map fun x => x.2.text).flatten ++ rest ∧
      (∀ t, ((ls.filter fun x => x.1 = t).map (·.2)) ++ (s.pc t).pending = calls t es) ∧
      (rest = [] ∨ ∃ t m, m ∈ (s.pc t).pending ∧ rest <+: m.text) := by
  obtain ⟨L, hL⟩ : ∃ L, ∀ t m, Ev.call t m ∈ es → m.kind.lock = L := by
    rcases hL with h | h
    · refine ⟨.stream, fun t m hm => ?_⟩
      have := h t m hm
      cases hk : m.kind <;> rw [hk] at this
      · rfl
      · rfl
      · exact absurd rfl this
    · exact ⟨.logTo, fun t m hm => by rw [h t m hm]; rfl⟩
  have h0 : Inv L (fun _ => []) start [] :=
    ⟨fun t m hm => (nomatch hm), fun _ => rfl, fun t m rest hp => (nomatch hp), fun _ => rfl, fun t ht => (nomatch ht)⟩
  obtain ⟨ls, hi⟩ := inv_exec hL h0 h
  cases ho : s.owner L with
  | none => exact ⟨ls, [], by simpa using hi.free ho, by simpa using hi.calls, .inl rfl⟩
  | some t =>
    obtain ⟨m, done, rest, h1, h2, h3⟩ := hi.held t ho
    refine ⟨ls, done.flatten, h3, by simpa using hi.calls, .inr ⟨t, m, by rw [h1]; simp [Pc.pending], ?_⟩⟩
    rw [Msg.text, h2]
    exact ⟨rest.flatten, by simp⟩

/-- C118, partial: in particular when nobody is writing, the console shows exactly the messages written, each in one piece. -/
theorem C118_quiet_partial (es : List Ev) (s : St) (hL : Apart es) (h : exec start es = some s) (hq : ∀ t, s.pc t = .idle) :
    ∃ ls : List (Nat × Msg), s.out = (ls.map fun x => x.2.text).flatten ∧ ∀ t, (ls.filter fun x => x.1 = t).map (·.2) = calls t es := by
  obtain ⟨ls, rest, h1, h2, h3⟩ := C118_lines_partial es s hL h
  have hr : rest = [] := by
    rcases h3 with h3 | ⟨t, m, hm, -⟩
    · exact h3
    · rw [hq t] at hm; cases hm
  subst hr
  refine ⟨ls, by simpa using h1, fun t => ?_⟩
  have := h2 t
  rw [hq t] at this
  simpa [Pc.pending] using this

/-- A thread with `COUT`, another one with the log. -/
def mixed : List Ev :=
  [.call 0 (cout [] [] [lit "x"]), .step 0, .step 0, .step 0, .call 1 (log (lit "a")), .step 1, .step 1, .step 1, .step 1, .step 0, .step 0, .step 0, .step 0, .step 0]

/-- C118 is false for macros and log together: they use different locks, so a log record can come into the middle of a line. -/
theorem C118_mixed_refuted : ∃ es s, exec start es = some s ∧ (∀ t, s.pc t = .idle) ∧
    ∀ ls : List (Nat × Msg), (∀ t, (ls.filter fun x => x.1 = t).map (·.2) = calls t es) → s.out ≠ (ls.map fun x => x.2.text).flatten := by
  have hsome : (exec start mixed).isSome := by decide +kernel
  have hout : (exec start mixed).map (·.out) = some (lit " a\n: x\n") := by decide +kernel
  have hpc : (exec start mixed).map (fun s => (s.pc 0, s.pc 1)) = some (.idle, .idle) := by decide +kernel
  obtain ⟨s, hs⟩ := Option.isSome_iff_exists.1 hsome
  rw [hs] at hout hpc
  simp only [Option.map_some, Option.some.injEq, Prod.mk.injEq] at hout hpc
  refine ⟨mixed, s, hs, ?_, ?_⟩
  · intro t
    by_cases h0 : t = 0
    · rw [h0]; exact hpc.1
    · by_cases h1 : t = 1
      · rw [h1]; exact hpc.2
      · have := others mixed start s t (by simp [mixed, Ne.symm h0, Ne.symm h1]) hs
        rw [this]; rfl
  · intro ls hls hout'
    cases ls with
    | nil => exact absurd (hls 0) (by decide +kernel)
    | cons x xs =>
      have hx : x.2 ∈ calls x.1 mixed := by
        rw [← hls x.1]; simp
      have hp : x.2.text <+: lit " a\n: x\n" := by
        rw [← hout, hout']
        exact ⟨(xs.map fun x => x.2.text).flatten, by simp⟩
      obtain ⟨t, m⟩ := x
      have : m = cout [] [] [lit "x"] ∨ m = log (lit "a") := by
        simp only [mixed, calls] at hx
        split at hx <;> split at hx <;> simp_all
      rcases this with h | h <;> subst h <;> simp only at hp <;> revert hp <;> decide +kernel

/-- C118: what `COUT` and `CERR` write, and a log record, is one line (with the line ends inside the text, if any): the record is the text with exactly one end of line added, unless
the text ends with one. -/
theorem C118_text (time self file line text : Str) (parts : List Str) :
    (cout time self parts).text = time ++ lit " " ++ self ++ lit ": " ++ parts.flatten ++ [10] ∧
      (cerr time self file line parts).text = time ++ lit " " ++ self ++ lit ": " ++ file ++ lit ":" ++ line ++ lit ": " ++ parts.flatten ++ [10] ∧
      ((log text).text = text ∧ (∃ a, text = a ++ [10]) ∨ (log text).text = text ++ [10] ∧ ¬ ∃ a, text = a ++ [10]) := by
  refine ⟨by simp [cout, Msg.text], by simp [cerr, Msg.text], ?_⟩
  by_cases h : text.getLast? = some 10
  · exact .inl ⟨by simp [log, Msg.text, h], List.getLast?_eq_some_iff.1 h⟩
  · exact .inr ⟨by unfold log Msg.text; rw [if_neg h]; simp, fun e => h (List.getLast?_eq_some_iff.2 e)⟩

/-- The messages. -/
example : (cout (lit "1.5") (lit "7") [lit "x=", lit "3"]).text = lit "1.5 7: x=3\n" ∧ (cerr (lit "1.5") (lit "7") (lit "a.cpp") (lit "9") [lit "no"]).text = lit "1.5 7: a.cpp:9: no\n" ∧
    (log (lit "up")).text = lit "up\n" ∧ (log (lit "up\n")).text = lit "up\n" := by decide +kernel

/-- Two threads with `COUT` and `CERR`: the second waits, and its line comes whole after the first. -/
example : (exec start ([.call 0 (cout [] [] [lit "a", lit "b"]), .step 0, .step 0, .call 1 (cerr [] [] [] [] [lit "c"])] ++ List.replicate 7 (.step 0) ++ List.replicate 11 (.step 1))).map (·.out) =
    some (lit " : ab\n : :: c\n") := by decide +kernel

end Verif.Threads.Console
