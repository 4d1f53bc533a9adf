import Verif.Core.Outcome
import Verif.Core.Str

/-
`SelfDetect.cpp`, `UnixSignal.cpp`: pid files, files removed at exit, signal handlers.

The file system and the kernel are not part of /repo.  What is assumed: `stat`, `fopen(.., "w")` and `unlink` act on one file each, in one step; a path with repeated slashes names the same file as with one;
a process ends by `exit` (which runs functions given to `atexit` before), by a signal, or by being killed.
-/

namespace Verif.Process

/-! ### Signals -/

/-- `C_NSIG` (`UnixSignal.h:30`). -/
def C_NSIG : Int := 64

/-- What happens to a signal: default action, `_sigHandler`, ignored. -/
inductive Disp
  | dfl | ours | ign
deriving DecidableEq, Repr

/-- Default action of a signal on Linux. -/
inductive Action
  | terminate | ignore | stop | cont
deriving DecidableEq, Repr

/-- Default actions on Linux x86: 17 CHLD, 23 URG, 28 WINCH are ignored; 19 STOP, 20 TSTP, 21 TTIN, 22 TTOU stop the process; 18 CONT continues it; all others end it. -/
def defaultAction (sig : Nat) : Action :=
  if sig ∈ [17, 23, 28] then .ignore else if sig ∈ [19, 20, 21, 22] then .stop else if sig = 18 then .cont else .terminate

/-- 9 KILL and 19 STOP cannot be caught: `signal` fails for them, and in glibc also for 32 and 33, which its threads use. -/
def catchable (sig : Nat) : Bool := sig ≠ 9 && sig ≠ 19 && sig ≠ 32 && sig ≠ 33

/-- An object of class `UnixSignal` (`UnixSignal.h:32-37`) with the dispositions of the process.  `mSaveFiles` is not written by the constructor (`UnixSignal.cpp:110-119`): an object on the stack or from `new`
starts with `saveFiles = none`; the global `gSigVec` (`Variables.cpp:23`), the default here and the only object `_sigHandler` uses (`UnixSignal.cpp:49`), has static storage, which is zeroed before. -/
structure Sigs (H : Type) where
  handlers : Nat → List H := fun _ => []
  disp : Nat → Disp := fun _ => .dfl
  saveFiles : Option Bool := some false

/-- `UnixSignal::Register` (`UnixSignal.cpp:130-141`). -/
def register {H : Type} (s : Sigs H) (h : H) (sig : Int) : Sigs H :=
  if sig ≤ 0 ∨ sig ≥ C_NSIG then s
  else { s with disp := fun i => if i = sig.toNat ∧ catchable i then .ours else s.disp i, handlers := fun i => if i = sig.toNat then s.handlers i ++ [h] else s.handlers i }

/-- `UnixSignal::TarName` (`UnixSignal.h:46`). -/
def tarName {H : Type} (s : Sigs H) (saveFiles : Bool) : Sigs H := { s with saveFiles := some saveFiles }

/-- Signals for which `UnixSignal::Handler` writes a core file (`UnixSignal.cpp:60-61`): QUIT, ILL, ABRT, FPE, SEGV, BUS, SYS, TRAP, XCPU, XFSZ. -/
def coreSignals : List Nat := [3, 4, 6, 8, 11, 7, 31, 5, 24, 25]

/-- `UnixSignal::Handler` (`UnixSignal.cpp:55-108`): the handlers called, in order.  `mListHandlers[sig]` out of range is undefined, and so is reading `mSaveFiles` before it was written.
Core files, tar files and output are not modelled. -/
def handler {H : Type} (s : Sigs H) (sig : Int) : Outcome (List H) :=
  if sig < 0 ∨ sig ≥ C_NSIG then .ub
  else if sig.toNat ∈ coreSignals ∧ s.saveFiles = none then .ub
  else .ok (s.handlers sig.toNat)

/-- Delivery of a signal by the kernel, with `_sigHandler` (`UnixSignal.cpp:40-53`): the handlers called, the action that follows, the new state. -/
def deliver {H : Type} (s : Sigs H) (sig : Nat) : Outcome (List H × Action × Sigs H) :=
  match s.disp sig with
  | .dfl => .ok ([], defaultAction sig, s)
  | .ign => .ok ([], .ignore, s)
  | .ours => (handler s sig).bind fun hs => .ok (hs, defaultAction sig, { s with disp := fun i => if i = sig then .dfl else s.disp i })

/-! ### Pid files -/

/-- The text after the last slash. -/
def base (argv0 : Str) : Str := (argv0.reverse.takeWhile (· ≠ chr '/')).reverse

/-- `p` in `RegisterProgram` (`SelfDetect.cpp:57-58`): from the last slash on, with it, or everything. -/
def tailName (argv0 : Str) : Str := if chr '/' ∈ argv0 then chr '/' :: base argv0 else argv0

/-- The path of the pid file (`SelfDetect.cpp:60-61`): `snprintf` with size 99. -/
def pidPath (argv0 : Str) : Str := (lit "/var/run/" ++ tailName argv0 ++ lit ".pid").take 98

/-- The file a path names: repeated slashes count as one. -/
def fileOf (path : Str) : Str := path.foldr (fun c acc => if c = chr '/' ∧ acc.head? = some (chr '/') then acc else c :: acc) []

/-! ### Processes -/

/-- Where a process is: before `RegisterProgram`; after `stat` found nothing (`SelfDetect.cpp:65-71`); after the file is written (`SelfDetect.cpp:73-80`); after `atexit` and the signal handlers
(`SelfDetect.cpp:81-106`); after the last line; ended. -/
inductive Pc
  | before | checked | created | hooked | running | ended
deriving DecidableEq, Repr

/-- A process: `path` is the local `buf` of `RegisterProgram`, as a file; `mFile` and `mListFiles` are the fields (`SelfDetect.h:29-31`), the first `none` for NULL; `caught` are the signals that were delivered
to the handler and are back at their default. -/
structure Proc where
  pc : Pc := .before
  path : Str := []
  mFile : Option Str := none
  list : List Str := []
  caught : List Nat := []
deriving DecidableEq, Repr

/-- All processes and the files that exist. -/
structure Sys where
  fs : Str → Bool
  procs : Nat → Proc

/-- What happens next: process `p` calls `RegisterFile`, goes on in `RegisterProgram` (four parts), calls `exit`, is killed, or a signal is delivered to it. -/
inductive Ev
  | registerFile (p : Nat) (f : Str)
  | stat (p : Nat) (argv0 : Str)
  | create (p : Nat) (works : Bool)
  | hook (p : Nat)
  | finish (p : Nat)
  | exit (p : Nat)
  | kill (p : Nat)
  | signal (p : Nat) (sig : Nat)
deriving DecidableEq, Repr

/-- Changing one process. -/
def Sys.set (s : Sys) (p : Nat) (x : Proc) : Sys := { s with procs := fun q => if q = p then x else s.procs q }

/-- `SelfDetect::Exit` (`SelfDetect.cpp:111-136`): the pid file, if `mFile` is set, and the listed files are unlinked. -/
def cleanup (fs : Str → Bool) (x : Proc) : Str → Bool := fun f => if x.mFile = some f ∨ f ∈ x.list then false else fs f

/-- Signals for which `RegisterProgram` installs its handler (`SelfDetect.cpp:86-106`): 1 to 63 except 18 CONT and 17 CHLD; 9, 19, 32 and 33 cannot be caught. -/
def cleansOn (sig : Nat) : Bool := decide (1 ≤ sig ∧ sig < 64 ∧ sig ≠ 18 ∧ sig ≠ 17) && catchable sig

/-- `atexit` and the handlers are in place. -/
def Proc.armed (x : Proc) : Bool := x.pc = .hooked || x.pc = .running

/-- One step.  `stat`, `create`, `hook` and `finish` are the parts of `RegisterProgram` (`SelfDetect.cpp:55-109`); a process that finds the file, or cannot create it, calls `exit` before anything was given to
`atexit` (`SelfDetect.cpp:70`, `77`, `81`), so nothing is removed.  `exit` of an armed process calls `Exit` (`SelfDetect.cpp:45-48`), and so do the signals in `cleansOn` the first time; the default action
follows (`UnixSignal.cpp:49-52`).  Simplification: the handlers are all installed in one step.  Steps that are not possible do nothing. -/
def step (s : Sys) : Ev → Sys
  | .registerFile p f => if (s.procs p).pc = .ended then s else s.set p { s.procs p with list := (s.procs p).list ++ [fileOf f] }
  | .stat p argv0 =>
    if (s.procs p).pc = .before then
      if s.fs (fileOf (pidPath argv0)) then s.set p { s.procs p with pc := .ended }
      else s.set p { s.procs p with pc := .checked, path := fileOf (pidPath argv0) }
    else s
  | .create p works =>
    if (s.procs p).pc = .checked then
      if works then { s.set p { s.procs p with pc := .created } with fs := fun f => if f = (s.procs p).path then true else s.fs f }
      else s.set p { s.procs p with pc := .ended }
    else s
  | .hook p => if (s.procs p).pc = .created then s.set p { s.procs p with pc := .hooked } else s
  | .finish p => if (s.procs p).pc = .hooked then s.set p { s.procs p with pc := .running, mFile := some (s.procs p).path } else s
  | .exit p => { s.set p { s.procs p with pc := .ended } with fs := if (s.procs p).armed then cleanup s.fs (s.procs p) else s.fs }
  | .kill p => s.set p { s.procs p with pc := .ended }
  | .signal p sig =>
    { s.set p { s.procs p with
          pc := if defaultAction sig = .terminate then .ended else (s.procs p).pc
          caught := sig :: (s.procs p).caught } with
      fs := if (s.procs p).armed ∧ cleansOn sig ∧ sig ∉ (s.procs p).caught then cleanup s.fs (s.procs p) else s.fs }

/-- A history. -/
def run (s : Sys) (es : List Ev) : Sys := es.foldl step s

/-- Nothing has started: every process is before `RegisterProgram`; the files are given. -/
def start (fs : Str → Bool) : Sys := ⟨fs, fun _ => {}⟩

end Verif.Process
