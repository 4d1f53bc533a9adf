import Mathlib.Data.List.Basic
import Mathlib.Tactic.Common

/-
Property C122: a signal at any moment.

`UnixSignal::Register`, `UnixSignal::Handler` and `_sigHandler` (`UnixSignal.cpp:40-53, 99-107, 130-141`) for one signal number in range whose default action ends the process.  Any number
of threads register handlers; the signal can come at any moment, on any thread, also in the middle of `Register`.  While a thread handles the signal it does nothing else, and the signal is
blocked for this thread (`signal()` of glibc) but not for the others.  Each statement that reads or writes what is shared is one step.  The mutex is recursive (`Threads.cpp:96`).  Left out: core
dump and archive (C87), what the handlers themselves do (they return, and register nothing), and that `printf` and `malloc` are not meant to be called there.
-/

namespace Verif.Process.SignalThreads

/-- What the signal does. -/
inductive Disp
  | dfl
  | ign
  | handler
deriving DecidableEq

/-- Where a thread is in `Register(handler,sig)` (`UnixSignal.cpp:137-140`): what is next. -/
inductive Main
  | idle
  | lock (h : Nat)
  | signal (h : Nat)
  | insert (h : Nat)
  | unlock (h : Nat)
deriving DecidableEq

/-- Where it is in the signal handler: what is next. -/
inductive Frame
  /-- It is not. -/
  | none
  /-- `signal(sig, SIG_IGN)` (`UnixSignal.cpp:42`). -/
  | ignore
  /-- `mLock[sig].lock()` (`UnixSignal.cpp:100`). -/
  | lock
  /-- The loop, with the handler with number `i` (`UnixSignal.cpp:101-105`). -/
  | loop (i : Nat)
  /-- `mLock[sig].unlock()` (`UnixSignal.cpp:106`). -/
  | unlock
  /-- `signal(sig, SIG_DFL)` (`UnixSignal.cpp:50`). -/
  | default
  /-- `kill(getpid(), sig)` (`UnixSignal.cpp:52`). -/
  | kill
deriving DecidableEq

/-- The process: is it alive, is a signal waiting to be delivered, what does it do, the list of handlers, who has the mutex how often, the threads. -/
structure St where
  alive : Bool
  pending : Bool
  disp : Disp
  handlers : List Nat
  owner : Option Nat
  depth : Nat
  main : Nat → Main
  frame : Nat → Frame

/-- What can be seen. -/
inductive Obs
  /-- `Register` with this handler is over. -/
  | returned (h : Nat)
  /-- The signal interrupts this thread. -/
  | caught (t : Nat)
  /-- This thread calls this handler. -/
  | called (t h : Nat)
deriving DecidableEq

/-- What happens. -/
inductive Ev
  /-- A thread calls `Register`. -/
  | register (t h : Nat)
  /-- Somebody sends the signal. -/
  | send
  /-- It is delivered to this thread. -/
  | deliver (t : Nat)
  /-- A thread goes on. -/
  | step (t : Nat)
deriving DecidableEq

def St.atMain (s : St) (t : Nat) (p : Main) : St := { s with main := fun u => if u = t then p else s.main u }

def St.atFrame (s : St) (t : Nat) (p : Frame) : St := { s with frame := fun u => if u = t then p else s.frame u }

/-- Taking the recursive mutex (`Threads.cpp:159-181`). -/
def acquire (s : St) (t : Nat) : Option St :=
  if s.owner = none then some { s with owner := some t, depth := 1 }
  else if s.owner = some t then some { s with depth := s.depth + 1 }
  else none

/-- Giving it back (`Threads.cpp:183-189`). -/
def release (s : St) : St := if s.depth ≤ 1 then { s with owner := none, depth := 0 } else { s with depth := s.depth - 1 }

/-- `Register` (`UnixSignal.cpp:130-141`). -/
def nextMain (s : St) (t : Nat) : Option (St × List Obs) :=
  match s.main t with
  | .idle => none
  | .lock h => (acquire s t).map fun s => (s.atMain t (.signal h), [])
  | .signal h => some ({ s with disp := .handler }.atMain t (.insert h), [])
  | .insert h => some ({ s with handlers := s.handlers ++ [h] }.atMain t (.unlock h), [])
  | .unlock h => some ((release s).atMain t .idle, [.returned h])

/-- One step of a thread: the signal handler first (`UnixSignal.cpp:40-53, 99-107`). -/
def next (s : St) (t : Nat) : Option (St × List Obs) :=
  match s.frame t with
  | .none => nextMain s t
  | .ignore => some ({ s with disp := .ign }.atFrame t .lock, [])
  | .lock => (acquire s t).map fun s => (s.atFrame t (.loop 0), [])
  | .loop i =>
    match s.handlers[i]? with
    | some h => some (s.atFrame t (.loop (i + 1)), [.called t h])
    | none => some (s.atFrame t .unlock, [])
  | .unlock => some ((release s).atFrame t .default, [])
  | .default => some ({ s with disp := .dfl }.atFrame t .kill, [])
  | .kill => some ({ s with pending := true }.atFrame t .none, [])

/-- One event; nothing happens in a process that has ended. -/
def happen (s : St) (e : Ev) : Option (St × List Obs) :=
  if s.alive = false then none else
  match e with
  | .register t h => if s.main t = .idle ∧ s.frame t = .none then some (s.atMain t (.lock h), []) else none
  | .send => some ({ s with pending := true }, [])
  | .deliver t =>
    if s.pending = true ∧ s.frame t = .none then
      match s.disp with
      | .dfl => some ({ s with pending := false, alive := false }, [])
      | .ign => some ({ s with pending := false }, [])
      | .handler => some ({ s with pending := false }.atFrame t .ignore, [.caught t])
    else none
  | .step t => next s t

/-- An execution. -/
def exec (s : St) : List Ev → Option (St × List Obs)
  | [] => some (s, [])
  | e :: es =>
    match happen s e with
    | none => none
    | some (s', o) =>
      match exec s' es with
      | none => none
      | some (s'', o') => some (s'', o ++ o')

/-- The start (`UnixSignal.cpp:110-119`). -/
def start : St := ⟨true, false, .dfl, [], none, 0, fun _ => .idle, fun _ => .none⟩

/-! ### Specification -/

/-- The registrations that are over, in order. -/
def returned (os : List Obs) : List Nat := os.filterMap fun | .returned h => some h | _ => none

/-- The handlers a thread has called, in order. -/
def callsBy (t : Nat) (os : List Obs) : List Nat := os.filterMap fun | .called u h => if u = t then some h else none | _ => none

/-- The handlers called, in order. -/
def calls (os : List Obs) : List Nat := os.filterMap fun | .called _ h => some h | _ => none

/-- How often the signal has interrupted a thread. -/
def catches (os : List Obs) : Nat := os.countP fun | .caught _ => true | _ => false

/-! ### Lemmas -/

theorem main_same (s : St) (t : Nat) (p : Main) : (s.atMain t p).main t = p := if_pos rfl

theorem main_other (s : St) (t u : Nat) (p : Main) (h : u ≠ t) : (s.atMain t p).main u = s.main u := if_neg h

theorem frame_same (s : St) (t : Nat) (p : Frame) : (s.atFrame t p).frame t = p := if_pos rfl

theorem frame_other (s : St) (t u : Nat) (p : Frame) (h : u ≠ t) : (s.atFrame t p).frame u = s.frame u := if_neg h

theorem returned_append (a b : List Obs) : returned (a ++ b) = returned a ++ returned b := List.filterMap_append

theorem callsBy_append (t : Nat) (a b : List Obs) : callsBy t (a ++ b) = callsBy t a ++ callsBy t b := List.filterMap_append

theorem calls_append (a b : List Obs) : calls (a ++ b) = calls a ++ calls b := List.filterMap_append

theorem catches_append (a b : List Obs) : catches (a ++ b) = catches a + catches b := List.countP_append

/-- Invariants over executions. -/
theorem exec_inv {P : St → List Obs → Prop} (hstep : ∀ s o e s' o', P s o → happen s e = some (s', o') → P s' (o ++ o')) {es : List Ev} {s s' : St} {o o' : List Obs} (h : P s o)
    (he : exec s es = some (s', o')) : P s' (o ++ o') := by
  induction es generalizing s o s' o' with
  | nil =>
    simp only [exec, Option.some.injEq, Prod.mk.injEq] at he
    obtain ⟨rfl, rfl⟩ := he
    simpa using h
  | cons e es ih =>
    simp only [exec] at he
    split at he
    · cases he
    · next s1 o1 h1 =>
      split at he
      · cases he
      · next s2 o2 h2 =>
        simp only [Option.some.injEq, Prod.mk.injEq] at he
        obtain ⟨rfl, rfl⟩ := he
        have := ih (hstep _ _ _ _ _ h h1) h2
        rwa [List.append_assoc] at this

/-- What taking the mutex does. -/
theorem acquire_cases {s s' : St} {t : Nat} (h : acquire s t = some s') :
    (s.owner = none ∨ s.owner = some t) ∧ s'.owner = some t ∧ s'.main = s.main ∧ s'.frame = s.frame ∧ s'.handlers = s.handlers ∧ s'.disp = s.disp ∧ s'.alive = s.alive ∧
      s'.depth = (if s.owner = none then 1 else s.depth + 1) := by
  unfold acquire at h
  split at h
  · next e => cases h; simp [e]
  · split at h
    · next e => cases h; simp [e]
    · cases h

theorem release_cases (s : St) : (release s).main = s.main ∧ (release s).frame = s.frame ∧ (release s).handlers = s.handlers ∧ (release s).disp = s.disp ∧ (release s).alive = s.alive ∧
    (((release s).owner = none ∧ (release s).depth = 0 ∧ s.depth ≤ 1) ∨ ((release s).owner = s.owner ∧ (release s).depth = s.depth - 1 ∧ 1 < s.depth)) := by
  unfold release
  split
  · next h => simp [h]
  · next h => simp; omega

/-- A thread in `Register` with the mutex. -/
def Main.holds : Main → Bool
  | .idle => false
  | .lock _ => false
  | _ => true

/-- A thread in the signal handler with the mutex. -/
def Frame.holds : Frame → Bool
  | .loop _ => true
  | .unlock => true
  | _ => false

/-- How often a thread has the mutex. -/
def St.count (s : St) (t : Nat) : Nat := (s.main t).holds.toNat + (s.frame t).holds.toNat

/-- Who has the mutex, and how often. -/
def Held (s : St) : Prop := (s.owner = none → ∀ t, s.count t = 0) ∧ ∀ t, s.owner = some t → s.depth = s.count t ∧ 1 ≤ s.depth ∧ ∀ u, u ≠ t → s.count u = 0

theorem held_other {s : St} (h : Held s) {t : Nat} (hc : s.count t ≠ 0) : s.owner = some t := by
  cases ho : s.owner with
  | none => exact absurd (h.1 ho t) hc
  | some u =>
    by_cases e : t = u
    · rw [e]
    · exact absurd ((h.2 u ho).2.2 t e) hc

/-- A step that changes neither the mutex nor how often a thread has it. -/
theorem held_same {s s' : St} (h : Held s) (ho : s'.owner = s.owner) (hd : s'.depth = s.depth) (hc : ∀ t, s'.count t = s.count t) : Held s' := by
  unfold Held
  rw [ho, hd]
  refine ⟨fun e t => by rw [hc]; exact h.1 e t, fun t e => ?_⟩
  rw [hc]
  exact ⟨(h.2 t e).1, (h.2 t e).2.1, fun u hu => by rw [hc]; exact (h.2 t e).2.2 u hu⟩

theorem held_acquire {s s1 s' : St} {t : Nat} (h : Held s) (ha : acquire s t = some s1) (ho : s'.owner = s1.owner) (hd : s'.depth = s1.depth) (ht : s'.count t = s.count t + 1)
    (hu : ∀ u, u ≠ t → s'.count u = s.count u) : Held s' := by
  obtain ⟨h1, h2, -, -, -, -, -, h3⟩ := acquire_cases ha
  unfold Held
  rw [ho, hd, h2, h3]
  refine ⟨fun e => (by cases e), fun x e => ?_⟩
  cases e
  rcases h1 with h1 | h1
  · rw [if_pos h1, ht, h.1 h1 t]
    exact ⟨rfl, Nat.le_refl _, fun u e => by rw [hu u e]; exact h.1 h1 u⟩
  · rw [h1, if_neg (by simp), ht, (h.2 t h1).1]
    exact ⟨rfl, by omega, fun u e => by rw [hu u e]; exact (h.2 t h1).2.2 u e⟩

theorem held_release {s s' : St} {t : Nat} (h : Held s) (ho : s'.owner = (release s).owner) (hd : s'.depth = (release s).depth) (ht : s'.count t + 1 = s.count t)
    (hu : ∀ u, u ≠ t → s'.count u = s.count u) : Held s' := by
  have hown := held_other h (t := t) (by omega)
  obtain ⟨a, b, c⟩ := h.2 t hown
  unfold Held
  rw [ho, hd]
  rcases (release_cases s).2.2.2.2.2 with ⟨h1, h2, h3⟩ | ⟨h1, h2, h3⟩
  · rw [h1, h2]
    refine ⟨fun _ u => ?_, fun x e => (by cases e)⟩
    by_cases e : u = t
    · subst e; omega
    · rw [hu u e]; exact c u e
  · rw [h1, h2, hown]
    refine ⟨fun e => (by cases e), fun x e => ?_⟩
    cases e
    exact ⟨by omega, by omega, fun u e => by rw [hu u e]; exact c u e⟩

theorem count_main (s : St) (t u : Nat) (p : Main) : (s.atMain t p).count u = if u = t then p.holds.toNat + (s.frame t).holds.toNat else s.count u := by
  unfold St.count
  split
  · next e => subst e; rw [main_same]; rfl
  · next e => rw [main_other _ _ _ _ e]; rfl

theorem count_frame (s : St) (t u : Nat) (p : Frame) : (s.atFrame t p).count u = if u = t then (s.main t).holds.toNat + p.holds.toNat else s.count u := by
  unfold St.count
  split
  · next e => subst e; rw [frame_same]; rfl
  · next e => rw [frame_other _ _ _ _ e]; rfl

theorem held_happen {s s' : St} {e : Ev} {o : List Obs} (h : Held s) (hs : happen s e = some (s', o)) : Held s' := by
  unfold happen at hs
  split at hs
  · cases hs
  cases e with
  | register t x =>
    simp only at hs
    split at hs
    · next hi =>
      cases hs
      refine held_same h rfl rfl fun u => ?_
      rw [count_main]
      split
      · next e => subst e; simp [St.count, hi.1, Main.holds]
      · rfl
    · cases hs
  | send => cases hs; exact held_same h rfl rfl fun _ => rfl
  | deliver t =>
    simp only at hs
    split at hs
    · next hi =>
      split at hs
      · cases hs; exact held_same h rfl rfl fun _ => rfl
      · cases hs; exact held_same h rfl rfl fun _ => rfl
      · cases hs
        refine held_same h rfl rfl fun u => ?_
        rw [count_frame]
        split
        · next e => subst e; simp [St.count, hi.2, Frame.holds]
        · rfl
    · cases hs
  | step t =>
    simp only [next] at hs
    split at hs
    · next hf =>
      simp only [nextMain] at hs
      split at hs
      · cases hs
      · next x hm =>
        simp only [Option.map_eq_some_iff, Prod.mk.injEq] at hs
        obtain ⟨s1, ha, rfl, -⟩ := hs
        obtain ⟨-, -, hm1, hf1, -⟩ := acquire_cases ha
        refine held_acquire h ha rfl rfl ?_ fun u e => ?_
        · rw [count_main, if_pos rfl]; simp [St.count, hm, hf1, Main.holds]; omega
        · rw [count_main, if_neg e]; simp [St.count, hm1, hf1]
      · next x hm =>
        cases hs
        refine held_same h rfl rfl fun u => ?_
        rw [count_main]
        split
        · next e => subst e; simp [St.count, hm, Main.holds]
        · rfl
      · next x hm =>
        cases hs
        refine held_same h rfl rfl fun u => ?_
        rw [count_main]
        split
        · next e => subst e; simp [St.count, hm, Main.holds]
        · rfl
      · next x hm =>
        cases hs
        obtain ⟨hm1, hf1, -⟩ := release_cases s
        refine held_release (t := t) h rfl rfl ?_ fun u e => ?_
        · rw [count_main, if_pos rfl]; simp [St.count, hm, hf1, Main.holds]; omega
        · rw [count_main, if_neg e]; simp [St.count, hm1, hf1]
    · next hf =>
      cases hs
      refine held_same h rfl rfl fun u => ?_
      rw [count_frame]
      split
      · next e => subst e; simp [St.count, hf, Frame.holds]
      · rfl
    · next hf =>
      simp only [Option.map_eq_some_iff, Prod.mk.injEq] at hs
      obtain ⟨s1, ha, rfl, -⟩ := hs
      obtain ⟨-, -, hm1, hf1, -⟩ := acquire_cases ha
      refine held_acquire h ha rfl rfl ?_ fun u e => ?_
      · rw [count_frame, if_pos rfl]; simp [St.count, hf, hm1, Frame.holds]
      · rw [count_frame, if_neg e]; simp [St.count, hm1, hf1]
    · next i hf =>
      split at hs
      · cases hs
        refine held_same h rfl rfl fun u => ?_
        rw [count_frame]
        split
        · next e => subst e; simp [St.count, hf, Frame.holds]
        · rfl
      · cases hs
        refine held_same h rfl rfl fun u => ?_
        rw [count_frame]
        split
        · next e => subst e; simp [St.count, hf, Frame.holds]
        · rfl
    · next hf =>
      cases hs
      obtain ⟨hm1, hf1, -⟩ := release_cases s
      refine held_release (t := t) h rfl rfl ?_ fun u e => ?_
      · rw [count_frame, if_pos rfl]; simp [St.count, hf, hm1, Frame.holds]
      · rw [count_frame, if_neg e]; simp [St.count, hm1, hf1]
    · next hf =>
      cases hs
      refine held_same h rfl rfl fun u => ?_
      rw [count_frame]
      split
      · next e => subst e; simp [St.count, hf, Frame.holds]
      · rfl
    · next hf =>
      cases hs
      refine held_same h rfl rfl fun u => ?_
      rw [count_frame]
      split
      · next e => subst e; simp [St.count, hf, Frame.holds]
      · rfl

theorem held_start : Held start := ⟨fun _ _ => rfl, fun _ h => (by cases h)⟩

/-! ### Before the first signal -/

/-- As long as the signal has interrupted nobody: the list of handlers is that of the registrations that are over, except for one that is about to be. -/
structure Quiet (s : St) (o : List Obs) : Prop where
  held : Held s
  frames : ∀ t, s.frame t = .none
  list : (∃ t h, s.main t = .unlock h ∧ s.handlers = returned o ++ [h]) ∨ ((∀ t h, s.main t ≠ .unlock h) ∧ s.handlers = returned o)
  disp : s.disp = .handler ∨ (s.handlers = [] ∧ ∀ t h, s.main t ≠ .insert h)
  dead : s.alive = false → s.disp = .dfl

theorem only_unlock {s : St} {o : List Obs} (h : Quiet s o) {t u : Nat} (ht : (s.main t).holds = true) (hu : (s.main u).holds = true) : t = u := by
  have a := held_other h.held (t := t) (by simp [St.count, ht])
  have b := held_other h.held (t := u) (by simp [St.count, hu])
  rw [a] at b
  exact Option.some.inj b

theorem quiet_happen {s s' : St} {e : Ev} {o o' : List Obs} (h : Quiet s o) (hs : happen s e = some (s', o')) (hc : catches o' = 0) : Quiet s' (o ++ o') := by
  have hh := held_happen h.held hs
  unfold happen at hs
  split at hs
  · cases hs
  next hal =>
  cases e with
  | register t x =>
    simp only at hs
    split at hs
    · next hi =>
      cases hs
      rw [List.append_nil]
      have hne : ∀ (u : Nat) (p : Main), (∀ y, p ≠ .lock y) → ((s.atMain t (.lock x)).main u = p ↔ s.main u = p ∧ u ≠ t) := by
        intro u p hp
        by_cases e : u = t
        · subst e; rw [main_same]; simp [Ne.symm (hp x)]
        · rw [main_other _ _ _ _ e]; simp [e]
      refine ⟨hh, h.frames, ?_, ?_, h.dead⟩
      · rcases h.list with ⟨u, y, h1, h2⟩ | ⟨h1, h2⟩
        · refine .inl ⟨u, y, (hne u _ (by simp)).2 ⟨h1, ?_⟩, h2⟩
          intro e; subst e; rw [hi.1] at h1; cases h1
        · exact .inr ⟨fun u y hu => h1 u y ((hne u _ (by simp)).1 hu).1, h2⟩
      · rcases h.disp with h1 | ⟨h1, h2⟩
        · exact .inl h1
        · exact .inr ⟨h1, fun u y hu => h2 u y ((hne u _ (by simp)).1 hu).1⟩
    · cases hs
  | send =>
    cases hs
    rw [List.append_nil]
    exact ⟨hh, h.frames, h.list, h.disp, h.dead⟩
  | deliver t =>
    simp only at hs
    split at hs
    · split at hs
      · next hd => cases hs; rw [List.append_nil]; exact ⟨hh, h.frames, h.list, h.disp, fun _ => hd⟩
      · cases hs; rw [List.append_nil]; exact ⟨hh, h.frames, h.list, h.disp, h.dead⟩
      · cases hs; cases hc
    · cases hs
  | step t =>
    simp only [next, h.frames t] at hs
    simp only [nextMain] at hs
    split at hs
    · cases hs
    · next x hm =>
      simp only [Option.map_eq_some_iff, Prod.mk.injEq] at hs
      obtain ⟨s1, ha, rfl, rfl⟩ := hs
      rw [List.append_nil]
      obtain ⟨-, -, hm1, hf1, hl1, hd1, ha1, -⟩ := acquire_cases ha
      have hne : ∀ (u : Nat) (p : Main), (∀ y, p ≠ .signal y) → (∀ y, p ≠ .lock y) → ((s1.atMain t (.signal x)).main u = p ↔ s.main u = p) := by
        intro u p hp hq
        by_cases e : u = t
        · subst e; rw [main_same, hm]; simp [Ne.symm (hp x), Ne.symm (hq x)]
        · rw [main_other _ _ _ _ e, hm1]
      refine ⟨hh, fun u => ?_, ?_, ?_, ?_⟩
      · show s1.frame u = _
        rw [hf1]; exact h.frames u
      · show (∃ u y, _ ∧ s1.handlers = _) ∨ ((∀ u y, _) ∧ s1.handlers = _)
        rw [hl1]
        rcases h.list with ⟨u, y, h1, h2⟩ | ⟨h1, h2⟩
        · exact .inl ⟨u, y, (hne u _ (by simp) (by simp)).2 h1, h2⟩
        · exact .inr ⟨fun u y hu => h1 u y ((hne u _ (by simp) (by simp)).1 hu), h2⟩
      · show s1.disp = _ ∨ (s1.handlers = _ ∧ _)
        rw [hd1, hl1]
        rcases h.disp with h1 | ⟨h1, h2⟩
        · exact .inl h1
        · exact .inr ⟨h1, fun u y hu => h2 u y ((hne u _ (by simp) (by simp)).1 hu)⟩
      · show s1.alive = false → s1.disp = _
        rw [hd1, ha1]; exact h.dead
    · next x hm =>
      cases hs
      rw [List.append_nil]
      have hne : ∀ (u : Nat) (y : Nat), (({ s with disp := .handler } : St).atMain t (.insert x)).main u = .unlock y ↔ s.main u = .unlock y := by
        intro u y
        by_cases e : u = t
        · subst e; rw [main_same, hm]; simp
        · rw [main_other _ _ _ _ e]
      refine ⟨hh, h.frames, ?_, .inl rfl, fun e => absurd e hal⟩
      rcases h.list with ⟨u, y, h1, h2⟩ | ⟨h1, h2⟩
      · exact .inl ⟨u, y, (hne u y).2 h1, h2⟩
      · exact .inr ⟨fun u y hu => h1 u y ((hne u y).1 hu), h2⟩
    · next x hm =>
      cases hs
      rw [List.append_nil]
      have hd : s.disp = .handler := by
        rcases h.disp with h1 | ⟨-, h2⟩
        · exact h1
        · exact absurd hm (h2 t x)
      refine ⟨hh, h.frames, .inl ⟨t, x, main_same _ _ _, ?_⟩, .inl hd, fun e => absurd e hal⟩
      rcases h.list with ⟨u, y, h1, h2⟩ | ⟨h1, h2⟩
      · have := only_unlock h (t := t) (u := u) (by simp [hm, Main.holds]) (by simp [h1, Main.holds])
        subst this
        rw [hm] at h1; cases h1
      · show s.handlers ++ [x] = _
        rw [h2]
    · next x hm =>
      cases hs
      obtain ⟨hm1, hf1, hl1, hd1, ha1, -⟩ := release_cases s
      have hl : s.handlers = returned o ++ [x] := by
        rcases h.list with ⟨u, y, h1, h2⟩ | ⟨h1, h2⟩
        · have := only_unlock h (t := t) (u := u) (by simp [hm, Main.holds]) (by simp [h1, Main.holds])
          subst this
          rw [hm] at h1; cases h1
          exact h2
        · exact absurd hm (h1 t x)
      have hd : s.disp = .handler := by
        rcases h.disp with h1 | ⟨h1, -⟩
        · exact h1
        · rw [hl] at h1; simp at h1
      refine ⟨hh, fun u => ?_, .inr ⟨fun u y hu => ?_, ?_⟩, .inl ?_, ?_⟩
      · show (release s).frame u = _
        rw [hf1]; exact h.frames u
      · by_cases e : u = t
        · subst e; rw [main_same] at hu; cases hu
        · rw [main_other _ _ _ _ e, hm1] at hu
          exact e (only_unlock h (by simp [hu, Main.holds]) (by simp [hm, Main.holds]))
      · show (release s).handlers = _
        rw [hl1, hl, returned_append]; rfl
      · show (release s).disp = _
        rw [hd1]; exact hd
      · show (release s).alive = false → _
        rw [ha1]; exact fun e => absurd e hal

/-! ### After it -/

/-- What a thread has done in its signal handler, with `R` the registrations of interest. -/
def Done (R : List Nat) (hs : List Nat) (o : List Obs) (t : Nat) : Frame → Prop
  | .loop i => i ≤ hs.length ∧ (hs.take i).Sublist (callsBy t o)
  | .unlock | .default | .kill => R.Sublist (callsBy t o)
  | _ => True

structure After (R : List Nat) (s : St) (o : List Obs) : Prop where
  list : R <+: s.handlers
  frames : ∀ t, Done R s.handlers o t (s.frame t)
  disp : s.disp = .dfl → ∃ t, R.Sublist (callsBy t o)
  dead : s.alive = false → ∃ t, R.Sublist (callsBy t o)

theorem sub_more {R : List Nat} {t : Nat} {o o' : List Obs} (h : R.Sublist (callsBy t o)) : R.Sublist (callsBy t (o ++ o')) := by
  rw [callsBy_append]
  exact h.trans (List.sublist_append_left _ _)

theorem done_more {R hs more : List Nat} {o o' : List Obs} {t : Nat} {f : Frame} (h : Done R hs o t f) : Done R (hs ++ more) (o ++ o') t f := by
  cases f with
  | loop i =>
    refine ⟨by have := h.1; simp; omega, ?_⟩
    rw [List.take_append_of_le_length h.1]
    exact sub_more h.2
  | unlock => exact sub_more h
  | default => exact sub_more h
  | kill => exact sub_more h
  | _ => trivial

theorem after_happen {R : List Nat} {s s' : St} {e : Ev} {o o' : List Obs} (h : After R s o) (hs : happen s e = some (s', o')) : After R s' (o ++ o') := by
  have hf' : ∀ u, Done R s.handlers (o ++ o') u (s.frame u) := fun u => by
    have := done_more (more := []) (o' := o') (h.frames u)
    rwa [List.append_nil] at this
  have hd' : s.disp = .dfl → ∃ t, R.Sublist (callsBy t (o ++ o')) := fun e => (h.disp e).imp fun _ => sub_more
  unfold happen at hs
  split at hs
  · cases hs
  next hal =>
  have dead : ∀ P : Prop, s.alive = false → P := fun _ e => absurd e hal
  cases e with
  | register t x =>
    simp only at hs
    split at hs
    · cases hs; exact ⟨h.list, hf', hd', dead _⟩
    · cases hs
  | send => cases hs; exact ⟨h.list, hf', hd', dead _⟩
  | deliver t =>
    simp only at hs
    split at hs
    · split at hs
      · next hd => cases hs; exact ⟨h.list, hf', hd', fun _ => hd' hd⟩
      · cases hs; exact ⟨h.list, hf', hd', dead _⟩
      · cases hs
        refine ⟨h.list, fun u => ?_, hd', dead _⟩
        by_cases e : u = t
        · subst e; rw [frame_same]; trivial
        · rw [frame_other _ _ _ _ e]; exact hf' u
    · cases hs
  | step t =>
    simp only [next] at hs
    split at hs
    · simp only [nextMain] at hs
      split at hs
      · cases hs
      · simp only [Option.map_eq_some_iff, Prod.mk.injEq] at hs
        obtain ⟨s1, ha, rfl, rfl⟩ := hs
        obtain ⟨-, -, -, hf1, hl1, hd1, ha1, -⟩ := acquire_cases ha
        refine ⟨?_, fun u => ?_, ?_, ?_⟩
        · show R <+: s1.handlers
          rw [hl1]; exact h.list
        · show Done R s1.handlers _ u (s1.frame u)
          rw [hl1, hf1]; exact hf' u
        · show s1.disp = _ → _
          rw [hd1]; exact hd'
        · show s1.alive = _ → _
          rw [ha1]; exact dead _
      · cases hs; exact ⟨h.list, hf', fun e => (by cases e), dead _⟩
      · cases hs; exact ⟨h.list.trans (List.prefix_append _ _), fun u => done_more (h.frames u), hd', dead _⟩
      · cases hs
        obtain ⟨-, hf1, hl1, hd1, ha1, -⟩ := release_cases s
        refine ⟨?_, fun u => ?_, ?_, ?_⟩
        · show R <+: (release s).handlers
          rw [hl1]; exact h.list
        · show Done R (release s).handlers _ u ((release s).frame u)
          rw [hl1, hf1]; exact hf' u
        · show (release s).disp = _ → _
          rw [hd1]; exact hd'
        · show (release s).alive = _ → _
          rw [ha1]; exact dead _
    · cases hs
      refine ⟨h.list, fun u => ?_, fun e => (by cases e), dead _⟩
      by_cases e : u = t
      · subst e; rw [frame_same]; trivial
      · rw [frame_other _ _ _ _ e]; exact hf' u
    · simp only [Option.map_eq_some_iff, Prod.mk.injEq] at hs
      obtain ⟨s1, ha, rfl, rfl⟩ := hs
      obtain ⟨-, -, -, hf1, hl1, hd1, ha1, -⟩ := acquire_cases ha
      refine ⟨?_, fun u => ?_, ?_, ?_⟩
      · show R <+: s1.handlers
        rw [hl1]; exact h.list
      · show Done R s1.handlers _ u ((s1.atFrame t (.loop 0)).frame u)
        rw [hl1]
        by_cases e : u = t
        · subst e; rw [frame_same]; exact ⟨by omega, by simp⟩
        · rw [frame_other _ _ _ _ e, hf1]; exact hf' u
      · show s1.disp = _ → _
        rw [hd1]; exact hd'
      · show s1.alive = _ → _
        rw [ha1]; exact dead _
    · next i hf =>
      have hl := h.frames t
      rw [hf] at hl
      split at hs
      · next x hx =>
        cases hs
        have hlt := (List.getElem?_eq_some_iff.1 hx).1
        refine ⟨h.list, fun u => ?_, hd', dead _⟩
        by_cases e : u = t
        · subst e
          rw [frame_same]
          refine ⟨hlt, ?_⟩
          show (s.handlers.take (i + 1)).Sublist _
          rw [List.take_add_one, hx, callsBy_append]
          refine hl.2.append ?_
          simp [callsBy]
        · rw [frame_other _ _ _ _ e]; exact hf' u
      · next hx =>
        cases hs
        refine ⟨h.list, fun u => ?_, hd', dead _⟩
        by_cases e : u = t
        · subst e
          rw [frame_same]
          have : s.handlers.take i = s.handlers := List.take_of_length_le (by simpa using hx)
          have h2 := hl.2
          rw [this] at h2
          exact sub_more (h.list.sublist.trans h2)
        · rw [frame_other _ _ _ _ e]; exact hf' u
    · next hf =>
      have hl := hf' t
      rw [hf] at hl
      cases hs
      obtain ⟨-, hf1, hl1, hd1, ha1, -⟩ := release_cases s
      refine ⟨?_, fun u => ?_, ?_, ?_⟩
      · show R <+: (release s).handlers
        rw [hl1]; exact h.list
      · show Done R (release s).handlers _ u (((release s).atFrame t .default).frame u)
        rw [hl1]
        by_cases e : u = t
        · subst e; rw [frame_same]; exact hl
        · rw [frame_other _ _ _ _ e, hf1]; exact hf' u
      · show (release s).disp = _ → _
        rw [hd1]; exact hd'
      · show (release s).alive = _ → _
        rw [ha1]; exact dead _
    · next hf =>
      have hl := hf' t
      rw [hf] at hl
      cases hs
      refine ⟨h.list, fun u => ?_, fun _ => ⟨t, hl⟩, dead _⟩
      by_cases e : u = t
      · subst e; rw [frame_same]; exact hl
      · rw [frame_other _ _ _ _ e]; exact hf' u
    · cases hs
      refine ⟨h.list, fun u => ?_, hd', dead _⟩
      by_cases e : u = t
      · subst e; rw [frame_same]; trivial
      · rw [frame_other _ _ _ _ e]; exact hf' u

/-! ### One signal only -/

/-- The calls of the handlers so far, by the only thread that was interrupted. -/
def Prog (hs : List Nat) (o : List Obs) : Frame → Prop
  | .ignore | .lock => calls o = []
  | .loop i => calls o = hs.take i ∧ i ≤ hs.length
  | _ => calls o <+: hs

/-- Nobody has been interrupted, or one thread once, or it was more. -/
def Once (s : St) (o : List Obs) : Prop :=
  (catches o = 0 ∧ (∀ t, s.frame t = .none) ∧ calls o = []) ∨ (catches o = 1 ∧ ∃ t, (∀ u, u ≠ t → s.frame u = .none) ∧ Prog s.handlers o (s.frame t)) ∨ 2 ≤ catches o

theorem prog_more {hs more : List Nat} {o o' : List Obs} {f : Frame} (h : Prog hs o f) (hc : calls o' = []) : Prog (hs ++ more) (o ++ o') f := by
  have e : calls (o ++ o') = calls o := by rw [calls_append, hc, List.append_nil]
  cases f with
  | ignore => exact e.trans h
  | lock => exact e.trans h
  | loop i => exact ⟨by rw [e, List.take_append_of_le_length h.2]; exact h.1, by have := h.2; simp; omega⟩
  | _ => show calls _ <+: _; rw [e]; exact List.IsPrefix.trans h (List.prefix_append _ _)

/-- A step that interrupts nobody, calls no handler and leaves the signal handlers where they are. -/
theorem once_same {s s' : St} {o o' : List Obs} {more : List Nat} (h : Once s o) (hf : s'.frame = s.frame) (hl : s'.handlers = s.handlers ++ more) (hc : catches o' = 0) (ho : calls o' = []) :
    Once s' (o ++ o') := by
  unfold Once
  rw [catches_append, hc, hf, hl, calls_append, ho]
  rcases h with ⟨a, b, c⟩ | ⟨a, t, b, c⟩ | a
  · exact .inl ⟨by omega, b, by rw [c]; rfl⟩
  · exact .inr (.inl ⟨by omega, t, b, prog_more c ho⟩)
  · exact .inr (.inr (by omega))

/-- A step of a thread in its signal handler. -/
theorem once_frame {s s' : St} {o o' : List Obs} {t : Nat} {f : Frame} (h : Once s o) (ht : s.frame t ≠ .none) (hs : s'.frame t = f) (hu : ∀ u, u ≠ t → s'.frame u = s.frame u)
    (hc : catches o' = 0) (hp : Prog s.handlers o (s.frame t) → Prog s'.handlers (o ++ o') f) : Once s' (o ++ o') := by
  unfold Once
  rw [catches_append, hc]
  rcases h with ⟨a, b, c⟩ | ⟨a, x, b, c⟩ | a
  · exact absurd (b t) ht
  · have : t = x := by
      by_contra e
      exact ht (b t e)
    subst this
    exact .inr (.inl ⟨by omega, t, fun u e => by rw [hu u e]; exact b u e, by rw [hs]; exact hp c⟩)
  · exact .inr (.inr (by omega))

theorem once_happen {s s' : St} {e : Ev} {o o' : List Obs} (h : Once s o) (hs : happen s e = some (s', o')) : Once s' (o ++ o') := by
  unfold happen at hs
  split at hs
  · cases hs
  cases e with
  | register t x =>
    simp only at hs
    split at hs
    · cases hs; exact once_same (more := []) h rfl (by simp [St.atMain]) rfl rfl
    · cases hs
  | send => cases hs; exact once_same (more := []) h rfl (by simp) rfl rfl
  | deliver t =>
    simp only at hs
    split at hs
    · next hi =>
      split at hs
      · cases hs; exact once_same (more := []) h rfl (by simp) rfl rfl
      · cases hs; exact once_same (more := []) h rfl (by simp) rfl rfl
      · cases hs
        unfold Once
        rw [catches_append, show catches [Obs.caught t] = 1 from rfl]
        rcases h with ⟨a, b, c⟩ | ⟨a, -⟩ | a
        · refine .inr (.inl ⟨by omega, t, fun u e => ?_, ?_⟩)
          · rw [frame_other _ _ _ _ e]; exact b u
          · rw [frame_same]
            show calls _ = []
            rw [calls_append, c]; rfl
        · exact .inr (.inr (by omega))
        · exact .inr (.inr (by omega))
    · cases hs
  | step t =>
    simp only [next] at hs
    split at hs
    · simp only [nextMain] at hs
      split at hs
      · cases hs
      · simp only [Option.map_eq_some_iff, Prod.mk.injEq] at hs
        obtain ⟨s1, ha, rfl, rfl⟩ := hs
        obtain ⟨-, -, -, hf1, hl1, -⟩ := acquire_cases ha
        exact once_same (more := []) h hf1 (by rw [List.append_nil]; exact hl1) rfl rfl
      · cases hs; exact once_same (more := []) h rfl (by simp [St.atMain]) rfl rfl
      · cases hs; exact once_same h rfl rfl rfl rfl
      · cases hs
        obtain ⟨-, hf1, hl1, -⟩ := release_cases s
        exact once_same (more := []) h hf1 (by rw [List.append_nil]; exact hl1) rfl rfl
    · next hf =>
      cases hs
      refine once_frame h (by rw [hf]; simp) (frame_same _ _ _) (fun u e => frame_other _ _ _ _ e) rfl fun hp => ?_
      rw [hf] at hp
      rw [List.append_nil]; exact hp
    · next hf =>
      simp only [Option.map_eq_some_iff, Prod.mk.injEq] at hs
      obtain ⟨s1, ha, rfl, rfl⟩ := hs
      obtain ⟨-, -, -, hf1, hl1, -⟩ := acquire_cases ha
      refine once_frame h (by rw [hf]; simp) (frame_same _ _ _) (fun u e => by rw [frame_other _ _ _ _ e, hf1]) rfl fun hp => ?_
      rw [hf] at hp
      rw [List.append_nil]
      exact ⟨hp, by omega⟩
    · next i hf =>
      split at hs
      · next x hx =>
        cases hs
        refine once_frame h (by rw [hf]; simp) (frame_same _ _ _) (fun u e => frame_other _ _ _ _ e) rfl fun hp => ?_
        rw [hf] at hp
        refine ⟨?_, (List.getElem?_eq_some_iff.1 hx).1⟩
        show _ = s.handlers.take (i + 1)
        rw [calls_append, hp.1, List.take_add_one, hx]
        rfl
      · cases hs
        refine once_frame h (by rw [hf]; simp) (frame_same _ _ _) (fun u e => frame_other _ _ _ _ e) rfl fun hp => ?_
        rw [hf] at hp
        show calls _ <+: s.handlers
        rw [List.append_nil, hp.1]
        exact List.take_prefix _ _
    · next hf =>
      cases hs
      obtain ⟨-, hf1, hl1, -⟩ := release_cases s
      refine once_frame h (by rw [hf]; simp) (frame_same _ _ _) (fun u e => by rw [frame_other _ _ _ _ e, hf1]) rfl fun hp => ?_
      rw [hf] at hp
      show calls _ <+: (release s).handlers
      rw [List.append_nil, hl1]
      exact hp
    · next hf =>
      cases hs
      refine once_frame h (by rw [hf]; simp) (frame_same _ _ _) (fun u e => frame_other _ _ _ _ e) rfl fun hp => ?_
      rw [hf] at hp
      rw [List.append_nil]; exact hp
    · next hf =>
      cases hs
      refine once_frame h (by rw [hf]; simp) (frame_same _ _ _) (fun u e => frame_other _ _ _ _ e) rfl fun hp => ?_
      rw [hf] at hp
      rw [List.append_nil]; exact hp

theorem calls_prefix {s : St} {o : List Obs} (h : Once s o) (hc : catches o ≤ 1) : calls o <+: s.handlers := by
  rcases h with ⟨-, -, h⟩ | ⟨-, t, -, h⟩ | h
  · rw [h]; exact List.nil_prefix
  · unfold Prog at h
    split at h
    · rw [h]; exact List.nil_prefix
    · rw [h]; exact List.nil_prefix
    · rw [h.1]; exact List.take_prefix _ _
    · exact h
  · omega

/-! ### The list of handlers -/

/-- The list of handlers is that of the registrations that are over, except for one that is about to be. -/
def Listed (s : St) (o : List Obs) : Prop :=
  Held s ∧ ((∃ t h, s.main t = .unlock h ∧ s.handlers = returned o ++ [h]) ∨ ((∀ t h, s.main t ≠ .unlock h) ∧ s.handlers = returned o))

theorem one_holds {s : St} (h : Held s) {t u : Nat} (ht : (s.main t).holds = true) (hu : (s.main u).holds = true) : t = u := by
  have a := held_other h (t := t) (by simp [St.count, ht])
  have b := held_other h (t := u) (by simp [St.count, hu])
  rw [a] at b
  exact Option.some.inj b

/-- A step that does not touch the list, nor who is about to be through. -/
theorem listed_same {s s' : St} {o o' : List Obs} (h : Listed s o) (hh : Held s') (hl : s'.handlers = s.handlers) (hr : returned o' = []) (hm : ∀ t x, s'.main t = .unlock x ↔ s.main t = .unlock x) :
    Listed s' (o ++ o') := by
  refine ⟨hh, ?_⟩
  rw [hl, returned_append, hr, List.append_nil]
  rcases h.2 with ⟨t, x, a, b⟩ | ⟨a, b⟩
  · exact .inl ⟨t, x, (hm t x).2 a, b⟩
  · exact .inr ⟨fun t x e => a t x ((hm t x).1 e), b⟩

theorem listed_happen {s s' : St} {e : Ev} {o o' : List Obs} (h : Listed s o) (hs : happen s e = some (s', o')) : Listed s' (o ++ o') := by
  have hh := held_happen h.1 hs
  have hset : ∀ (r : St) (t : Nat) (p : Main), r.main = s.main → (∀ x, p ≠ .unlock x) → (∀ x, s.main t ≠ .unlock x) → ∀ u x, (r.atMain t p).main u = .unlock x ↔ s.main u = .unlock x := by
    intro r t p hr hp hq u x
    by_cases e : u = t
    · subst e; rw [main_same]; simp [hp x, hq x]
    · rw [main_other _ _ _ _ e, hr]
  unfold happen at hs
  split at hs
  · cases hs
  cases e with
  | register t x =>
    simp only at hs
    split at hs
    · next hi => cases hs; exact listed_same h hh rfl rfl (hset s t _ rfl (by simp) (by simp [hi.1]))
    · cases hs
  | send => cases hs; exact listed_same h hh rfl rfl fun _ _ => Iff.rfl
  | deliver t =>
    simp only at hs
    split at hs
    · split at hs <;> cases hs <;> exact listed_same h hh rfl rfl fun _ _ => Iff.rfl
    · cases hs
  | step t =>
    simp only [next] at hs
    split at hs
    · simp only [nextMain] at hs
      split at hs
      · cases hs
      · next x hm =>
        simp only [Option.map_eq_some_iff, Prod.mk.injEq] at hs
        obtain ⟨s1, ha, rfl, rfl⟩ := hs
        obtain ⟨-, -, hm1, -, hl1, -⟩ := acquire_cases ha
        exact listed_same h hh hl1 rfl (hset s1 t _ hm1 (by simp) (by simp [hm]))
      · next x hm => cases hs; exact listed_same h hh rfl rfl (hset { s with disp := .handler } t _ rfl (by simp) (by simp [hm]))
      · next x hm =>
        cases hs
        refine ⟨hh, .inl ⟨t, x, main_same _ _ _, ?_⟩⟩
        rw [List.append_nil]
        rcases h.2 with ⟨u, y, a, b⟩ | ⟨a, b⟩
        · have := one_holds h.1 (t := t) (u := u) (by simp [hm, Main.holds]) (by simp [a, Main.holds])
          subst this
          rw [hm] at a; cases a
        · show s.handlers ++ [x] = _
          rw [b]
      · next x hm =>
        cases hs
        obtain ⟨hm1, -, hl1, -⟩ := release_cases s
        refine ⟨hh, .inr ⟨fun u y hu => ?_, ?_⟩⟩
        · by_cases e : u = t
          · subst e; rw [main_same] at hu; cases hu
          · rw [main_other _ _ _ _ e, hm1] at hu
            exact e (one_holds h.1 (by simp [hu, Main.holds]) (by simp [hm, Main.holds]))
        · show (release s).handlers = _
          rw [hl1, returned_append]
          rcases h.2 with ⟨u, y, a, b⟩ | ⟨a, b⟩
          · have := one_holds h.1 (t := t) (u := u) (by simp [hm, Main.holds]) (by simp [a, Main.holds])
            subst this
            rw [hm] at a; cases a
            exact b
          · exact absurd hm (a t x)
    · cases hs; exact listed_same h hh rfl rfl fun _ _ => Iff.rfl
    · simp only [Option.map_eq_some_iff, Prod.mk.injEq] at hs
      obtain ⟨s1, ha, rfl, rfl⟩ := hs
      obtain ⟨-, -, hm1, -, hl1, -⟩ := acquire_cases ha
      exact listed_same h hh hl1 rfl fun u x => by show s1.main u = _ ↔ _; rw [hm1]
    · split at hs <;> cases hs <;> exact listed_same h hh rfl rfl fun _ _ => Iff.rfl
    · cases hs
      obtain ⟨hm1, -, hl1, -⟩ := release_cases s
      exact listed_same h hh hl1 rfl fun u x => by show (release s).main u = _ ↔ _; rw [hm1]
    · cases hs; exact listed_same h hh rfl rfl fun _ _ => Iff.rfl
    · cases hs; exact listed_same h hh rfl rfl fun _ _ => Iff.rfl

/-! ### C122 -/

/-- C122: whatever the threads are doing when the signal comes, also if one is in the middle of `Register`: when the process ends, all handlers whose registration was over before the signal
first interrupted a thread have been called, by one thread and in the order of registration. -/
theorem C122_all_called (es1 es2 : List Ev) (s1 s2 : St) (o1 o2 : List Obs) (h1 : exec start es1 = some (s1, o1)) (hc : catches o1 = 0) (h2 : exec s1 es2 = some (s2, o2)) (hend : s2.alive = false) :
    ∃ t, (returned o1).Sublist (callsBy t o2) := by
  have hq : catches ([] ++ o1) = 0 → Quiet s1 ([] ++ o1) := by
    refine exec_inv (P := fun s o => catches o = 0 → Quiet s o) (fun s o e s' o' h hs hc => ?_) (fun _ => ?_) h1
    · rw [catches_append] at hc
      exact quiet_happen (h (by omega)) hs (by omega)
    · exact ⟨held_start, fun _ => rfl, .inr ⟨fun _ _ h => (by cases h), rfl⟩, .inr ⟨rfl, fun _ _ h => (by cases h)⟩, fun h => (by cases h)⟩
  have hq := hq hc
  rw [List.nil_append] at hq
  have hpre : returned o1 <+: s1.handlers := by
    rcases hq.list with ⟨t, h, -, e⟩ | ⟨-, e⟩
    · rw [e]; exact List.prefix_append _ _
    · exact e ▸ List.prefix_refl _
  have hdfl : s1.disp = .dfl → ∃ t, (returned o1).Sublist (callsBy t []) := by
    intro e
    rcases hq.disp with h | ⟨h, -⟩
    · rw [h] at e; cases e
    · rw [h] at hpre
      exact ⟨0, by rw [List.prefix_nil.1 hpre]; simp⟩
  have ha : After (returned o1) s1 [] :=
    ⟨hpre, fun t => by rw [hq.frames t]; trivial, hdfl, fun e => hdfl (hq.dead e)⟩
  have := exec_inv (P := After (returned o1)) (fun s o e s' o' h hs => after_happen h hs) ha h2
  rw [List.nil_append] at this
  exact this.dead hend

/-- C122: threads registering handlers and handling the signal never block each other: as long as the process is alive and a thread is not finished, some thread can go on. -/
theorem C122_progress (es : List Ev) (s : St) (o : List Obs) (h : exec start es = some (s, o)) (hal : s.alive = true) (t : Nat) (ht : s.main t ≠ .idle ∨ s.frame t ≠ .none) :
    ∃ u r, happen s (.step u) = some r := by
  have hh : Held s := exec_inv (P := fun s _ => Held s) (fun s o e s' o' h hs => held_happen h hs) (o := []) held_start h
  have hstep : ∀ u, happen s (.step u) = next s u := fun u => by simp [happen, hal]
  have hacq : ∀ u, s.owner = none ∨ s.owner = some u → ∃ s', acquire s u = some s' := by
    intro u hu
    unfold acquire
    rcases hu with e | e <;> simp [e]
  -- a thread with the mutex can go on
  have hown : ∀ u, s.owner = some u → ∃ r, next s u = some r := by
    intro u hu
    obtain ⟨s', hs'⟩ := hacq u (.inr hu)
    have hcnt := (hh.2 u hu).1
    have hd := (hh.2 u hu).2.1
    unfold next
    split
    · next hf =>
      unfold nextMain
      split
      · next hm => simp [St.count, hf, hm, Main.holds, Frame.holds] at hcnt; omega
      · simp [hs']
      · simp
      · simp
      · simp
    · simp
    · simp [hs']
    · split <;> simp
    · simp
    · simp
    · simp
  cases ho : s.owner with
  | some u =>
    obtain ⟨r, hr⟩ := hown u ho
    exact ⟨u, r, by rw [hstep, hr]⟩
  | none =>
    obtain ⟨s', hs'⟩ := hacq t (.inl ho)
    refine ⟨t, ?_⟩
    rw [hstep]
    unfold next
    split
    · next hf =>
      unfold nextMain
      split
      · next hm => simp [hf, hm] at ht
      · simp [hs']
      · simp
      · simp
      · simp
    · simp
    · simp [hs']
    · split <;> simp
    · simp
    · simp
    · simp

/-- C122, partial: if the signal interrupts a thread only once, the handlers are called in the order in which they were registered, each registration at most once; at most one that is not
over yet (its handler is in the list already) counts.  Missing: more than one interruption, see `C122_twice_refuted` and `C122_again_refuted`. -/
theorem C122_once_partial (es : List Ev) (s : St) (o : List Obs) (h : exec start es = some (s, o)) (hc : catches o ≤ 1) : ∃ more : List Nat, more.length ≤ 1 ∧ calls o <+: returned o ++ more := by
  have h0 : Once start [] := .inl ⟨rfl, fun _ => rfl, rfl⟩
  have h1 := exec_inv (P := Once) (fun s o e s' o' h hs => once_happen h hs) h0 h
  have h2 := exec_inv (P := Listed) (fun s o e s' o' h hs => listed_happen h hs) (o := []) ⟨held_start, .inr ⟨fun _ _ h => (by cases h), rfl⟩⟩ h
  rw [List.nil_append] at h1 h2
  have h3 := calls_prefix h1 hc
  rcases h2.2 with ⟨t, x, -, e⟩ | ⟨-, e⟩
  · exact ⟨[x], by simp, by rw [← e]; exact h3⟩
  · exact ⟨[], by simp, by rw [List.append_nil, ← e]; exact h3⟩

/-- C122, false for two signals: two threads are interrupted before the first has set the signal to be ignored, and the handler is called twice. -/
theorem C122_twice_refuted : ∃ es s o, exec start es = some (s, o) ∧ returned o = [7] ∧ calls o = [7, 7] :=
  ⟨[.register 0 7, .step 0, .step 0, .step 0, .step 0, .send, .deliver 0, .send, .deliver 1, .step 0, .step 0, .step 0, .step 0, .step 0, .step 1, .step 1, .step 1], _, _, rfl, by decide, by decide⟩

/-- C122, false with one signal: a thread registering another handler switches the signal on again, and the `kill` at the end has the handlers called once more. -/
theorem C122_again_refuted : ∃ es s o, exec start es = some (s, o) ∧ es.count .send = 1 ∧ returned o = [7, 9] ∧ calls o = [7, 7, 9] :=
  ⟨[.register 0 7, .step 0, .step 0, .step 0, .step 0, .send, .deliver 0, .step 0, .step 0, .step 0, .step 0, .step 0, .step 0, .register 1 9, .step 1, .step 1, .step 0, .deliver 0,
    .step 1, .step 1, .step 0, .step 0, .step 0, .step 0], _, _, rfl, by decide, by decide, by decide⟩

/-- A signal in the middle of `Register`, on the same thread: the handler registered before is called, the one being registered is not, and the process ends. -/
example : (exec start ([.register 0 7, .step 0, .step 0, .step 0, .step 0, .register 0 8, .step 0, .step 0, .send, .deliver 0] ++ List.replicate 7 (.step 0) ++ [.deliver 0])).map (fun r => (r.1.alive, r.2)) =
    some (false, [.returned 7, .caught 0, .called 0 7]) := by decide

/-- Another thread handles the signal: it waits until `Register` is over, and calls both. -/
example : (exec start ([.register 0 7, .step 0, .step 0, .step 0, .step 0, .register 0 8, .step 0, .step 0, .send, .deliver 1, .step 1, .step 0, .step 0] ++ List.replicate 7 (.step 1) ++ [.deliver 1])).map
    (fun r => (r.1.alive, r.2)) = some (false, [.returned 7, .caught 1, .returned 8, .called 1 7, .called 1 8]) := by decide

end Verif.Process.SignalThreads
