import Verif.Process.Model
import Verif.Sockets.Model
import Mathlib.Data.List.Basic
import Mathlib.Tactic.SplitIfs

/-
Property C188: signals that arrive while a thread waits for a packet or sleeps (`/repo/Sockets.cpp:206-237`, `/repo/Utils.cpp:309-313`, `/repo/Timeval.h:38`, `/repo/UnixSignal.cpp:40-53, 130-141`).

Not part of /repo: `signal` of glibc makes the system restart `recvfrom` after a handler; `select` and `usleep` are never restarted, they end with `EINTR` when a handler was run, and are not disturbed by signals that are
ignored or stop the process.
-/

namespace Verif.Process.Interrupted
open Verif Verif.Process

variable {H : Type}

/-- How waiting in a system call ends: as asked for, by a signal at the given time (in microseconds since the beginning), or with the process. -/
inductive Wait
  | done | eintr (time : Nat) | killed
deriving DecidableEq, Repr

/-- Waiting for `len` microseconds in a call that is restarted or not, while signals are delivered (`deliver`, `UnixSignal.cpp:40-53`), given with their times in order.  The time for which the process is stopped is not counted. -/
def wait (restart : Bool) (len : Nat) : Sigs H → List (Nat × Nat) → Outcome (Wait × Sigs H)
  | s, [] => .ok (.done, s)
  | s, (t, sig) :: es =>
    if len ≤ t then .ok (.done, s)
    else (deliver s sig).bind fun x =>
      if x.2.1 = .terminate then .ok (.killed, x.2.2)
      else if s.disp sig = .ours ∧ restart = false then .ok (.eintr t, x.2.2)
      else wait restart len x.2.2 es

/-- How a call on a socket ends: with a result, with a `SocketError`, in `abort`, or with the process. -/
inductive Got (α : Type)
  | ret (a : α) | thrown | abort | killed
deriving DecidableEq, Repr

/-- `devassert(0); throw SocketError();` (`Defines.h:46`, `Sockets.cpp:231-232`); `debug` says whether the level of the file is DEBUG. -/
def fail {α : Type} (debug : Bool) : Got α := if debug then .abort else .thrown

/-- The time limit in microseconds (`Sockets.cpp:226-227`). -/
def limit (timeout : Nat) : Nat := (Sockets.timeLimit timeout).1 * 1000000 + (Sockets.timeLimit timeout).2

/-- `DatagramSocket::read(buffer, timeout)` (`Sockets.cpp:220-237`) as in `Sockets.readTimed`, with signals: `select` waits until the message is there or the time is over, and fails when it is interrupted. -/
def readTimed (debug : Bool) (g : Sigs H) (x : Sockets.Sock) (timeout : Nat) (a : Sockets.Addr) (msg : Str) (delay : Nat) (es : List (Nat × Nat)) : Outcome (Got (Int × Str × Sockets.Sock) × Sigs H) :=
  (Sockets.readTimed x timeout a msg delay).bind fun r =>
    (wait false (min delay (limit timeout)) g es).bind fun w =>
      match w.1 with
      | .done => .ok (.ret r, w.2)
      | .eintr _ => .ok (fail debug, w.2)
      | .killed => .ok (.killed, w.2)

/-- `DatagramSocket::read(buffer)` (`Sockets.cpp:206-217`) on a blocking socket, with signals; it would fail if `recvfrom` were interrupted. -/
def read (debug : Bool) (g : Sigs H) (x : Sockets.Sock) (a : Sockets.Addr) (msg : Str) (delay : Nat) (es : List (Nat × Nat)) : Outcome (Got (Int × Str × Sockets.Sock) × Sigs H) :=
  (wait true delay g es).bind fun w =>
    match w.1 with
    | .done => .ok (.ret (Sockets.read x a msg), w.2)
    | .eintr _ => .ok (fail debug, w.2)
    | .killed => .ok (.killed, w.2)

/-- `usleep(us)`, in `sleepf` and `msleep` (`Utils.cpp:312`, `Timeval.h:38`): the time slept; its result is not looked at. -/
def sleep (us : Nat) (g : Sigs H) (es : List (Nat × Nat)) : Outcome (Option Nat × Sigs H) :=
  (wait false us g es).bind fun w =>
    match w.1 with
    | .done => .ok (some us, w.2)
    | .eintr t => .ok (some t, w.2)
    | .killed => .ok (none, w.2)

/-! ### Specification -/

/-- Signals whose default action leaves the process running. -/
def Harmless (es : List (Nat × Nat)) : Prop := ∀ e ∈ es, defaultAction e.2 ≠ .terminate

/-- A signal with a handler arrives before the end. -/
def Caught (g : Sigs H) (len : Nat) (es : List (Nat × Nat)) : Prop := ∃ e ∈ es, e.1 < len ∧ g.disp e.2 = .ours

/-! ### Proof -/

theorem harmless_mem {sig : Nat} (h : defaultAction sig ≠ .terminate) : sig ∈ [17, 18, 19, 20, 21, 22, 23, 28] := by
  by_contra q
  apply h
  simp only [List.mem_cons, List.not_mem_nil, or_false, not_or] at q
  obtain ⟨a, b, c, d, e, f, g, i⟩ := q
  simp [defaultAction, a, b, c, d, e, f, g, i]

theorem harmless_small {sig : Nat} (h : defaultAction sig ≠ .terminate) : sig < 64 ∧ sig ∉ coreSignals := by
  have := harmless_mem h
  simp only [List.mem_cons, List.not_mem_nil, or_false] at this
  rcases this with rfl | rfl | rfl | rfl | rfl | rfl | rfl | rfl <;> decide

/-- A harmless signal is delivered without harm; only one with a handler changes anything. -/
theorem deliver_harmless (g : Sigs H) {sig : Nat} (h : defaultAction sig ≠ .terminate) :
    ∃ hs act g', deliver g sig = .ok (hs, act, g') ∧ act ≠ .terminate ∧ (g.disp sig ≠ .ours → g' = g) ∧ ∀ i, g'.disp i = .ours → g.disp i = .ours ∧ (g.disp sig = .ours → i ≠ sig) := by
  simp only [deliver]
  cases hd : g.disp sig with
  | dfl => exact ⟨_, _, _, rfl, h, fun _ => rfl, fun i hi => ⟨hi, nofun⟩⟩
  | ign => exact ⟨_, _, _, rfl, by decide, fun _ => rfl, fun i hi => ⟨hi, nofun⟩⟩
  | ours =>
    obtain ⟨h1, h2⟩ := harmless_small h
    have e : handler g (sig : Int) = .ok (g.handlers sig) := by
      simp only [handler, C_NSIG, Int.toNat_natCast]
      rw [if_neg (by omega), if_neg (fun q => h2 q.1)]
    simp only [e, Outcome.bind]
    refine ⟨_, _, _, rfl, h, fun q => absurd rfl q, fun i hi => ?_⟩
    dsimp only at hi
    split at hi
    · cases hi
    · rename_i q; exact ⟨hi, fun _ => q⟩

/-- A call that is restarted waits to the end. -/
theorem wait_restart (len : Nat) (g : Sigs H) (es : List (Nat × Nat)) (h : Harmless es) : ∃ g', wait true len g es = .ok (.done, g') := by
  induction es generalizing g with
  | nil => exact ⟨g, rfl⟩
  | cons e es ih =>
    obtain ⟨t, sig⟩ := e
    simp only [wait]
    split
    · exact ⟨g, rfl⟩
    · obtain ⟨hs, act, g', hd, ha, _, _⟩ := deliver_harmless g (h (t, sig) List.mem_cons_self)
      rw [hd]
      simp only [Outcome.bind, if_neg ha, Bool.true_eq_false, and_false, if_false]
      exact ih g' fun e he => h e (List.mem_cons_of_mem _ he)

/-- A call that is not restarted is interrupted by the first signal that has a handler, and by no other. -/
theorem wait_once (len : Nat) (g : Sigs H) (es : List (Nat × Nat)) (h : Harmless es) (hs : es.Pairwise (fun a b => a.1 ≤ b.1)) :
    (Caught g len es ∧ ∃ e ∈ es, e.1 < len ∧ g.disp e.2 = .ours ∧ (∀ e' ∈ es, g.disp e'.2 = .ours → e.1 ≤ e'.1) ∧ ∃ g', wait false len g es = .ok (.eintr e.1, g') ∧ ∀ i, g'.disp i = .ours → g.disp i = .ours ∧ i ≠ e.2) ∨
      (¬ Caught g len es ∧ wait false len g es = .ok (.done, g)) := by
  induction es with
  | nil => exact .inr ⟨(fun ⟨_, he, _⟩ => nomatch he), rfl⟩
  | cons e es ih =>
    obtain ⟨t, sig⟩ := e
    obtain ⟨hle, hs'⟩ := List.pairwise_cons.mp hs
    simp only [wait]
    by_cases hlen : len ≤ t
    · right
      rw [if_pos hlen]
      refine ⟨?_, rfl⟩
      rintro ⟨e, he, h1, _⟩
      rcases List.mem_cons.mp he with rfl | he
      · exact absurd h1 (by simpa using hlen)
      · have := hle e he
        simp only at this
        omega
    · rw [if_neg hlen]
      obtain ⟨hs0, act, g', hd, ha, hsame, hdisp⟩ := deliver_harmless g (h (t, sig) List.mem_cons_self)
      rw [hd]
      simp only [Outcome.bind, if_neg ha, and_true]
      by_cases ho : g.disp sig = .ours
      · left
        rw [if_pos ho]
        refine ⟨⟨(t, sig), List.mem_cons_self, by simpa using hlen, ho⟩, (t, sig), List.mem_cons_self, by simpa using hlen, ho, fun e' he' _ => ?_, g', rfl, fun i hi => ⟨(hdisp i hi).1, (hdisp i hi).2 ho⟩⟩
        rcases List.mem_cons.mp he' with rfl | he'
        · exact Nat.le_refl _
        · exact hle e' he'
      · rw [if_neg ho, hsame ho]
        rcases ih (fun e he => h e (List.mem_cons_of_mem _ he)) hs' with ⟨⟨c, hc, hc1, hc2⟩, e, he, h1, h2, h3, g2, h4, h5⟩ | ⟨hn, hw⟩
        · left
          refine ⟨⟨c, List.mem_cons_of_mem _ hc, hc1, hc2⟩, e, List.mem_cons_of_mem _ he, h1, h2, fun e' he' ho' => ?_, g2, h4, h5⟩
          rcases List.mem_cons.mp he' with rfl | he'
          · exact absurd ho' ho
          · exact h3 e' he' ho'
        · right
          refine ⟨?_, hw⟩
          rintro ⟨e, he, h1, h2⟩
          rcases List.mem_cons.mp he with rfl | he
          · exact ho h2
          · exact hn ⟨e, he, h1, h2⟩

/-! ### Theorems -/

/-- C188: a read without time limit gets its message, whatever harmless signals arrive. -/
theorem C188_read (debug : Bool) (g : Sigs H) (x : Sockets.Sock) (a : Sockets.Addr) (msg : Str) (delay : Nat) (es : List (Nat × Nat)) (h : Harmless es) : ∃ g', read debug g x a msg delay es = .ok (.ret (Sockets.read x a msg), g') := by
  obtain ⟨g', e⟩ := wait_restart delay g es h
  exact ⟨g', by simp only [read, e, Outcome.bind]⟩

/-- C188, for harmless signals without handler: a timed read is not disturbed.  Missing for the full statement: signals with a handler, which make the call fail (`C188_interrupted`). -/
theorem C188_timed_partial (debug : Bool) (g : Sigs H) (x : Sockets.Sock) (timeout : Nat) (a : Sockets.Addr) (msg : Str) (delay : Nat) (es : List (Nat × Nat)) (h : Harmless es) (hs : es.Pairwise (fun a b => a.1 ≤ b.1))
    (hn : ∀ e ∈ es, g.disp e.2 ≠ .ours) : readTimed debug g x timeout a msg delay es = (Sockets.readTimed x timeout a msg delay).bind fun r => .ok (.ret r, g) := by
  simp only [readTimed]
  congr 1
  funext r
  rcases wait_once (min delay (limit timeout)) g es h hs with ⟨⟨e, he, _, ho⟩, _⟩ | ⟨_, hw⟩
  · exact absurd ho (hn e he)
  · rw [hw]; rfl

/-- C188: a timed read on a good descriptor fails exactly if a signal with a handler arrives before the message and before the end of the time, though the signal does nothing to the process: with a `SocketError`, or in `abort` when messages of level DEBUG are logged. -/
theorem C188_interrupted (debug : Bool) (g : Sigs H) (x : Sockets.Sock) (fd : Nat) (hx : x.fd = some fd) (hfd : fd < 1024) (timeout : Nat) (a : Sockets.Addr) (msg : Str) (delay : Nat) (es : List (Nat × Nat)) (h : Harmless es)
    (hs : es.Pairwise (fun a b => a.1 ≤ b.1)) : (∃ g', readTimed debug g x timeout a msg delay es = .ok (if debug then .abort else .thrown, g')) ↔ ∃ e ∈ es, e.1 < delay ∧ e.1 < limit timeout ∧ g.disp e.2 = .ours := by
  have hr : ∃ r, Sockets.readTimed x timeout a msg delay = .ok r := by
    simp only [Sockets.readTimed, hx]
    rw [if_neg (by omega)]
    split <;> exact ⟨_, rfl⟩
  obtain ⟨r, hr⟩ := hr
  have hc : Caught g (min delay (limit timeout)) es ↔ ∃ e ∈ es, e.1 < delay ∧ e.1 < limit timeout ∧ g.disp e.2 = .ours := by
    simp only [Caught, Nat.lt_min, and_assoc]
  rw [← hc]
  simp only [readTimed, hr, Outcome.bind]
  rcases wait_once (min delay (limit timeout)) g es h hs with ⟨hcaught, e, _, _, _, _, g', hw, _⟩ | ⟨hn, hw⟩
  · rw [hw]
    exact ⟨fun _ => hcaught, fun _ => ⟨g', rfl⟩⟩
  · rw [hw]
    refine ⟨?_, fun c => absurd c hn⟩
    rintro ⟨g', e⟩
    cases debug <;> simp at e

/-- C188: `sleepf` and `msleep` sleep until the first signal with a handler, or for the whole time. -/
theorem C188_sleep (us : Nat) (g : Sigs H) (es : List (Nat × Nat)) (h : Harmless es) (hs : es.Pairwise (fun a b => a.1 ≤ b.1)) :
    ∃ t g', sleep us g es = .ok (some t, g') ∧ t ≤ us ∧ (t < us → ∃ e ∈ es, e.1 = t ∧ g.disp e.2 = .ours) ∧ ∀ e ∈ es, g.disp e.2 = .ours → t ≤ e.1 ∨ us ≤ e.1 := by
  rcases wait_once us g es h hs with ⟨_, e, he, h1, h2, h3, g', hw, _⟩ | ⟨hn, hw⟩
  · exact ⟨e.1, g', by simp only [sleep, hw, Outcome.bind], by omega, fun _ => ⟨e, he, rfl, h2⟩, fun e' he' ho => .inl (h3 e' he' ho)⟩
  · refine ⟨us, g, by simp only [sleep, hw, Outcome.bind], Nat.le_refl _, fun q => absurd q (Nat.lt_irrefl _), fun e he ho => .inr ?_⟩
    by_contra q
    exact hn ⟨e, he, by omega, ho⟩

/-- C188: each signal disturbs one wait at most: after an interruption by `sig`, further deliveries of `sig` disturb no wait. -/
theorem C188_once (len len' : Nat) (g g' : Sigs H) (es : List (Nat × Nat)) (t sig : Nat) (hsig : defaultAction sig ≠ .terminate) (hw : wait false len g [(t, sig)] = .ok (.eintr t, g')) (hs : es.Pairwise (fun a b => a.1 ≤ b.1))
    (he : ∀ e ∈ es, e.2 = sig) : wait false len' g' es = .ok (.done, g') := by
  have hno : g'.disp sig ≠ .ours := by
    rcases wait_once len g [(t, sig)] (fun e he => by rw [List.mem_singleton.mp he]; exact hsig) (List.pairwise_singleton _ _) with ⟨_, e, hm, _, _, _, g2, hw2, hd⟩ | ⟨_, hw2⟩
    · rw [hw] at hw2
      simp only [Outcome.ok.injEq, Prod.mk.injEq] at hw2
      obtain ⟨_, rfl⟩ := hw2
      rw [List.mem_singleton.mp hm] at hd
      exact fun q => (hd sig q).2 rfl
    · rw [hw] at hw2
      simp at hw2
  rcases wait_once len' g' es (fun e hm => by rw [he e hm]; exact hsig) hs with ⟨⟨e, hm, _, ho⟩, _⟩ | ⟨_, hw2⟩
  · rw [he e hm] at ho; exact absurd ho hno
  · exact hw2

/-- A thread waits again and again, in calls that are not restarted, each with the signals that arrive meanwhile: how each wait ends. -/
def waits : Sigs H → List (Nat × List (Nat × Nat)) → Outcome (List Wait × Sigs H)
  | g, [] => .ok ([], g)
  | g, (len, es) :: l => (wait false len g es).bind fun w => (waits w.2 l).bind fun r => .ok (w.1 :: r.1, r.2)

/-- The signals that have a handler and whose default action leaves the process running. -/
def open_ (g : Sigs H) : List Nat := [17, 18, 19, 20, 21, 22, 23, 28].filter fun i => g.disp i = .ours

theorem filter_le {p q : Nat → Bool} (l : List Nat) (h : ∀ i, p i = true → q i = true) : (l.filter p).length ≤ (l.filter q).length := by
  induction l with
  | nil => exact Nat.le_refl _
  | cons a l ih =>
    simp only [List.filter_cons]
    cases hp : p a with
    | true => simp only [h a hp, if_true, List.length_cons]; omega
    | false => cases q a <;> simp <;> omega

theorem filter_lt {p q : Nat → Bool} (l : List Nat) (h : ∀ i, p i = true → q i = true) {x : Nat} (hx : x ∈ l) (hp : p x = false) (hq : q x = true) : (l.filter p).length < (l.filter q).length := by
  induction l with
  | nil => cases hx
  | cons a l ih =>
    simp only [List.filter_cons]
    by_cases hax : x = a
    · subst hax
      have := filter_le l h
      simp only [hp, hq, if_true, Bool.false_eq_true, if_false, List.length_cons]
      omega
    · have := ih ((List.mem_cons.mp hx).resolve_left hax)
      cases hpa : p a with
      | true => simp only [h a hpa, if_true, List.length_cons]; omega
      | false => cases q a <;> simp <;> omega

/-- C188: however often a thread waits and whatever harmless signals arrive, no more waits are interrupted than there are signals with a handler among those that leave the process running: one that tries again gets through. -/
theorem C188_few (g : Sigs H) (l : List (Nat × List (Nat × Nat))) (h : ∀ w ∈ l, Harmless w.2 ∧ w.2.Pairwise (fun a b => a.1 ≤ b.1)) :
    ∃ ws g', waits g l = .ok (ws, g') ∧ ws.length = l.length ∧ (ws.filter (· ≠ .done)).length + (open_ g').length ≤ (open_ g).length := by
  induction l generalizing g with
  | nil => exact ⟨[], g, rfl, rfl, by simp⟩
  | cons w l ih =>
    obtain ⟨len, es⟩ := w
    obtain ⟨hh, hs⟩ := h (len, es) List.mem_cons_self
    have hrest := fun g => ih g fun w hw => h w (List.mem_cons_of_mem _ hw)
    rcases wait_once len g es hh hs with ⟨_, e, he, _, ho, _, g', hw, hd⟩ | ⟨_, hw⟩
    · obtain ⟨ws, g2, h1, h2, h3⟩ := hrest g'
      refine ⟨.eintr e.1 :: ws, g2, by simp only [waits, hw, Outcome.bind, h1], by simp [h2], ?_⟩
      have : (open_ g').length < (open_ g).length := by
        refine filter_lt _ (fun i hi => ?_) (harmless_mem (hh e he)) (x := e.2) ?_ (by simpa using ho)
        · simpa using (hd i (by simpa using hi)).1
        · simpa using fun q => (hd e.2 q).2 rfl
      simp only [ne_eq, reduceCtorEq, not_false_eq_true, decide_true, List.filter_cons_of_pos, List.length_cons]
      simp only [ne_eq] at h3
      omega
    · obtain ⟨ws, g2, h1, h2, h3⟩ := hrest g
      exact ⟨.done :: ws, g2, by simp only [waits, hw, Outcome.bind, h1], by simp [h2], by simpa using h3⟩

/-- The dispositions after `RegisterProgram` (`SelfDetect.cpp:86-106`). -/
def registered : Sigs Unit := ((List.range 64).filter fun i => i ≠ 0 ∧ i ≠ 17 ∧ i ≠ 18).foldl (fun s i => register s () i) {}

/-- C188 is false in a program that has called `RegisterProgram`: resizing the terminal (signal 28) makes a timed read throw a `SocketError`, though a message comes in time, and ends a sleep of an hour after a second. -/
theorem C188_resize_refuted : let x : Sockets.Sock := { family := 2, fd := some 5 }
    (∃ g', readTimed false registered x 3000 {} (lit "ok") 2000000 [(1000000, 28)] = .ok (.thrown, g')) ∧ (∃ r, Sockets.readTimed x 3000 {} (lit "ok") 2000000 = .ok r ∧ r.1 = 2) ∧
    ∃ g', sleep 3600000000 registered [(1000000, 28)] = .ok (some 1000000, g') := by
  have hd : registered.disp 28 = .ours := by decide +kernel
  have hh : Harmless [(1000000, 28)] := fun e he => by rw [List.mem_singleton.mp he]; decide
  refine ⟨?_, ?_, ?_⟩
  · exact (C188_interrupted false registered _ 5 rfl (by decide) 3000 {} (lit "ok") 2000000 _ hh (List.pairwise_singleton _ _)).mpr ⟨_, List.mem_singleton.mpr rfl, by decide, by decide, hd⟩
  · simp only [Sockets.readTimed]
    rw [if_neg (by decide), if_pos (by decide +kernel)]
    exact ⟨_, rfl, by decide +kernel⟩
  · obtain ⟨t, g', h1, h2, h3, h4⟩ := C188_sleep 3600000000 registered [(1000000, 28)] hh (List.pairwise_singleton _ _)
    have := h4 _ (List.mem_singleton.mpr rfl) hd
    simp only at this
    have hlt : t < 3600000000 := by omega
    obtain ⟨e, he, rfl, _⟩ := h3 hlt
    cases List.mem_singleton.mp he
    exact ⟨g', h1⟩

/-- The signals that disturb such a program without ending it. -/
example : ((List.range 70).filter fun i => registered.disp i = .ours ∧ defaultAction i ≠ .terminate) = [20, 21, 22, 23, 28] := by decide +kernel

/-- After `RegisterProgram` at most five waits are interrupted, and five can be. -/
example : (open_ registered).length = 5 := by decide +kernel

example : (waits registered [(9, [(1, 28)]), (9, [(3, 28), (4, 23)]), (9, [(0, 23), (1, 28), (2, 20)]), (9, [(8, 20), (8, 28)])]).bind (fun r => .ok r.1) = .ok [.eintr 1, .eintr 4, .eintr 2, .done] := by decide +kernel

/-- Before `RegisterProgram` the same signals disturb nothing. -/
example : ∀ es, Harmless es → es.Pairwise (fun a b => a.1 ≤ b.1) → wait false 10 ({} : Sigs Unit) es = .ok (.done, {}) := fun es h hs => by
  rcases wait_once 10 ({} : Sigs Unit) es h hs with ⟨⟨e, _, _, ho⟩, _⟩ | ⟨_, hw⟩
  · cases ho
  · exact hw

end Verif.Process.Interrupted
