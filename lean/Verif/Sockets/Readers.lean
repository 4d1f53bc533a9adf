import Verif.Core.Str
import Mathlib.Logic.Basic

/-
Property C123: several threads with one socket.

`DatagramSocket::read` (`Sockets.cpp:206-217`) is one `recvfrom`; the read with a timeout (`Sockets.cpp:220-237`) is `select` and then `read`; nothing keeps another thread from taking the
packet between the two.  `nonblocking` and `blocking` (`Sockets.cpp:127-135`) set the flags of the descriptor; a `recvfrom` looks at them when it begins.  The sender of the packet read last
is kept in the socket (`mSource`, `Sockets.h:65`), where `writeBack` (`Sockets.cpp:161-168`) finds it.  Packets are taken in the order in which they arrive, each by one `recvfrom`; time is in
milliseconds and an event of its own.  Left out: descriptors from 1024 on and the exact `timeval` (C90, C74), packets longer than the buffer (C89), errors other than `EAGAIN`, and data races
on the bytes of `mSource`.
-/

namespace Verif.Sockets.Readers

open Verif

/-- A packet: who sent it, and the bytes. -/
structure Packet where
  sender : Nat
  bytes : Str
deriving DecidableEq

/-- Where a thread is: outside, in `select` with the time at which it gives up (`Sockets.cpp:228`), before `recvfrom`, in `recvfrom`, which waits or not (`Sockets.cpp:209`). -/
inductive Pc
  | idle
  | select (deadline : Nat)
  | enter
  | recv (wait : Bool)
deriving DecidableEq

/-- The socket: packets not yet read, whether `O_NONBLOCK` is set, `mSource`; the time and the threads. -/
structure St where
  queue : List Packet
  nonblock : Bool
  src : Option Nat
  now : Nat
  pc : Nat → Pc

/-- What can be seen from outside: a packet arrives, a mode is set, a thread calls `read` (`none`) or the timed read, gets a packet, gets -1, or replies to an address. -/
inductive Obs
  | arrived (p : Packet)
  | mode (nonblock : Bool)
  | call (t : Nat) (time : Nat) (timeout : Option Nat)
  | got (t : Nat) (p : Packet)
  | nothing (t : Nat) (time : Nat)
  | replied (t : Nat) (dst : Option Nat)
deriving DecidableEq

/-- What happens. -/
inductive Ev
  | arrive (p : Packet)
  | tick
  | mode (nonblock : Bool)
  | read (t : Nat)
  | timed (t : Nat) (timeout : Nat)
  | reply (t : Nat)
  | step (t : Nat)
deriving DecidableEq

/-- A thread elsewhere. -/
def St.at (s : St) (t : Nat) (p : Pc) : St := { s with pc := fun u => if u = t then p else s.pc u }

/-- One step of a thread inside of a read (`Sockets.cpp:206-237`). -/
def next (s : St) (t : Nat) : Option (St × List Obs) :=
  match s.pc t with
  | .idle => none
  | .select d =>
    if s.queue ≠ [] then some (s.at t .enter, [])
    else if d ≤ s.now then some (s.at t .idle, [.nothing t s.now])
    else none
  | .enter => some (s.at t (.recv (!s.nonblock)), [])
  | .recv wait =>
    match s.queue with
    | p :: q => some ({ s with queue := q, src := some p.sender }.at t .idle, [.got t p])
    | [] => if wait then none else some (s.at t .idle, [.nothing t s.now])

/-- One event: from the network, the clock, `nonblocking` and `blocking` (`Sockets.cpp:127-135`), calls by threads that are outside (`Sockets.cpp:161-168, 206-237`), steps. -/
def happen (s : St) : Ev → Option (St × List Obs)
  | .arrive p => some ({ s with queue := s.queue ++ [p] }, [.arrived p])
  | .tick => some ({ s with now := s.now + 1 }, [])
  | .mode b => some ({ s with nonblock := b }, [.mode b])
  | .read t => if s.pc t = .idle then some (s.at t .enter, [.call t s.now none]) else none
  | .timed t m => if s.pc t = .idle then some (s.at t (.select (s.now + m)), [.call t s.now (some m)]) else none
  | .reply t => if s.pc t = .idle then some (s, [.replied t s.src]) else none
  | .step t => next s t

/-- An execution, with what is seen. -/
def exec (s : St) : List Ev → Option (St × List Obs)
  | [] => some (s, [])
  | e :: es =>
    match happen s e with
    | none => none
    | some (s1, o1) =>
      match exec s1 es with
      | none => none
      | some (s2, o2) => some (s2, o1 ++ o2)

/-- A socket in one of the modes, before the threads use it. -/
def start (nonblock : Bool) : St := ⟨[], nonblock, none, 0, fun _ => .idle⟩

/-! ### Specification -/

/-- The packets that arrived. -/
def arrivals (o : List Obs) : List Packet := o.filterMap fun | .arrived p => some p | _ => none

/-- The packets the threads got. -/
def gots (o : List Obs) : List Packet := o.filterMap fun | .got _ p => some p | _ => none

/-- The packets one thread got. -/
def gotsBy (r : Nat) (o : List Obs) : List Packet := o.filterMap fun | .got t p => if t = r then some p else none | _ => none

/-- The call a thread made last: when, and with what timeout. -/
def lastCall (t : Nat) (o : List Obs) : Option (Nat × Option Nat) := (o.filterMap fun | .call u a m => if u = t then some (a, m) else none | _ => none).getLast?

/-- Only the thread `r` reads. -/
def OneReader (r : Nat) (o : List Obs) : Prop := ∀ t a m, Obs.call t a m ∈ o → t = r

/-- The mode is never set to `b`. -/
def NoMode (b : Bool) (o : List Obs) : Prop := Obs.mode b ∉ o

/-- A thread comes back from its call, whatever the others do or do not do. -/
def Returns (s : St) (t : Nat) : Prop := ∃ n s' o', exec s (List.replicate n (.step t)) = some (s', o') ∧ s'.pc t = .idle

/-! ### Lemmas -/

theorem at_same (s : St) (t : Nat) (p : Pc) : (s.at t p).pc t = p := if_pos rfl

theorem at_other (s : St) (t u : Nat) (p : Pc) (h : u ≠ t) : (s.at t p).pc u = s.pc u := if_neg h

@[simp] theorem at_queue (s : St) (t : Nat) (p : Pc) : (s.at t p).queue = s.queue := rfl

@[simp] theorem at_src (s : St) (t : Nat) (p : Pc) : (s.at t p).src = s.src := rfl

/-- Invariants over executions. -/
theorem exec_inv {P : St → List Obs → Prop} (hstep : ∀ s o e s' o', P s o → happen s e = some (s', o') → P s' (o ++ o')) {es : List Ev} {s s' : St} {o o' : List Obs} (h : P s o)
    (he : exec s es = some (s', o')) : P s' (o ++ o') := by
  induction es generalizing s o s' o' with
  | nil =>
    simp only [exec, Option.some.injEq, Prod.mk.injEq] at he
    obtain ⟨rfl, rfl⟩ := he
    simpa using h
  | cons e es ih =>
    simp only [exec] at he
    split at he
    · cases he
    · next s1 o1 h1 =>
      split at he
      · cases he
      · next s2 o2 h2 =>
        simp only [Option.some.injEq, Prod.mk.injEq] at he
        obtain ⟨rfl, rfl⟩ := he
        have := ih (hstep _ _ _ _ _ h h1) h2
        rwa [List.append_assoc] at this

/-- What one event does. -/
inductive Eff (s : St) : St → List Obs → Prop
  | arrive (p : Packet) : Eff s { s with queue := s.queue ++ [p] } [.arrived p]
  | tick : Eff s { s with now := s.now + 1 } []
  | mode (b : Bool) : Eff s { s with nonblock := b } [.mode b]
  | read (t : Nat) (h : s.pc t = .idle) : Eff s (s.at t .enter) [.call t s.now none]
  | timed (t m : Nat) (h : s.pc t = .idle) : Eff s (s.at t (.select (s.now + m))) [.call t s.now (some m)]
  | reply (t : Nat) (h : s.pc t = .idle) : Eff s s [.replied t s.src]
  | ready (t d : Nat) (h : s.pc t = .select d) (hq : s.queue ≠ []) : Eff s (s.at t .enter) []
  | late (t d : Nat) (h : s.pc t = .select d) (hq : s.queue = []) (hd : d ≤ s.now) : Eff s (s.at t .idle) [.nothing t s.now]
  | enter (t : Nat) (h : s.pc t = .enter) : Eff s (s.at t (.recv (!s.nonblock))) []
  | take (t : Nat) (w : Bool) (p : Packet) (q : List Packet) (h : s.pc t = .recv w) (hq : s.queue = p :: q) :
      Eff s ({ s with queue := q, src := some p.sender }.at t .idle) [.got t p]
  | again (t : Nat) (h : s.pc t = .recv false) (hq : s.queue = []) : Eff s (s.at t .idle) [.nothing t s.now]

theorem happen_eff {s s' : St} {e : Ev} {o : List Obs} (h : happen s e = some (s', o)) : Eff s s' o := by
  cases e with
  | arrive p => cases h; exact .arrive p
  | tick => cases h; exact .tick
  | mode b => cases h; exact .mode b
  | read t =>
    simp only [happen] at h
    split at h
    · next hi => cases h; exact .read t hi
    · cases h
  | timed t m =>
    simp only [happen] at h
    split at h
    · next hi => cases h; exact .timed t m hi
    · cases h
  | reply t =>
    simp only [happen] at h
    split at h
    · next hi => cases h; exact .reply t hi
    · cases h
  | step t =>
    simp only [happen, next] at h
    split at h
    · cases h
    · next d hp =>
      split at h
      · next hq => cases h; exact .ready t d hp hq
      · next hq =>
        split at h
        · next hd => cases h; exact .late t d hp (Classical.not_not.1 hq) hd
        · cases h
    · next hp => cases h; exact .enter t hp
    · next w hp =>
      split at h
      · next p q hq => cases h; exact .take t w p q hp hq
      · next hq =>
        split at h
        · cases h
        · next hw =>
          cases h
          cases w with
          | true => exact absurd rfl hw
          | false => exact .again t hp hq

theorem lastCall_append (t : Nat) (o o' : List Obs) : lastCall t (o ++ o') = (lastCall t o').or (lastCall t o) := by
  unfold lastCall
  rw [List.filterMap_append, List.getLast?_append]

/-- The general invariant: packets are taken in order; a thread in `select` waits until its call and the timeout say; the address kept is that of the packet taken last. -/
structure Base (s : St) (o : List Obs) : Prop where
  fifo : gots o ++ s.queue = arrivals o
  sel : ∀ t d, s.pc t = .select d → ∃ a m, lastCall t o = some (a, some m) ∧ d = a + m
  src : s.src = (gots o).getLast?.map (·.sender)

theorem base_start (b : Bool) : Base (start b) [] := ⟨rfl, fun _ _ h => (nomatch h), rfl⟩

theorem base_eff {s s' : St} {o o' : List Obs} (h : Base s o) (e : Eff s s' o') : Base s' (o ++ o') := by
  have hs := h.sel
  have keep : ∀ (p : Pc) (t : Nat) (s1 : St), s1.pc = s.pc → (∀ d, p = .select d → ∃ a m, lastCall t (o ++ o') = some (a, some m) ∧ d = a + m) → (∀ u, u ≠ t → lastCall u o' = none) →
      ∀ u d, (s1.at t p).pc u = .select d → ∃ a m, lastCall u (o ++ o') = some (a, some m) ∧ d = a + m := by
    intro p t s1 h1 hp ho u d hu
    by_cases e : u = t
    · subst e
      rw [at_same] at hu
      exact hp d hu
    · rw [at_other _ _ _ _ e, h1] at hu
      rw [lastCall_append, ho u e]
      exact hs u d hu
  cases e with
  | arrive p =>
    refine ⟨?_, fun t d hp => by rw [lastCall_append]; exact hs t d hp, by simpa [gots] using h.src⟩
    have := h.fifo
    simp only [gots, arrivals] at this
    simp [gots, arrivals, ← this]
  | tick => rw [List.append_nil]; exact ⟨h.fifo, hs, h.src⟩
  | mode b => exact ⟨by simpa [gots, arrivals] using h.fifo, fun t d hp => by rw [lastCall_append]; exact hs t d hp, by simp [gots, h.src]⟩
  | read t hi =>
    exact ⟨by simpa [gots, arrivals] using h.fifo, keep _ t s rfl (fun d e => nomatch e) (fun u hu => by simp [lastCall, Ne.symm hu]), by simpa [gots] using h.src⟩
  | timed t m hi =>
    refine ⟨by simpa [gots, arrivals] using h.fifo, keep _ t s rfl (fun d e => ?_) (fun u hu => by simp [lastCall, Ne.symm hu]), by simpa [gots] using h.src⟩
    cases e
    exact ⟨s.now, m, by simp [lastCall], rfl⟩
  | reply t hi => exact ⟨by simpa [gots, arrivals] using h.fifo, fun t d hp => by rw [lastCall_append]; exact hs t d hp, by simpa [gots] using h.src⟩
  | ready t d hp hq => exact ⟨by simpa [gots, arrivals] using h.fifo, keep _ t s rfl (fun d e => nomatch e) (fun u hu => rfl), by simpa [gots] using h.src⟩
  | late t d hp hq hd => exact ⟨by simpa [gots, arrivals] using h.fifo, keep _ t s rfl (fun d e => nomatch e) (fun u hu => rfl), by simpa [gots] using h.src⟩
  | enter t hp => exact ⟨by simpa [gots, arrivals] using h.fifo, keep _ t s rfl (fun d e => nomatch e) (fun u hu => rfl), by simpa [gots] using h.src⟩
  | take t w p q hp hq =>
    refine ⟨?_, keep _ t { s with queue := q, src := some p.sender } rfl (fun d e => nomatch e) (fun u hu => rfl), by simp [gots, St.at]⟩
    have := h.fifo
    rw [hq] at this
    simpa [gots, arrivals, St.at] using this
  | again t hp hq => exact ⟨by simpa [gots, arrivals] using h.fifo, keep _ t s rfl (fun d e => nomatch e) (fun u hu => rfl), by simpa [gots] using h.src⟩

theorem base_exec {b : Bool} {es : List Ev} {s : St} {o : List Obs} (h : exec (start b) es = some (s, o)) : Base s o := by
  have := exec_inv (P := Base) (fun s o e s' o' h hs => base_eff h (happen_eff hs)) (base_start b) h
  simpa using this

/-- When a thread comes back alone. -/
def Ready (s : St) (t : Nat) : Prop :=
  match s.pc t with
  | .idle => True
  | .select d => d ≤ s.now ∨ s.queue ≠ []
  | .enter => s.nonblock = true ∨ s.queue ≠ []
  | .recv w => w = false ∨ s.queue ≠ []

theorem returns_step {s s' : St} {t : Nat} {o : List Obs} (h : next s t = some (s', o)) (hr : Returns s' t) : Returns s t := by
  obtain ⟨n, s2, o2, h2, hi⟩ := hr
  refine ⟨n + 1, s2, o ++ o2, ?_, hi⟩
  rw [List.replicate_succ]
  have : happen s (.step t) = some (s', o) := h
  simp only [exec, this, h2]

theorem returns_idle {s : St} {t : Nat} (h : s.pc t = .idle) : Returns s t := ⟨0, s, [], rfl, h⟩

theorem returns_recv {s : St} {t : Nat} {w : Bool} (h : s.pc t = .recv w) (hq : w = false ∨ s.queue ≠ []) : Returns s t := by
  cases hs : s.queue with
  | nil =>
    have hw : w = false := hq.resolve_right (by simp [hs])
    subst hw
    refine returns_step (s' := s.at t .idle) (o := [.nothing t s.now]) ?_ (returns_idle (at_same _ _ _))
    simp [next, h, hs]
  | cons p q =>
    refine returns_step (s' := { s with queue := q, src := some p.sender }.at t .idle) (o := [.got t p]) ?_ (returns_idle (at_same _ _ _))
    simp [next, h, hs]

theorem returns_enter {s : St} {t : Nat} (h : s.pc t = .enter) (hq : s.nonblock = true ∨ s.queue ≠ []) : Returns s t := by
  refine returns_step (s' := s.at t (.recv (!s.nonblock))) (o := []) (by simp [next, h]) (returns_recv (at_same _ _ _) ?_)
  rcases hq with h | h
  · exact .inl (by simp [h])
  · exact .inr h

theorem ready_returns {s : St} {t : Nat} (h : Ready s t) : Returns s t := by
  unfold Ready at h
  split at h
  · next hp => exact returns_idle hp
  · next d hp =>
    by_cases hq : s.queue = []
    · have hd : d ≤ s.now := h.resolve_right (Classical.not_not.2 hq)
      exact returns_step (s' := s.at t .idle) (o := [.nothing t s.now]) (by simp [next, hp, hq, hd]) (returns_idle (at_same _ _ _))
    · exact returns_step (s' := s.at t .enter) (o := []) (by simp [next, hp, hq]) (returns_enter (at_same _ _ _) (.inr hq))
  · next hp => exact returns_enter hp h
  · next w hp => exact returns_recv hp h

/-- The mode stays, and with it what `recvfrom` does. -/
theorem mode_exec {b : Bool} {es : List Ev} {s : St} {o : List Obs} (h : exec (start b) es = some (s, o)) (hm : NoMode (!b) o) : s.nonblock = b ∧ ∀ t w, s.pc t = .recv w → w = !b := by
  have := exec_inv (P := fun s o => NoMode (!b) o → s.nonblock = b ∧ ∀ t w, s.pc t = .recv w → w = !b) (fun s o e s' o' h hs hm => ?_) (o := []) (fun _ => ⟨rfl, fun _ _ h => by cases h⟩) h
  · simpa using this (by simpa using hm)
  · have hm1 : NoMode (!b) o := fun hx => hm (by simp [hx])
    obtain ⟨h1, h2⟩ := h hm1
    have keep : ∀ (p : Pc) (t : Nat) (s1 : St), s1.pc = s.pc → (∀ w, p = .recv w → w = !b) → ∀ u w, (s1.at t p).pc u = .recv w → w = !b := by
      intro p t s1 hs1 hp u w hu
      by_cases e : u = t
      · subst e
        rw [at_same] at hu
        exact hp w hu
      · rw [at_other _ _ _ _ e, hs1] at hu
        exact h2 u w hu
    cases happen_eff hs with
    | arrive p => exact ⟨h1, h2⟩
    | tick => exact ⟨h1, h2⟩
    | mode c =>
      refine ⟨?_, h2⟩
      have : c ≠ !b := fun e => hm (by simp [e])
      show c = b
      revert this
      cases c <;> cases b <;> simp
    | read t hi => exact ⟨h1, keep _ t s rfl fun w e => (nomatch e)⟩
    | timed t m hi => exact ⟨h1, keep _ t s rfl fun w e => (nomatch e)⟩
    | reply t hi => exact ⟨h1, h2⟩
    | ready t d hp hq => exact ⟨h1, keep _ t s rfl fun w e => (nomatch e)⟩
    | late t d hp hq hd => exact ⟨h1, keep _ t s rfl fun w e => (nomatch e)⟩
    | enter t hp => exact ⟨h1, keep _ t s rfl fun w e => by cases e; rw [h1]⟩
    | take t w p q hp hq => exact ⟨h1, keep _ t { s with queue := q, src := some p.sender } rfl fun w e => (nomatch e)⟩
    | again t hp hq => exact ⟨h1, keep _ t s rfl fun w e => (nomatch e)⟩

/-- With one reader: nobody else is inside, and after `select` there is a packet. -/
structure One (r : Nat) (s : St) (o : List Obs) : Prop where
  others : ∀ t, t ≠ r → s.pc t = .idle
  packet : (s.pc r = .enter ∨ ∃ w, s.pc r = .recv w) → (∃ a m, lastCall r o = some (a, some m)) → s.queue ≠ []

theorem one_exec {r : Nat} {b : Bool} {es : List Ev} {s : St} {o : List Obs} (h : exec (start b) es = some (s, o)) (hr : OneReader r o) : One r s o := by
  have := exec_inv (P := fun s o => OneReader r o → One r s o) (fun s o e s' o' h hs hr => ?_) (o := []) (fun _ => ⟨fun _ _ => rfl, fun h => by rcases h with h | ⟨w, h⟩ <;> cases h⟩) h
  · simpa using this (by simpa using hr)
  · have hr1 : OneReader r o := fun t a m hx => hr t a m (by simp [hx])
    have ho := h hr1
    have mine : ∀ t, s.pc t ≠ .idle → t = r := fun t ht => Classical.byContradiction fun e => ht (ho.others t e)
    have away : ∀ (p : Pc) (s1 : St), s1.pc = s.pc → ∀ t, t ≠ r → (s1.at r p).pc t = .idle := by
      intro p s1 hs1 t ht
      rw [at_other _ _ _ _ ht, hs1]
      exact ho.others t ht
    cases happen_eff hs with
    | arrive p => exact ⟨ho.others, fun _ _ => by simp⟩
    | tick => exact ⟨ho.others, by simpa using ho.packet⟩
    | mode c => exact ⟨ho.others, fun h1 h2 => ho.packet h1 (by simpa [lastCall_append, lastCall] using h2)⟩
    | read t hi =>
      have := hr t s.now none (by simp)
      subst this
      refine ⟨away _ s rfl, fun _ h2 => ?_⟩
      obtain ⟨a, m, h2⟩ := h2
      simp [lastCall] at h2
    | timed t m hi =>
      have := hr t s.now (some m) (by simp)
      subst this
      refine ⟨away _ s rfl, fun h1 _ => ?_⟩
      rw [at_same] at h1
      rcases h1 with h1 | ⟨w, h1⟩ <;> cases h1
    | reply t hi => exact ⟨ho.others, fun h1 h2 => ho.packet h1 (by simpa [lastCall_append, lastCall] using h2)⟩
    | ready t d hp hq =>
      have := mine t (by rw [hp]; simp)
      subst this
      exact ⟨away _ s rfl, fun _ _ => hq⟩
    | late t d hp hq hd =>
      have := mine t (by rw [hp]; simp)
      subst this
      refine ⟨away _ s rfl, fun h1 _ => ?_⟩
      rw [at_same] at h1
      rcases h1 with h1 | ⟨w, h1⟩ <;> cases h1
    | enter t hp =>
      have := mine t (by rw [hp]; simp)
      subst this
      exact ⟨away _ s rfl, fun _ h2 => ho.packet (.inl hp) (by simpa using h2)⟩
    | take t w p q hp hq =>
      have := mine t (by rw [hp]; simp)
      subst this
      refine ⟨away _ { s with queue := q, src := some p.sender } rfl, fun h1 _ => ?_⟩
      rw [at_same] at h1
      rcases h1 with h1 | ⟨w, h1⟩ <;> cases h1
    | again t hp hq =>
      have := mine t (by rw [hp]; simp)
      subst this
      refine ⟨away _ s rfl, fun h1 _ => ?_⟩
      rw [at_same] at h1
      rcases h1 with h1 | ⟨w, h1⟩ <;> cases h1

/-- An execution up to one of the things seen. -/
theorem exec_split {s s' : St} {es : List Ev} {a b : List Obs} {x : Obs} (h : exec s es = some (s', a ++ x :: b)) :
    ∃ es1 s1 s2, exec s es1 = some (s1, a) ∧ Eff s1 s2 [x] := by
  induction es generalizing s a with
  | nil => simp [exec] at h
  | cons e es ih =>
    simp only [exec] at h
    split at h
    · cases h
    · next s1 o1 h1 =>
      split at h
      · cases h
      · next s2 o2 h2 =>
        simp only [Option.some.injEq, Prod.mk.injEq] at h
        obtain ⟨rfl, h⟩ := h
        have he := happen_eff h1
        have hlen : o1.length ≤ 1 := by cases he <;> simp
        cases o1 with
        | nil =>
          rw [List.nil_append] at h
          subst h
          obtain ⟨es1, s3, s4, h3, h4⟩ := ih h2
          exact ⟨e :: es1, s3, s4, by simp [exec, h1, h3], h4⟩
        | cons y o1 =>
          have : o1 = [] := by
            cases o1 with
            | nil => rfl
            | cons => simp at hlen
          subst this
          cases a with
          | nil =>
            simp only [List.nil_append, List.cons_append, List.cons.injEq] at h
            obtain ⟨rfl, rfl⟩ := h
            exact ⟨[], s, s1, rfl, he⟩
          | cons z a =>
            simp only [List.nil_append, List.cons_append, List.cons.injEq] at h
            obtain ⟨rfl, rfl⟩ := h
            obtain ⟨es1, s3, s4, h3, h4⟩ := ih h2
            exact ⟨e :: es1, s3, s4, by simp [exec, h1, h3], h4⟩

/-- A thread waiting in `recvfrom` stays there as long as no packet arrives. -/
theorem stuck {es : List Ev} {s s' : St} {o : List Obs} {t : Nat} (hp : s.pc t = .recv true) (hq : s.queue = []) (ha : arrivals o = []) (h : exec s es = some (s', o)) : s'.pc t = .recv true := by
  have := exec_inv (P := fun s o => arrivals o = [] → s.pc t = .recv true ∧ s.queue = []) (fun s o e s' o' h hs ha => ?_) (o := []) (fun _ => ⟨hp, hq⟩) h
  · exact (this (by simpa using ha)).1
  · rw [show arrivals (o ++ o') = arrivals o ++ arrivals o' from List.filterMap_append] at ha
    obtain ⟨h1, h2⟩ := h (List.append_eq_nil_iff.1 ha).1
    have ha' := (List.append_eq_nil_iff.1 ha).2
    have keep : ∀ (p q : Pc) (u : Nat), s.pc u = q → q ≠ .recv true → (s.at u p).pc t = .recv true := by
      intro p q u hu hq
      rw [at_other _ _ _ _ (fun e => hq (by rw [← hu, ← e, h1]))]
      exact h1
    cases happen_eff hs with
    | arrive p => simp [arrivals] at ha'
    | tick => exact ⟨h1, h2⟩
    | mode c => exact ⟨h1, h2⟩
    | read u hi => exact ⟨keep _ _ u hi (by simp), h2⟩
    | timed u m hi => exact ⟨keep _ _ u hi (by simp), h2⟩
    | reply u hi => exact ⟨h1, h2⟩
    | ready u d hp hq => exact absurd h2 hq
    | late u d hp hq hd => exact ⟨keep _ _ u hp (by simp), h2⟩
    | enter u hp => exact ⟨keep _ _ u hp (by simp), h2⟩
    | take u w p q hp hq => rw [h2] at hq; cases hq
    | again u hp hq => exact ⟨keep _ _ u hp (by simp), h2⟩

theorem filterMap_same {α β : Type} {f g : α → Option β} {l : List α} (h : ∀ x ∈ l, f x = g x) : l.filterMap f = l.filterMap g := by
  induction l with
  | nil => rfl
  | cons x l ih => simp [List.filterMap_cons, h x (by simp), ih fun y hy => h y (by simp [hy])]

theorem gotsBy_one {r : Nat} {b : Bool} {es : List Ev} {s : St} {o : List Obs} (h : exec (start b) es = some (s, o)) (hr : OneReader r o) : gotsBy r o = gots o := by
  unfold gotsBy gots
  refine filterMap_same fun x hx => ?_
  cases x with
  | got t p =>
    obtain ⟨a, c, rfl⟩ := List.append_of_mem hx
    obtain ⟨es1, s1, s2, h1, h2⟩ := exec_split h
    have ho := one_exec h1 (r := r) fun t a m hm => hr t a m (by simp [hm])
    have : t = r := by
      refine Classical.byContradiction fun e => ?_
      have hi := ho.others t e
      cases h2 with
      | take _ w _ q hp _ => rw [hi] at hp; cases hp
    simp [this]
  | _ => rfl

/-! ### C123 -/

/-- C123: whatever threads read, with or without timeout, in either mode: every packet goes to exactly one of them, in the order of arrival; the packets not yet read are the last ones. -/
theorem C123_each_once (b : Bool) (es : List Ev) (s : St) (o : List Obs) (h : exec (start b) es = some (s, o)) : gots o ++ s.queue = arrivals o := (base_exec h).fifo

/-- C123: on a socket left blocking, a read without timeout never returns -1, and a timed read returns -1 only when the time is up. -/
theorem C123_blocking (es : List Ev) (s : St) (a b : List Obs) (t time : Nat) (h : exec (start false) es = some (s, a ++ .nothing t time :: b)) (hm : NoMode true a) :
    ∃ began timeout, lastCall t a = some (began, some timeout) ∧ began + timeout ≤ time := by
  obtain ⟨es1, s1, s2, h1, h2⟩ := exec_split h
  have hb := base_exec h1
  cases h2 with
  | late _ d hp hq hd =>
    obtain ⟨x, m, hl, rfl⟩ := hb.sel t d hp
    exact ⟨x, m, hl, hd⟩
  | again _ hp hq => exact absurd ((mode_exec h1 hm).2 t false hp) (by simp)

/-- C123: on a socket that stays nonblocking, every read comes back without waiting for anybody; a timed read does so at the latest when its time is up. -/
theorem C123_nonblocking (es : List Ev) (s : St) (o : List Obs) (h : exec (start true) es = some (s, o)) (hm : NoMode false o) (t : Nat)
    (ht : ∀ began timeout, lastCall t o = some (began, some timeout) → began + timeout ≤ s.now) : Returns s t := by
  obtain ⟨h1, h2⟩ := mode_exec h hm
  refine ready_returns ?_
  unfold Ready
  split
  · trivial
  · next d hp =>
    obtain ⟨x, m, hl, rfl⟩ := (base_exec h).sel t d hp
    exact .inl (ht x m hl)
  · exact .inl h1
  · next w hp => exact .inl (h2 t w hp)

/-- C123, partial: if only one thread reads, then in either mode, and also if the mode changes, its timed reads come back at the latest when their time is up.  Missing: several readers on a blocking socket,
see `C123_waits_refuted`. -/
theorem C123_in_time_partial (b : Bool) (es : List Ev) (s : St) (o : List Obs) (h : exec (start b) es = some (s, o)) (r : Nat) (hr : OneReader r o) (began timeout : Nat)
    (hl : lastCall r o = some (began, some timeout)) (hd : began + timeout ≤ s.now) : Returns s r := by
  have ho := one_exec h hr
  refine ready_returns ?_
  unfold Ready
  split
  · trivial
  · next d hp =>
    obtain ⟨x, m, hl', rfl⟩ := (base_exec h).sel r d hp
    rw [hl] at hl'
    cases hl'
    exact .inl hd
  · next hp => exact .inr (ho.packet (.inl hp) ⟨_, _, hl⟩)
  · next w hp => exact .inr (ho.packet (.inr ⟨w, hp⟩) ⟨_, _, hl⟩)

/-- C123, partial: if only one thread reads, its timed reads return -1 only when the time is up, in either mode.  Missing: several readers on a nonblocking socket, see `C123_early_refuted`. -/
theorem C123_not_early_partial (c : Bool) (es : List Ev) (s : St) (a b : List Obs) (r t time : Nat) (h : exec (start c) es = some (s, a ++ .nothing t time :: b)) (hr : OneReader r a)
    (began timeout : Nat) (hl : lastCall t a = some (began, some timeout)) : began + timeout ≤ time := by
  obtain ⟨es1, s1, s2, h1, h2⟩ := exec_split h
  have ho := one_exec h1 hr
  cases h2 with
  | late _ d hp hq hd =>
    obtain ⟨x, m, hl', rfl⟩ := (base_exec h1).sel t d hp
    rw [hl] at hl'
    cases hl'
    exact hd
  | again _ hp hq =>
    have : t = r := Classical.byContradiction fun e => by rw [ho.others t e] at hp; cases hp
    subst this
    exact absurd hq (ho.packet (.inr ⟨_, hp⟩) ⟨_, _, hl⟩)

/-- C123, partial: if only one thread reads, a reply, by whatever thread, goes to the sender of the packet that thread got last.  Missing: several readers, see `C123_reply_refuted`. -/
theorem C123_reply_partial (c : Bool) (es : List Ev) (s : St) (a b : List Obs) (r t : Nat) (dst : Option Nat) (h : exec (start c) es = some (s, a ++ .replied t dst :: b)) (hr : OneReader r a) :
    dst = (gotsBy r a).getLast?.map (·.sender) := by
  obtain ⟨es1, s1, s2, h1, h2⟩ := exec_split h
  rw [gotsBy_one h1 hr]
  cases h2 with
  | reply _ hi => exact (base_exec h1).src

/-- One packet for two threads that both saw it in `select`. -/
def stolen : List Ev := [.timed 0 5, .timed 1 5, .arrive ⟨7, []⟩, .step 0, .step 1, .step 0, .step 0, .step 1] ++ List.replicate 5 .tick

/-- C123 is false for two threads with timed reads on a blocking socket (the default): one packet wakes both, one gets it, and the other one waits on, with its time up, until another packet
arrives, if ever. -/
theorem C123_waits_refuted : ∃ es s o began timeout, exec (start false) es = some (s, o) ∧ lastCall 1 o = some (began, some timeout) ∧ began + timeout ≤ s.now ∧
    ∀ es' s' o', exec s es' = some (s', o') → arrivals o' = [] → s'.pc 1 ≠ .idle := by
  have hsome : (exec (start false) stolen).isSome := by decide +kernel
  have hs : (exec (start false) stolen).map (fun x => ((x.1.pc 1, x.1.queue), x.1.now, lastCall 1 x.2)) = some ((.recv true, []), 5, some (0, some 5)) := by decide +kernel
  obtain ⟨⟨s, o⟩, he⟩ := Option.isSome_iff_exists.1 hsome
  rw [he] at hs
  simp only [Option.map_some, Option.some.injEq, Prod.mk.injEq] at hs
  obtain ⟨⟨h1, h2⟩, h3, h4⟩ := hs
  refine ⟨stolen, s, o, 0, 5, he, h4, by omega, fun es' s' o' h ha => ?_⟩
  rw [stuck h1 h2 ha h]
  simp

/-- C123 is false for two threads with timed reads on a nonblocking socket: the one that loses the packet reports a timeout at once. -/
theorem C123_early_refuted : ∃ es s a time b, exec (start true) es = some (s, a ++ .nothing 1 time :: b) ∧ ∃ began timeout, lastCall 1 a = some (began, some timeout) ∧ time < began + timeout := by
  have hs : (exec (start true) (stolen.take 8 ++ [.step 1])).map (·.2) =
      some ([.call 0 0 (some 5), .call 1 0 (some 5), .arrived ⟨7, []⟩, .got 0 ⟨7, []⟩] ++ .nothing 1 0 :: []) := by decide +kernel
  obtain ⟨⟨s, o⟩, he, ho⟩ := Option.map_eq_some_iff.1 hs
  subst ho
  exact ⟨_, s, _, 0, [], he, 0, 5, by decide +kernel, by decide⟩

/-- C123 is false for replies when two threads read: a thread that got a packet from 1 replies to 2, because the other thread read in between. -/
theorem C123_reply_refuted : ∃ es s a dst, exec (start false) es = some (s, a ++ [.replied 0 dst]) ∧ (gotsBy 0 a).getLast?.map (·.sender) = some 1 ∧ dst = some 2 := by
  have hs : (exec (start false) [.arrive ⟨1, []⟩, .arrive ⟨2, []⟩, .read 0, .step 0, .step 0, .read 1, .step 1, .step 1, .reply 0]).map (·.2) =
      some ([.arrived ⟨1, []⟩, .arrived ⟨2, []⟩, .call 0 0 none, .got 0 ⟨1, []⟩, .call 1 0 none, .got 1 ⟨2, []⟩] ++ [.replied 0 (some 2)]) := by decide +kernel
  obtain ⟨⟨s, o⟩, he, ho⟩ := Option.map_eq_some_iff.1 hs
  subst ho
  exact ⟨_, s, _, some 2, he, by decide +kernel, rfl⟩

/-- C123 is false for a mode changed while a thread waits: `nonblocking` does not wake it. -/
theorem C123_switch_refuted : ∃ es s o, exec (start false) es = some (s, o) ∧ s.nonblock = true ∧ lastCall 0 o = some (0, none) ∧
    ∀ es' s' o', exec s es' = some (s', o') → arrivals o' = [] → s'.pc 0 ≠ .idle := by
  have hsome : (exec (start false) [.read 0, .step 0, .mode true]).isSome := by decide +kernel
  have hs : (exec (start false) [.read 0, .step 0, .mode true]).map (fun x => ((x.1.pc 0, x.1.queue), x.1.nonblock, lastCall 0 x.2)) = some ((.recv true, []), true, some (0, none)) := by decide +kernel
  obtain ⟨⟨s, o⟩, he⟩ := Option.isSome_iff_exists.1 hsome
  rw [he] at hs
  simp only [Option.map_some, Option.some.injEq, Prod.mk.injEq] at hs
  obtain ⟨⟨h1, h2⟩, h3, h4⟩ := hs
  refine ⟨_, s, o, he, h3, h4, fun es' s' o' h ha => ?_⟩
  rw [stuck h1 h2 ha h]
  simp

/-- One reader with a timeout and then a packet; a nonblocking read of nothing. -/
example : (exec (start false) ([.timed 0 2, .tick, .tick, .step 0, .timed 0 3, .tick, .arrive ⟨4, lit "x"⟩] ++ List.replicate 3 (.step 0) ++ [.reply 1, .mode true, .read 0, .step 0, .step 0])).map (·.2) =
    some [.call 0 0 (some 2), .nothing 0 2, .call 0 2 (some 3), .arrived ⟨4, lit "x"⟩, .got 0 ⟨4, lit "x"⟩, .replied 1 (some 4), .mode true, .call 0 3 none, .nothing 0 3] := by decide +kernel

end Verif.Sockets.Readers
