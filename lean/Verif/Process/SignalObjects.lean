import Verif.Process.Model
import Mathlib.Tactic.SplitIfs
import Mathlib.Tactic.Rename

/-
Property C127: several objects of class `UnixSignal`, with their construction and destruction, and signals the program has set up itself.

Simplifications: one thread (C122 has several); core files, tar files and `mSaveFiles` are left out (C87), and so is printed text except for the content of `Dump`; signals 32 and 33, which the thread library keeps
for itself, are treated as the others; after a signal that ends the process the model goes on, as if it had been stopped just before.
-/

namespace Verif.Process.Objects

variable {H : Type}

/-- What the process does with a signal: default action, `_sigHandler`, ignored, or a function `k` the program has given to `signal` itself. -/
inductive Disp
  | dfl | ours | ign | own (k : Nat)
deriving DecidableEq, Repr

/-- What the program sees of a delivery, after the handlers: the default action, nothing, or its own function. -/
inductive Act
  | dfl (a : Action) | ign | own (k : Nat)
deriving DecidableEq, Repr

/-- The process: the lists of every object that exists (`UnixSignal.h:32`), number 0 being `gSigVec` (`Variables.cpp:23`), and the dispositions. -/
structure St (H : Type) where
  objs : Nat → Option (Nat → List H)
  disp : Nat → Disp

/-- `signal` of the C library: it fails for 0, 9, 19, 32, 33 and numbers that are no signal. -/
def signal (s : St H) (sig : Nat) (d : Disp) : St H :=
  if 1 ≤ sig ∧ sig ≤ 64 ∧ catchable sig then { s with disp := fun i => if i = sig then d else s.disp i } else s

/-- The process when `main` begins: `gSigVec` exists. -/
def start : St H := ⟨fun o => if o = 0 then some (fun _ => []) else none, fun _ => .dfl⟩

/-- `UnixSignal::UnixSignal` (`UnixSignal.cpp:110-119`) for object `o`. -/
def create (s : St H) (o : Nat) : St H := { s with objs := fun i => if i = o then some (fun _ => []) else s.objs i }

/-- `UnixSignal::~UnixSignal` (`UnixSignal.cpp:121-128`). -/
def destroy (s : St H) (o : Nat) : Outcome (St H) :=
  match s.objs o with
  | none => .ub
  | some _ => let t := (List.range 64).foldl (fun t i => signal t i .dfl) s
    .ok { t with objs := fun i => if i = o then none else t.objs i }

/-- `UnixSignal::Register` (`UnixSignal.cpp:130-141`). -/
def register (s : St H) (o : Nat) (h : H) (sig : Int) : Outcome (St H) :=
  match s.objs o with
  | none => .ub
  | some l => if sig ≤ 0 ∨ sig ≥ 64 then .ok s
    else let t := signal s sig.toNat .ours
      .ok { t with objs := fun i => if i = o then some (fun n => if n = sig.toNat then l n ++ [h] else l n) else t.objs i }

/-- `UnixSignal::Dump` (`UnixSignal.cpp:143-160`): the lines printed, as the number and the handlers. -/
def dump (s : St H) (o : Nat) : Outcome (List (Nat × List H)) :=
  match s.objs o with
  | none => .ub
  | some l => .ok (((List.range 64).filter fun i => (l i).length ≠ 0).map fun i => (i, l i))

/-- A signal arrives: `_sigHandler` (`UnixSignal.cpp:40-53`) uses `gSigVec`, whatever object the handler was registered with; `UnixSignal::Handler` (`UnixSignal.cpp:98-107`). -/
def deliver (s : St H) (sig : Nat) : Outcome (List H × Act × St H) :=
  match s.disp sig with
  | .dfl => .ok ([], .dfl (defaultAction sig), s)
  | .ign => .ok ([], .ign, s)
  | .own k => .ok ([], .own k, s)
  | .ours =>
    let s1 := signal s sig .ign
    if sig = 0 ∨ 64 ≤ sig then .ok ([], .ign, s1)
    else match s1.objs 0 with
      | none => .ub
      | some l => .ok (l sig, .dfl (defaultAction sig), signal s1 sig .dfl)

/-- What happens in the process: objects come and go, handlers are registered, the program sets a signal itself (not to `_sigHandler`, which it cannot name), a signal arrives. -/
inductive Ev (H : Type)
  | create (o : Nat)
  | destroy (o : Nat)
  | reg (o : Nat) (h : H) (sig : Int)
  | set (sig : Nat) (k : Option Nat)
  | del (sig : Nat)

/-- What the program sets a signal to: `SIG_IGN` or a function of its own. -/
def asked : Option Nat → Disp
  | none => .ign
  | some k => .own k

/-- One event; `set sig none` is `signal(sig, SIG_IGN)`. -/
def step (s : St H) : Ev H → Outcome (St H)
  | .create o => if (s.objs o).isSome then .ub else .ok (create s o)
  | .destroy o => destroy s o
  | .reg o h sig => register s o h sig
  | .set sig k => .ok (signal s sig (asked k))
  | .del sig => (deliver s sig).bind fun r => .ok r.2.2

/-- A history. -/
def run (s : St H) : List (Ev H) → Outcome (St H)
  | [] => .ok s
  | e :: es => (step s e).bind fun s' => run s' es

/-! ### Specification, on histories only -/

/-- The handlers registered with an object for a signal since the object was made, in order; none after its end. -/
def registered (o : Nat) (sig : Nat) : List (Ev H) → List H → List H
  | [], l => l
  | .create p :: es, l => registered o sig es (if p = o then [] else l)
  | .reg p h n :: es, l => registered o sig es (if p = o ∧ n = (sig : Int) then l ++ [h] else l)
  | _ :: es, l => registered o sig es l

/-- An event that concerns what is done with signal `sig`. -/
def Ev.concerns (sig : Nat) : Ev H → Prop
  | .create _ => False
  | .destroy _ => True
  | .reg _ _ n => n = (sig : Int)
  | .set n _ => n = sig
  | .del n => n = sig

/-- Signals the class can be used for. -/
def Usable (sig : Nat) : Prop := 1 ≤ sig ∧ sig < 64 ∧ catchable sig = true

/-! ### Lemmas -/

theorem bind_ok {α β : Type} {x : Outcome α} {f : α → Outcome β} {b : β} (h : x.bind f = .ok b) : ∃ a, x = .ok a ∧ f a = .ok b := by
  cases x with
  | ok a => exact ⟨a, rfl, h⟩
  | _ => cases h

theorem run_append (s : St H) (es fs : List (Ev H)) : run s (es ++ fs) = (run s es).bind fun t => run t fs := by
  induction es generalizing s with
  | nil => rfl
  | cons e es ih =>
    show (step s e).bind _ = Outcome.bind ((step s e).bind _) _
    cases step s e with
    | ok t => exact ih t
    | _ => rfl

theorem signal_objs (s : St H) (sig : Nat) (d : Disp) : (signal s sig d).objs = s.objs := by unfold signal; split_ifs <;> rfl

theorem signal_disp (s : St H) (n : Nat) (d : Disp) (sig : Nat) (hu : Usable sig) : (signal s n d).disp sig = if n = sig then d else s.disp sig := by
  unfold signal
  split_ifs with a b b
  · subst b; exact if_pos rfl
  · exact if_neg (fun e => b e.symm)
  · subst b; exact absurd ⟨hu.1, by have := hu.2.1; omega, hu.2.2⟩ a
  · rfl

theorem foldl_objs (l : List Nat) (s : St H) : (l.foldl (fun t i => signal t i .dfl) s).objs = s.objs := by
  induction l generalizing s with
  | nil => rfl
  | cons a l ih => rw [List.foldl_cons, ih, signal_objs]

theorem foldl_disp (l : List Nat) (s : St H) (sig : Nat) (hu : Usable sig) : (l.foldl (fun t i => signal t i .dfl) s).disp sig = if sig ∈ l then .dfl else s.disp sig := by
  induction l generalizing s with
  | nil => rfl
  | cons a l ih =>
    rw [List.foldl_cons, ih, signal_disp _ _ _ _ hu]
    by_cases h : sig ∈ l
    · rw [if_pos h, if_pos (List.mem_cons_of_mem _ h)]
    · rw [if_neg h]
      by_cases e : a = sig
      · subst e; rw [if_pos rfl, if_pos List.mem_cons_self]
      · rw [if_neg e, if_neg]
        intro hm
        rcases List.mem_cons.1 hm with rfl | hm
        · exact e rfl
        · exact h hm

theorem destroy_ok {s t : St H} {o : Nat} (h : destroy s o = .ok t) :
    (∃ l, s.objs o = some l) ∧ t.objs = (fun i => if i = o then none else s.objs i) ∧ ∀ sig, Usable sig → t.disp sig = .dfl := by
  unfold destroy at h
  cases ho : s.objs o with
  | none => rw [ho] at h; cases h
  | some l =>
    rw [ho] at h; cases h
    refine ⟨⟨l, rfl⟩, ?_, fun sig hu => ?_⟩
    · dsimp only; rw [foldl_objs]
    · dsimp only
      rw [foldl_disp _ _ _ hu, if_pos (List.mem_range.2 hu.2.1)]

theorem register_ok {s t : St H} {o : Nat} {h : H} {n : Int} (hr : register s o h n = .ok t) :
    (∃ l, s.objs o = some l ∧ ∀ i, t.objs i = if i = o then some (fun m : Nat => if (m : Int) = n ∧ 1 ≤ n ∧ n < 64 then l m ++ [h] else l m) else s.objs i) ∧
    ∀ sig, Usable sig → t.disp sig = if n = (sig : Int) then .ours else s.disp sig := by
  unfold register at hr
  cases ho : s.objs o with
  | none => rw [ho] at hr; cases hr
  | some l =>
    rw [ho] at hr
    dsimp only at hr
    by_cases c : n ≤ 0 ∨ n ≥ 64
    · rw [if_pos c] at hr
      cases hr
      refine ⟨⟨l, rfl, fun i => ?_⟩, fun sig hu => ?_⟩
      · by_cases e : i = o
        · subst e
          rw [if_pos rfl, ho]
          congr 1; funext m
          rw [if_neg (by omega)]
        · rw [if_neg e]
      · rw [if_neg]
        have := hu.1; have := hu.2.1; omega
    · rw [if_neg c] at hr
      cases hr
      refine ⟨⟨l, rfl, fun i => ?_⟩, fun sig hu => ?_⟩
      · dsimp only
        by_cases e : i = o
        · rw [if_pos e, if_pos e]
          congr 1; funext m
          by_cases e2 : m = n.toNat
          · rw [if_pos e2, if_pos (by omega)]
          · rw [if_neg e2, if_neg (by omega)]
        · rw [if_neg e, if_neg e, signal_objs]
      · dsimp only
        rw [signal_disp _ _ _ _ hu]
        by_cases e : n = (sig : Int)
        · rw [if_pos e, if_pos (by omega)]
        · rw [if_neg e, if_neg (by omega)]

theorem deliver_ok {s : St H} {n : Nat} {r : List H × Act × St H} (h : deliver s n = .ok r) :
    r.2.2.objs = s.objs ∧ ∀ sig, Usable sig → r.2.2.disp sig = if n = sig ∧ s.disp sig = .ours then .dfl else s.disp sig := by
  unfold deliver at h
  cases hd : s.disp n with
  | dfl =>
    rw [hd] at h; cases h
    refine ⟨rfl, fun sig _ => ?_⟩
    rw [if_neg]; rintro ⟨rfl, e⟩; rw [hd] at e; cases e
  | ign =>
    rw [hd] at h; cases h
    refine ⟨rfl, fun sig _ => ?_⟩
    rw [if_neg]; rintro ⟨rfl, e⟩; rw [hd] at e; cases e
  | own k =>
    rw [hd] at h; cases h
    refine ⟨rfl, fun sig _ => ?_⟩
    rw [if_neg]; rintro ⟨rfl, e⟩; rw [hd] at e; cases e
  | ours =>
    rw [hd] at h
    dsimp only at h
    by_cases c : n = 0 ∨ 64 ≤ n
    · rw [if_pos c] at h; cases h
      refine ⟨signal_objs _ _ _, fun sig hu => ?_⟩
      have := hu.1; have := hu.2.1
      dsimp only
      rw [signal_disp _ _ _ _ hu, if_neg (by omega), if_neg (by omega)]
    · rw [if_neg c] at h
      cases ho : (signal s n .ign).objs 0 with
      | none => rw [ho] at h; cases h
      | some l =>
        rw [ho] at h; cases h
        refine ⟨by dsimp only; rw [signal_objs, signal_objs], fun sig hu => ?_⟩
        dsimp only
        rw [signal_disp _ _ _ _ hu, signal_disp _ _ _ _ hu]
        by_cases e : n = sig
        · subst e; rw [if_pos rfl, if_pos ⟨rfl, hd⟩]
        · rw [if_neg e, if_neg e, if_neg (fun h => e h.1)]

theorem step_objs {s t : St H} {e : Ev H} (h : step s e = .ok t) (o sig : Nat) (l l' : List H) (hu : 1 ≤ sig ∧ sig < 64) (hl : ∀ f, s.objs o = some f → f sig = l)
    (hl' : registered o sig [e] l = l') : ∀ f, t.objs o = some f → f sig = l' := by
  intro f hf
  cases e with
  | create p =>
    simp only [step] at h
    split_ifs at h with c
    cases h
    simp only [create] at hf
    simp only [registered] at hl'
    by_cases e : o = p
    · rw [if_pos e] at hf; cases hf
      rw [if_pos e.symm] at hl'; exact hl'
    · rw [if_neg e] at hf
      rw [if_neg (fun h => e h.symm)] at hl'
      rw [← hl']; exact hl f hf
  | destroy p =>
    have := (destroy_ok h).2.1
    rw [this] at hf
    dsimp only at hf
    split_ifs at hf
    simp only [registered] at hl'
    rw [← hl']; exact hl f hf
  | reg p x n =>
    obtain ⟨⟨l0, h0, h1⟩, -⟩ := register_ok h
    rw [h1] at hf
    simp only [registered] at hl'
    by_cases e : o = p
    · subst e
      rw [if_pos rfl] at hf; cases hf
      dsimp only
      rw [← hl', hl l0 h0]
      by_cases en : n = (sig : Int)
      · rw [if_pos ⟨en.symm, by omega, by omega⟩, if_pos ⟨rfl, en⟩]
      · rw [if_neg (fun h => en h.1.symm), if_neg (fun h => en h.2)]
    · rw [if_neg e] at hf
      rw [if_neg (fun h => e h.1.symm)] at hl'
      rw [← hl']; exact hl f hf
  | set n k =>
    cases h
    rw [signal_objs] at hf
    simp only [registered] at hl'
    rw [← hl']; exact hl f hf
  | del n =>
    obtain ⟨r, hr, h⟩ := bind_ok h
    cases h
    rw [(deliver_ok hr).1] at hf
    simp only [registered] at hl'
    rw [← hl']; exact hl f hf

theorem registered_cons (o sig : Nat) (e : Ev H) (es : List (Ev H)) (l : List H) : registered o sig (e :: es) l = registered o sig es (registered o sig [e] l) := by cases e <;> rfl

theorem run_objs {s t : St H} {es : List (Ev H)} (h : run s es = .ok t) (o sig : Nat) (l : List H) (hu : 1 ≤ sig ∧ sig < 64) (hl : ∀ f, s.objs o = some f → f sig = l) :
    ∀ f, t.objs o = some f → f sig = registered o sig es l := by
  induction es generalizing s l with
  | nil => cases h; exact hl
  | cons e es ih =>
    obtain ⟨u, hu1, hu2⟩ := bind_ok h
    rw [registered_cons]
    exact ih hu2 _ (step_objs hu1 o sig l _ hu hl rfl)

theorem step_keeps {s t : St H} {e : Ev H} (h : step s e = .ok t) (sig : Nat) (hu : Usable sig) (hc : ¬ e.concerns sig) : t.disp sig = s.disp sig := by
  cases e with
  | create p =>
    simp only [step] at h
    split_ifs at h with c
    cases h; rfl
  | destroy p => exact absurd trivial hc
  | reg p x n => rw [(register_ok h).2 sig hu]; exact if_neg hc
  | set n k => cases h; rw [signal_disp _ _ _ _ hu]; exact if_neg hc
  | del n =>
    obtain ⟨r, hr, h⟩ := bind_ok h
    cases h
    rw [(deliver_ok hr).2 sig hu, if_neg (fun h => hc h.1)]

theorem run_keeps {s t : St H} {es : List (Ev H)} (h : run s es = .ok t) (sig : Nat) (hu : Usable sig) (hc : ∀ e ∈ es, ¬ e.concerns sig) : t.disp sig = s.disp sig := by
  induction es generalizing s with
  | nil => cases h; rfl
  | cons e es ih =>
    obtain ⟨u, hu1, hu2⟩ := bind_ok h
    rw [ih hu2 fun x hx => hc x (List.mem_cons_of_mem _ hx), step_keeps hu1 sig hu (hc e List.mem_cons_self)]

/-- A history split at an event, with nothing that concerns the signal after it. -/
theorem run_split {t : St H} {a b : List (Ev H)} {e : Ev H} (h : run start (a ++ e :: b) = .ok t) (sig : Nat) (hu : Usable sig) (hc : ∀ e ∈ b, ¬ e.concerns sig) :
    ∃ s u, run start a = .ok s ∧ step s e = .ok u ∧ t.disp sig = u.disp sig := by
  rw [run_append] at h
  obtain ⟨s, hs, h⟩ := bind_ok h
  obtain ⟨u, hu1, hu2⟩ := bind_ok h
  exact ⟨s, u, hs, hu1, run_keeps hu2 sig hu hc⟩

/-- An object exists after a step if it did before and was not destroyed. -/
theorem step_alive {s t : St H} {e : Ev H} (h : step s e = .ok t) (o : Nat) (hs : (s.objs o).isSome) (he : ∀ p, e = .destroy p → p ≠ o) : (t.objs o).isSome := by
  cases e with
  | create p =>
    simp only [step] at h
    split_ifs at h with c
    cases h
    simp only [create]
    split_ifs
    · rfl
    · exact hs
  | destroy p =>
    rw [(destroy_ok h).2.1]
    dsimp only
    rw [if_neg (fun e => he p rfl e.symm)]; exact hs
  | reg p x n =>
    obtain ⟨⟨l0, -, h1⟩, -⟩ := register_ok h
    rw [h1]
    split_ifs
    · rfl
    · exact hs
  | set n k => cases h; rw [signal_objs]; exact hs
  | del n =>
    obtain ⟨r, hr, h⟩ := bind_ok h
    cases h
    rw [(deliver_ok hr).1]; exact hs

theorem run_alive {s t : St H} {es : List (Ev H)} (h : run s es = .ok t) (o : Nat) (hs : (s.objs o).isSome) (he : Ev.destroy o ∉ es) : (t.objs o).isSome := by
  induction es generalizing s with
  | nil => cases h; exact hs
  | cons e es ih =>
    obtain ⟨u, hu1, hu2⟩ := bind_ok h
    refine ih hu2 (step_alive hu1 o hs ?_) fun hm => he (List.mem_cons_of_mem _ hm)
    rintro p rfl rfl
    exact he List.mem_cons_self

theorem deliver_ours {s : St H} {sig : Nat} {f : Nat → List H} (hu : Usable sig) (hd : s.disp sig = .ours) (ho : s.objs 0 = some f) : ∃ s', deliver s sig = .ok (f sig, .dfl (defaultAction sig), s') := by
  have := hu.1; have := hu.2.1
  unfold deliver
  rw [hd]
  dsimp only
  rw [if_neg (by omega), signal_objs, ho]
  exact ⟨_, rfl⟩

/-! ### C127 -/

/-- C127, where it holds: while `gSigVec` exists, a signal calls the handlers registered with it, each once and in order, and the default action follows, provided a registration for the signal is the last event
that concerns it: no object was destroyed, the signal did not arrive, and the program did not set it since.  Missing for the full statement: handlers of other objects (`C127_other_refuted`), destruction of other
objects (`C127_destroy_refuted`). -/
theorem C127_called_partial (a b : List (Ev H)) (o : Nat) (h : H) (sig : Nat) (hu : Usable sig) (s : St H) (hr : run start (a ++ .reg o h sig :: b) = .ok s) (hb : ∀ e ∈ b, ¬ e.concerns sig)
    (hg : Ev.destroy 0 ∉ a ++ .reg o h sig :: b) : ∃ s', deliver s sig = .ok (registered 0 sig (a ++ .reg o h sig :: b) [], .dfl (defaultAction sig), s') := by
  obtain ⟨s1, u, -, hs, hd⟩ := run_split hr sig hu hb
  rw [(register_ok hs).2 sig hu, if_pos rfl] at hd
  have hal := run_alive hr 0 rfl hg
  obtain ⟨f, hf⟩ := Option.isSome_iff_exists.1 hal
  rw [← run_objs hr 0 sig [] ⟨hu.1, hu.2.1⟩ (fun f hf => by cases hf; rfl) f hf]
  exact deliver_ours hu hd hf

/-- Two handlers of `gSigVec` for signal 2, with another object made between them. -/
example : ∃ s s' : St Nat, run start [.reg 0 7 2, .create 1, .reg 0 5 2, .reg 0 9 3] = .ok s ∧ deliver s 2 = .ok ([7, 5], .dfl .terminate, s') := ⟨_, _, rfl, rfl⟩

/-- C127: once an object has been destroyed, `gSigVec` at the end of the program in particular, no handler of any object is called and the default action is taken, until the next registration for the signal or
the program sets it; what was destroyed is not used. -/
theorem C127_destroyed (a b : List (Ev H)) (o : Nat) (sig : Nat) (hu : Usable sig) (s : St H) (hr : run start (a ++ .destroy o :: b) = .ok s) (hb : ∀ e ∈ b, (∀ p h, e ≠ .reg p h sig) ∧ ∀ k, e ≠ .set sig k)
    : deliver s sig = .ok ([], .dfl (defaultAction sig), s) := by
  obtain ⟨u, hr', h0⟩ : ∃ u, run u b = .ok s ∧ u.disp sig = .dfl := by
    rw [run_append] at hr
    obtain ⟨s1, -, hr⟩ := bind_ok hr
    obtain ⟨u, hu1, hr⟩ := bind_ok hr
    exact ⟨u, hr, (destroy_ok hu1).2.2 sig hu⟩
  have : s.disp sig = .dfl := by
    clear hr
    rename' hr' => hr
    induction b generalizing u with
    | nil => cases hr; exact h0
    | cons e es ih =>
      obtain ⟨v, hv1, hv2⟩ := bind_ok hr
      refine ih (fun x hx => hb x (List.mem_cons_of_mem _ hx)) v hv2 ?_
      have he := hb e List.mem_cons_self
      cases e with
      | create p => rw [step_keeps hv1 sig hu id, h0]
      | destroy p => exact (destroy_ok hv1).2.2 sig hu
      | reg p h n => rw [step_keeps hv1 sig hu (fun e => he.1 p h (by rw [show n = (sig : Int) from e])), h0]
      | set n k => rw [step_keeps hv1 sig hu (fun e => he.2 k (by rw [show n = sig from e])), h0]
      | del n =>
        obtain ⟨r, hr1, h⟩ := bind_ok hv1
        cases h
        rw [(deliver_ok hr1).2 sig hu, h0, ite_self]
  unfold deliver
  rw [this]

example : ∃ s : St Nat, run start [.reg 0 7 2, .destroy 0, .del 3] = .ok s ∧ deliver s 2 = .ok ([], .dfl .terminate, s) := ⟨_, rfl, rfl⟩

/-- C127: a signal the program has set itself stays as it was set, as long as nothing is registered for it and no object destroyed, however often it arrives. -/
theorem C127_own (a b : List (Ev H)) (sig : Nat) (k : Option Nat) (hu : Usable sig) (s : St H) (hr : run start (a ++ .set sig k :: b) = .ok s) (hb : ∀ e ∈ b, e = .del sig ∨ ¬ e.concerns sig) :
    deliver s sig = .ok ([], k.elim .ign .own, s) := by
  obtain ⟨u, hr', h0⟩ : ∃ u, run u b = .ok s ∧ u.disp sig = asked k := by
    rw [run_append] at hr
    obtain ⟨s1, -, hr⟩ := bind_ok hr
    obtain ⟨u, hu1, hr⟩ := bind_ok hr
    refine ⟨u, hr, ?_⟩
    cases hu1; rw [signal_disp _ _ _ _ hu, if_pos rfl]
  have : s.disp sig = asked k := by
    clear hr
    rename' hr' => hr
    induction b generalizing u with
    | nil => cases hr; exact h0
    | cons e es ih =>
      obtain ⟨v, hv1, hv2⟩ := bind_ok hr
      refine ih (fun x hx => hb x (List.mem_cons_of_mem _ hx)) v hv2 ?_
      rcases hb e List.mem_cons_self with rfl | hn
      · obtain ⟨r, hr1, h⟩ := bind_ok hv1
        cases h
        rw [(deliver_ok hr1).2 sig hu, if_neg, h0]
        rw [h0]; rintro ⟨-, e⟩; cases k <;> cases e
      · rw [step_keeps hv1 sig hu hn, h0]
  unfold deliver
  rw [this]
  cases k <;> rfl

example : ∃ s : St Nat, run start [.set 13 none, .reg 0 7 2, .del 13, .create 1] = .ok s ∧ deliver s 13 = .ok ([], .ign, s) := ⟨_, rfl, rfl⟩

/-- C127: what `Dump` prints for an object is what was registered with it since it was made: every signal from 1 to 63 with a handler, with its handlers in order, and nothing else. -/
theorem C127_dump (es : List (Ev H)) (s : St H) (hr : run start es = .ok s) (o : Nat) (d : List (Nat × List H)) (hd : dump s o = .ok d) :
    d.Pairwise (fun x y => x.1 < y.1) ∧ ∀ sig l, 1 ≤ sig ∧ sig < 64 → ((sig, l) ∈ d ↔ l ≠ [] ∧ registered o sig es [] = l) := by
  unfold dump at hd
  cases ho : s.objs o with
  | none => rw [ho] at hd; cases hd
  | some f =>
    rw [ho] at hd; cases hd
    refine ⟨?_, fun sig l hs => ?_⟩
    · rw [List.pairwise_map]
      exact (List.pairwise_lt_range).filter _
    · have := run_objs hr o sig [] hs (fun f hf => by
        unfold start at hf; dsimp only at hf; split_ifs at hf; cases hf; rfl) f ho
      rw [List.mem_map]
      constructor
      · rintro ⟨i, hi, e⟩
        cases e
        have h2 := (List.mem_filter.1 hi).2
        refine ⟨fun e => ?_, this.symm⟩
        rw [e] at h2; simp at h2
      · rintro ⟨hn, rfl⟩
        refine ⟨sig, List.mem_filter.2 ⟨List.mem_range.2 hs.2, ?_⟩, by rw [this]⟩
        rw [this]
        simpa using hn

example : ∃ s : St Nat, run start [.reg 0 7 2, .create 1, .reg 1 5 2, .reg 0 9 2, .reg 1 4 1, .reg 1 4 77] = .ok s ∧ dump s 1 = .ok [(1, [4]), (2, [5])] := ⟨_, rfl, by decide +kernel⟩

/-- C127 is false for an object other than `gSigVec`: a handler registered with it is not called; the handlers `gSigVec` has for the signal are. -/
theorem C127_other_refuted : ∃ s s' : St Nat, run start [.reg 0 5 2, .create 1, .reg 1 7 2] = .ok s ∧ registered 1 2 [.reg 0 5 2, .create 1, .reg 1 7 2] [] = [7] ∧ deliver s 2 = .ok ([5], .dfl .terminate, s') :=
  ⟨_, _, rfl, rfl, rfl⟩

/-- C127 is false when another object is destroyed, even one nothing was registered with: the handlers of `gSigVec` are not called any more, and a signal the program had set to be ignored ends it. -/
theorem C127_destroy_refuted : ∃ s : St Nat, run start [.reg 0 5 2, .set 13 none, .create 1, .destroy 1] = .ok s ∧ registered 0 2 [.reg 0 5 2, .set 13 none, .create 1, .destroy 1] [] = [5] ∧
    deliver s 2 = .ok ([], .dfl .terminate, s) ∧ deliver s 13 = .ok ([], .dfl .terminate, s) := ⟨_, rfl, rfl, rfl, rfl⟩

/-- C127 is false after the end of `gSigVec`: a handler registered with an object that still exists makes the signal use the destroyed lists. -/
theorem C127_end_refuted : ∃ s : St Nat, run start [.create 1, .destroy 0, .reg 1 7 2] = .ok s ∧ deliver s 2 = .ub := ⟨_, rfl, rfl⟩

end Verif.Process.Objects
