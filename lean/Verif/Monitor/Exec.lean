import Verif.Monitor.Lemmas

/-
Executing a given schedule, to exhibit concrete executions.  Everything produced by `exec` is reachable (`exec_reach`).
-/

namespace Verif.Monitor
open Verif

variable {n : Nat} {σ C Op R : Type} [DecidableEq C]

/-- A monitor whose critical sections are functions (`none`: undefined behaviour). -/
def Mon.ofFun (f : Op → Stamp → Clock → σ → Option (Act σ C R)) : Mon σ C Op R := ⟨fun op t0 now d a => f op t0 now d = some a⟩

/-- Scheduler commands; `notify t u` wakes thread `u` if it is given. -/
inductive Cmd (n : Nat) (Op : Type) where
  | start (t : Fin n) (op : Op)
  | lock (t : Fin n)
  | body (t : Fin n)
  | spurious (t : Fin n)
  | relock (t : Fin n)
  | notify (t : Fin n) (u : Option (Fin n))
  | unlock (t : Fin n)
  | ret (t : Fin n)
  | tick (now : Clock)

/-- Does the thread wait on `c`? -/
def TS.waitsOn (c : C) : TS C Op R → Bool
  | .waiting _ _ c' => c' = c
  | _ => false

theorem not_waitsOn {c : C} {x : TS C Op R} (h : x.waitsOn c = false) (op : Op) (t0 : Stamp) : x ≠ .waiting op t0 c := by
  rintro rfl
  simp [TS.waitsOn] at h

/-- One scheduled step. -/
def exec1 (f : Op → Stamp → Clock → σ → Option (Act σ C R)) (s : St n σ C Op R) : Cmd n Op → Option (St n σ C Op R)
  | .start t op =>
    match s.th t with
    | .idle => some { s with th := Function.update s.th t (.entering op ⟨s.now, s.now⟩), tr := s.tr ++ [.call t op s.now] }
    | _ => none
  | .lock t =>
    match s.th t, s.owner with
    | .entering op t0, none => some { s with th := Function.update s.th t (.holding op ⟨t0.call, s.now⟩), owner := some t }
    | _, _ => none
  | .body t =>
    match s.th t with
    | .holding op t0 =>
      if s.owner = some t then
        match f op t0 s.now s.data with
        | some (.done d r i o) => some { s with th := Function.update s.th t (.inLock op r i o), data := d, tr := s.tr ++ [.lin t op t0 s.now s.data r] }
        | some (.wait d c) => some { s with th := Function.update s.th t (.waiting op t0 c), data := d, owner := none }
        | some (.spin d) => some { s with data := d }
        | none => none
      else none
    | _ => none
  | .spurious t =>
    match s.th t with
    | .waiting op t0 _ => some { s with th := Function.update s.th t (.waking op t0) }
    | _ => none
  | .relock t =>
    match s.th t, s.owner with
    | .waking op t0, none => some { s with th := Function.update s.th t (.holding op t0), owner := some t }
    | _, _ => none
  | .notify t u =>
    match s.th t, u with
    | .inLock op r (.one c :: i) o, some u =>
      match s.th u with
      | .waiting op' t0 c' => if c' = c then some { s with th := Function.update (Function.update s.th t (.inLock op r i o)) u (.waking op' t0) } else none
      | _ => none
    | .inLock op r (.one c :: i) o, none =>
      if ∀ u, (s.th u).waitsOn c = false then some { s with th := Function.update s.th t (.inLock op r i o) } else none
    | .inLock op r (.all c :: i) o, _ => some { s with th := Function.update (fun u => (s.th u).wake c) t (.inLock op r i o) }
    | .after op r (.one c :: o), some u =>
      match s.th u with
      | .waiting op' t0 c' => if c' = c then some { s with th := Function.update (Function.update s.th t (.after op r o)) u (.waking op' t0) } else none
      | _ => none
    | .after op r (.one c :: o), none =>
      if ∀ u, (s.th u).waitsOn c = false then some { s with th := Function.update s.th t (.after op r o) } else none
    | .after op r (.all c :: o), _ => some { s with th := Function.update (fun u => (s.th u).wake c) t (.after op r o) }
    | _, _ => none
  | .unlock t =>
    match s.th t with
    | .inLock op r [] o => if s.owner = some t then some { s with th := Function.update s.th t (.after op r o), owner := none } else none
    | _ => none
  | .ret t =>
    match s.th t with
    | .after op r [] => some { s with th := Function.update s.th t .idle, tr := s.tr ++ [.ret t op r] }
    | _ => none
  | .tick now => some { s with now := now }

/-- The label of a command. -/
def Cmd.lbl : Cmd n Op → Lbl n Op
  | .start t op => .start t op
  | .lock t => .lock t
  | .body t => .body t
  | .spurious t => .spurious t
  | .relock t => .relock t
  | .notify t _ => .notify t
  | .unlock t => .unlock t
  | .ret t => .ret t
  | .tick _ => .tick

theorem exec1_step {f : Op → Stamp → Clock → σ → Option (Act σ C R)} {s s' : St n σ C Op R} {cmd : Cmd n Op} (h : exec1 f s cmd = some s') :
    Step (Mon.ofFun f) s cmd.lbl s' := by
  cases cmd with
  | start t op =>
    simp only [exec1] at h
    split at h
    · next e => cases h; exact .start s t op e
    · cases h
  | lock t =>
    simp only [exec1] at h
    split at h
    · next e e' => cases h; exact .lock s t _ _ e e'
    · cases h
  | body t =>
    simp only [exec1] at h
    split at h
    · next e =>
      split at h
      · next ho =>
        split at h
        · next hf => cases h; exact .bodyDone s t _ _ _ _ _ _ e ho hf
        · next hf => cases h; exact .bodyWait s t _ _ _ _ e ho hf
        · next hf => cases h; exact .bodySpin s t _ _ _ e ho hf
        · cases h
      · cases h
    · cases h
  | spurious t =>
    simp only [exec1] at h
    split at h
    · next e => cases h; exact .spurious s t _ _ _ e
    · cases h
  | relock t =>
    simp only [exec1] at h
    split at h
    · next e e' => cases h; exact .relock s t _ _ e e'
    · cases h
  | notify t u =>
    simp only [exec1] at h
    split at h
    · next e =>
      split at h
      · next e' =>
        split at h
        · next hc => subst hc; cases h; exact .signalIn s t _ _ _ _ _ _ _ _ e e'
        · cases h
      · cases h
    · next e =>
      split at h
      · next hc => cases h; exact .signalInNone s t _ _ _ _ _ e (fun u a b => not_waitsOn (hc u) a b)
      · cases h
    · next e => cases h; exact .bcastIn s t _ _ _ _ _ e
    · next e =>
      split at h
      · next e' =>
        split at h
        · next hc => subst hc; cases h; exact .signalOut s t _ _ _ _ _ _ _ e e'
        · cases h
      · cases h
    · next e =>
      split at h
      · next hc => cases h; exact .signalOutNone s t _ _ _ _ e (fun u a b => not_waitsOn (hc u) a b)
      · cases h
    · next e => cases h; exact .bcastOut s t _ _ _ _ e
    · cases h
  | unlock t =>
    simp only [exec1] at h
    split at h
    · next e =>
      split at h
      · next ho => cases h; exact .unlock s t _ _ _ e ho
      · cases h
    · cases h
  | ret t =>
    simp only [exec1] at h
    split at h
    · next e => cases h; exact .ret s t _ _ e
    · cases h
  | tick now =>
    simp only [exec1] at h
    cases h; exact .tick s now

/-- A schedule. -/
def exec (f : Op → Stamp → Clock → σ → Option (Act σ C R)) (s : St n σ C Op R) : List (Cmd n Op) → Option (St n σ C Op R)
  | [] => some s
  | c :: cs => match exec1 f s c with
    | some s' => exec f s' cs
    | none => none

theorem exec_reach {f : Op → Stamp → Clock → σ → Option (Act σ C R)} {ok : Fin n → Op → Prop} {s0 s s' : St n σ C Op R} {cs : List (Cmd n Op)}
    (h : exec f s cs = some s') (hr : Reach (Mon.ofFun f) ok s0 s) (hok : ∀ t op, Cmd.start t op ∈ cs → ok t op) : Reach (Mon.ofFun f) ok s0 s' := by
  induction cs generalizing s with
  | nil => cases h; exact hr
  | cons c cs ih =>
    simp only [exec] at h
    split at h
    · next s1 h1 =>
      refine ih h (hr.step (exec1_step h1) ?_) (fun t op hm => hok t op (List.mem_cons_of_mem _ hm))
      intro t op e
      apply hok
      cases c <;> cases e
      exact List.mem_cons_self
    · cases h

/-- The calls a thread makes one after the other without interference. -/
def solo (t : Fin n) (op : Op) (k : Nat) (outer : List (Option (Fin n))) : List (Cmd n Op) :=
  [.start t op, .lock t, .body t] ++ List.replicate k (.notify t none) ++ [.unlock t] ++ outer.map (.notify t) ++ [.ret t]

/-- Executions of a monitor are executions of any monitor with more behaviours. -/
theorem Reach.refine {M M' : Mon σ C Op R} (hM : ∀ op t0 now d a, M.body op t0 now d a → M'.body op t0 now d a) {ok : Fin n → Op → Prop} {s0 s : St n σ C Op R}
    (h : Reach M ok s0 s) : Reach M' ok s0 s := by
  induction h with
  | refl => exact .refl
  | step _ st hok ih =>
    refine ih.step ?_ hok
    cases st with
    | bodyDone t op t0 d r i o e ho hb => exact .bodyDone _ _ _ _ _ _ _ _ e ho (hM _ _ _ _ _ hb)
    | bodyWait t op t0 d c e ho hb => exact .bodyWait _ _ _ _ _ _ e ho (hM _ _ _ _ _ hb)
    | bodySpin t op t0 d e ho hb => exact .bodySpin _ _ _ _ _ e ho (hM _ _ _ _ _ hb)
    | start t op e => exact .start _ _ _ e
    | lock t op t0 e ho => exact .lock _ _ _ _ e ho
    | spurious t op t0 c e => exact .spurious _ _ _ _ _ e
    | relock t op t0 e ho => exact .relock _ _ _ _ e ho
    | signalIn t op r c i o u op' t0 e eu => exact .signalIn _ _ _ _ _ _ _ _ _ _ e eu
    | signalInNone t op r c i o e eu => exact .signalInNone _ _ _ _ _ _ _ e eu
    | bcastIn t op r c i o e => exact .bcastIn _ _ _ _ _ _ _ e
    | unlock t op r o e ho => exact .unlock _ _ _ _ _ e ho
    | signalOut t op r c o u op' t0 e eu => exact .signalOut _ _ _ _ _ _ _ _ _ e eu
    | signalOutNone t op r c o e eu => exact .signalOutNone _ _ _ _ _ _ e eu
    | bcastOut t op r c o e => exact .bcastOut _ _ _ _ _ _ e
    | ret t op r e => exact .ret _ _ _ _ e
    | tick now => exact .tick _ _

end Verif.Monitor
