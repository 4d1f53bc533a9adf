import Verif.Core.Outcome
import Verif.Core.Str

/-
Property C133: the memory statistics with several threads (`MemoryLeak.h:61-114`, `Utils.cpp:70-110`).

Constructors and destructors of counted classes run on any number of threads.  A call of `memChkNew` or `memChkDel` that has begun waits for `memChkLock` among the others; which
thread made it is of no importance, so the waiting calls are a list from which any is taken when the mutex is free.  Each access to a counter is one step, so that `text`, which
takes no lock, can see what is between them.  `init` is the constructor of `gMemStats`: objects with static lifetime in other files can be constructed before it.
Left out: the names (`mMemName`), and the log statement in `memChkDel`.  The map of labels is in the last part.
-/

namespace Verif.Memory.Threads
open Verif

/-- A call of `memChkNew` or `memChkDel` with the class. -/
inductive Call
  | new (c : Nat)
  | del (c : Nat)
deriving DecidableEq

/-- The holder of `memChkLock`: its call and how many of its statements it has finished. -/
structure Holder where
  call : Call
  done : Nat
deriving DecidableEq

/-- Counters, waiting calls, holder of the mutex (`MemoryLeak.h:62-63`, `Utils.cpp:72`). -/
structure St where
  now : Nat → Int
  total : Nat → Int
  waiting : List Call
  holder : Option Holder

/-- What can be seen: calls begin and end, and the numbers `text` prints. -/
inductive Obs
  | began (k : Call)
  | ended (k : Call)
  | now (c : Nat) (n : Int)
  | total (c : Nat) (n : Int)
deriving DecidableEq

/-- What happens: a call begins; waiting call number `i` gets the mutex; the holder does its next statement; `text` reads a counter; `gMemStats` is constructed. -/
inductive Ev
  | begin (k : Call)
  | enter (i : Nat)
  | step
  | readNow (c : Nat)
  | readTotal (c : Nat)
  | init
deriving DecidableEq

def upd (f : Nat → Int) (a : Nat) (x : Int) : Nat → Int := fun b => if b = a then x else f b

/-- An `int` holds the value. -/
def fits (x : Int) : Bool := -2147483648 ≤ x ∧ x ≤ 2147483647

/-- One event; `none`: it cannot happen now.  `debug` is `gMemLeakDebug`. -/
def happen (debug : Bool) (s : St) : Ev → Option (Outcome (St × List Obs))
  | .begin k => some (.ok ({ s with waiting := s.waiting ++ [k] }, [.began k]))
  | .enter i =>
    match s.holder, s.waiting[i]? with
    | none, some k => some (.ok ({ s with waiting := s.waiting.eraseIdx i, holder := some ⟨k, 0⟩ }, []))
    | _, _ => none
  | .step =>
    match s.holder with
    | none => none
    /- `mMemNow[memIndex]++` (`Utils.cpp:93`) -/
    | some ⟨.new c, 0⟩ => some (if fits (s.now c + 1) then .ok ({ s with now := upd s.now c (s.now c + 1), holder := some ⟨.new c, 1⟩ }, []) else .ub)
    /- `mMemTotal[memIndex]++` (`Utils.cpp:94`) -/
    | some ⟨.new c, 1⟩ => some (if fits (s.total c + 1) then .ok ({ s with total := upd s.total c (s.total c + 1), holder := some ⟨.new c, 2⟩ }, []) else .ub)
    /- the mutex is given back (`Utils.cpp:96`) -/
    | some ⟨.new c, _⟩ => some (.ok ({ s with holder := none }, [.ended (.new c)]))
    /- `mMemNow[memIndex]--` (`Utils.cpp:102`) -/
    | some ⟨.del c, 0⟩ => some (if fits (s.now c - 1) then .ok ({ s with now := upd s.now c (s.now c - 1), holder := some ⟨.del c, 1⟩ }, []) else .ub)
    /- the assertion and the end (`Utils.cpp:103-110`) -/
    | some ⟨.del c, _⟩ => some (if debug ∧ s.now c < 0 then .assertFail else .ok ({ s with holder := none }, [.ended (.del c)]))
  /- `text` (`Utils.cpp:81-87`) -/
  | .readNow c => some (.ok (s, [.now c (s.now c)]))
  | .readTotal c => some (.ok (s, [.total c (s.total c)]))
  /- `MemStats::MemStats` (`Utils.cpp:74-79`) -/
  | .init => some (.ok ({ s with now := fun _ => 0, total := fun _ => 0 }, []))

/-- An execution with what is seen. -/
def exec (debug : Bool) (s : St) : List Ev → Option (Outcome (St × List Obs))
  | [] => some (.ok (s, []))
  | e :: es =>
    match happen debug s e with
    | none => none
    | some (.ok (s1, o1)) =>
      match exec debug s1 es with
      | none => none
      | some (.ok (s2, o2)) => some (.ok (s2, o1 ++ o2))
      | some r => some r
    | some r => some r

/-- The start: all is zero (static storage). -/
def start : St := ⟨fun _ => 0, fun _ => 0, [], none⟩

/-! ### Specification -/

/-- How often something was seen. -/
def times (x : Obs) (o : List Obs) : Nat := o.count x

/-- Objects of class `c` whose constructor, but not yet the destructor, has finished reporting. -/
def alive (o : List Obs) (c : Nat) : Int := times (.ended (.new c)) o - times (.ended (.del c)) o

/-- The program destroys only what exists: a destructor begins only if more objects were made than have begun to be destroyed. -/
def Legal (o : List Obs) : Prop := ∀ o1 c o2, o = o1 ++ .began (.del c) :: o2 → times (.began (.del c)) o1 < times (.ended (.new c)) o1

/-- Fewer than 2^31 objects of each class are made. -/
def Few (o : List Obs) : Prop := ∀ c, times (.began (.new c)) o < 2 ^ 31

/-! ### Proof -/

/-- What the holder has already added to the number of living objects of a class, and to the number of all. -/
def addNow (h : Option Holder) (c : Nat) : Int :=
  match h with
  | some ⟨.new d, i⟩ => if d = c ∧ 1 ≤ i then 1 else 0
  | some ⟨.del d, i⟩ => if d = c ∧ 1 ≤ i then -1 else 0
  | none => 0

def addTotal (h : Option Holder) (c : Nat) : Int :=
  match h with
  | some ⟨.new d, i⟩ => if d = c ∧ 2 ≤ i then 1 else 0
  | _ => 0

/-- Calls under way. -/
def inside (s : St) (k : Call) : Nat := s.waiting.count k + (if s.holder.map Holder.call = some k then 1 else 0)

structure Inv (s : St) (o : List Obs) : Prop where
  now : ∀ c, s.now c = alive o c + addNow s.holder c
  total : ∀ c, s.total c = times (.ended (.new c)) o + addTotal s.holder c
  calls : ∀ k, times (.began k) o = times (.ended k) o + inside s k
  legal : ∀ c, times (.began (.del c)) o ≤ times (.ended (.new c)) o

theorem times_append (x : Obs) (o p : List Obs) : times x (o ++ p) = times x o + times x p := List.count_append

theorem alive_append (o p : List Obs) (c : Nat) : alive (o ++ p) c = alive o c + alive p c := by
  unfold alive
  rw [times_append, times_append]
  omega

theorem count_erase {l : List Call} {i : Nat} {k : Call} (h : l[i]? = some k) (x : Call) : (l.eraseIdx i).count x + (if k = x then 1 else 0) = l.count x := by
  induction l generalizing i with
  | nil => simp at h
  | cons y l ih =>
    cases i with
    | zero =>
      simp only [List.getElem?_cons_zero, Option.some.injEq] at h
      subst h
      rw [List.eraseIdx_cons_zero, List.count_cons]
      by_cases e : y = x <;> simp [e]
    | succ i =>
      rw [List.getElem?_cons_succ] at h
      have := ih h
      rw [List.eraseIdx_cons_succ, List.count_cons, List.count_cons]
      omega

theorem inv_ok {debug : Bool} {s s' : St} {p o : List Obs} {e : Ev} (h : Inv s p) (he : e ≠ .init) (hl : Legal (p ++ o)) (hr : happen debug s e = some (.ok (s', o))) :
    Inv s' (p ++ o) ∧ (∀ c n, Obs.now c n ∈ o → o = [.now c n] ∧ n = alive p c + addNow s.holder c) ∧
      ∀ c n, Obs.total c n ∈ o → o = [.total c n] ∧ n = times (.ended (.new c)) p + addTotal s.holder c := by
  have hnow := h.now
  have htotal := h.total
  have hcalls := h.calls
  have hlegal := h.legal
  cases e with
  | init => exact absurd rfl he
  | begin k =>
    simp only [happen, Option.some.injEq, Outcome.ok.injEq, Prod.mk.injEq] at hr
    obtain ⟨rfl, rfl⟩ := hr
    refine ⟨⟨fun c => ?_, fun c => ?_, fun k' => ?_, fun c => ?_⟩, by simp, by simp⟩
    · rw [alive_append, hnow c]
      simp [alive, times]
    · rw [times_append, htotal c]
      simp [times]
    · have := hcalls k'
      rw [times_append, times_append]
      simp only [inside, List.count_append] at *
      simp only [times, List.count_singleton] at *
      by_cases e : k = k'
      · simp only [e, beq_self_eq_true, if_true] at *
        simp at *
        omega
      · have e1 : (k == k') = false := by simpa using e
        have e2 : (Obs.began k == Obs.began k') = false := by simpa using e
        simp only [e1, e2] at *
        simp at *
        omega
    · have h1 := hlegal c
      rw [times_append, times_append]
      by_cases e : k = .del c
      · subst e
        have := hl p c [] rfl
        simp only [times, List.count_singleton] at *
        simp
        omega
      · simp only [times, List.count_singleton] at *
        have : (Obs.began k == Obs.began (.del c)) = false := by simpa using e
        rw [this]
        simp
        omega
  | enter i =>
    simp only [happen] at hr
    split at hr
    · next k hh hk =>
      simp only [Option.some.injEq, Outcome.ok.injEq, Prod.mk.injEq] at hr
      obtain ⟨rfl, rfl⟩ := hr
      rw [List.append_nil]
      refine ⟨⟨fun c => ?_, fun c => ?_, fun k' => ?_, hlegal⟩, by simp, by simp⟩
      · have := hnow c
        rw [hh] at this
        rw [this]
        cases k <;> simp [addNow]
      · have := htotal c
        rw [hh] at this
        rw [this]
        cases k <;> simp [addTotal]
      · have h1 := hcalls k'
        have h2 := count_erase hk k'
        simp only [inside, hh] at *
        simp at *
        omega
    · cases hr
  | step =>
    simp only [happen] at hr
    split at hr
    · cases hr
    · next c hh =>
      simp only [Option.some.injEq] at hr
      split at hr
      · simp only [Outcome.ok.injEq, Prod.mk.injEq] at hr
        obtain ⟨rfl, rfl⟩ := hr
        rw [List.append_nil]
        refine ⟨⟨fun d => ?_, fun d => ?_, fun k' => ?_, hlegal⟩, by simp, by simp⟩
        · have := hnow d
          rw [hh] at this
          by_cases e : d = c
          · subst e; simp [upd, addNow] at *; omega
          · have e' : ¬ c = d := fun x => e x.symm
            simp [upd, e, e', addNow] at *; omega
        · have := htotal d
          rw [hh] at this
          simpa [addTotal] using this
        · have h1 := hcalls k'
          simpa [inside, hh] using h1
      · cases hr
    · next c hh =>
      simp only [Option.some.injEq] at hr
      split at hr
      · simp only [Outcome.ok.injEq, Prod.mk.injEq] at hr
        obtain ⟨rfl, rfl⟩ := hr
        rw [List.append_nil]
        refine ⟨⟨fun d => ?_, fun d => ?_, fun k' => ?_, hlegal⟩, by simp, by simp⟩
        · have := hnow d
          rw [hh] at this
          simpa [addNow] using this
        · have := htotal d
          rw [hh] at this
          by_cases e : d = c
          · subst e; simp [upd, addTotal] at *; omega
          · have e' : ¬ c = d := fun x => e x.symm
            simp [upd, e, e', addTotal] at *; omega
        · have h1 := hcalls k'
          simpa [inside, hh] using h1
      · cases hr
    · next c i hi1 hi2 hh =>
      simp only [Option.some.injEq, Outcome.ok.injEq, Prod.mk.injEq] at hr
      obtain ⟨rfl, rfl⟩ := hr
      have hi : 2 ≤ i := by
        match i, hi1, hi2 with
        | 0, a, _ => exact absurd rfl a
        | 1, _, b => exact absurd rfl b
        | _ + 2, _, _ => omega
      refine ⟨⟨fun d => ?_, fun d => ?_, fun k' => ?_, fun d => ?_⟩, by simp, by simp⟩
      · have := hnow d
        rw [alive_append]
        rw [hh] at this
        by_cases e : d = c
        · subst e
          have h1 : 1 ≤ i := by omega
          simp [addNow, alive, times, h1] at *; omega
        · have e' : ¬ c = d := fun x => e x.symm
          simp [addNow, alive, times, e'] at *; omega
      · have := htotal d
        rw [times_append]
        rw [hh] at this
        by_cases e : d = c
        · subst e
          simp [addTotal, times, hi] at *; omega
        · have e' : ¬ c = d := fun x => e x.symm
          simp [addTotal, times, e'] at *; omega
      · have h1 := hcalls k'
        rw [times_append, times_append]
        by_cases e : k' = .new c
        · subst e
          simp [inside, hh, times] at *; omega
        · have e' : ¬ Call.new c = k' := fun x => e x.symm
          simp [inside, hh, times, e'] at *; omega
      · have h1 := hlegal d
        rw [times_append, times_append]
        simp [times, List.count_singleton] at *
        omega
    · next c hh =>
      simp only [Option.some.injEq] at hr
      split at hr
      · simp only [Outcome.ok.injEq, Prod.mk.injEq] at hr
        obtain ⟨rfl, rfl⟩ := hr
        rw [List.append_nil]
        refine ⟨⟨fun d => ?_, fun d => ?_, fun k' => ?_, hlegal⟩, by simp, by simp⟩
        · have := hnow d
          rw [hh] at this
          by_cases e : d = c
          · subst e; simp [upd, addNow] at *; omega
          · have e' : ¬ c = d := fun x => e x.symm
            simp [upd, e, e', addNow] at *; omega
        · have := htotal d
          rw [hh] at this
          simpa [addTotal] using this
        · have h1 := hcalls k'
          simpa [inside, hh] using h1
      · cases hr
    · next c i hi1 hh =>
      simp only [Option.some.injEq] at hr
      split at hr
      · cases hr
      simp only [Outcome.ok.injEq, Prod.mk.injEq] at hr
      obtain ⟨rfl, rfl⟩ := hr
      have hi : 1 ≤ i := by
        match i, hi1 with
        | 0, a => exact absurd rfl a
        | _ + 1, _ => omega
      refine ⟨⟨fun d => ?_, fun d => ?_, fun k' => ?_, fun d => ?_⟩, by simp, by simp⟩
      · have := hnow d
        rw [alive_append]
        rw [hh] at this
        by_cases e : d = c
        · subst e
          simp [addNow, alive, times, hi] at *; omega
        · have e' : ¬ c = d := fun x => e x.symm
          simp [addNow, alive, times, e'] at *; omega
      · have := htotal d
        rw [times_append]
        rw [hh] at this
        simp [addTotal, times] at *; omega
      · have h1 := hcalls k'
        rw [times_append, times_append]
        by_cases e : k' = .del c
        · subst e
          simp [inside, hh, times] at *; omega
        · have e' : ¬ Call.del c = k' := fun x => e x.symm
          simp [inside, hh, times, e'] at *; omega
      · have h1 := hlegal d
        rw [times_append, times_append]
        simp [times] at *
        omega
  | readNow c =>
    simp only [happen, Option.some.injEq, Outcome.ok.injEq, Prod.mk.injEq] at hr
    obtain ⟨rfl, rfl⟩ := hr
    refine ⟨⟨fun d => ?_, fun d => ?_, fun k => ?_, fun d => ?_⟩, ?_, by simp⟩
    · rw [alive_append, hnow d]; simp [alive, times]
    · rw [times_append, htotal d]; simp [times]
    · rw [times_append, times_append, hcalls k]; simp [times]
    · rw [times_append, times_append]; have := hlegal d; simp [times] at *; omega
    · intro d n hn
      cases List.mem_singleton.1 hn
      exact ⟨rfl, hnow c⟩
  | readTotal c =>
    simp only [happen, Option.some.injEq, Outcome.ok.injEq, Prod.mk.injEq] at hr
    obtain ⟨rfl, rfl⟩ := hr
    refine ⟨⟨fun d => ?_, fun d => ?_, fun k => ?_, fun d => ?_⟩, by simp, ?_⟩
    · rw [alive_append, hnow d]; simp [alive, times]
    · rw [times_append, htotal d]; simp [times]
    · rw [times_append, times_append, hcalls k]; simp [times]
    · rw [times_append, times_append]; have := hlegal d; simp [times] at *; omega
    · intro d n hn
      cases List.mem_singleton.1 hn
      exact ⟨rfl, htotal c⟩

theorem inv_nofail {debug : Bool} {s : St} {p : List Obs} (h : Inv s p) (hf : Few p) (e : Ev) : happen debug s e ≠ some .ub ∧ happen debug s e ≠ some .assertFail := by
  cases e with
  | step =>
    simp only [happen]
    split
    · simp
    · next c hh =>
      have h1 := h.now c
      have h2 := h.calls (.new c)
      have h3 := hf c
      have h4 := h.calls (.del c)
      have h5 := h.legal c
      rw [if_pos]
      · simp
      · simp only [hh, addNow, alive, inside] at *
        simp [fits] at *
        omega
    · next c hh =>
      have h1 := h.total c
      have h2 := h.calls (.new c)
      have h3 := hf c
      rw [if_pos]
      · simp
      · simp only [hh, addTotal, inside] at *
        simp [fits] at *
        omega
    · simp
    · next c hh =>
      have h1 := h.now c
      have h2 := h.calls (.new c)
      have h3 := hf c
      have h4 := h.calls (.del c)
      have h5 := h.legal c
      rw [if_pos]
      · simp
      · simp only [hh, addNow, alive, inside] at *
        simp [fits] at *
        omega
    · next c i hi1 hh =>
      have h1 := h.now c
      have h4 := h.calls (.del c)
      have h5 := h.legal c
      rw [if_neg]
      · simp
      · simp only [hh, addNow, alive, inside] at *
        simp at *
        intro _
        split at h1 <;> omega
  | enter i =>
    simp only [happen]
    split <;> simp
  | _ => simp [happen]

theorem exec_inv {debug : Bool} {s : St} {p : List Obs} (h : Inv s p) {es : List Ev} (he : Ev.init ∉ es) {s' : St} {o : List Obs} (hr : exec debug s es = some (.ok (s', o))) (hl : Legal (p ++ o)) :
    Inv s' (p ++ o) ∧ (∀ o1 c n o2, o = o1 ++ .now c n :: o2 → ∃ k, Inv k (p ++ o1) ∧ n = k.now c) ∧
      ∀ o1 c n o2, o = o1 ++ .total c n :: o2 → ∃ k, Inv k (p ++ o1) ∧ n = k.total c := by
  induction es generalizing s p o with
  | nil =>
    cases hr
    exact ⟨by simpa using h, fun o1 c n o2 e => by simp at e, fun o1 c n o2 e => by simp at e⟩
  | cons e es ih =>
    rw [List.mem_cons, not_or] at he
    unfold exec at hr
    split at hr
    · cases hr
    · next s1 o1 h1 =>
      split at hr
      · cases hr
      · next s2 o2 h2 =>
        cases hr
        have hl1 : Legal (p ++ o1) := by
          intro a c b hab
          exact hl a c (b ++ o2) (by rw [← List.append_assoc, hab]; simp)
        obtain ⟨hi, hn, ht⟩ := inv_ok h (fun x => he.1 x.symm) hl1 h1
        obtain ⟨a1, a2, a3⟩ := ih hi he.2 h2 (by rwa [List.append_assoc])
        rw [List.append_assoc] at a1
        refine ⟨a1, ?_, ?_⟩
        · intro q c n q2 hq
          rcases List.append_eq_append_iff.1 hq with ⟨k, hk, hk2⟩ | ⟨k, hk, hk2⟩
          · obtain ⟨m, m1, m2⟩ := a2 k c n q2 hk2
            exact ⟨m, by rwa [hk, ← List.append_assoc], m2⟩
          · cases k with
            | nil =>
              obtain ⟨m, m1, m2⟩ := a2 [] c n q2 hk2.symm
              rw [List.append_nil] at hk
              exact ⟨m, by rw [← hk]; simpa using m1, m2⟩
            | cons y k =>
              cases hk2
              obtain ⟨b1, b2⟩ := hn c n (by rw [hk]; simp)
              have : q = [] := by
                cases q with
                | nil => rfl
                | cons z q =>
                  rw [b1] at hk
                  have := congrArg List.length hk
                  simp at this
              subst this
              exact ⟨s, by simpa using h, by rw [b2, h.now c]⟩
        · intro q c n q2 hq
          rcases List.append_eq_append_iff.1 hq with ⟨k, hk, hk2⟩ | ⟨k, hk, hk2⟩
          · obtain ⟨m, m1, m2⟩ := a3 k c n q2 hk2
            exact ⟨m, by rwa [hk, ← List.append_assoc], m2⟩
          · cases k with
            | nil =>
              obtain ⟨m, m1, m2⟩ := a3 [] c n q2 hk2.symm
              rw [List.append_nil] at hk
              exact ⟨m, by rw [← hk]; simpa using m1, m2⟩
            | cons y k =>
              cases hk2
              obtain ⟨b1, b2⟩ := ht c n (by rw [hk]; simp)
              have : q = [] := by
                cases q with
                | nil => rfl
                | cons z q =>
                  rw [b1] at hk
                  have := congrArg List.length hk
                  simp at this
              subst this
              exact ⟨s, by simpa using h, by rw [b2, h.total c]⟩
      · next hx _ => cases hr; exact absurd rfl (hx _ _)
    · next hx _ => cases hr; exact absurd rfl (hx _ _)

/-- No call for the class is under way. -/
def Quiet (o : List Obs) (c : Nat) : Prop := times (.began (.new c)) o = times (.ended (.new c)) o ∧ times (.began (.del c)) o = times (.ended (.del c)) o

theorem quiet_zero {s : St} {o : List Obs} (h : Inv s o) {c : Nat} (hq : Quiet o c) : addNow s.holder c = 0 ∧ addTotal s.holder c = 0 := by
  have h1 := h.calls (.new c)
  have h2 := h.calls (.del c)
  have h3 : inside s (.new c) = 0 := by have := hq.1; omega
  have h4 : inside s (.del c) = 0 := by have := hq.2; omega
  unfold inside at h3 h4
  cases hh : s.holder with
  | none => exact ⟨rfl, rfl⟩
  | some x =>
    obtain ⟨k, i⟩ := x
    rw [hh] at h3 h4
    cases k with
    | new d =>
      have : ¬ d = c := by
        intro e
        simp [e] at h3
      simp [addNow, addTotal, this]
    | del d =>
      have : ¬ d = c := by
        intro e
        simp [e] at h4
      simp [addNow, addTotal, this]

theorem inv_start : Inv start [] := by
  refine ⟨fun c => ?_, fun c => ?_, fun k => ?_, fun c => ?_⟩ <;> simp [start, alive, times, addNow, addTotal, inside]

/-- C133, partial: with any number of threads, for every class for which no constructor or destructor is under way, the statistics hold exactly the number of living objects and of all
made so far.  Missing: objects made before `gMemStats` (`C133_static_refuted`), destroyed objects that were never counted, such as copies (C104), and labels (`C133_label_refuted`). -/
theorem C133_exact_partial {debug : Bool} {es : List Ev} (he : Ev.init ∉ es) {s : St} {o : List Obs} (hr : exec debug start es = some (.ok (s, o))) (hl : Legal o) (c : Nat) (hq : Quiet o c) :
    s.now c = alive o c ∧ s.total c = times (.ended (.new c)) o := by
  have h := (exec_inv inv_start he hr hl).1
  rw [List.nil_append] at h
  obtain ⟨q1, q2⟩ := quiet_zero h hq
  have h1 := h.now c
  have h2 := h.total c
  rw [q1] at h1
  rw [q2] at h2
  constructor <;> omega

/-- C133, partial: the numbers that `text` prints meanwhile differ at most by the one call that has the mutex, and not at all if no call for the class is under way. -/
theorem C133_printed_partial {debug : Bool} {es : List Ev} (he : Ev.init ∉ es) {s : St} {o : List Obs} (hr : exec debug start es = some (.ok (s, o))) (hl : Legal o) :
    (∀ o1 c n o2, o = o1 ++ .now c n :: o2 → alive o1 c - 1 ≤ n ∧ n ≤ alive o1 c + 1 ∧ 0 ≤ n ∧ (Quiet o1 c → n = alive o1 c)) ∧
    ∀ o1 c (n : Int) o2, o = o1 ++ .total c n :: o2 → times (.ended (.new c)) o1 ≤ n ∧ n ≤ times (.ended (.new c)) o1 + 1 ∧ (Quiet o1 c → n = times (.ended (.new c)) o1) := by
  obtain ⟨-, h1, h2⟩ := exec_inv inv_start he hr hl
  constructor
  · intro o1 c n o2 ho
    obtain ⟨k, hk, rfl⟩ := h1 o1 c n o2 ho
    rw [List.nil_append] at hk
    have h3 := hk.now c
    have h4 := hk.calls (.del c)
    have h5 := hk.legal c
    refine ⟨?_, ?_, ?_, fun hq => by rw [h3, (quiet_zero hk hq).1]; omega⟩
    · unfold addNow at h3
      repeat' split at h3
      all_goals omega
    · unfold addNow at h3
      repeat' split at h3
      all_goals omega
    · unfold addNow inside alive at *
      split at h3
      · split at h3 <;> omega
      · next d i hh =>
        split at h3
        · next e =>
          rw [hh] at h4
          simp [e.1] at h4
          omega
        · omega
      · omega
  · intro o1 c n o2 ho
    obtain ⟨k, hk, rfl⟩ := h2 o1 c n o2 ho
    rw [List.nil_append] at hk
    have h3 := hk.total c
    refine ⟨?_, ?_, fun hq => by rw [h3, (quiet_zero hk hq).2]; omega⟩
    · unfold addTotal at h3
      repeat' split at h3
      all_goals omega
    · unfold addTotal at h3
      repeat' split at h3
      all_goals omega

/-- C133, partial: no counter overflows and the assertion on negative numbers does not fail, whatever happens next, if fewer than 2^31 objects of each class are made. -/
theorem C133_safe_partial {debug : Bool} {es : List Ev} (he : Ev.init ∉ es) {s : St} {o : List Obs} (hr : exec debug start es = some (.ok (s, o))) (hl : Legal o) (hf : Few o) (e : Ev) :
    happen debug s e ≠ some .ub ∧ happen debug s e ≠ some .assertFail :=
  inv_nofail (exec_inv inv_start he hr hl).1 hf e

/-- Two threads make an object each and a third destroys one: `now` 1, `total` 2. -/
example : (exec true start [.begin (.new 3), .begin (.new 3), .enter 1, .step, .step, .step, .begin (.del 3), .enter 1, .step, .step, .enter 0, .step, .step, .step]).map
    (fun r => match r with | .ok (s, _) => (s.now 3, s.total 3) | _ => (9, 9)) = some (1, 2) := by decide +kernel

/-- C133 fails for what `text` prints during a constructor: one living object, none ever made. -/
theorem C133_torn_refuted : (exec true start [.begin (.new 3), .enter 0, .step, .readNow 3, .readTotal 3]).map
    (fun r => match r with | .ok (_, o) => o | _ => []) = some [.began (.new 3), .now 3 1, .total 3 0] := by decide +kernel

/-- C133 fails for objects made before `gMemStats`, that is static objects of files whose initialization comes before that of `Utils.cpp`: they are forgotten, and their destruction makes the number
negative; with `gMemLeakDebug` the program is stopped. -/
theorem C133_static_refuted (c : Nat) :
    (∃ s o, exec false start [.begin (.new c), .enter 0, .step, .step, .step, .init, .begin (.del c), .enter 0, .step, .step] = some (.ok (s, o)) ∧ Legal o ∧ Quiet o c ∧ alive o c = 0 ∧ s.now c = -1) ∧
    exec true start [.begin (.new c), .enter 0, .step, .step, .step, .init, .begin (.del c), .enter 0, .step, .step] = some .assertFail := by
  constructor
  · refine ⟨⟨upd (fun _ => 0) c (-1), fun _ => 0, [], none⟩, [.began (.new c), .ended (.new c), .began (.del c), .ended (.del c)], ?_, ?_, ?_, ?_, ?_⟩
    · simp [exec, happen, start, upd, fits]
    · intro o1 d o2 h
      match o1, h with
      | [], h => simp at h
      | [_], h => simp at h
      | [_, _], h =>
        simp only [List.cons_append, List.nil_append, List.cons.injEq] at h
        obtain ⟨rfl, rfl, h, -⟩ := h
        cases h
        simp [times]
      | [_, _, _], h => simp at h
      | [_, _, _, _], h => simp at h
      | _ :: _ :: _ :: _ :: _ :: _, h => simp at h
    · constructor <;> simp [times]
    · simp [alive, times]
    · simp [upd]
  · simp [exec, happen, start, upd, fits]

/-! ### Labels

`RN_MEMLOG` and the destructor of `MemLabel` (`MemoryLeak.h:84-86, 100-104`) use the map without the mutex.  The key exists already; a thread reads the number and writes it back. -/

/-- The number for one label, and what threads have read and are about to write: the number and the change. -/
structure Lab where
  n : Int
  pending : List (Int × Int)

/-- A thread reads (to add 1 or -1), or one that has read writes. -/
inductive LabEv
  | read (d : Int)
  | write (i : Nat)

/-- `mMemMap[key]++` and `tmp = tmp - 1` (`MemoryLeak.h:85, 103`). -/
def labStep (s : Lab) : LabEv → Option Lab
  | .read d => some { s with pending := s.pending ++ [(s.n, d)] }
  | .write i => (s.pending[i]?).map fun x => ⟨x.1 + x.2, s.pending.eraseIdx i⟩

def labRun (s : Lab) : List LabEv → Option Lab
  | [] => some s
  | e :: es => (labStep s e).bind fun s => labRun s es

/-- C133 fails for labels: of any number of objects labelled at once only one is counted; and when all are destroyed one after the other the number is negative. -/
theorem C133_label_refuted : (labRun ⟨0, []⟩ [.read 1, .read 1, .write 0, .write 0]).map (·.n) = some 1 ∧
    (labRun ⟨0, []⟩ [.read 1, .read 1, .write 0, .write 0, .read (-1), .write 0, .read (-1), .write 0]).map (·.n) = some (-1) := by decide +kernel

theorem lab_alone (ds : List Int) (n : Int) : labRun ⟨n, []⟩ (ds.flatMap fun d => [.read d, .write 0]) = some ⟨n + ds.sum, []⟩ := by
  induction ds generalizing n with
  | nil => simp [labRun]
  | cons d ds ih =>
    simp only [List.flatMap_cons, List.cons_append, List.nil_append, labRun, labStep, Option.bind_some, List.getElem?_cons_zero, Option.map_some, List.eraseIdx_cons_zero]
    rw [ih, List.sum_cons]
    congr 2
    omega

/-- C133, partial: labels are counted exactly if no two threads use the same label at once. -/
theorem C133_label_partial (ds : List Int) : (labRun ⟨0, []⟩ (ds.flatMap fun d => [.read d, .write 0])).map (·.n) = some ds.sum := by
  rw [lab_alone]
  simp

end Verif.Memory.Threads
