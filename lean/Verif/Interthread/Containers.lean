import Verif.Monitor.Trees
import Verif.Interthread.Pair
import Verif.Interthread.Map
import Verif.Interthread.Semaphore

/-
Property C172: the calls of `InterthreadQueue` (alone, and two connected by `iqConnect`), `InterthreadMap1`/`InterthreadMap` and `Semaphore` in single steps.

Here each call on the container inside (`std::list`, `std::map`), each reading and writing of the flag, and each reading of the clock is a step of its own, and between
any two steps other threads go on and the clock changes.  That `std::list` and `std::map` themselves do what they promise is assumed; calls on an empty list, and
iterators without an element, are undefined.  Shown: other threads cannot see this; the class is exactly the one with indivisible sections, about which the
other properties speak; and no undefined call is ever made.

Simplifications: the limit of a wait counts from the call or from the acquisition of the lock, as in the models with indivisible sections; `Signal::wait` reads the
clock once more, the model uses the reading with which the remaining time was computed.  Destructors of items do not call the container.
-/

namespace Verif.Interthread.Containers
open Verif Verif.Monitor Verif.Monitor.Tree

/-- Waiting with a limit, Threads.cpp:271-277 (as in `timedWait`). -/
def limited {C R : Type} (now : Clock) (timeout : Int) (c : C) : Ending C R :=
  if timeout ≤ 0 then .again
  else if 0 ≤ (waitLimit now timeout).nsec ∧ (waitLimit now timeout).nsec < 1000000000 then .wait c else .again

theorem limited_act {σ C R : Type} (now : Clock) (timeout : Int) (c : C) (d : σ) : (limited now timeout c : Ending C R).act d = timedWait now timeout d c := by
  unfold limited timedWait
  split
  · rfl
  · dsimp only
    split <;> rfl

/-! ### The list of a queue -/

/-- Calls on the `std::list` inside of a `PtrList`, Interthread.h:47-71. -/
inductive LCall where
  | size
  | empty
  | front
  | popFront
  | pushBack (v : Val)
  | pushFront (v : Val)

/-- What they return. -/
def LCall.Ans : LCall → Type
  | .size => Nat
  | .empty => Bool
  | .front => Val
  | _ => Unit

/-- What they do; `front` and `pop_front` of an empty list are undefined. -/
def LCall.sem : (p : LCall) → List Val → p.Ans → List Val → Prop
  | .size, q, (a : Nat), q' => a = q.length ∧ q' = q
  | .empty, q, (a : Bool), q' => a = q.isEmpty ∧ q' = q
  | .front, q, (a : Val), q' => q.head? = some a ∧ q' = q
  | .popFront, q, _, q' => ∃ v, q = v :: q'
  | .pushBack v, q, _, q' => q' = q ++ [v]
  | .pushFront v, q, _, q' => q' = v :: q

def list : Prims (List Val) := ⟨LCall, LCall.Ans, LCall.sem⟩

/-- Code of a queue; its only loops are those of `clear` and `flushNoDelete`, with the items removed so far. -/
abbrev QCode := Tree list WS QRes (List Val)

def lSize (k : Nat → QCode) : QCode := .acc (A := list) LCall.size k
def lEmpty (k : Bool → QCode) : QCode := .acc (A := list) LCall.empty k
def lFront (k : Val → QCode) : QCode := .acc (A := list) LCall.front k
def lPop (k : QCode) : QCode := .acc (A := list) LCall.popFront fun _ => k
def lPush (v : Val) (k : QCode) : QCode := .acc (A := list) (LCall.pushBack v) fun _ => k
def lPushFront (v : Val) (k : QCode) : QCode := .acc (A := list) (LCall.pushFront v) fun _ => k

/-- `PtrList::get`, that is `pop_frontr`, Interthread.h:53-58,70. -/
def lGet (k : Val → QCode) : QCode := lEmpty fun b => if b then k none else lFront fun v => lPop (k v)

/-- The loops of `clear` and `flushNoDelete`, Interthread.h:192,199. -/
def qLoop (gone : List Val) : QCode := lSize fun m => if 0 < m then lGet fun v => .jump (gone ++ [v]) else .ret (.done (.removed gone) [] [])

/-- One pass through the section of each call of `InterthreadQueue`. -/
def qPass : QOp → Stamp → QCode
  /- Interthread.h:296-311 -/
  | .write v, _ => lPush v (.ret (.done .unit [] [.one ()]))
  /- Interthread.h:314-321 -/
  | .writeFront v, _ => lPushFront v (.ret (.done .unit [] [.one ()]))
  /- Interthread.h:246-255 -/
  | .read, _ => lGet fun v => .ret (if v = none then .wait () else .done (.ptr v) [] [])
  /- Interthread.h:269-283 -/
  | .readT ms, t0 => if ms = 0 then lGet fun v => .ret (.done (.ptr v) [] []) else lSize fun m => if m = 0 then
      .time fun now => (match Timeval.remaining (Timeval.future t0.call ms) now with
        | .ok r => if r < 2 then .ret (.done (.ptr none) [] []) else .ret (limited now r ())
        | _ => .undef)
      else lGet fun v => .ret (.done (.ptr v) [] [])
  /- Interthread.h:289-293 -/
  | .readNoBlock, _ => lGet fun v => .ret (.done (.ptr v) [] [])
  /- Interthread.h:258-262 -/
  | .front, _ => lSize fun m => if m ≠ 0 then lFront fun v => .ret (.done (.ptr v) [] []) else .ret (.done (.ptr none) [] [])
  /- Interthread.h:207-211 -/
  | .size, _ => lSize fun m => .ret (.done (.num m) [] [])
  /- Interthread.h:189-193 -/
  | .clear, _ => qLoop []
  /- Interthread.h:196-200 -/
  | .flush, _ => qLoop []

/-- The queue in single steps. -/
def qSections : Sections (List Val) WS QOp QRes QCode := Tree.sections qLoop qPass
def queueC : Mon (List Val × Option QCode) WS QOp QRes := qSections.fine

section
variable {now : Clock} {e : Ending WS QRes} {q q' : List Val}

theorem end_size {k : Nat → QCode} : End qLoop now (lSize k) q e q' ↔ End qLoop now (k q.length) q e q' := by
  refine end_acc.trans ?_
  constructor
  · rintro ⟨a, d1, ⟨rfl, rfl⟩, h⟩
    exact h
  · exact fun h => ⟨_, _, ⟨rfl, rfl⟩, h⟩

theorem end_empty {k : Bool → QCode} : End qLoop now (lEmpty k) q e q' ↔ End qLoop now (k q.isEmpty) q e q' := by
  refine end_acc.trans ?_
  constructor
  · rintro ⟨a, d1, ⟨rfl, rfl⟩, h⟩
    exact h
  · exact fun h => ⟨_, _, ⟨rfl, rfl⟩, h⟩

theorem end_front {k : Val → QCode} {v : Val} : End qLoop now (lFront k) (v :: q) e q' ↔ End qLoop now (k v) (v :: q) e q' := by
  refine end_acc.trans ?_
  constructor
  · rintro ⟨a, d1, ⟨h1, rfl⟩, h⟩
    cases h1
    exact h
  · exact fun h => ⟨v, _, ⟨rfl, rfl⟩, h⟩

theorem end_pop {k : QCode} {v : Val} : End qLoop now (lPop k) (v :: q) e q' ↔ End qLoop now k q e q' := by
  refine end_acc.trans ?_
  constructor
  · rintro ⟨a, d1, ⟨w, h1⟩, h⟩
    cases h1
    exact h
  · exact fun h => ⟨(), _, ⟨v, rfl⟩, h⟩

theorem end_push {k : QCode} {v : Val} : End qLoop now (lPush v k) q e q' ↔ End qLoop now k (q ++ [v]) e q' := by
  refine end_acc.trans ?_
  constructor
  · rintro ⟨a, d1, h1, h⟩
    cases (h1 : d1 = q ++ [v])
    exact h
  · exact fun h => ⟨(), _, rfl, h⟩

theorem end_pushFront {k : QCode} {v : Val} : End qLoop now (lPushFront v k) q e q' ↔ End qLoop now k (v :: q) e q' := by
  refine end_acc.trans ?_
  constructor
  · rintro ⟨a, d1, h1, h⟩
    cases (h1 : d1 = v :: q)
    exact h
  · exact fun h => ⟨(), _, rfl, h⟩

theorem end_get {k : Val → QCode} : End qLoop now (lGet k) q e q' ↔ End qLoop now (k (getQ q).1) (getQ q).2 e q' := by
  unfold lGet
  rw [end_empty]
  cases q with
  | nil => rfl
  | cons v q =>
    show End qLoop now (if false = true then _ else _) _ e q' ↔ _
    rw [if_neg (fun h => nomatch h), end_front, end_pop]
    rfl

theorem qLoop_eq (gone : List Val) : qLoop gone = lSize fun m => if 0 < m then lGet fun v => .jump (gone ++ [v]) else .ret (.done (.removed gone) [] []) := rfl

theorem end_loop : ∀ {q gone : List Val}, End qLoop now (qLoop gone) q e q' ↔ e = .done (.removed (gone ++ q)) [] [] ∧ q' = []
  | [], gone => by
    rw [qLoop_eq gone, end_size, if_neg (by simp), end_ret, List.append_nil]
  | v :: q, gone => by
    rw [qLoop_eq gone, end_size, if_pos (by simp), end_get, end_jump]
    have := @end_loop q (gone ++ [v])
    rw [List.append_assoc] at this
    exact this

end

private theorem ending_ret {σ C R : Type} {A : Prims σ} {J : Type} {code : J → Tree A C R J} {now : Clock} {e : Ending C R} {d : σ} {a : Act σ C R} :
    (∃ e' d', End code now (.ret e) d e' d' ∧ a = e'.act d') ↔ a = e.act d :=
  ⟨fun ⟨_, _, h, h'⟩ => by cases h; exact h', fun h => ⟨_, _, .ret, h⟩⟩

private theorem some_eq {α : Type} {a b : α} : a = b ↔ some b = some a := ⟨fun h => h ▸ rfl, fun h => (Option.some.inj h).symm⟩

/-- What a pass does, in one go. -/
theorem qPass_body (op : QOp) (t0 : Stamp) (now : Clock) (q : List Val) (a : Act (List Val) WS QRes) :
    (∃ e q', End qLoop now (qPass op t0) q e q' ∧ a = e.act q') ↔ qbody op t0 now q = some a := by
  cases op with
  | write v => simp only [qPass, end_push, ending_ret, qbody]; exact some_eq
  | writeFront v => simp only [qPass, end_pushFront, ending_ret, qbody]; exact some_eq
  | read =>
    simp only [qPass, end_get, ending_ret, qbody]
    split <;> exact some_eq
  | readT ms =>
    simp only [qPass, qbody, readTimed]
    split
    · simp only [end_get, ending_ret]; exact some_eq
    · simp only [end_size]
      split
      · simp only [end_time]
        cases hr : Timeval.remaining (Timeval.future t0.call ms) now with
        | ok r =>
          dsimp only
          split
          · simp only [ending_ret]; exact some_eq
          · simp only [ending_ret, limited_act]; exact some_eq
        | assertFail => simp [end_undef]
        | ub => simp [end_undef]
        | diverge => simp [end_undef]
      · simp only [end_get, ending_ret]; exact some_eq
  | readNoBlock => simp only [qPass, end_get, ending_ret, qbody]; exact some_eq
  | front =>
    simp only [qPass, end_size, qbody]
    cases q with
    | nil =>
      rw [if_neg (by simp)]
      simp only [ending_ret]; exact some_eq
    | cons v q =>
      rw [if_pos (by simp)]
      simp only [end_front, ending_ret]; exact some_eq
  | size => simp only [qPass, end_size, ending_ret, qbody]; exact some_eq
  | clear =>
    simp only [qPass, end_loop, qbody, List.nil_append]
    exact ⟨fun ⟨_, _, ⟨rfl, rfl⟩, h⟩ => some_eq.mp h, fun h => ⟨_, _, ⟨rfl, rfl⟩, some_eq.mpr h⟩⟩
  | flush =>
    simp only [qPass, end_loop, qbody, List.nil_append]
    exact ⟨fun ⟨_, _, ⟨rfl, rfl⟩, h⟩ => some_eq.mp h, fun h => ⟨_, _, ⟨rfl, rfl⟩, some_eq.mpr h⟩⟩

theorem queue_whole : qSections.whole = queue := whole_eq qPass_body

theorem late_lGet {k : Val → QCode} (h : ∀ v, Late (k v)) : Late (lGet k) := by
  intro b
  dsimp only
  split
  · exact h _
  · exact fun v _ => h v

theorem late_qLoop (gone : List Val) : Late (qLoop gone) := by
  intro m
  dsimp only
  split
  · exact late_lGet fun _ => trivial
  · trivial

theorem early_qPass (op : QOp) (t0 : Stamp) : Early (qPass op t0) := by
  cases op with
  | write v => exact fun _ => trivial
  | writeFront v => exact fun _ => trivial
  | read => exact early_of_late (late_lGet fun _ => trivial)
  | readT ms =>
    simp only [qPass]
    split
    · exact early_of_late (late_lGet fun _ => trivial)
    · intro m
      dsimp only
      split
      · intro c
        dsimp only
        split
        · split <;> trivial
        · trivial
      · exact early_of_late (late_lGet fun _ => trivial)
  | readNoBlock => exact early_of_late (late_lGet fun _ => trivial)
  | front =>
    intro m
    dsimp only
    split
    · exact fun _ => trivial
    · trivial
  | size => exact fun _ => trivial
  | clear => exact early_of_late (late_qLoop _)
  | flush => exact early_of_late (late_qLoop _)

/-- The remaining time of a call overflows at some reading of the clock. -/
def QOverflow : QOp → Stamp → Prop
  | .readT ms, t0 => ∃ c, ∀ r, Timeval.remaining (Timeval.future t0.call ms) c ≠ .ok r
  | _, _ => False

section
variable {bad : Prop} {q : List Val}

theorem safe_size {k : Nat → QCode} (h : Safe qLoop bad (k q.length) q) : Safe qLoop bad (lSize k) q :=
  .acc ⟨_, _, rfl, rfl⟩ (by rintro a d' ⟨rfl, rfl⟩; exact h)

theorem safe_front {k : Val → QCode} {v : Val} (h : Safe qLoop bad (k v) (v :: q)) : Safe qLoop bad (lFront k) (v :: q) :=
  .acc ⟨v, _, rfl, rfl⟩ (by rintro a d' ⟨h1, rfl⟩; cases h1; exact h)

theorem safe_get {k : Val → QCode} (h : Safe qLoop bad (k (getQ q).1) (getQ q).2) : Safe qLoop bad (lGet k) q := by
  refine .acc ⟨_, _, rfl, rfl⟩ ?_
  rintro a d' ⟨rfl, rfl⟩
  cases d' with
  | nil => exact h
  | cons v q =>
    show Safe _ _ (if false = true then _ else _) _
    rw [if_neg (fun h => nomatch h)]
    refine safe_front (.acc ⟨(), _, _, rfl⟩ ?_)
    rintro _ d' ⟨w, h1⟩
    cases h1
    exact h

theorem safe_loop : ∀ {q gone : List Val}, Safe qLoop bad (qLoop gone) q
  | [], gone => by
    rw [qLoop_eq gone]
    refine safe_size ?_
    rw [if_neg (by simp)]
    exact .ret
  | v :: q, gone => by
    rw [qLoop_eq gone]
    refine safe_size ?_
    rw [if_pos (by simp)]
    exact safe_get (.jump safe_loop)

end

theorem safe_qPass (op : QOp) (t0 : Stamp) (q : List Val) : Safe qLoop (QOverflow op t0) (qPass op t0) q := by
  cases op with
  | write v => exact .acc ⟨(), _, rfl⟩ fun _ _ _ => .ret
  | writeFront v => exact .acc ⟨(), _, rfl⟩ fun _ _ _ => .ret
  | read => exact safe_get .ret
  | readT ms =>
    simp only [qPass]
    split
    · exact safe_get .ret
    · refine safe_size ?_
      split
      · refine .time fun c => ?_
        split
        · split <;> exact .ret
        · next h => exact .undef ⟨c, fun r hr => h r hr⟩
      · exact safe_get .ret
  | readNoBlock => exact safe_get .ret
  | front =>
    refine safe_size ?_
    cases q with
    | nil =>
      rw [if_neg (by simp)]
      exact .ret
    | cons v q =>
      rw [if_pos (by simp)]
      exact safe_front .ret
  | size => exact safe_size .ret
  | clear => exact safe_loop
  | flush => exact safe_loop

/-- **C172** `InterthreadQueue`: however threads are interrupted between the calls on the list inside, callers see an execution in which all sections are
indivisible. -/
theorem C172_queue {n : Nat} {ok : Fin n → QOp → Prop} {now : Clock} {q : List Val} {s : St n (List Val × Option QCode) WS QOp QRes}
    (h : Reach queueC ok (init n now (q, none)) s) :
    ∃ s' : St n (List Val) WS QOp QRes, Reach queue ok (init n now q) s' ∧ s'.now = s.now ∧ s'.owner = s.owner ∧ s'.th = s.th ∧ visible s'.tr = visible s.tr ∧
      (s.data.2 = none → s'.data = s.data.1) := by
  obtain ⟨s', h', m⟩ := C171_indivisible qSections (once late_qLoop early_qPass) h
  rw [queue_whole] at h'
  exact ⟨s', h', m.now, m.owner, m.th, m.tr, m.rest⟩

/-- **C172** The converse. -/
theorem C172_queue_exact {n : Nat} {ok : Fin n → QOp → Prop} {now : Clock} {q : List Val} {s' : St n (List Val) WS QOp QRes} (h : Reach queue ok (init n now q) s') :
    ∃ s, Reach queueC ok (init n now (q, none)) s ∧ s.data = (s'.data, none) ∧ s.now = s'.now ∧ s.owner = s'.owner ∧ s.th = s'.th ∧ visible s.tr = visible s'.tr := by
  rw [← queue_whole] at h
  obtain ⟨s, hr, e, m⟩ := C171_exact qSections h
  exact ⟨s, hr, e, m.now.symm, m.owner.symm, m.th.symm, m.tr.symm⟩

/-- **C172** The list is never called in vain: a thread in the middle of a section calls neither `front` nor `pop_front` of an empty list, then or later in that
section, and comes to the end of it, unless `Timeval::remaining` overflows. -/
theorem C172_queue_safe {n : Nat} {ok : Fin n → QOp → Prop} {now : Clock} {q : List Val} {s : St n (List Val × Option QCode) WS QOp QRes}
    (h : Reach queueC ok (init n now (q, none)) s) {k : QCode} (hk : s.data.2 = some k) :
    ∃ t op t0, s.owner = some t ∧ s.th t = .holding op t0 ∧ Safe qLoop (QOverflow op t0) k s.data.1 :=
  C172_safe late_qLoop early_qPass safe_qPass h hk

/-! ### Two connected queues -/

/-- A call on the list of one of the two queues. -/
def lists : Prims Both where
  P := Bool × LCall
  Ans p := p.2.Ans
  sem p d a d' := ∃ q', p.2.sem (d.get p.1) a q' ∧ d' = d.set p.1 q'

abbrev PCode := Tree lists WS QRes (Bool × List Val)

/-- The code of a call on one of the two queues. -/
def on (i : Bool) : QCode → PCode
  | .ret e => .ret e
  | .acc p f => .acc (A := lists) (i, p) fun a => on i (f a)
  | .time f => .time fun c => on i (f c)
  | .jump j => .jump (i, j)
  | .undef => .undef

def pLoop (j : Bool × List Val) : PCode := on j.1 (qLoop j.2)

def pSize (i : Bool) (k : Nat → PCode) : PCode := .acc (A := lists) (i, LCall.size) k

/-- One pass through the section of each call (Interthread.h:113-321). -/
def pPass : POp → Stamp → PCode
  | .on i op, t0 => on i (qPass op t0)
  /- Interthread.h:219-232 -/
  | .waitEither ms, t0 => pSize false fun m => if m = 0 then pSize true fun m' => if m' = 0 then
        if ms ≠ 0 then .time fun now => (match Timeval.remaining (Timeval.future t0.locked ms) now with
          | .ok r => .ret (limited now r ())
          | _ => .undef)
        else .ret (.wait ())
      else .ret (.done .unit [] [])
    else .ret (.done .unit [] [])

/-- The connected pair in single steps. -/
def pSections : Sections Both WS POp QRes PCode := Tree.sections pLoop pPass
def pairC : Mon (Both × Option PCode) WS POp QRes := pSections.fine

@[simp] theorem get_set (d : Both) (i : Bool) (q : List Val) : (d.set i q).get i = q := by cases i <;> rfl
@[simp] theorem set_set (d : Both) (i : Bool) (q q' : List Val) : (d.set i q).set i q' = d.set i q' := by cases i <;> rfl
@[simp] theorem set_get (d : Both) (i : Bool) : d.set i (d.get i) = d := by cases i <;> rfl

theorem end_on {now : Clock} {i : Bool} {e : Ending WS QRes} {k : QCode} {d d' : Both} :
    End pLoop now (on i k) d e d' ↔ ∃ q', End qLoop now k (d.get i) e q' ∧ d' = d.set i q' := by
  constructor
  · intro h
    generalize hk : on i k = k' at h
    induction h generalizing k with
    | ret =>
      cases k <;> cases hk
      exact ⟨_, .ret, (set_get _ _).symm⟩
    | acc h1 h2 ih =>
      cases k <;> cases hk
      obtain ⟨q1, h3, rfl⟩ := h1
      obtain ⟨q', h4, rfl⟩ := ih rfl
      rw [get_set] at h4
      exact ⟨q', .acc h3 h4, set_set _ _ _ _⟩
    | time _ ih =>
      cases k <;> cases hk
      obtain ⟨q', h4, rfl⟩ := ih rfl
      exact ⟨q', .time h4, rfl⟩
    | jump _ ih =>
      cases k <;> cases hk
      obtain ⟨q', h4, rfl⟩ := ih rfl
      exact ⟨q', .jump h4, rfl⟩
  · rintro ⟨q', h, rfl⟩
    generalize hq : d.get i = q at h
    induction h generalizing d with
    | ret => rw [← hq, set_get]; exact .ret
    | acc h1 h2 ih =>
      subst hq
      refine .acc (A := lists) ⟨_, h1, rfl⟩ ?_
      have := ih (d := d.set i _) (get_set _ _ _)
      rw [set_set] at this
      exact this
    | time _ ih => exact .time (ih hq)
    | jump _ ih => exact .jump (ih hq)

theorem end_pSize {now : Clock} {i : Bool} {e : Ending WS QRes} {k : Nat → PCode} {d d' : Both} :
    End pLoop now (pSize i k) d e d' ↔ End pLoop now (k (d.get i).length) d e d' := by
  refine end_acc.trans ?_
  constructor
  · rintro ⟨a, d1, ⟨q', ⟨rfl, rfl⟩, rfl⟩, h⟩
    rw [set_get] at h
    exact h
  · exact fun h => ⟨_, _, ⟨_, ⟨rfl, rfl⟩, (set_get _ _).symm⟩, h⟩

theorem pPass_body (op : POp) (t0 : Stamp) (now : Clock) (d : Both) (a : Act Both WS QRes) :
    (∃ e d', End pLoop now (pPass op t0) d e d' ∧ a = e.act d') ↔ pbody op t0 now d = some a := by
  cases op with
  | on i op =>
    have hq := qPass_body op t0 now (d.get i)
    simp only [pPass, end_on, pbody]
    constructor
    · rintro ⟨e, _, ⟨q', he, rfl⟩, rfl⟩
      rw [(hq _).mp ⟨e, q', he, rfl⟩]
      cases e <;> rfl
    · cases hb : qbody op t0 now (d.get i) with
      | none => exact fun h => nomatch h
      | some x =>
        obtain ⟨e, q', he, rfl⟩ := (hq x).mpr hb
        intro h
        refine ⟨e, _, ⟨q', he, rfl⟩, ?_⟩
        cases e <;> exact some_eq.mpr h
  | waitEither ms =>
    simp only [pPass, pbody, eitherBody, end_pSize]
    by_cases h1 : d.1.length = 0
    · rw [if_pos (show (d.get false).length = 0 from h1)]
      simp only [end_pSize]
      by_cases h2 : d.2.length = 0
      · rw [if_pos (show (d.get true).length = 0 from h2), if_pos (show d.1.length = 0 ∧ d.2.length = 0 from ⟨h1, h2⟩)]
        split
        · simp only [end_time]
          cases hr : Timeval.remaining (Timeval.future t0.locked ms) now with
          | ok r => simp only [ending_ret, limited_act]; exact some_eq
          | assertFail => simp [end_undef]
          | ub => simp [end_undef]
          | diverge => simp [end_undef]
        · simp only [ending_ret]; exact some_eq
      · rw [if_neg (show ¬ (d.get true).length = 0 from h2), if_neg fun h => h2 h.2]
        simp only [ending_ret]; exact some_eq
    · rw [if_neg (show ¬ (d.get false).length = 0 from h1), if_neg fun h => h1 h.1]
      simp only [ending_ret]; exact some_eq

theorem pair_whole : pSections.whole = pair := whole_eq pPass_body

theorem late_on {i : Bool} : ∀ {k : QCode}, Late k → Late (on i k)
  | .ret _, _ => trivial
  | .acc _ _, h => fun a => late_on (h a)
  | .time _, h => h.elim
  | .jump _, _ => trivial
  | .undef, _ => trivial

theorem early_on {i : Bool} : ∀ {k : QCode}, Early k → Early (on i k)
  | .ret _, _ => trivial
  | .acc _ _, h => fun a => early_on (h a)
  | .time _, h => fun c => late_on (h c)
  | .jump _, _ => trivial
  | .undef, _ => trivial

theorem late_pLoop (j : Bool × List Val) : Late (pLoop j) := late_on (late_qLoop _)

theorem early_pPass (op : POp) (t0 : Stamp) : Early (pPass op t0) := by
  cases op with
  | on i op => exact early_on (early_qPass op t0)
  | waitEither ms =>
    intro m
    dsimp only
    split
    · intro m'
      dsimp only
      split
      · split
        · intro c
          dsimp only
          split <;> trivial
        · trivial
      · trivial
    · trivial

/-- The remaining time of a call overflows at some reading of the clock. -/
def POverflow : POp → Stamp → Prop
  | .on _ op, t0 => QOverflow op t0
  | .waitEither ms, t0 => ∃ c, ∀ r, Timeval.remaining (Timeval.future t0.locked ms) c ≠ .ok r

theorem safe_on {bad : Prop} {i : Bool} {k : QCode} {q : List Val} (h : Safe qLoop bad k q) : ∀ {d : Both}, d.get i = q → Safe pLoop bad (on i k) d := by
  induction h with
  | ret => exact fun _ => .ret
  | acc h1 _ ih =>
    intro d hd
    subst hd
    obtain ⟨a, q', h1⟩ := h1
    refine .acc (A := lists) ⟨a, _, q', h1, rfl⟩ ?_
    rintro a _ ⟨q', h2, rfl⟩
    exact ih a q' h2 (get_set _ _ _)
  | time _ ih => exact fun hd => .time fun c => ih c hd
  | jump _ ih => exact fun hd => .jump (ih hd)
  | undef h => exact fun _ => .undef h

theorem safe_pSize {bad : Prop} {i : Bool} {k : Nat → PCode} {d : Both} (h : ∀ m, Safe pLoop bad (k m) d) : Safe pLoop bad (pSize i k) d := by
  refine .acc (A := lists) ⟨_, _, _, ⟨rfl, rfl⟩, rfl⟩ ?_
  rintro a _ ⟨q', ⟨rfl, rfl⟩, rfl⟩
  rw [set_get]
  exact h _

theorem safe_pPass (op : POp) (t0 : Stamp) (d : Both) : Safe pLoop (POverflow op t0) (pPass op t0) d := by
  cases op with
  | on i op => exact safe_on (safe_qPass op t0 _) rfl
  | waitEither ms =>
    refine safe_pSize fun m => ?_
    split
    · refine safe_pSize fun m' => ?_
      split
      · split
        · refine .time fun c => ?_
          split
          · exact .ret
          · next h => exact .undef ⟨c, fun r hr => h r hr⟩
        · exact .ret
      · exact .ret
    · exact .ret

/-- **C172** Two connected queues. -/
theorem C172_pair {n : Nat} {ok : Fin n → POp → Prop} {now : Clock} {d : Both} {s : St n (Both × Option PCode) WS POp QRes} (h : Reach pairC ok (init n now (d, none)) s) :
    ∃ s' : St n Both WS POp QRes, Reach pair ok (init n now d) s' ∧ s'.now = s.now ∧ s'.owner = s.owner ∧ s'.th = s.th ∧ visible s'.tr = visible s.tr ∧
      (s.data.2 = none → s'.data = s.data.1) := by
  obtain ⟨s', h', m⟩ := C171_indivisible pSections (once late_pLoop early_pPass) h
  rw [pair_whole] at h'
  exact ⟨s', h', m.now, m.owner, m.th, m.tr, m.rest⟩

/-- **C172** The converse. -/
theorem C172_pair_exact {n : Nat} {ok : Fin n → POp → Prop} {now : Clock} {d : Both} {s' : St n Both WS POp QRes} (h : Reach pair ok (init n now d) s') :
    ∃ s, Reach pairC ok (init n now (d, none)) s ∧ s.data = (s'.data, none) ∧ s.now = s'.now ∧ s.owner = s'.owner ∧ s.th = s'.th ∧ visible s.tr = visible s'.tr := by
  rw [← pair_whole] at h
  obtain ⟨s, hr, e, m⟩ := C171_exact pSections h
  exact ⟨s, hr, e, m.now.symm, m.owner.symm, m.th.symm, m.tr.symm⟩

/-- **C172** No undefined call on either list. -/
theorem C172_pair_safe {n : Nat} {ok : Fin n → POp → Prop} {now : Clock} {d : Both} {s : St n (Both × Option PCode) WS POp QRes}
    (h : Reach pairC ok (init n now (d, none)) s) {k : PCode} (hk : s.data.2 = some k) :
    ∃ t op t0, s.owner = some t ∧ s.th t = .holding op t0 ∧ Safe pLoop (POverflow op t0) k s.data.1 :=
  C172_safe late_pLoop early_pPass safe_pPass h hk

/-! ### Maps -/

/-- Calls on the `std::map` inside of an `InterthreadMap1`, Interthread.h:440-615; an iterator is given by the key of its element. -/
inductive MCall where
  /-- `find(key)`: whether it returns an element -/
  | find (k : Nat)
  /-- `iter->second` -/
  | get (k : Nat)
  /-- `iter->second = v` -/
  | set (k : Nat) (v : Val)
  /-- `mMap[key]`: a new element has a value of its own, which is overwritten at once -/
  | index (k : Nat)
  /-- `erase(iter)` -/
  | erase (k : Nat)

def MCall.Ans : MCall → Type
  | .find _ => Bool
  | .get _ => Val
  | _ => Unit

/-- What they do; `iter->second` and `erase(iter)` without an element are undefined. -/
def MCall.sem : (p : MCall) → KV → p.Ans → KV → Prop
  | .find k, m, (a : Bool), m' => a = (Interthread.find m k).isSome ∧ m' = m
  | .get k, m, (a : Val), m' => Interthread.find m k = some a ∧ m' = m
  | .set k v, m, _, m' => (Interthread.find m k).isSome ∧ m' = store m k v
  | .index k, m, _, m' => (Interthread.find m k).isSome ∧ m' = m ∨ Interthread.find m k = none ∧ ∃ v, m' = store m k v
  | .erase k, m, _, m' => (Interthread.find m k).isSome ∧ m' = Interthread.erase m k

def map : Prims KV := ⟨MCall, MCall.Ans, MCall.sem⟩

/-- Code of a map; there are no loops but those of waiting. -/
abbrev MCode := Tree map WS MRes Empty

def mFind (k : Nat) (c : Bool → MCode) : MCode := .acc (A := map) (MCall.find k) c
def mGet (k : Nat) (c : Val → MCode) : MCode := .acc (A := map) (MCall.get k) c
def mSet (k : Nat) (v : Val) (c : MCode) : MCode := .acc (A := map) (MCall.set k v) fun _ => c
def mIndex (k : Nat) (c : MCode) : MCode := .acc (A := map) (MCall.index k) fun _ => c
def mErase (k : Nat) (c : MCode) : MCode := .acc (A := map) (MCall.erase k) fun _ => c

/-- `result = iter->second; if (bRemove) mMap.erase(iter);`, Interthread.h:493-495, 512-514, 536-538. -/
def mTake (k : Nat) (rm : Bool) (r : Val → MRes) : MCode := mGet k fun v => if rm then mErase k (.ret (.done (r v) [] [])) else .ret (.done (r v) [] [])

/-- One pass through the section of each call (Interthread.h:440-605). -/
def mPass : MOp → Stamp → MCode
  /- Interthread.h:470-481 -/
  | .write k v, _ => mFind k fun b => if b then mGet k fun old => mSet k v (.ret (.done (.wrote (some old)) [.all ()] []))
    else mIndex k (mSet k v (.ret (.done (.wrote none) [.all ()] [])))
  /- Interthread.h:488-496 -/
  | .getNoBlock k rm, _ => mFind k fun b => if ¬ b then .ret (.done .notFound [] []) else mTake k rm .found
  /- Interthread.h:504-520 -/
  | .getT k ms rm, t0 => if ms = 0 then mFind k fun b => if ¬ b then .ret (.done .notFound [] []) else mTake k rm .found
    else mFind k fun b => if b then mTake k rm .found else
      .time fun now => (match Timeval.remaining (Timeval.future t0.locked ms) now with
        | .ok r => if r < 2 then .ret (.done .notFound [] []) else .ret (limited now r ())
        | _ => .undef)
  /- Interthread.h:528-539 -/
  | .get k rm, _ => mFind k fun b => if ¬ b then .ret (.wait ()) else mTake k rm .found
  /- Interthread.h:548-557 -/
  | .remove k, _ => mFind k fun b => if ¬ b then .ret (.done .notFound [] []) else mTake k true .deleted

def mLoop : Empty → MCode := fun j => nomatch j

/-- The map in single steps. -/
def mSections : Sections KV WS MOp MRes MCode := Tree.sections mLoop mPass
def imapC : Mon (KV × Option MCode) WS MOp MRes := mSections.fine

section
variable {now : Clock} {e : Ending WS MRes} {m m' : KV} {k : Nat}

theorem end_mFind {c : Bool → MCode} : End mLoop now (mFind k c) m e m' ↔ End mLoop now (c (find m k).isSome) m e m' := by
  refine end_acc.trans ?_
  constructor
  · rintro ⟨a, d1, ⟨rfl, rfl⟩, h⟩
    exact h
  · exact fun h => ⟨_, _, ⟨rfl, rfl⟩, h⟩

theorem end_mGet {c : Val → MCode} {v : Val} (hv : find m k = some v) : End mLoop now (mGet k c) m e m' ↔ End mLoop now (c v) m e m' := by
  refine end_acc.trans ?_
  constructor
  · rintro ⟨a, d1, ⟨h1, rfl⟩, h⟩
    rw [hv] at h1
    cases h1
    exact h
  · exact fun h => ⟨v, _, ⟨hv, rfl⟩, h⟩

theorem end_mSet {c : MCode} {v : Val} (hv : (find m k).isSome) : End mLoop now (mSet k v c) m e m' ↔ End mLoop now c (store m k v) e m' := by
  refine end_acc.trans ?_
  constructor
  · rintro ⟨a, d1, ⟨_, rfl⟩, h⟩
    exact h
  · exact fun h => ⟨(), _, ⟨hv, rfl⟩, h⟩

theorem end_mErase {c : MCode} (hv : (find m k).isSome) : End mLoop now (mErase k c) m e m' ↔ End mLoop now c (erase m k) e m' := by
  refine end_acc.trans ?_
  constructor
  · rintro ⟨a, d1, ⟨_, rfl⟩, h⟩
    exact h
  · exact fun h => ⟨(), _, ⟨hv, rfl⟩, h⟩

theorem find_store (m : KV) (k : Nat) (v : Val) : find (store m k v) k = some v := by simp [find, store]

theorem store_store (m : KV) (k : Nat) (v w : Val) : store (store m k v) k w = store m k w := by
  simp [store, erase, List.filter_filter]

theorem end_mIndexSet {c : MCode} {v : Val} (hv : find m k = none) : End mLoop now (mIndex k (mSet k v c)) m e m' ↔ End mLoop now c (store m k v) e m' := by
  refine end_acc.trans ?_
  constructor
  · rintro ⟨a, d1, ⟨h1, rfl⟩ | ⟨_, w, rfl⟩, h⟩
    · rw [hv] at h1; cases h1
    · rw [end_mSet (by rw [find_store]; rfl), store_store] at h
      exact h
  · intro h
    refine ⟨(), store m k none, .inr ⟨hv, none, rfl⟩, ?_⟩
    rw [end_mSet (by rw [find_store]; rfl), store_store]
    exact h

theorem end_mTake {rm : Bool} {r : Val → MRes} {v : Val} (hv : find m k = some v) :
    End mLoop now (mTake k rm r) m e m' ↔ e = .done (r v) [] [] ∧ m' = takeM m k rm := by
  unfold mTake
  rw [end_mGet hv]
  cases rm with
  | false => exact end_ret
  | true =>
    show End _ now (mErase k _) m e m' ↔ _
    rw [end_mErase (by rw [hv]; rfl)]
    exact end_ret

end

private theorem ending_eq {σ C R : Type} {e : Ending C R} {d : σ} {a : Act σ C R} : (∃ e' d', (e' = e ∧ d' = d) ∧ a = e'.act d') ↔ a = e.act d :=
  ⟨fun ⟨_, _, ⟨h1, h2⟩, h'⟩ => by subst h1 h2; exact h', fun h => ⟨_, _, ⟨rfl, rfl⟩, h⟩⟩

theorem mPass_body (op : MOp) (t0 : Stamp) (now : Clock) (m : KV) (a : Act KV WS MRes) :
    (∃ e m', End mLoop now (mPass op t0) m e m' ∧ a = e.act m') ↔ mbody op t0 now m = some a := by
  cases op with
  | write k v =>
    simp only [mPass, end_mFind, mbody]
    cases hv : find m k with
    | none =>
      simp only [Option.isSome_none, Bool.false_eq_true, if_false, end_mIndexSet hv, ending_ret]
      exact some_eq
    | some w =>
      simp only [Option.isSome_some, if_true, end_mGet hv, end_mSet (show (find m k).isSome by rw [hv]; rfl), ending_ret]
      exact some_eq
  | getNoBlock k rm =>
    simp only [mPass, end_mFind, mbody]
    cases hv : find m k with
    | none => simp only [Option.isSome_none, Bool.false_eq_true, not_false_eq_true, if_true, ending_ret]; exact some_eq
    | some w => simp only [Option.isSome_some, not_true_eq_false, if_false, end_mTake hv, ending_eq]; exact some_eq
  | getT k ms rm =>
    simp only [mPass, mbody]
    split
    · simp only [end_mFind]
      cases hv : find m k with
      | none => simp only [Option.isSome_none, Bool.false_eq_true, not_false_eq_true, if_true, ending_ret]; exact some_eq
      | some w => simp only [Option.isSome_some, not_true_eq_false, if_false, end_mTake hv, ending_eq]; exact some_eq
    · simp only [end_mFind]
      cases hv : find m k with
      | some w => simp only [Option.isSome_some, if_true, end_mTake hv, ending_eq]; exact some_eq
      | none =>
        simp only [Option.isSome_none, Bool.false_eq_true, if_false, end_time]
        cases hr : Timeval.remaining (Timeval.future t0.locked ms) now with
        | ok r =>
          dsimp only
          split
          · simp only [ending_ret]; exact some_eq
          · simp only [ending_ret, limited_act]; exact some_eq
        | assertFail => simp [end_undef]
        | ub => simp [end_undef]
        | diverge => simp [end_undef]
  | get k rm =>
    simp only [mPass, end_mFind, mbody]
    cases hv : find m k with
    | none => simp only [Option.isSome_none, Bool.false_eq_true, not_false_eq_true, if_true, ending_ret]; exact some_eq
    | some w => simp only [Option.isSome_some, not_true_eq_false, if_false, end_mTake hv, ending_eq]; exact some_eq
  | remove k =>
    simp only [mPass, end_mFind, mbody]
    cases hv : find m k with
    | none => simp only [Option.isSome_none, Bool.false_eq_true, not_false_eq_true, if_true, ending_ret]; exact some_eq
    | some w => simp only [Option.isSome_some, not_true_eq_false, if_false, end_mTake hv, ending_eq]; exact some_eq

theorem imap_whole : mSections.whole = imap := whole_eq mPass_body

theorem late_mTake (k : Nat) (rm : Bool) (r : Val → MRes) : Late (mTake k rm r) := by
  intro v
  dsimp only
  split
  · exact fun _ => trivial
  · trivial

theorem early_mPass (op : MOp) (t0 : Stamp) : Early (mPass op t0) := by
  have take : ∀ (b : Bool) k rm r (e : Ending WS MRes), Early (if ¬ b then (.ret e : MCode) else mTake k rm r) := by
    intro b k rm r e
    split
    · trivial
    · exact early_of_late (late_mTake k rm r)
  cases op with
  | write k v =>
    intro b
    dsimp only
    split
    · exact fun _ _ => trivial
    · exact fun _ _ => trivial
  | getNoBlock k rm => exact fun b => take b k rm _ _
  | getT k ms rm =>
    simp only [mPass]
    split
    · exact fun b => take b k rm _ _
    · intro b
      dsimp only
      split
      · exact early_of_late (late_mTake k rm _)
      · intro c
        dsimp only
        split
        · split <;> trivial
        · trivial
  | get k rm => exact fun b => take b k rm _ _
  | remove k => exact fun b => take b k true _ _

/-- The remaining time of a call overflows at some reading of the clock. -/
def MOverflow : MOp → Stamp → Prop
  | .getT _ ms _, t0 => ∃ c, ∀ r, Timeval.remaining (Timeval.future t0.locked ms) c ≠ .ok r
  | _, _ => False

theorem safe_mTake {bad : Prop} {m : KV} {k : Nat} (rm : Bool) (r : Val → MRes) (hv : (find m k).isSome) : Safe mLoop bad (mTake k rm r) m := by
  obtain ⟨v, hv'⟩ := Option.isSome_iff_exists.mp hv
  refine .acc (A := map) ⟨v, _, hv', rfl⟩ ?_
  rintro a m' ⟨_, rfl⟩
  split
  · exact .acc (A := map) ⟨(), _, hv, rfl⟩ fun _ _ _ => .ret
  · exact .ret

theorem safe_mPass (op : MOp) (t0 : Stamp) (m : KV) : Safe mLoop (MOverflow op t0) (mPass op t0) m := by
  have take : ∀ (bad : Prop) k rm r (e : Ending WS MRes), Safe mLoop bad (mFind k fun b => if ¬ b then (.ret e : MCode) else mTake k rm r) m := by
    intro bad k rm r e
    refine .acc (A := map) ⟨_, _, rfl, rfl⟩ ?_
    rintro a m' ⟨rfl, rfl⟩
    split
    · exact .ret
    · next h => exact safe_mTake rm r (Option.isSome_iff_ne_none.mpr (by simpa using h))
  cases op with
  | write k v =>
    refine .acc (A := map) ⟨_, _, rfl, rfl⟩ ?_
    rintro a m' ⟨rfl, rfl⟩
    split
    · next h =>
      obtain ⟨v', hv'⟩ := Option.isSome_iff_exists.mp h
      refine .acc (A := map) ⟨v', _, hv', rfl⟩ ?_
      rintro a m1 ⟨_, rfl⟩
      exact .acc (A := map) ⟨(), _, h, rfl⟩ fun _ _ _ => .ret
    · next h =>
      have hn : find m' k = none := by simpa using h
      refine .acc (A := map) ⟨(), _, .inr ⟨hn, none, rfl⟩⟩ ?_
      rintro a m1 (⟨h1, rfl⟩ | ⟨_, w, rfl⟩)
      · rw [hn] at h1; cases h1
      · exact .acc (A := map) ⟨(), _, by rw [find_store]; rfl, rfl⟩ fun _ _ _ => .ret
  | getNoBlock k rm => exact take _ k rm _ _
  | getT k ms rm =>
    simp only [mPass]
    split
    · exact take _ k rm _ _
    · refine .acc (A := map) ⟨_, _, rfl, rfl⟩ ?_
      rintro a m' ⟨rfl, rfl⟩
      split
      · next h => exact safe_mTake rm _ h
      · refine .time fun c => ?_
        split
        · split <;> exact .ret
        · next h => exact .undef ⟨c, fun r hr => h r hr⟩
  | get k rm => exact take _ k rm _ _
  | remove k => exact take _ k true _ _

/-- **C172** `InterthreadMap1` and `InterthreadMap`. -/
theorem C172_map {n : Nat} {ok : Fin n → MOp → Prop} {now : Clock} {m : KV} {s : St n (KV × Option MCode) WS MOp MRes} (h : Reach imapC ok (init n now (m, none)) s) :
    ∃ s' : St n KV WS MOp MRes, Reach imap ok (init n now m) s' ∧ s'.now = s.now ∧ s'.owner = s.owner ∧ s'.th = s.th ∧ visible s'.tr = visible s.tr ∧
      (s.data.2 = none → s'.data = s.data.1) := by
  obtain ⟨s', h', x⟩ := C171_indivisible mSections (once (fun j => nomatch j) early_mPass) h
  rw [imap_whole] at h'
  exact ⟨s', h', x.now, x.owner, x.th, x.tr, x.rest⟩

/-- **C172** The converse. -/
theorem C172_map_exact {n : Nat} {ok : Fin n → MOp → Prop} {now : Clock} {m : KV} {s' : St n KV WS MOp MRes} (h : Reach imap ok (init n now m) s') :
    ∃ s, Reach imapC ok (init n now (m, none)) s ∧ s.data = (s'.data, none) ∧ s.now = s'.now ∧ s.owner = s'.owner ∧ s.th = s'.th ∧ visible s.tr = visible s'.tr := by
  rw [← imap_whole] at h
  obtain ⟨s, hr, e, x⟩ := C171_exact mSections h
  exact ⟨s, hr, e, x.now.symm, x.owner.symm, x.th.symm, x.tr.symm⟩

/-- **C172** No iterator without an element is used. -/
theorem C172_map_safe {n : Nat} {ok : Fin n → MOp → Prop} {now : Clock} {m : KV} {s : St n (KV × Option MCode) WS MOp MRes}
    (h : Reach imapC ok (init n now (m, none)) s) {k : MCode} (hk : s.data.2 = some k) :
    ∃ t op t0, s.owner = some t ∧ s.th t = .holding op t0 ∧ Safe mLoop (MOverflow op t0) k s.data.1 :=
  C172_safe (fun j => nomatch j) early_mPass safe_mPass h hk

/-! ### Semaphores -/

/-- Reading and writing the flag, Interthread.h:742. -/
inductive SCall where
  | load
  | save (b : Bool)

def SCall.Ans : SCall → Type
  | .load => Bool
  | .save _ => Unit

def SCall.sem : (p : SCall) → Bool → p.Ans → Bool → Prop
  | .load, f, (a : Bool), f' => a = f ∧ f' = f
  | .save b, _, _, f' => f' = b

def flag : Prims Bool := ⟨SCall, SCall.Ans, SCall.sem⟩

abbrev SCode := Tree flag Unit SRes Empty

def sLoad (k : Bool → SCode) : SCode := .acc (A := flag) SCall.load k
def sSave (b : Bool) (k : SCode) : SCode := .acc (A := flag) (SCall.save b) fun _ => k

/-- One pass through the section of each call (Interthread.h:738-772). -/
def sPass : SOp → Stamp → SCode
  /- Interthread.h:752-757 -/
  | .post, _ => sSave true (.ret (.done .unit [.one ()] []))
  /- Interthread.h:759-764 -/
  | .get, _ => sLoad fun f => if ¬ f then .ret (.wait ()) else sSave false (.ret (.done .unit [] []))
  /- Interthread.h:766-772 -/
  | .semtry, _ => sLoad fun f => sSave false (.ret (.done (.flag f) [] []))

def sLoop : Empty → SCode := fun j => nomatch j

/-- The semaphore in single steps. -/
def sSections : Sections Bool Unit SOp SRes SCode := Tree.sections sLoop sPass
def semaphoreC : Mon (Bool × Option SCode) Unit SOp SRes := sSections.fine

theorem end_sLoad {now : Clock} {e : Ending Unit SRes} {f f' : Bool} {k : Bool → SCode} : End sLoop now (sLoad k) f e f' ↔ End sLoop now (k f) f e f' := by
  refine end_acc.trans ?_
  constructor
  · rintro ⟨a, d1, ⟨rfl, rfl⟩, h⟩
    exact h
  · exact fun h => ⟨_, _, ⟨rfl, rfl⟩, h⟩

theorem end_sSave {now : Clock} {e : Ending Unit SRes} {f f' b : Bool} {k : SCode} : End sLoop now (sSave b k) f e f' ↔ End sLoop now k b e f' := by
  refine end_acc.trans ?_
  constructor
  · rintro ⟨a, d1, h1, h⟩
    cases (h1 : d1 = b)
    exact h
  · exact fun h => ⟨(), _, rfl, h⟩

theorem sPass_body (op : SOp) (t0 : Stamp) (now : Clock) (f : Bool) (a : Act Bool Unit SRes) :
    (∃ e f', End sLoop now (sPass op t0) f e f' ∧ a = e.act f') ↔ sbody op t0 now f = some a := by
  cases op with
  | post => simp only [sPass, end_sSave, ending_ret, sbody]; exact some_eq
  | get =>
    simp only [sPass, end_sLoad, sbody]
    cases f with
    | false => simp only [Bool.false_eq_true, not_false_eq_true, if_true, ending_ret]; exact some_eq
    | true => simp only [not_true_eq_false, if_false, Bool.true_eq_false, end_sSave, ending_ret]; exact some_eq
  | semtry => simp only [sPass, end_sLoad, end_sSave, ending_ret, sbody]; exact some_eq

theorem semaphore_whole : sSections.whole = semaphore := whole_eq sPass_body

theorem early_sPass (op : SOp) (t0 : Stamp) : Early (sPass op t0) := by
  cases op with
  | post => exact fun _ => trivial
  | get =>
    intro f
    dsimp only
    split
    · trivial
    · exact fun _ => trivial
  | semtry => exact fun _ _ => trivial

/-- **C172** `Semaphore`: though a thread that has seen the flag may be interrupted before it resets it, callers see an execution in which sections are indivisible. -/
theorem C172_semaphore {n : Nat} {ok : Fin n → SOp → Prop} {now : Clock} {f : Bool} {s : St n (Bool × Option SCode) Unit SOp SRes}
    (h : Reach semaphoreC ok (init n now (f, none)) s) :
    ∃ s' : St n Bool Unit SOp SRes, Reach semaphore ok (init n now f) s' ∧ s'.now = s.now ∧ s'.owner = s.owner ∧ s'.th = s.th ∧ visible s'.tr = visible s.tr ∧
      (s.data.2 = none → s'.data = s.data.1) := by
  obtain ⟨s', h', x⟩ := C171_indivisible sSections (once (fun j => nomatch j) early_sPass) h
  rw [semaphore_whole] at h'
  exact ⟨s', h', x.now, x.owner, x.th, x.tr, x.rest⟩

/-- **C172** The converse. -/
theorem C172_semaphore_exact {n : Nat} {ok : Fin n → SOp → Prop} {now : Clock} {f : Bool} {s' : St n Bool Unit SOp SRes} (h : Reach semaphore ok (init n now f) s') :
    ∃ s, Reach semaphoreC ok (init n now (f, none)) s ∧ s.data = (s'.data, none) ∧ s.now = s'.now ∧ s.owner = s'.owner ∧ s.th = s'.th ∧ visible s.tr = visible s'.tr := by
  rw [← semaphore_whole] at h
  obtain ⟨s, hr, e, x⟩ := C171_exact sSections h
  exact ⟨s, hr, e, x.now.symm, x.owner.symm, x.th.symm, x.tr.symm⟩

/-! ### Examples -/

/- `clear` of two items, one of them NULL; a `write` under a key that is there, and under one that is not. -/
example : End qLoop ⟨5, 0⟩ (qPass .clear ⟨⟨5, 0⟩, ⟨5, 0⟩⟩) [some 1, none] (.done (.removed [some 1, none]) [] []) [] := end_loop.mpr ⟨rfl, rfl⟩
example : mSections.whole.body (.write 3 (some 8)) ⟨⟨5, 0⟩, ⟨5, 0⟩⟩ ⟨5, 0⟩ [(3, some 7)] (.done [(3, some 8)] (.wrote (some (some 7))) [.all ()] []) := by
  rw [imap_whole]; rfl
example : mSections.whole.body (.write 4 (some 8)) ⟨⟨5, 0⟩, ⟨5, 0⟩⟩ ⟨5, 0⟩ [(3, some 7)] (.done [(4, some 8), (3, some 7)] (.wrote none) [.all ()] []) := by
  rw [imap_whole]; rfl

/- A thread that has seen the flag is interrupted before it resets it: another one calls `semtry`, the clock goes on.  The flag is still set, but the lock is held. -/
example : ∃ s : St 2 (Bool × Option SCode) Unit SOp SRes, Reach semaphoreC (fun _ _ => True) (init 2 ⟨5, 0⟩ (true, none)) s ∧
    s.data = (true, some (sSave false (.ret (.done .unit [] [])))) ∧ s.owner = some 0 ∧ s.th 1 = .entering .semtry ⟨⟨6, 0⟩, ⟨6, 0⟩⟩ := by
  have no : ∀ {l : Lbl 2 SOp}, ∀ t op, l = .start t op → True := fun _ _ _ => trivial
  have r1 := ((Reach.refl (M := semaphoreC) (ok := fun (_ : Fin 2) _ => True) (s0 := init 2 ⟨5, 0⟩ (true, none))).step
    (Step.start _ 0 SOp.get rfl) no).step (Step.lock _ 0 SOp.get ⟨⟨5, 0⟩, ⟨5, 0⟩⟩ rfl rfl) no
  have r2 := r1.step (Step.bodySpin _ 0 SOp.get ⟨⟨5, 0⟩, ⟨5, 0⟩⟩ (true, some (sPass .get ⟨⟨5, 0⟩, ⟨5, 0⟩⟩)) rfl rfl (by exact rfl)) no
  have r3 := r2.step (Step.bodySpin _ 0 SOp.get ⟨⟨5, 0⟩, ⟨5, 0⟩⟩ (true, some (sSave false (.ret (.done .unit [] [])))) rfl rfl
    (by exact Or.inl ⟨_, true, ⟨true, ⟨rfl, rfl⟩, rfl⟩, rfl⟩)) no
  exact ⟨_, (r3.step (Step.tick _ ⟨6, 0⟩) no).step (Step.start _ 1 SOp.semtry rfl) no, rfl, rfl, rfl⟩

end Verif.Interthread.Containers
