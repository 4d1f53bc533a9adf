import Verif.Monitor.Sections
import Verif.Interthread.WithWaitProps
import Verif.Lists.Props

/-
Property C171, the code: `InterthreadQueueWithWait` (`/repo/Interthread.h:328-435`) with its `PointerFIFO` (`/repo/LinkedLists.h:58-101`,
`/repo/LinkedLists.cpp:33-84`) on the level of single accesses to memory.

`Verif.Interthread.WithWait` takes the `PointerFIFO` as a list and each pass through a section as one step.  Here a pass is the sequence of its reads and
writes of `mHead`, `mTail`, `mFreeList`, `mSize` and of the fields of the nodes, between any two of which the other threads go on; `Verif.Monitor.Sections`
shows that they might as well not, and the representation invariant of property C19 that what is left is the list.
-/

namespace Verif.Interthread.Nodes
open Verif Verif.Monitor
open Verif.Lists (Fifo Ptr Rep upd)

/-- The pointers of the object itself, LinkedLists.h:63-65. -/
inductive PVar where
  | head
  | tail
  | free
  deriving DecidableEq

/-- Reading one of them. -/
def getP (f : Fifo) : PVar → Ptr
  | .head => f.mHead
  | .tail => f.mTail
  | .free => f.mFreeList

/-- Writing one of them. -/
def setP (f : Fifo) (p : Ptr) : PVar → Fifo
  | .head => { f with mHead := p }
  | .tail => { f with mTail := p }
  | .free => { f with mFreeList := p }

/-- Code as a tree: one access to memory, a reading of the clock, a jump back to the loop of `clear` (which has freed the items given), undefined behaviour
(an overflow in `Timeval::remaining`), or the end. -/
inductive Code (α : Type) where
  | ret (a : α)
  | rdP (x : PVar) (k : Ptr → Code α)
  | wrP (x : PVar) (p : Ptr) (k : Code α)
  | rdSize (k : Nat → Code α)
  | wrSize (m : Nat) (k : Code α)
  | rdNext (p : Ptr) (k : Ptr → Code α)
  | wrNext (p q : Ptr) (k : Code α)
  | rdData (p : Ptr) (k : Val → Code α)
  | wrData (p : Ptr) (v : Val) (k : Code α)
  | new (k : Ptr → Code α)
  | time (k : Clock → Code α)
  | jump (freed : List Val)
  | undef

/-- One piece of code after the other. -/
def Code.bind {α β : Type} : Code α → (α → Code β) → Code β
  | .ret a, g => g a
  | .rdP x k, g => .rdP x fun p => (k p).bind g
  | .wrP x p k, g => .wrP x p (k.bind g)
  | .rdSize k, g => .rdSize fun m => (k m).bind g
  | .wrSize m k, g => .wrSize m (k.bind g)
  | .rdNext p k, g => .rdNext p fun q => (k q).bind g
  | .wrNext p q k, g => .wrNext p q (k.bind g)
  | .rdData p k, g => .rdData p fun v => (k v).bind g
  | .wrData p v k, g => .wrData p v (k.bind g)
  | .new k, g => .new fun p => (k p).bind g
  | .time k, g => .time fun c => (k c).bind g
  | .jump l, _ => .jump l
  | .undef, _ => .undef

instance : Bind Code := ⟨Code.bind⟩

/-- `PointerFIFO::allocate`, LinkedLists.cpp:72-78. -/
def allocate : Code Ptr :=
  .rdP .free fun fl => if fl = none then .new .ret else
    .rdP .free fun retVal => .rdP .free fun p => .rdNext p fun q => .wrP .free q (.ret retVal)

/-- `PointerFIFO::release`, LinkedLists.cpp:80-84. -/
def release (wNode : Ptr) : Code Unit := .rdP .free fun fl => .wrNext wNode fl (.wrP .free wNode (.ret ()))

/-- `PointerFIFO::put`, LinkedLists.cpp:45-54. -/
def put (v : Val) : Code Unit :=
  allocate.bind fun node => .wrData node v <| .wrNext node none <| .rdP .tail fun t =>
    (if t = none then Code.ret () else .rdP .tail fun t => .wrNext t node (.ret ())).bind fun _ =>
    .wrP .tail node <| .rdP .head fun h => (if h = none then Code.wrP .head node (.ret ()) else .ret ()).bind fun _ =>
    .rdSize fun m => .wrSize ((m + 1) % 2 ^ 32) (.ret ())

/-- `PointerFIFO::get`, LinkedLists.cpp:57-69. -/
def get : Code Val :=
  .rdP .head fun h => if h = none then .ret none else
    .rdP .head fun h => .rdNext h fun next => .rdP .head fun h => .rdData h fun retVal => .rdP .head fun h => (release h).bind fun _ =>
    .wrP .head next <| (if next = none then Code.wrP .tail none (.ret ()) else .ret ()).bind fun _ =>
    .rdSize fun m => .wrSize ((m + 2 ^ 32 - 1) % 2 ^ 32) (.ret retVal)

/-- How passes of the queue end. -/
abbrev E := Ending WC QRes

/-- The loop of `clear`, Interthread.h:342-347; `freed` are the items freed so far. -/
def clearLoop (freed : List Val) : Code E :=
  .rdSize fun m => if 0 < m then get.bind fun v => .jump (freed ++ [v]) else .ret (.done (.removed freed) [.one .readSignal] [])

/-- `readNoBlock`, Interthread.h:406-412, and the end of `read(timeout)`, Interthread.h:397-399. -/
def take : Code E := get.bind fun v => .ret (.done (.ptr v) (readSig v) [])

/-- Waiting with a limit, Threads.cpp:271-277 (as in `timedWait`): the time is read here once more; the model uses the reading with which the remaining time was
computed. -/
def sleep (now : Clock) (timeout : Int) : E :=
  if timeout ≤ 0 then .again
  else if 0 ≤ (waitLimit now timeout).nsec ∧ (waitLimit now timeout).nsec < 1000000000 then .wait .writeSignal else .again

/-- One pass through the section of each call of `InterthreadQueueWithWait`. -/
def pass : WOp → Stamp → Code E
  /- Interthread.h:415-422 -/
  | .write v, _ => (put v).bind fun _ => .ret (.done .unit [] [.one .writeSignal])
  /- Interthread.h:365-375 -/
  | .read, _ => get.bind fun v => .ret (if v = none then .wait .writeSignal else .done (.ptr v) [.one .readSignal] [])
  /- Interthread.h:382-400 -/
  | .readT ms, t0 => if ms = 0 then take else .rdSize fun m => if m = 0 then
      .time fun now => (match Timeval.remaining (Timeval.future t0.call ms) now with
        | .ok r => if r < 2 then .ret (.done (.ptr none) [] []) else .ret (sleep now r)
        | _ => .undef)
      else take
  | .readNoBlock, _ => take
  /- Interthread.h:355-359 -/
  | .size, _ => .rdSize fun m => .ret (.done (.num m) [] [])
  /- Interthread.h:342-347 -/
  | .clear, _ => clearLoop []
  /- Interthread.h:429-433 -/
  | .waitLow sz, _ => .rdSize fun m => .ret (if sz < m then .wait .readSignal else .done .unit [] [])

/-- One step of the code: one access to memory.  Accesses to anything but a node are undefined: there is no step. -/
def exec : Code E → Clock → Fifo → Option (Code E × Fifo)
  | .ret _, _, _ => none
  | .rdP x k, _, f => some (k (getP f x), f)
  | .wrP x p k, _, f => some (k, setP f p x)
  | .rdSize k, _, f => some (k f.mSize, f)
  | .wrSize m k, _, f => some (k, { f with mSize := m })
  | .rdNext p k, _, f => p.bind fun n => if n < f.count then some (k (f.nxt n), f) else none
  | .wrNext p q k, _, f => p.bind fun n => if n < f.count then some (k, { f with nxt := upd f.nxt n q }) else none
  | .rdData p k, _, f => p.bind fun n => if n < f.count then some (k (f.dat n), f) else none
  | .wrData p v k, _, f => p.bind fun n => if n < f.count then some (k, { f with dat := upd f.dat n v }) else none
  | .new k, _, f => some (k (some f.count), { f with count := f.count + 1 })
  | .time k, now, f => some (k now, f)
  | .jump l, _, f => some (clearLoop l, f)
  | .undef, _, _ => none

/-- The sections of the queue. -/
def sections : Sections Fifo WC WOp QRes (Code E) where
  enter := pass
  step k now f k' f' := exec k now f = some (k', f')
  ends k e := k = .ret e

/-- The queue with single accesses to memory as steps. -/
def queueN : Mon (Fifo × Option (Code E)) WC WOp QRes := sections.fine

/-! ### Running code in one go -/

/-- The result of code that does not jump, without other threads. -/
def eval {α : Type} : Code α → Clock → Fifo → Option (α × Fifo)
  | .ret a, _, f => some (a, f)
  | .rdP x k, c, f => eval (k (getP f x)) c f
  | .wrP x p k, c, f => eval k c (setP f p x)
  | .rdSize k, c, f => eval (k f.mSize) c f
  | .wrSize m k, c, f => eval k c { f with mSize := m }
  | .rdNext p k, c, f => p.bind fun n => if n < f.count then eval (k (f.nxt n)) c f else none
  | .wrNext p q k, c, f => p.bind fun n => if n < f.count then eval k c { f with nxt := upd f.nxt n q } else none
  | .rdData p k, c, f => p.bind fun n => if n < f.count then eval (k (f.dat n)) c f else none
  | .wrData p v k, c, f => p.bind fun n => if n < f.count then eval k c { f with dat := upd f.dat n v } else none
  | .new k, c, f => eval (k (some f.count)) c { f with count := f.count + 1 }
  | .time k, c, f => eval (k c) c f
  | .jump _, _, _ => none
  | .undef, _, _ => none

theorem run_head {k k' k'' : Code E} {c : Clock} {f f' f'' : Fifo} (h : exec k c f = some (k', f')) (hr : sections.Run c k' f' k'' f'') : sections.Run c k f k'' f'' := by
  induction hr with
  | refl => exact .step .refl h
  | step _ hs ih => exact ih.step hs

theorem run_trans {k k' k'' : Code E} {c : Clock} {f f' f'' : Fifo} (h : sections.Run c k f k' f') (hr : sections.Run c k' f' k'' f'') : sections.Run c k f k'' f'' := by
  induction hr with
  | refl => exact h
  | step _ hs ih => exact ih.step hs

theorem eval_run {α : Type} (code : Code α) (c : Clock) : ∀ (f f' : Fifo) (a : α) (g : α → Code E), eval code c f = some (a, f') →
    sections.Run c (code.bind g) f (g a) f' := by
  induction code with
  | ret a =>
    intro f f' a' g h
    cases h
    exact .refl
  | rdP x k ih => exact fun f f' a g h => run_head rfl (ih _ _ _ _ g h)
  | wrP x p k ih => exact fun f f' a g h => run_head rfl (ih _ _ _ g h)
  | rdSize k ih => exact fun f f' a g h => run_head rfl (ih _ _ _ _ g h)
  | wrSize m k ih => exact fun f f' a g h => run_head rfl (ih _ _ _ g h)
  | rdNext p k ih =>
    intro f f' a g h
    cases p with
    | none => cases h
    | some n =>
      simp only [eval, Option.bind_some] at h
      split at h
      · rename_i hl
        exact run_head (by simp only [Code.bind, exec, Option.bind_some, if_pos hl]) (ih _ _ _ _ g h)
      · cases h
  | wrNext p q k ih =>
    intro f f' a g h
    cases p with
    | none => cases h
    | some n =>
      simp only [eval, Option.bind_some] at h
      split at h
      · rename_i hl
        exact run_head (by simp only [Code.bind, exec, Option.bind_some, if_pos hl]) (ih _ _ _ g h)
      · cases h
  | rdData p k ih =>
    intro f f' a g h
    cases p with
    | none => cases h
    | some n =>
      simp only [eval, Option.bind_some] at h
      split at h
      · rename_i hl
        exact run_head (by simp only [Code.bind, exec, Option.bind_some, if_pos hl]) (ih _ _ _ _ g h)
      · cases h
  | wrData p v k ih =>
    intro f f' a g h
    cases p with
    | none => cases h
    | some n =>
      simp only [eval, Option.bind_some] at h
      split at h
      · rename_i hl
        exact run_head (by simp only [Code.bind, exec, Option.bind_some, if_pos hl]) (ih _ _ _ g h)
      · cases h
  | new k ih => exact fun f f' a g h => run_head rfl (ih _ _ _ _ g h)
  | time k ih => exact fun f f' a g h => run_head rfl (ih _ _ _ _ g h)
  | jump l => exact fun f f' a g h => nomatch h
  | undef => exact fun f f' a g h => nomatch h

theorem eval_bind {α β : Type} (code : Code α) (g : α → Code β) (c : Clock) : ∀ f, eval (code.bind g) c f = (eval code c f).bind fun x => eval (g x.1) c x.2 := by
  induction code with
  | ret a => exact fun f => rfl
  | rdP x k ih => exact fun f => ih _ _
  | wrP x p k ih => exact fun f => ih _
  | rdSize k ih => exact fun f => ih _ _
  | wrSize m k ih => exact fun f => ih _
  | rdNext p k ih =>
    intro f
    cases p with
    | none => rfl
    | some n =>
      simp only [Code.bind, eval, Option.bind_some]
      split
      · exact ih _ _
      · rfl
  | wrNext p q k ih =>
    intro f
    cases p with
    | none => rfl
    | some n =>
      simp only [Code.bind, eval, Option.bind_some]
      split
      · exact ih _
      · rfl
  | rdData p k ih =>
    intro f
    cases p with
    | none => rfl
    | some n =>
      simp only [Code.bind, eval, Option.bind_some]
      split
      · exact ih _ _
      · rfl
  | wrData p v k ih =>
    intro f
    cases p with
    | none => rfl
    | some n =>
      simp only [Code.bind, eval, Option.bind_some]
      split
      · exact ih _
      · rfl
  | new k ih => exact fun f => ih _ _
  | time k ih => exact fun f => ih _ _
  | jump l => exact fun f => rfl
  | undef => exact fun f => rfl

/-- `allocate` access by access is `allocate` of property C19. -/
theorem eval_allocate (c : Clock) (f f' : Fifo) (n : Nat) (h : f.allocate = .ok (f', n)) : eval allocate c f = some (some n, f') := by
  simp only [Lists.Fifo.allocate] at h
  cases hf : f.mFreeList with
  | none =>
    rw [hf] at h
    cases h
    simp only [allocate, eval, getP, hf, if_true]
  | some m =>
    rw [hf] at h
    simp only [Lists.Fifo.next] at h
    split at h
    · rename_i hl
      cases h
      simp only [allocate, eval, getP, hf, reduceCtorEq, if_false, Option.bind_some, if_pos hl, setP]
    · cases h

/-- `put` access by access is `put` of property C19. -/
theorem eval_put (v : Val) (c : Clock) (f f' : Fifo) (h : f.put v = .ok f') : eval (put v) c f = some ((), f') := by
  simp only [Lists.Fifo.put, Outcome.bind_eq_ok, Lists.Fifo.setData, Lists.Fifo.setNext] at h
  obtain ⟨⟨f1, n⟩, h1, f2, h2, f3, h3, f4, h4, h5⟩ := h
  dsimp only at h2 h3 h4
  split at h2
  swap
  · cases h2
  rename_i hl
  cases h2
  dsimp only at h3
  rw [if_pos hl] at h3
  cases h3
  simp only [put, eval_bind, eval_allocate c f f1 n h1, Option.bind_some, eval, getP, if_pos hl]
  cases ht : f1.mTail with
  | none =>
    simp only [ht] at h4
    cases h4
    cases h5
    cases hh : f1.mHead <;> simp [eval, setP]
  | some t =>
    simp only [ht] at h4
    split at h4
    · rename_i hl'
      cases h4
      cases h5
      cases hh : f1.mHead <;> simp [eval, setP, getP, hl']
    · cases h4

/-- `get` access by access is `get` of property C19. -/
theorem eval_get (c : Clock) (f f' : Fifo) (v : Val) (h : f.get = .ok (f', v)) : eval get c f = some (v, f') := by
  simp only [Lists.Fifo.get] at h
  cases hh : f.mHead with
  | none =>
    rw [hh] at h
    cases h
    simp only [get, eval, getP, hh, if_true]
  | some n =>
    rw [hh] at h
    simp only [Outcome.bind_eq_ok, Lists.Fifo.next, Lists.Fifo.data, Lists.Fifo.release, Lists.Fifo.setNext] at h
    obtain ⟨next, h1, w, h2, f1, ⟨f2, h3, h4⟩, h5⟩ := h
    split at h1
    swap
    · cases h1
    rename_i hl
    rw [if_pos hl] at h2 h3
    cases h1
    cases h2
    cases h3
    cases h4
    cases h5
    simp only [get, eval, getP, hh, reduceCtorEq, if_false, Option.bind_some, if_pos hl, eval_bind, release]
    cases hn : f.nxt n <;> simp only [eval, setP, reduceCtorEq, if_true, if_false, Option.bind_some]

/-- Memory holds the queue `q`. -/
def Holds (f : Fifo) (q : List Val) : Prop := ∃ qn fn, Rep f q qn fn

theorem run_get {f : Fifo} {q : List Val} (h : Holds f q) (c : Clock) (g : Val → Code E) :
    ∃ f', sections.Run c (get.bind g) f (g (getQ q).1) f' ∧ Holds f' (getQ q).2 := by
  obtain ⟨qn, fn, R⟩ := h
  obtain ⟨f', qn', fn', h1, h2, _⟩ := Lists.get_spec R
  refine ⟨f', ?_, qn', fn', ?_⟩
  · have := eval_run get c f f' _ g (eval_get c _ _ _ h1)
    cases q <;> exact this
  · cases q <;> exact h2

theorem run_put {f : Fifo} {q : List Val} (h : Holds f q) (c : Clock) (v : Val) (g : Unit → Code E) :
    ∃ f', sections.Run c ((put v).bind g) f (g ()) f' ∧ Holds f' (q ++ [v]) := by
  obtain ⟨qn, fn, R⟩ := h
  obtain ⟨f', qn', fn', h1, h2, _⟩ := Lists.put_spec R v
  exact ⟨f', eval_run (put v) c f f' _ g (eval_put v c _ _ h1), qn', fn', h2⟩

theorem size_eq {f : Fifo} {q : List Val} (h : Holds f q) (hq : q.length < 2 ^ 32) : f.mSize = q.length := by
  obtain ⟨qn, fn, R⟩ := h
  rw [R.size, Nat.mod_eq_of_lt hq]

theorem run_clear (c : Clock) : ∀ (q : List Val) (f : Fifo) (freed : List Val), Holds f q → q.length < 2 ^ 32 →
    ∃ f', sections.Run c (clearLoop freed) f (.ret (.done (.removed (freed ++ q)) [.one .readSignal] [])) f' ∧ Holds f' [] := by
  intro q
  induction q with
  | nil =>
    intro f freed h hq
    have := size_eq h hq
    refine ⟨f, run_head (k' := .ret (.done (.removed (freed ++ [])) [.one .readSignal] [])) ?_ .refl, h⟩
    simp only [clearLoop, exec, this, List.length_nil, lt_irrefl, if_false, List.append_nil]
  | cons v q ih =>
    intro f freed h hq
    have hs := size_eq h hq
    obtain ⟨f1, hr, h1⟩ := run_get h c (fun v => .jump (freed ++ [v]))
    obtain ⟨f2, hr2, h2⟩ := ih f1 (freed ++ [v]) h1 (by rw [List.length_cons] at hq; omega)
    refine ⟨f2, run_head (k' := get.bind fun v => .jump (freed ++ [v])) (f' := f) ?_ (run_trans hr (run_head (k' := clearLoop (freed ++ [v])) rfl ?_)), h2⟩
    · simp only [clearLoop, exec, hs, List.length_cons, Nat.zero_lt_succ, if_true]
    · rw [List.append_assoc] at hr2
      exact hr2

/-- Overflow in `Timeval::remaining`: the code is undefined there. -/
def Overflow (op : WOp) (t0 : Stamp) (c : Clock) : Prop := ∃ ms, op = .readT ms ∧ ∀ r, Timeval.remaining (Timeval.future t0.call ms) c ≠ .ok r

/-- A pass access by access, in one go, does what the pass on the list does. -/
theorem run_pass {f : Fifo} {q : List Val} (h : Holds f q) (hq : q.length < 2 ^ 32) (op : WOp) (t0 : Stamp) (c : Clock) :
    (∃ e f' q', sections.Run c (pass op t0) f (.ret e) f' ∧ Holds f' q' ∧ queueW.body op t0 c q (e.act q')) ∨
    (Overflow op t0 c ∧ (∀ a, ¬ queueW.body op t0 c q a) ∧ sections.Run c (pass op t0) f .undef f) := by
  have hs := size_eq h hq
  have htake : ∃ e f' q', sections.Run c take f (.ret e) f' ∧ Holds f' q' ∧ takeW q = e.act q' := by
    obtain ⟨f', hr, hh⟩ := run_get h c fun v => .ret (.done (.ptr v) (readSig v) [])
    exact ⟨_, f', _, hr, hh, rfl⟩
  cases op with
  | write v =>
    obtain ⟨f', hr, hh⟩ := run_put h c v fun _ => .ret (.done .unit [] [.one .writeSignal])
    exact .inl ⟨_, f', _, hr, hh, rfl⟩
  | read =>
    obtain ⟨f', hr, hh⟩ := run_get h c fun v => .ret (if v = none then .wait .writeSignal else .done (.ptr v) [.one .readSignal] [])
    refine .inl ⟨_, f', _, hr, hh, ?_⟩
    show wbody .read t0 c q = _
    simp only [wbody]
    split <;> rfl
  | readT ms =>
    by_cases hms : ms = 0
    · obtain ⟨e, f', q', hr, hh, he⟩ := htake
      refine .inl ⟨e, f', q', ?_, hh, ?_⟩
      · simp only [pass, if_pos hms]
        exact hr
      · show wbody (.readT ms) t0 c q = _
        simp only [wbody, readTimedW, if_pos hms, he]
    · by_cases hl : q.length = 0
      · have step1 : ∀ {k f'}, sections.Run c ((fun now => match Timeval.remaining (Timeval.future t0.call ms) now with
            | .ok r => if r < 2 then Code.ret (.done (.ptr none) [] []) else .ret (sleep now r)
            | _ => .undef) c) f k f' → sections.Run c (pass (.readT ms) t0) f k f' := by
          intro k f' hr
          simp only [pass, if_neg hms]
          refine run_head (k' := .time fun now => match Timeval.remaining (Timeval.future t0.call ms) now with
            | .ok r => if r < 2 then Code.ret (.done (.ptr none) [] []) else .ret (sleep now r)
            | _ => .undef) (f' := f) ?_ (run_head (f' := f) rfl hr)
          simp only [exec, hs, hl, if_true]
        cases hrem : Timeval.remaining (Timeval.future t0.call ms) c with
        | ok r =>
          refine .inl ⟨if r < 2 then .done (.ptr none) [] [] else sleep c r, f, q, step1 ?_, h, ?_⟩
          · simp only [hrem]
            split <;> exact .refl
          · show wbody (.readT ms) t0 c q = _
            simp only [wbody, readTimedW, if_neg hms, if_pos hl, hrem]
            split
            · rfl
            · simp only [timedWait, sleep]
              split
              · rfl
              · split <;> rfl
        | _ =>
          refine .inr ⟨⟨ms, rfl, fun r => by rw [hrem]; exact fun h => nomatch h⟩, fun a ha => ?_, step1 ?_⟩
          · have : wbody (.readT ms) t0 c q = some a := ha
            simp only [wbody, readTimedW, if_neg hms, if_pos hl, hrem] at this
            cases this
          · simp only [hrem]
            exact .refl
      · obtain ⟨e, f', q', hr, hh, he⟩ := htake
        refine .inl ⟨e, f', q', ?_, hh, ?_⟩
        · simp only [pass, if_neg hms]
          refine run_head (k' := take) (f' := f) ?_ hr
          simp only [exec, hs, if_neg hl]
        · show wbody (.readT ms) t0 c q = _
          simp only [wbody, readTimedW, if_neg hms, if_neg hl, he]
  | readNoBlock =>
    obtain ⟨e, f', q', hr, hh, he⟩ := htake
    refine .inl ⟨e, f', q', hr, hh, ?_⟩
    show wbody .readNoBlock t0 c q = _
    simp only [wbody, he]
  | size =>
    refine .inl ⟨.done (.num q.length) [] [], f, q, run_head (f' := f) ?_ .refl, h, rfl⟩
    simp only [pass, exec, hs]
  | clear =>
    obtain ⟨f', hr, hh⟩ := run_clear c q f [] h hq
    exact .inl ⟨_, f', [], hr, hh, rfl⟩
  | waitLow sz =>
    refine .inl ⟨if sz < q.length then .wait .readSignal else .done .unit [] [], f, q, run_head (f' := f) ?_ .refl, h, ?_⟩
    · simp only [pass, exec, hs]
    · show wbody (.waitLow sz) t0 c q = _
      simp only [wbody]
      split <;> rfl

/-! ### Determinism -/

theorem run_det {c : Clock} {k k1 k2 : Code E} {f f1 f2 : Fifo} (h1 : sections.Run c k f k1 f1) (h2 : sections.Run c k f k2 f2) :
    sections.Run c k1 f1 k2 f2 ∨ sections.Run c k2 f2 k1 f1 := by
  induction h1 with
  | refl => exact .inl h2
  | @step k' f' k'' f'' hr hs ih =>
    rcases ih with ih | ih
    · have : ∀ {k f}, sections.Run c k' f' k f → (k = k' ∧ f = f') ∨ sections.Run c k'' f'' k f := by
        intro k f h
        induction h with
        | refl => exact .inl ⟨rfl, rfl⟩
        | step _ hs' ih' =>
          rcases ih' with ⟨rfl, rfl⟩ | ih'
          · have : exec _ c _ = some _ := hs
            rw [show exec _ c _ = some _ from hs'] at this
            cases this
            exact .inr .refl
          · exact .inr (ih'.step hs')
      rcases this ih with ⟨rfl, rfl⟩ | h
      · exact .inr (.step .refl hs)
      · exact .inl h
    · exact .inr (ih.step hs)

theorem run_stop {c : Clock} {k k' : Code E} {f f' : Fifo} (h : sections.Run c k f k' f') (hk : exec k c f = none) : k' = k ∧ f' = f := by
  induction h with
  | refl => exact ⟨rfl, rfl⟩
  | step _ hs ih =>
    obtain ⟨rfl, rfl⟩ := ih
    rw [show exec _ c _ = some _ from hs] at hk
    cases hk

/-- The reverse: whatever a pass made in one go does is what the pass on the list does. -/
theorem pass_run {f f' : Fifo} {q : List Val} (h : Holds f q) (hq : q.length < 2 ^ 32) {op : WOp} {t0 : Stamp} {c : Clock} {e : E}
    (hr : sections.Run c (pass op t0) f (.ret e) f') : ∃ q', Holds f' q' ∧ queueW.body op t0 c q (e.act q') := by
  rcases run_pass h hq op t0 c with ⟨e', f1, q', hr', hh, hb⟩ | ⟨_, _, hr'⟩
  · rcases run_det hr hr' with x | x
    · have := run_stop x rfl
      cases this.1
      cases this.2
      exact ⟨q', hh, hb⟩
    · have := run_stop x rfl
      cases this.1
      cases this.2
      exact ⟨q', hh, hb⟩
  · rcases run_det hr hr' with x | x
    · have := run_stop x rfl
      cases this.1
    · have := run_stop x rfl
      cases this.1

/-! ### Readings of the clock -/

/-- Code that does not read the clock. -/
def Late {α : Type} : Code α → Prop
  | .ret _ => True
  | .rdP _ k => ∀ p, Late (k p)
  | .wrP _ _ k => Late k
  | .rdSize k => ∀ m, Late (k m)
  | .wrSize _ k => Late k
  | .rdNext _ k => ∀ p, Late (k p)
  | .wrNext _ _ k => Late k
  | .rdData _ k => ∀ v, Late (k v)
  | .wrData _ _ k => Late k
  | .new k => ∀ p, Late (k p)
  | .time _ => False
  | .jump _ => True
  | .undef => True

/-- Code that reads the clock at most once. -/
def Early {α : Type} : Code α → Prop
  | .ret _ => True
  | .rdP _ k => ∀ p, Early (k p)
  | .wrP _ _ k => Early k
  | .rdSize k => ∀ m, Early (k m)
  | .wrSize _ k => Early k
  | .rdNext _ k => ∀ p, Early (k p)
  | .wrNext _ _ k => Early k
  | .rdData _ k => ∀ v, Early (k v)
  | .wrData _ _ k => Early k
  | .new k => ∀ p, Early (k p)
  | .time k => ∀ c, Late (k c)
  | .jump _ => True
  | .undef => True

theorem late_early {α : Type} (k : Code α) (h : Late k) : Early k := by
  induction k with
  | ret | jump | undef => trivial
  | rdP x k ih => exact fun p => ih p (h p)
  | wrP x p k ih => exact ih h
  | rdSize k ih => exact fun p => ih p (h p)
  | wrSize m k ih => exact ih h
  | rdNext p k ih => exact fun p => ih p (h p)
  | wrNext p q k ih => exact ih h
  | rdData p k ih => exact fun p => ih p (h p)
  | wrData p v k ih => exact ih h
  | new k ih => exact fun p => ih p (h p)
  | time k ih => exact h.elim

theorem late_bind {α β : Type} (k : Code α) (g : α → Code β) (h : Late k) (hg : ∀ a, Late (g a)) : Late (k.bind g) := by
  induction k with
  | ret a => exact hg a
  | jump | undef => trivial
  | rdP x k ih => exact fun p => ih p (h p)
  | wrP x p k ih => exact ih h
  | rdSize k ih => exact fun p => ih p (h p)
  | wrSize m k ih => exact ih h
  | rdNext p k ih => exact fun p => ih p (h p)
  | wrNext p q k ih => exact ih h
  | rdData p k ih => exact fun p => ih p (h p)
  | wrData p v k ih => exact ih h
  | new k ih => exact fun p => ih p (h p)
  | time k ih => exact h.elim

theorem late_get : Late get := by
  intro h
  dsimp only
  split
  · trivial
  · intro h n h v h
    refine late_bind _ _ (fun _ => trivial) fun _ => ?_
    refine late_bind _ _ ?_ fun _ m => trivial
    split <;> trivial

theorem late_put (v : Val) : Late (put v) := by
  refine late_bind _ _ ?_ fun node t => ?_
  · intro fl
    dsimp only
    split
    · exact fun _ => trivial
    · exact fun _ _ _ => trivial
  · refine late_bind _ _ ?_ fun _ h => late_bind _ _ ?_ fun _ m => trivial
    · split
      · trivial
      · exact fun _ => trivial
    · split <;> trivial

theorem late_clear (l : List Val) : Late (clearLoop l) := by
  intro m
  dsimp only
  split
  · exact late_bind _ _ late_get fun _ => trivial
  · trivial

theorem late_take : Late take := late_bind _ _ late_get fun _ => trivial

theorem early_pass (op : WOp) (t0 : Stamp) : Early (pass op t0) := by
  cases op with
  | write v => exact late_early _ (late_bind _ _ (late_put v) fun _ => trivial)
  | read => exact late_early _ (late_bind _ _ late_get fun _ => trivial)
  | readT ms =>
    simp only [pass]
    split
    · exact late_early _ late_take
    · intro m
      dsimp only
      split
      · intro c
        dsimp only
        split
        · split <;> trivial
        · trivial
      · exact late_early _ late_take
  | readNoBlock => exact late_early _ late_take
  | size => exact fun _ => trivial
  | clear => exact late_early _ (late_clear [])
  | waitLow sz => exact fun _ => trivial

theorem once : sections.Once := by
  refine ⟨Early, Late, early_pass, ?_, ?_⟩
  · intro k now d k' d' he hs
    have hs : exec k now d = some (k', d') := hs
    cases k with
    | ret | undef => cases hs
    | time k =>
      cases hs
      exact .inl (he now)
    | jump l =>
      cases hs
      exact .inl (late_clear l)
    | rdP | rdSize | new =>
      cases hs
      exact .inr ⟨he _, fun _ => rfl⟩
    | wrP | wrSize =>
      cases hs
      exact .inr ⟨he, fun _ => rfl⟩
    | rdNext p k | rdData p k =>
      refine .inr ⟨?_, fun _ => hs⟩
      cases p with
      | none => cases hs
      | some n =>
        simp only [exec, Option.bind_some] at hs
        split at hs
        · cases hs
          exact he _
        · cases hs
    | wrNext p q k | wrData p q k =>
      refine .inr ⟨?_, fun _ => hs⟩
      cases p with
      | none => cases hs
      | some n =>
        simp only [exec, Option.bind_some] at hs
        split at hs
        · cases hs
          exact he
        · cases hs
  · intro k now d k' d' he hs
    have hs : exec k now d = some (k', d') := hs
    cases k with
    | ret | undef => cases hs
    | time k => exact he.elim
    | jump l =>
      cases hs
      exact ⟨late_clear l, fun _ => rfl⟩
    | rdP | rdSize | new =>
      cases hs
      exact ⟨he _, fun _ => rfl⟩
    | wrP | wrSize =>
      cases hs
      exact ⟨he, fun _ => rfl⟩
    | rdNext p k | rdData p k =>
      refine ⟨?_, fun _ => hs⟩
      cases p with
      | none => cases hs
      | some n =>
        simp only [exec, Option.bind_some] at hs
        split at hs
        · cases hs
          exact he _
        · cases hs
    | wrNext p q k | wrData p q k =>
      refine ⟨?_, fun _ => hs⟩
      cases p with
      | none => cases hs
      | some n =>
        simp only [exec, Option.bind_some] at hs
        split at hs
        · cases hs
          exact he
        · cases hs

/-! ### The number of items -/

/-- Was this a call of `write`? -/
def isWrite {n : Nat} : Fin n × WOp × (Clock ⊕ QRes) → Bool
  | (_, .write _, .inl _) => true
  | _ => false

/-- Calls of `write` so far. -/
def writes {n : Nat} (v : List (Fin n × WOp × (Clock ⊕ QRes))) : Nat := v.countP isWrite

theorem writes_append {n : Nat} (a b : List (Fin n × WOp × (Clock ⊕ QRes))) : writes (a ++ b) = writes a + writes b := List.countP_append ..

/-- 1 for a thread in a call of `write` that has not taken effect. -/
def pend : TS WC WOp QRes → Nat
  | .entering (.write _) _ => 1
  | .holding (.write _) _ => 1
  | .waiting (.write _) _ _ => 1
  | .waking (.write _) _ => 1
  | _ => 0

theorem pend_wake (c : WC) (x : TS WC WOp QRes) : pend (x.wake c) = pend x := by
  cases x with
  | waiting op t0 c' =>
    simp only [TS.wake]
    split
    · cases op <;> rfl
    · rfl
  | _ => rfl

theorem wait_length {op : WOp} {t0 : Stamp} {nw : Clock} {d d' : List Val} {c : WC} (hb : queueW.body op t0 nw d (.wait d' c)) : d'.length ≤ d.length := by
  have hb : wbody op t0 nw d = some (.wait d' c) := hb
  cases op with
  | read =>
    simp only [wbody] at hb
    split at hb
    · cases hb
      cases d <;> simp [getQ]
    · cases hb
  | readT ms =>
    rcases readTimedW_cases (show readTimedW ms t0 nw d = some _ from hb) with e | ⟨e0, hm, e | e | e⟩
    · cases e
    · cases e
    · cases e
      exact Nat.le_refl _
    · cases e
  | waitLow sz =>
    simp only [wbody] at hb
    split at hb
    · cases hb
      exact Nat.le_refl _
    · cases hb
  | write _ | readNoBlock | size | clear => simp [wbody, takeW] at hb

theorem getQ_length (d : List Val) : (getQ d).2.length ≤ d.length := by
  cases d <;> simp [getQ]

theorem few {n : Nat} {ok : Fin n → WOp → Prop} {now : Clock} {s : St n (List Val) WC WOp QRes} (h : Reach queueW ok (init n now []) s) :
    s.data.length + total pend s.th ≤ writes (visible s.tr) := by
  refine Reach.induct (fun s => s.data.length + total pend s.th ≤ writes (visible s.tr)) ?_ ?_ h
  · have : total pend (init (σ := List Val) (C := WC) (Op := WOp) (R := QRes) n now []).th = 0 := total_zero.mpr fun t => rfl
    rw [this]
    exact Nat.zero_le _
  · intro s l s' _ ih st _
    have same : ∀ (t : Fin n) (x : TS WC WOp QRes), pend x = pend (s.th t) → total pend (Function.update s.th t x) = total pend s.th := by
      intro t x hx
      have := total_update pend s.th t x
      omega
    have wakes : ∀ (c : WC) (t : Fin n) (x : TS WC WOp QRes), pend x = pend (s.th t) → total pend (Function.update (fun u => (s.th u).wake c) t x) = total pend s.th := by
      intro c t x hx
      have h1 := total_update pend (fun u => (s.th u).wake c) t x
      have h2 : total pend (fun u => (s.th u).wake c) = total pend s.th := by
        unfold total
        exact Finset.sum_congr rfl fun u _ => pend_wake c _
      rw [pend_wake] at h1
      omega
    have two : ∀ (t u : Fin n) (x y : TS WC WOp QRes), t ≠ u → pend x = pend (s.th t) → pend y = pend (s.th u) →
        total pend (Function.update (Function.update s.th t x) u y) = total pend s.th := by
      intro t u x y htu hx hy
      have h1 := total_update pend (Function.update s.th t x) u y
      rw [upd_ne _ _ _ _ (Ne.symm htu)] at h1
      have h2 := same t x hx
      omega
    cases st with
    | start t op e =>
      have := total_update pend s.th t (.entering op ⟨s.now, s.now⟩)
      rw [e] at this
      dsimp only
      rw [visible_append, writes_append]
      cases op <;> simp [pend, visible, Ev.visible, writes, isWrite] at this ih ⊢ <;> omega
    | lock t op t0 e ho =>
      dsimp only
      rw [same t _ (by rw [e]; cases op <;> rfl)]
      exact ih
    | bodyDone t op t0 d r i o e ho hb =>
      have := total_update pend s.th t (.inLock op r i o)
      rw [e] at this
      dsimp only
      rw [visible_append, writes_append]
      have hl := getQ_length s.data
      rcases w_done hb with ⟨v, rfl, rfl, -⟩ | ⟨e, -, -, rfl, -⟩ | ⟨rfl, rfl, -⟩ | ⟨rfl, rfl, -⟩ | ⟨sz, rfl, rfl, -⟩
      · simp only [pend, List.length_append, List.length_singleton] at this ⊢
        omega
      · rcases e with rfl | rfl | ⟨ms, rfl⟩ <;> simp only [pend] at this <;> omega
      · simp only [pend] at this
        omega
      · simp only [pend, List.length_nil] at this ⊢
        omega
      · simp only [pend] at this
        omega
    | bodyWait t op t0 d c e ho hb =>
      have := wait_length hb
      dsimp only
      rw [same t _ (by rw [e]; cases op <;> rfl)]
      omega
    | bodySpin t op t0 d e ho hb =>
      have := w_spin hb
      subst this
      exact ih
    | spurious t op t0 c e =>
      dsimp only
      rw [same t _ (by rw [e]; cases op <;> rfl)]
      exact ih
    | relock t op t0 e ho =>
      dsimp only
      rw [same t _ (by rw [e]; cases op <;> rfl)]
      exact ih
    | signalIn t op r c i o w op' t0 e e' =>
      dsimp only
      rw [two t w _ _ (by rintro rfl; rw [e] at e'; cases e') (by rw [e]; rfl) (by rw [e']; cases op' <;> rfl)]
      exact ih
    | signalInNone t op r c i o e e' =>
      dsimp only
      rw [same t _ (by rw [e]; rfl)]
      exact ih
    | bcastIn t op r c i o e =>
      dsimp only
      rw [wakes c t _ (by rw [e]; rfl)]
      exact ih
    | unlock t op r o e ho =>
      dsimp only
      rw [same t _ (by rw [e]; rfl)]
      exact ih
    | signalOut t op r c o w op' t0 e e' =>
      dsimp only
      rw [two t w _ _ (by rintro rfl; rw [e] at e'; cases e') (by rw [e]; rfl) (by rw [e']; cases op' <;> rfl)]
      exact ih
    | signalOutNone t op r c o e e' =>
      dsimp only
      rw [same t _ (by rw [e]; rfl)]
      exact ih
    | bcastOut t op r c o e =>
      dsimp only
      rw [wakes c t _ (by rw [e]; rfl)]
      exact ih
    | ret t op r e =>
      dsimp only
      rw [same t _ (by rw [e]; rfl), visible_append, writes_append]
      omega
    | tick now => exact ih

/-! ### The property -/

theorem holds_init (nxt : Nat → Ptr) (dat : Nat → Val) : Holds (Fifo.init nxt dat) [] := ⟨[], [], Lists.init_rep nxt dat⟩

theorem whole_list {n : Nat} {ok : Fin n → WOp → Prop} {now : Clock} {nxt : Nat → Ptr} {dat : Nat → Val} {s : St n Fifo WC WOp QRes}
    (h : Reach sections.whole ok (init n now (Fifo.init nxt dat)) s) (hw : writes (visible s.tr) < 2 ^ 32) :
    ∃ s' : St n (List Val) WC WOp QRes, Reach queueW ok (init n now []) s' ∧ s'.now = s.now ∧ s'.owner = s.owner ∧ s'.th = s.th ∧ visible s'.tr = visible s.tr ∧
      Holds s.data s'.data := by
  refine refine_data (P := fun v => writes v < 2 ^ 32) (fun a b h => ?_) (holds_init nxt dat) ?_ h hw
  · rw [writes_append] at h
    omega
  · rintro s s' hr hr' hp he hd op t0 nw a ⟨k, f', e, hrun, rfl, rfl⟩
    have := few hr'
    rw [he] at this
    obtain ⟨q', hh, hb⟩ := pass_run hd (by omega) hrun
    refine ⟨_, hb, ?_⟩
    cases e with
    | done r i o => exact .done _ _ _ hh
    | wait c => exact .wait _ hh
    | again => exact .spin hh

/-- **C171** (`InterthreadQueueWithWait`) Whatever threads do with a queue whose sections are interleaved with other threads at every single access to memory, and
whatever memory contained at the start: as long as fewer than 2^32 calls of `write` have been made, there is an execution of the queue of properties C26 and C162,
whose sections are indivisible and which is a list, with the same calls and returns in the same order, in which all threads are in the same places; and while no
thread is inside a section memory holds exactly the list.  The theorems of C26 and C162 therefore hold for the nodes and pointers of the code. -/
theorem C171_queue {n : Nat} {ok : Fin n → WOp → Prop} {now : Clock} {nxt : Nat → Ptr} {dat : Nat → Val} {s : St n (Fifo × Option (Code E)) WC WOp QRes}
    (h : Reach queueN ok (init n now (Fifo.init nxt dat, none)) s) (hw : writes (visible s.tr) < 2 ^ 32) :
    ∃ s' : St n (List Val) WC WOp QRes, Reach queueW ok (init n now []) s' ∧ s'.now = s.now ∧ s'.owner = s.owner ∧ s'.th = s.th ∧ visible s'.tr = visible s.tr ∧
      (s.data.2 = none → Holds s.data.1 s'.data) := by
  obtain ⟨s1, h1, m⟩ := C171_indivisible sections once h
  obtain ⟨s', h2, e1, e2, e3, e4, e5⟩ := whole_list h1 (by rw [m.tr]; exact hw)
  exact ⟨s', h2, e1.trans m.now, e2.trans m.owner, e3.trans m.th, e4.trans m.tr, fun hn => by rw [← m.rest hn]; exact e5⟩

theorem exec_some {k : Code E} {c : Clock} (c' : Clock) {f : Fifo} (h : (exec k c f).isSome) : (exec k c' f).isSome := by
  cases k <;> exact h

theorem run_reach {n : Nat} {ok : Fin n → WOp → Prop} {s : St n (Fifo × Option (Code E)) WC WOp QRes} {t : Fin n} {op : WOp} {t0 : Stamp} {k k' : Code E} {f f' : Fifo}
    {s0 : St n (Fifo × Option (Code E)) WC WOp QRes} (hr : Reach queueN ok s0 { s with data := (f, some k) }) (ho : s.owner = some t) (he : s.th t = .holding op t0)
    (h : sections.Run s.now k f k' f') : Reach queueN ok s0 { s with data := (f', some k') } := by
  induction h with
  | refl => exact hr
  | step _ hs ih => exact ih.step (Step.bodySpin _ t op t0 _ he ho (.inl ⟨_, _, hs, rfl⟩)) (fun _ _ h => nomatch h)

/-- **C171** No thread ever touches anything but a node of the queue, and no pass gets lost in the nodes: in the middle of a pass, the pass is at its end or its next
access to memory is to the object or to one of its nodes; and if the thread goes on while the others stand still, it comes to the end of its pass.  The only
exception is an overflow in `Timeval::remaining` in a call of `read` with a time limit (property C24). -/
theorem C171_safe {n : Nat} {ok : Fin n → WOp → Prop} {now : Clock} {nxt : Nat → Ptr} {dat : Nat → Val} {s : St n (Fifo × Option (Code E)) WC WOp QRes}
    (h : Reach queueN ok (init n now (Fifo.init nxt dat, none)) s) (hw : writes (visible s.tr) < 2 ^ 32) {k : Code E} (hk : s.data.2 = some k) :
    ∃ t op t0, s.owner = some t ∧ s.th t = .holding op t0 ∧
      ((((∃ e, k = .ret e) ∨ (exec k s.now s.data.1).isSome) ∧ ∃ e f', Reach queueN (fun _ _ => False) s { s with data := (f', some (.ret e)) }) ∨
        ∃ c, Overflow op t0 c) := by
  obtain ⟨s1, h1, m⟩ := C171_indivisible sections once h
  obtain ⟨s', h2, e1, e2, e3, e4, e5⟩ := whole_list h1 (by rw [m.tr]; exact hw)
  obtain ⟨t, op, t0, ho, he, c, hrun⟩ := m.mid k hk
  have hlen := few h2
  rw [e4, m.tr] at hlen
  refine ⟨t, op, t0, ho, he, ?_⟩
  rcases run_pass e5 (by omega) op t0 c with ⟨e, f', q', hr', _, _⟩ | ⟨hov, _⟩
  · left
    have key : sections.Run c k s.data.1 (.ret e) f' := by
      rcases run_det hrun hr' with x | x
      · exact x
      · obtain ⟨rfl, e6⟩ := run_stop x rfl
        rw [e6]
        exact .refl
    refine ⟨?_, e, f', ?_⟩
    · generalize hf : s.data.1 = f at key ⊢
      have : ∀ {k'' f''}, sections.Run c k f k'' f'' → (k'' = k ∧ f'' = f) ∨ (exec k c f).isSome := by
        intro k'' f'' hr
        induction hr with
        | refl => exact .inl ⟨rfl, rfl⟩
        | step _ hs ih =>
          rcases ih with ⟨rfl, rfl⟩ | ih
          · right
            rw [show exec _ c _ = some _ from hs]
            rfl
          · exact .inr ih
      rcases this key with ⟨e6, _⟩ | h6
      · exact .inl ⟨e, e6.symm⟩
      · exact .inr (exec_some _ h6)
    · have a1 : Reach queueN (fun _ _ => False) s { s with now := c } := Reach.refl.step (Step.tick _ c) (fun _ _ h => nomatch h)
      have a2 : Reach queueN (fun _ _ => False) s { { s with now := c } with data := (s.data.1, some k) } := by
        have : ({ { s with now := c } with data := (s.data.1, some k) } : St n (Fifo × Option (Code E)) WC WOp QRes) = { s with now := c } := by
          rw [← hk]
        rw [this]
        exact a1
      exact (run_reach a2 ho he key).step (Step.tick _ s.now) (fun _ _ h => nomatch h)
  · exact .inr ⟨c, hov⟩

/-- **C171** Nothing is lost either: every execution of the queue of C26 and C162 (with fewer than 2^32 calls of `write`) is an execution of the code access by access. -/
theorem C171_queue_exact {n : Nat} {ok : Fin n → WOp → Prop} {now : Clock} (nxt : Nat → Ptr) (dat : Nat → Val) {s' : St n (List Val) WC WOp QRes}
    (h : Reach queueW ok (init n now []) s') (hw : writes (visible s'.tr) < 2 ^ 32) :
    ∃ s, Reach queueN ok (init n now (Fifo.init nxt dat, none)) s ∧ s.data.2 = none ∧ Holds s.data.1 s'.data ∧ s.now = s'.now ∧ s.owner = s'.owner ∧ s.th = s'.th ∧
      visible s.tr = visible s'.tr := by
  obtain ⟨s1, h1, e1, e2, e3, e4, e5⟩ := refine_data (M' := sections.whole) (ρ := fun q f => Holds f q) (P := fun v => writes v < 2 ^ 32)
    (fun a b h => by rw [writes_append] at h; omega) (holds_init nxt dat) (by
      rintro s s1 hr hr' hp he hd op t0 nw a ha
      have := few hr
      rcases run_pass hd (by omega) op t0 nw with ⟨e, f', q', hrun, hh, hb⟩ | ⟨_, hn, _⟩
      · refine ⟨e.act f', ⟨_, _, e, hrun, rfl, rfl⟩, ?_⟩
        have : some (e.act q') = some a := (show wbody op t0 nw s.data = some (e.act q') from hb).symm.trans ha
        cases this
        cases e with
        | done r i o => exact .done _ _ _ hh
        | wait c => exact .wait _ hh
        | again => exact .spin hh
      · exact absurd ha (hn a)) h hw
  obtain ⟨s, h2, e6, m⟩ := C171_exact sections h1
  exact ⟨s, h2, by rw [e6], by rw [e6]; exact e5, m.now.symm.trans e1, m.owner.symm.trans e2, m.th.symm.trans e3, m.tr.symm.trans e4⟩

/-- **C171** For example C26 on nodes and pointers: when nothing can move any more and a reader sleeps, the queue in memory is empty. -/
theorem C171_readers {n : Nat} {now : Clock} {nxt : Nat → Ptr} {dat : Nat → Val} {s : St n (Fifo × Option (Code E)) WC WOp QRes}
    (h : Reach queueN (fun _ op => WNonNull op) (init n now (Fifo.init nxt dat, none)) s) (hw : writes (visible s.tr) < 2 ^ 32) (hs : Settled s) {t : Fin n} {op : WOp}
    {t0 : Stamp} (ht : s.th t = .waiting op t0 .writeSignal) : s.data.1.mHead = none ∧ s.data.1.mSize = 0 := by
  obtain ⟨s', h', e1, e2, e3, e4, e5⟩ := C171_queue h hw
  have hd := C26_readers_settled h' (fun u => by rw [e3]; exact hs u) (by rw [e3]; exact ht)
  have hn : s.data.2 = none := by
    by_contra hk
    obtain ⟨k, hk⟩ := Option.ne_none_iff_exists'.mp hk
    obtain ⟨u, op', t0', _, he, _⟩ := C171_safe h hw hk
    rcases hs u with x | ⟨_, _, _, x⟩ <;> rw [he] at x <;> cases x
  obtain ⟨qn, fn, R⟩ := e5 hn
  rw [hd] at R
  have hq : qn = [] := List.map_eq_nil_iff.mp R.vals
  subst hq
  exact ⟨R.head, R.size⟩

/-! ### Examples -/

/- `put` on an empty queue, access by access: a new node holds the item; a `get` puts the node on the free list, and the next `put` takes it from there. -/
example : (eval (put (some 7)) ⟨0, 0⟩ (Fifo.init (fun _ => none) fun _ => none)).map (fun x => (x.2.mHead, x.2.mTail, x.2.dat 0, x.2.mSize, x.2.count)) =
    some (some 0, some 0, some 7, 1, 1) := rfl
example : (eval ((put (some 7)).bind fun _ => get.bind fun v => (put (some 8)).bind fun _ => .ret v) ⟨0, 0⟩ (Fifo.init (fun _ => none) fun _ => none)).map
    (fun x => (x.1, x.2.mHead, x.2.dat 0, x.2.count)) = some (some 7, some 0, some 8, 1) := rfl

/- In the middle of a `write` (the new node has been made, but nothing has been stored yet) another thread calls `read` and stands before the lock. -/
example : ∃ s : St 2 (Fifo × Option (Code E)) WC WOp QRes, Reach queueN (fun _ _ => True) (init 2 ⟨5, 0⟩ (Fifo.init (fun _ => none) fun _ => none, none)) s ∧
    s.data.2.isSome ∧ s.data.1.count = 1 ∧ s.data.1.mHead = none ∧ s.th 1 = .entering .read ⟨⟨5, 0⟩, ⟨5, 0⟩⟩ := by
  have no : ∀ {l : Lbl 2 WOp}, ∀ t op, l = .start t op → True := fun _ _ _ => trivial
  have one : ∀ (s : St 2 (Fifo × Option (Code E)) WC WOp QRes) (k k' : Code E) (f f' : Fifo) (t0 : Stamp), s.data = (f, some k) →
      exec k s.now f = some (k', f') → s.th 0 = .holding (.write (some 7)) t0 → s.owner = some 0 → Step queueN s (.body 0) { s with data := (f', some k') } := by
    intro s k k' f f' t0 hd he ht ho
    refine Step.bodySpin s 0 _ t0 _ ht ho ?_
    rw [hd]
    exact Or.inl ⟨k', f', he, rfl⟩
  have r1 := ((Reach.refl (M := queueN) (ok := fun (_ : Fin 2) _ => True) (s0 := init 2 ⟨5, 0⟩ (Fifo.init (fun _ => none) fun _ => none, none))).step
    (Step.start _ 0 (.write (some 7)) rfl) no).step (Step.lock _ 0 (.write (some 7)) ⟨⟨5, 0⟩, ⟨5, 0⟩⟩ rfl rfl) no
  have r2 := r1.step (Step.bodySpin _ 0 (WOp.write (some 7)) ⟨⟨5, 0⟩, ⟨5, 0⟩⟩ (Fifo.init (fun _ => none) fun _ => none, some (pass (.write (some 7)) ⟨⟨5, 0⟩, ⟨5, 0⟩⟩)) rfl rfl (by exact rfl)) no
  have r3 := r2.step (one _ _ _ _ _ ⟨⟨5, 0⟩, ⟨5, 0⟩⟩ rfl rfl rfl rfl) no
  have r4 := r3.step (one _ _ _ _ _ ⟨⟨5, 0⟩, ⟨5, 0⟩⟩ rfl rfl rfl rfl) no
  exact ⟨_, r4.step (Step.start _ 1 .read rfl) no, rfl, rfl, rfl, rfl⟩

end Verif.Interthread.Nodes
