import Verif.Logger.Props

/-
Property C152: the alarm list when several threads log alarms and look at the list (`Logger.cpp:185-205`).
-/

namespace Verif.Logger.AlarmThreads
open Verif Verif.Config

/-! ### Model -/

/-- Where a thread is: outside; in `addAlarm` before the lock, before `push_back`, before `getNum`, in the loop (`Logger.cpp:200-204`); in `gGetLoggerAlarms` before the lock and in `copy` (`Logger.cpp:187-192`), with what
was copied so far.  `since` is only for the statements: how many alarms there were at the call. -/
inductive Pc where
  | idle
  | add (s : Str)
  | push (s : Str)
  | limit (s : Str)
  | trim (max : Nat)
  | look (since : Nat)
  | copy (since : Nat) (got : List Str)

/-- `alarmsList`; `alarmsLock`, a recursive mutex (`Threads.cpp:89-101`): its owner and how often it was taken; the value of `Log.Alarms.Max`, if it has one.
Only for the statements: the alarms in the order in which their limit was read, with thread and limit, and the results of looks at the list, with the number of alarms at the call. -/
structure St where
  list : List Str := []
  owner : Option Nat := none
  count : Nat := 0
  max : Option Int
  pc : Nat → Pc := fun _ => .idle
  hist : List (Nat × Str × Option Int) := []
  seen : List (Nat × Nat × List Str) := []

/-- A thread calls `addAlarm` or `gGetLoggerAlarms`, or goes one step further; the limit is changed. -/
inductive Ev where
  | alarm (t : Nat) (s : Str)
  | look (t : Nat)
  | run (t : Nat)
  | config (max : Option Int)

def put (f : Nat → Pc) (t : Nat) (p : Pc) : Nat → Pc := fun u => if u = t then p else f u

/-- `alarmsLock.lock()`; none if the thread has to wait. -/
def St.lock (s : St) (t : Nat) (p : Pc) : Option St :=
  if s.owner = none ∨ s.owner = some t then some { s with owner := some t, count := s.count + 1, pc := put s.pc t p } else none

/-- `alarmsLock.unlock()` and the return. -/
def St.unlock (s : St) (t : Nat) : St :=
  { s with owner := if s.count ≤ 1 then none else s.owner, count := s.count - 1, pc := put s.pc t .idle }

/-- A step of a thread (`Logger.cpp:185-205`).  If there is no limit, `getNum` throws and nothing unlocks (a compiler that ends the program at an exception in a destructor does so here). -/
def St.run (s : St) (t : Nat) : Option St :=
  match s.pc t with
  | .idle => none
  | .add x => s.lock t (.push x)
  | .push x => some { s with list := s.list ++ [x], pc := put s.pc t (.limit x) }
  | .limit x => some { s with hist := s.hist ++ [(t, x, s.max)], pc := put s.pc t (match s.max with | none => .idle | some n => .trim (uwrap32 n).toNat) }
  | .trim m => some (if s.list.length > m then { s with list := s.list.tail } else s.unlock t)
  | .look k => s.lock t (.copy k [])
  | .copy k got => some (match s.list[got.length]? with
    | some x => { s with pc := put s.pc t (.copy k (got ++ [x])) }
    | none => { s.unlock t with seen := s.seen ++ [(t, k, got)] })

def St.ev (s : St) : Ev → Option St
  | .alarm t x => match s.pc t with
    | .idle => some { s with pc := put s.pc t (.add x) }
    | _ => none
  | .look t => match s.pc t with
    | .idle => some { s with pc := put s.pc t (.look s.hist.length) }
    | _ => none
  | .run t => s.run t
  | .config m => some { s with max := m }

def exec (s : St) : List Ev → Option St
  | [] => some s
  | e :: es => (s.ev e).bind fun s' => exec s' es

/-! ### Specification -/

/-- The list after alarms one after the other, each with its limit. -/
def after (h : List (Nat × Str × Option Int)) : List Str :=
  h.foldl (fun l a => match a.2.2 with
    | none => l ++ [a.2.1]
    | some n => (l ++ [a.2.1]).drop (l.length + 1 - (n % 2 ^ 32).toNat)) []

/-- The alarms a thread has called for. -/
def called (t : Nat) : List Ev → List Str
  | [] => []
  | .alarm u x :: es => if u = t then x :: called t es else called t es
  | _ :: es => called t es

/-- The alarm a thread is busy with and whose limit was not read yet. -/
def Pc.open : Pc → List Str
  | .add x => [x]
  | .push x => [x]
  | .limit x => [x]
  | _ => []

/-! ### Invariant -/

/-- Between `lock` and `unlock`. -/
def Pc.inside : Pc → Bool
  | .push _ => true
  | .limit _ => true
  | .trim _ => true
  | .copy _ _ => true
  | _ => false

/-- What the list is when its owner is at a place. -/
def Expect (p : Pc) (list now : List Str) : Prop :=
  match p with
  | .limit x => list = now ++ [x]
  | .trim m => list.drop (list.length - m) = now
  | .copy _ got => list = now ∧ got <+: list
  | _ => list = now

structure Inv (s : St) : Prop where
  zero : s.owner = none ↔ s.count = 0
  mine : ∀ t, (s.pc t).inside = true → s.owner = some t
  free : s.owner = none → s.list = after s.hist
  held : ∀ t, s.owner = some t → Expect (s.pc t) s.list (after s.hist)
  since : ∀ t k, (s.pc t = .look k ∨ ∃ got, s.pc t = .copy k got) → k ≤ s.hist.length
  seen : ∀ r ∈ s.seen, ∃ k, r.2.1 ≤ k ∧ k ≤ s.hist.length ∧ r.2.2 = after (s.hist.take k)

theorem put_same (f : Nat → Pc) (t : Nat) (p : Pc) : put f t p t = p := by simp [put]

theorem put_ne {f : Nat → Pc} {t u : Nat} {p : Pc} (h : u ≠ t) : put f t p u = f u := by simp [put, h]

theorem after_append (h : List (Nat × Str × Option Int)) (t : Nat) (x : Str) (m : Option Int) :
    after (h ++ [(t, x, m)]) = match m with
      | none => after h ++ [x]
      | some n => (after h ++ [x]).drop ((after h).length + 1 - (n % 2 ^ 32).toNat) := by
  unfold after
  rw [List.foldl_append]
  rfl

theorem lock_inv {s s' : St} {t : Nat} {p : Pc} (h : Inv s) (hl : s.lock t p = some s') (hq : (s.pc t).inside = false) (he : ∀ l, Expect p l l)
    (hs : ∀ k, (p = .look k ∨ ∃ got, p = .copy k got) → k ≤ s.hist.length) : Inv s' := by
  unfold St.lock at hl
  split at hl
  · rename_i ho
    cases hl
    have hlist : s.list = after s.hist := by
      rcases ho with ho | ho
      · exact h.free ho
      · have := h.held t ho
        cases hpc : s.pc t <;> rw [hpc] at this hq <;> first | exact this | cases hq
    refine ⟨by simp, ?_, by simp, ?_, ?_, h.seen⟩
    · intro u hu
      by_cases hut : u = t
      · subst hut; rfl
      · simp only [put_ne hut] at hu
        have := h.mine u hu
        rcases ho with ho | ho
        · rw [ho] at this; cases this
        · rw [ho] at this; exact absurd (Option.some.inj this).symm hut
    · intro u hu
      simp only [Option.some.injEq] at hu
      subst hu
      simp only [put_same]
      show Expect p s.list (after s.hist)
      rw [hlist]
      exact he _
    · intro u k hk
      by_cases hut : u = t
      · subst hut
        simp only [put_same] at hk
        exact hs k hk
      · simp only [put_ne hut] at hk
        exact h.since u k hk
  · cases hl

theorem unlock_inv {s : St} {t : Nat} (h : Inv s) (ho : s.owner = some t) (hl : s.list = after s.hist) : Inv (s.unlock t) := by
  have hc : s.count ≠ 0 := fun e => by rw [h.zero.2 e] at ho; cases ho
  unfold St.unlock
  refine ⟨?_, ?_, fun _ => hl, ?_, ?_, h.seen⟩
  · simp only
    split
    · constructor
      · intro _; omega
      · intro _; rfl
    · rw [ho]
      constructor
      · intro e; cases e
      · intro e; omega
  · intro u hu
    by_cases hut : u = t
    · subst hut; simp only [put_same] at hu; cases hu
    · simp only [put_ne hut] at hu
      have := h.mine u hu
      rw [ho] at this
      exact absurd (Option.some.inj this).symm hut
  · intro u hu
    simp only at hu
    split at hu
    · cases hu
    · rw [ho] at hu
      cases Option.some.inj hu
      simp only [put_same]
      exact hl
  · intro u k hk
    by_cases hut : u = t
    · subst hut
      simp only [put_same] at hk
      rcases hk with hk | ⟨_, hk⟩ <;> cases hk
    · simp only [put_ne hut] at hk
      exact h.since u k hk

/-- A step inside changes the list and the place of the owner. -/
theorem inside_inv {s : St} {t : Nat} {p : Pc} {list : List Str} (h : Inv s) (ho : s.owner = some t) (he : Expect p list (after s.hist)) (hk : ∀ k, (p = .look k ∨ ∃ got, p = .copy k got) → k ≤ s.hist.length) :
    Inv { s with list := list, pc := put s.pc t p } := by
  refine ⟨h.zero, ?_, fun e => ?_, ?_, ?_, h.seen⟩
  · intro u hu
    by_cases hut : u = t
    · subst hut; exact ho
    · simp only [put_ne hut] at hu
      exact h.mine u hu
  · simp only at e; rw [ho] at e; cases e
  · intro u hu
    simp only at hu
    rw [ho] at hu
    cases Option.some.inj hu
    simp only [put_same]
    exact he
  · intro u k hu
    by_cases hut : u = t
    · subst hut
      simp only [put_same] at hu
      exact hk k hu
    · simp only [put_ne hut] at hu
      exact h.since u k hu

theorem uwrap_nat (n : Int) : (uwrap32 n).toNat = (n % 2 ^ 32).toNat := rfl

theorem run_inv {s s' : St} {t : Nat} (h : Inv s) (hr : s.run t = some s') : Inv s' := by
  unfold St.run at hr
  cases hpc : s.pc t with
  | idle => rw [hpc] at hr; cases hr
  | add x =>
    rw [hpc] at hr
    exact lock_inv h hr (by rw [hpc]; rfl) (fun _ => rfl) (fun k hk => by rcases hk with hk | ⟨_, hk⟩ <;> cases hk)
  | look k =>
    rw [hpc] at hr
    refine lock_inv h hr (by rw [hpc]; rfl) (fun l => ⟨rfl, List.nil_prefix⟩) (fun k' hk => ?_)
    rcases hk with hk | ⟨_, hk⟩
    · cases hk
    · cases hk; exact h.since t k (.inl hpc)
  | push x =>
    rw [hpc] at hr
    cases hr
    have ho := h.mine t (by rw [hpc]; rfl)
    have he := h.held t ho
    rw [hpc] at he
    exact inside_inv h ho (by show s.list ++ [x] = after s.hist ++ [x]; rw [show s.list = after s.hist from he]) (fun k hk => by rcases hk with hk | ⟨_, hk⟩ <;> cases hk)
  | limit x =>
    rw [hpc] at hr
    cases hr
    have ho := h.mine t (by rw [hpc]; rfl)
    have he := h.held t ho
    rw [hpc] at he
    have he : s.list = after s.hist ++ [x] := he
    refine ⟨h.zero, ?_, fun e => ?_, ?_, ?_, ?_⟩
    · intro u hu
      by_cases hut : u = t
      · subst hut; exact ho
      · simp only [put_ne hut] at hu
        exact h.mine u hu
    · simp only at e; rw [ho] at e; cases e
    · intro u hu
      simp only at hu
      rw [ho] at hu
      cases Option.some.inj hu
      simp only [put_same]
      rw [after_append]
      cases hm : s.max with
      | none => exact he
      | some n =>
        simp only
        show s.list.drop (s.list.length - (uwrap32 n).toNat) = _
        rw [he, uwrap_nat]
        simp
    · intro u k hu
      by_cases hut : u = t
      · subst hut
        simp only [put_same] at hu
        exfalso
        cases hm : s.max <;> rw [hm] at hu <;> (rcases hu with hu | ⟨_, hu⟩ <;> cases hu)
      · simp only [put_ne hut] at hu
        have := h.since u k hu
        show k ≤ (s.hist ++ [(t, x, s.max)]).length
        rw [List.length_append]
        omega
    · intro r hr
      obtain ⟨k, h1, h2, h3⟩ := h.seen r hr
      refine ⟨k, h1, ?_, ?_⟩
      · show k ≤ (s.hist ++ [(t, x, s.max)]).length
        rw [List.length_append]; omega
      · show r.2.2 = after ((s.hist ++ [(t, x, s.max)]).take k)
        rw [List.take_append_of_le_length h2]; exact h3
  | trim m =>
    rw [hpc] at hr
    cases hr
    have ho := h.mine t (by rw [hpc]; rfl)
    have he := h.held t ho
    rw [hpc] at he
    have he : s.list.drop (s.list.length - m) = after s.hist := he
    by_cases hlen : s.list.length > m
    · rw [if_pos hlen]
      have := inside_inv (p := .trim m) (list := s.list.tail) h ho (by
        show s.list.tail.drop (s.list.tail.length - m) = after s.hist
        rw [← he, List.length_tail, ← List.drop_one, List.drop_drop]
        congr 1
        omega) (fun k hk => by rcases hk with hk | ⟨_, hk⟩ <;> cases hk)
      have e : put s.pc t (.trim m) = s.pc := by
        funext u
        unfold put
        split
        · rename_i hu; rw [hu, hpc]
        · rfl
      rw [e] at this
      exact this
    · rw [if_neg hlen]
      refine unlock_inv h ho ?_
      rw [← he, show s.list.length - m = 0 by omega, List.drop_zero]
  | copy k got =>
    rw [hpc] at hr
    cases hr
    have ho := h.mine t (by rw [hpc]; rfl)
    have he := h.held t ho
    rw [hpc] at he
    obtain ⟨he, hg⟩ : s.list = after s.hist ∧ got <+: s.list := he
    obtain ⟨rest, hrest⟩ := hg
    cases rest with
    | nil =>
      rw [List.append_nil] at hrest
      have : s.list[got.length]? = none := by rw [← hrest]; simp
      rw [this]
      have hu := unlock_inv h ho he
      refine ⟨hu.zero, hu.mine, hu.free, hu.held, hu.since, ?_⟩
      intro r hr
      rcases List.mem_append.1 hr with hr | hr
      · exact h.seen r hr
      · rw [List.mem_singleton] at hr
        subst hr
        exact ⟨s.hist.length, h.since t k (.inr ⟨got, hpc⟩), Nat.le_refl _, by show got = after (s.hist.take s.hist.length); rw [List.take_length, ← he, hrest]⟩
    | cons x rest =>
      have : s.list[got.length]? = some x := by rw [← hrest]; simp
      rw [this]
      exact inside_inv h ho (list := s.list) ⟨he, rest, by simpa using hrest⟩ (fun k' hk => by
        rcases hk with hk | ⟨_, hk⟩
        · cases hk
        · cases hk; exact h.since t k (.inr ⟨got, hpc⟩))

/-- A call outside the lock. -/
theorem call_inv {s : St} {t : Nat} {p : Pc} (h : Inv s) (hi : s.pc t = .idle) (hp : p.inside = false) (hk : ∀ k, (p = .look k ∨ ∃ got, p = .copy k got) → k ≤ s.hist.length) (he : ∀ l, Expect p l l) :
    Inv { s with pc := put s.pc t p } := by
  refine ⟨h.zero, ?_, h.free, ?_, ?_, h.seen⟩
  · intro u hu
    by_cases hut : u = t
    · subst hut; simp only [put_same] at hu; rw [hp] at hu; cases hu
    · simp only [put_ne hut] at hu; exact h.mine u hu
  · intro u hu
    by_cases hut : u = t
    · subst hut
      simp only [put_same]
      have := h.held u hu
      rw [hi] at this
      have : s.list = after s.hist := this
      show Expect p s.list (after s.hist)
      rw [this]
      exact he _
    · simp only [put_ne hut]; exact h.held u hu
  · intro u k hu
    by_cases hut : u = t
    · subst hut; simp only [put_same] at hu; exact hk k hu
    · simp only [put_ne hut] at hu; exact h.since u k hu

theorem ev_inv {s s' : St} {e : Ev} (h : Inv s) (he : s.ev e = some s') : Inv s' := by
  cases e with
  | alarm t x =>
    simp only [St.ev] at he
    split at he
    · rename_i hi
      cases he
      exact call_inv h hi rfl (fun k hk => by rcases hk with hk | ⟨_, hk⟩ <;> cases hk) (fun _ => rfl)
    · cases he
  | look t =>
    simp only [St.ev] at he
    split at he
    · rename_i hi
      cases he
      exact call_inv h hi rfl (fun k hk => by
        rcases hk with hk | ⟨_, hk⟩
        · cases hk; exact Nat.le_refl _
        · cases hk) (fun _ => rfl)
    · cases he
  | run t => exact run_inv h he
  | config m =>
    cases he
    exact ⟨h.zero, h.mine, h.free, h.held, h.since, h.seen⟩

theorem start_inv (max : Option Int) : Inv { max := max } := ⟨by simp, fun t h => by simp [Pc.inside] at h, fun _ => rfl, fun t h => by simp at h, fun t k h => by simp at h, fun r h => by simp at h⟩

theorem exec_inv {s s' : St} (es : List Ev) (h : Inv s) (he : exec s es = some s') : Inv s' := by
  induction es generalizing s with
  | nil => cases he; exact h
  | cons e es ih =>
    simp only [exec] at he
    cases h1 : s.ev e with
    | none => rw [h1] at he; cases he
    | some s1 => rw [h1] at he; exact ih (ev_inv h h1) he

/-! ### C152 -/

/-- Whatever the threads do and however the limit changes meanwhile: when no thread has the lock, the list is what the alarms make of it one after the other, in the order in which their limits were read.
Every look at the list returned what the list was after some of these alarms, and these include all that were in it when the look began. -/
theorem C152_turns (max : Option Int) (es : List Ev) (s : St) (h : exec { max := max } es = some s) :
    (s.owner = none → s.list = after s.hist) ∧ ∀ r ∈ s.seen, ∃ k, r.2.1 ≤ k ∧ k ≤ s.hist.length ∧ r.2.2 = after (s.hist.take k) :=
  ⟨(exec_inv es (start_inv max) h).free, (exec_inv es (start_inv max) h).seen⟩

/-- No alarm is lost, none is entered twice, and each thread's alarms stay in their order. -/
theorem C152_each (max : Option Int) (es : List Ev) (s : St) (h : exec { max := max } es = some s) (t : Nat) :
    (s.hist.filter fun a => a.1 = t).map (fun a => a.2.1) ++ (s.pc t).open = called t es := by
  suffices ∀ (es : List Ev) (s0 s : St), exec s0 es = some s → (s.hist.filter fun a => a.1 = t).map (fun a => a.2.1) ++ (s.pc t).open = (s0.hist.filter fun a => a.1 = t).map (fun a => a.2.1) ++ (s0.pc t).open ++ called t es by
    simpa [Pc.open] using this es _ s h
  intro es
  induction es with
  | nil => intro s0 s h; cases h; simp [called]
  | cons e es ih =>
    intro s0 s h
    simp only [exec] at h
    cases h1 : s0.ev e with
    | none => rw [h1] at h; cases h
    | some s1 =>
      rw [h1] at h
      rw [ih s1 s h]
      have lock : ∀ (u : Nat) (p q : Pc), s0.pc u = q → p.open = q.open → s0.lock u p = some s1 →
          (s1.hist.filter fun a => a.1 = t).map (fun a => a.2.1) ++ (s1.pc t).open = (s0.hist.filter fun a => a.1 = t).map (fun a => a.2.1) ++ (s0.pc t).open := by
        intro u p q hq hpq hl
        unfold St.lock at hl
        split at hl
        · cases hl
          by_cases hut : t = u
          · subst hut; simp only [put_same]; rw [hq, hpq]
          · simp only [put_ne hut]
        · cases hl
      have move : ∀ (u : Nat) (p q : Pc), s0.pc u = q → p.open = q.open → s1.hist = s0.hist → s1.pc = put s0.pc u p →
          (s1.hist.filter fun a => a.1 = t).map (fun a => a.2.1) ++ (s1.pc t).open = (s0.hist.filter fun a => a.1 = t).map (fun a => a.2.1) ++ (s0.pc t).open := by
        intro u p q hq hpq hh hpc
        rw [hh, hpc]
        by_cases hut : t = u
        · subst hut; rw [put_same, hq, hpq]
        · rw [put_ne hut]
      cases e with
      | alarm u x =>
        simp only [St.ev] at h1
        split at h1
        · rename_i hi
          cases h1
          by_cases hut : u = t
          · subst hut; simp [put_same, hi, Pc.open, called]
          · simp [put_ne (Ne.symm hut), called, hut]
        · cases h1
      | look u =>
        simp only [St.ev] at h1
        split at h1
        · rename_i hi
          cases h1
          rw [move u (.look s0.hist.length) _ hi rfl rfl rfl]
          simp [called]
        · cases h1
      | config m => cases h1; simp [called]
      | run u =>
        simp only [called]
        congr 1
        simp only [St.ev, St.run] at h1
        cases hpc : s0.pc u with
        | idle => rw [hpc] at h1; cases h1
        | add x => rw [hpc] at h1; exact lock u (.push x) _ hpc rfl h1
        | look k => rw [hpc] at h1; exact lock u (.copy k []) _ hpc rfl h1
        | push x => rw [hpc] at h1; cases h1; exact move u (.limit x) _ hpc rfl rfl rfl
        | limit x =>
          rw [hpc] at h1
          cases h1
          by_cases hut : u = t
          · subst hut
            simp only [put_same, hpc]
            cases s0.max <;> simp [Pc.open]
          · simp [put_ne (Ne.symm hut), hut]
        | trim m =>
          rw [hpc] at h1
          cases h1
          split
          · rfl
          · simp only [St.unlock]
            by_cases hut : t = u
            · subst hut; simp [put_same, hpc, Pc.open]
            · simp only [put_ne hut]
        | copy k got =>
          rw [hpc] at h1
          cases h1
          split
          · by_cases hut : t = u
            · subst hut; simp [put_same, hpc, Pc.open]
            · simp only [put_ne hut]
          · simp only [St.unlock]
            by_cases hut : t = u
            · subst hut; simp [put_same, hpc, Pc.open]
            · simp only [put_ne hut]

/-- With a limit that stays: whenever no thread has the lock, the list holds the newest alarms of all threads together. -/
theorem C152_newest_partial (m : Nat) (hm : m < 2 ^ 32) (es : List Ev) (hc : ∀ e ∈ es, ∀ x, e ≠ .config x) (s : St) (h : exec { max := some (m : Int) } es = some s) :
    (s.owner = none → s.list = (s.hist.map fun a => a.2.1).drop (s.hist.length - m)) ∧
      ∀ r ∈ s.seen, ∃ k, r.2.1 ≤ k ∧ k ≤ s.hist.length ∧ r.2.2 = ((s.hist.take k).map fun a => a.2.1).drop (k - m) := by
  have hmax : ∀ (es : List Ev) (s0 s : St), (∀ e ∈ es, ∀ x, e ≠ .config x) → s0.max = some (m : Int) → (∀ a ∈ s0.hist, a.2.2 = some (m : Int)) → exec s0 es = some s → ∀ a ∈ s.hist, a.2.2 = some (m : Int) := by
    intro es
    induction es with
    | nil => intro s0 s _ _ hh h; cases h; exact hh
    | cons e es ih =>
      intro s0 s hc h0 hh h
      simp only [exec] at h
      cases h1 : s0.ev e with
      | none => rw [h1] at h; cases h
      | some s1 =>
        rw [h1] at h
        have both : s1.max = some (m : Int) ∧ ∀ a ∈ s1.hist, a.2.2 = some (m : Int) := by
          cases e with
          | alarm u x =>
            simp only [St.ev] at h1
            split at h1
            · cases h1; exact ⟨h0, hh⟩
            · cases h1
          | look u =>
            simp only [St.ev] at h1
            split at h1
            · cases h1; exact ⟨h0, hh⟩
            · cases h1
          | config x => exact absurd rfl (hc (.config x) (by simp) x)
          | run u =>
            simp only [St.ev, St.run, St.lock, St.unlock] at h1
            split at h1
            · cases h1
            · split at h1
              · cases h1; exact ⟨h0, hh⟩
              · cases h1
            · cases h1; exact ⟨h0, hh⟩
            · cases h1
              refine ⟨h0, fun a ha => ?_⟩
              rcases List.mem_append.1 ha with ha | ha
              · exact hh a ha
              · rw [List.mem_singleton] at ha; subst ha; exact h0
            · cases h1
              split
              · exact ⟨h0, hh⟩
              · exact ⟨h0, hh⟩
            · split at h1
              · cases h1; exact ⟨h0, hh⟩
              · cases h1
            · cases h1
              split
              · exact ⟨h0, hh⟩
              · exact ⟨h0, hh⟩
        exact ih s1 s (fun e he => hc e (by simp [he])) both.1 both.2 h
  have hall := hmax es _ s hc rfl (by simp) h
  have hafter : ∀ l : List (Nat × Str × Option Int), (∀ a ∈ l, a.2.2 = some (m : Int)) → after l = (l.map fun a => a.2.1).drop (l.length - m) := by
    intro l
    generalize hn : l.length = n
    induction n generalizing l with
    | zero => intro _; rw [List.length_eq_zero_iff.1 hn]; simp [after]
    | succ n ih =>
      intro hl
      obtain ⟨l', a, rfl⟩ : ∃ l' a, l = l' ++ [a] := ⟨l.dropLast, l.getLast (by intro e; rw [e] at hn; cases hn), (List.dropLast_concat_getLast _).symm⟩
      obtain ⟨t, x, lim⟩ := a
      have hx : lim = some (m : Int) := hl (t, x, lim) (by simp)
      subst hx
      have hn' : l'.length = n := by simpa using hn
      rw [after_append, ih l' hn' fun a ha => hl a (by simp [ha])]
      simp only
      have e : ((m : Int) % 2 ^ 32).toNat = m := by omega
      rw [e, List.length_drop, List.length_map, hn', List.map_append]
      by_cases hmn : n ≤ m
      · rw [show n - m = 0 by omega]
        simp only [List.drop_zero, List.map_cons, List.map_nil]
        congr 1
      · rw [show n + 1 - m = (n - m) + 1 by omega, ← List.drop_append_of_le_length (by simp; omega), List.drop_drop]
        simp only [List.map_cons, List.map_nil]
        congr 1
        omega
  obtain ⟨h1, h2⟩ := C152_turns _ es s h
  refine ⟨fun ho => by rw [h1 ho]; exact hafter _ hall, fun r hr => ?_⟩
  obtain ⟨k, g1, g2, g3⟩ := h2 r hr
  refine ⟨k, g1, g2, ?_⟩
  rw [g3, hafter _ fun a ha => hall a (List.mem_of_mem_take ha), List.length_take, Nat.min_eq_left g2]

/-- Without a limit in the configuration: after one alarm of a thread, and whatever follows, every other thread's alarm or look at the list waits for ever; only that thread itself can go on. -/
theorem C152_undefined_refuted (t u : Nat) (htu : u ≠ t) (x : Str) (es : List Ev) :
    ∃ s1, exec { max := none } [.alarm t x, .run t, .run t, .run t] = some s1 ∧ s1.pc t = .idle ∧ ∀ s, exec s1 es = some s → (s.pc u).inside = false ∧ (∀ a ∈ s.hist, a.1 = t) ∧ ∀ r ∈ s.seen, r.1 = t := by
  refine ⟨{ list := [x], owner := some t, count := 1, max := none, pc := put (put (put (put (fun _ => .idle) t (.add x)) t (.push x)) t (.limit x)) t .idle, hist := [(t, x, none)] },
    by simp [exec, St.ev, St.run, St.lock, put_same], by simp [put], ?_⟩
  suffices ∀ (es : List Ev) (s0 s : St), (s0.owner = some t ∧ (if (s0.pc t).inside then 1 else 0) < s0.count ∧ (∀ v, v ≠ t → (s0.pc v).inside = false) ∧ (∀ a ∈ s0.hist, a.1 = t) ∧ ∀ r ∈ s0.seen, r.1 = t) →
      exec s0 es = some s → (s.owner = some t ∧ (if (s.pc t).inside then 1 else 0) < s.count ∧ (∀ v, v ≠ t → (s.pc v).inside = false) ∧ (∀ a ∈ s.hist, a.1 = t) ∧ ∀ r ∈ s.seen, r.1 = t) by
    intro s h
    obtain ⟨-, -, h3, h4, h5⟩ := this es _ s ⟨rfl, by simp [put, Pc.inside], fun v hv => by simp [put, hv, Pc.inside], fun a ha => by simp at ha; rw [ha], fun r hr => by simp at hr⟩ h
    exact ⟨h3 u htu, h4, h5⟩
  intro es
  induction es with
  | nil => intro s0 s h0 h; cases h; exact h0
  | cons e es ih =>
    intro s0 s h0 h
    simp only [exec] at h
    cases h1 : s0.ev e with
    | none => rw [h1] at h; cases h
    | some s1 =>
      rw [h1] at h
      refine ih s1 s ?_ h
      obtain ⟨ho, hcnt, hout, hh, hs⟩ := h0
      have call : ∀ (v : Nat) (p : Pc), s0.pc v = .idle → p.inside = false → s1 = { s0 with pc := put s0.pc v p } →
          (s1.owner = some t ∧ (if (s1.pc t).inside then 1 else 0) < s1.count ∧ (∀ v, v ≠ t → (s1.pc v).inside = false) ∧ (∀ a ∈ s1.hist, a.1 = t) ∧ ∀ r ∈ s1.seen, r.1 = t) := by
        rintro v p hi hp rfl
        refine ⟨ho, ?_, ?_, hh, hs⟩
        · by_cases hv : t = v
          · subst hv
            simp only [put_same, hp]
            rw [hi] at hcnt
            exact hcnt
          · simp only [put_ne hv]; exact hcnt
        · intro w hw
          by_cases hv : w = v
          · subst hv; simp only [put_same]; exact hp
          · simp only [put_ne hv]; exact hout w hw
      cases e with
      | alarm v y =>
        simp only [St.ev] at h1
        split at h1
        · rename_i hi; cases h1; exact call v _ hi rfl rfl
        · cases h1
      | look v =>
        simp only [St.ev] at h1
        split at h1
        · rename_i hi; cases h1; exact call v _ hi rfl rfl
        · cases h1
      | config m => cases h1; exact ⟨ho, hcnt, hout, hh, hs⟩
      | run v =>
        simp only [St.ev] at h1
        by_cases hv : v = t
        · subst hv
          have rest : ∀ p : Pc, ∀ w, w ≠ v → (put s0.pc v p w).inside = false := fun p w hw => by rw [put_ne hw]; exact hout w hw
          unfold St.run at h1
          cases hpc : s0.pc v with
          | idle => rw [hpc] at h1; cases h1
          | add y =>
            rw [hpc] at h1
            simp only [St.lock, ho, or_true, if_true] at h1
            cases h1
            refine ⟨rfl, ?_, rest _, hh, hs⟩
            rw [hpc] at hcnt
            simp only [put_same, Pc.inside, Bool.false_eq_true, if_false, if_true] at hcnt ⊢
            omega
          | look k =>
            rw [hpc] at h1
            simp only [St.lock, ho, or_true, if_true] at h1
            cases h1
            refine ⟨rfl, ?_, rest _, hh, hs⟩
            rw [hpc] at hcnt
            simp only [put_same, Pc.inside, Bool.false_eq_true, if_false, if_true] at hcnt ⊢
            omega
          | push y =>
            rw [hpc] at h1 hcnt
            cases h1
            exact ⟨ho, by simpa [put_same, Pc.inside] using hcnt, rest _, hh, hs⟩
          | limit y =>
            rw [hpc] at h1 hcnt
            cases h1
            refine ⟨ho, ?_, rest _, fun a ha => ?_, hs⟩
            · simp only [put_same, Pc.inside, if_true] at hcnt ⊢
              cases s0.max <;> simp only [Bool.false_eq_true, if_false, if_true] <;> omega
            · rcases List.mem_append.1 ha with ha | ha
              · exact hh a ha
              · rw [List.mem_singleton] at ha; subst ha; rfl
          | trim m =>
            rw [hpc] at h1 hcnt
            cases h1
            simp only [Pc.inside, if_true] at hcnt
            split
            · exact ⟨ho, by simpa [hpc, Pc.inside] using hcnt, hout, hh, hs⟩
            · refine ⟨?_, ?_, rest _, hh, hs⟩
              · simp only [St.unlock]; rw [if_neg (by omega)]; exact ho
              · simp only [St.unlock, put_same, Pc.inside, Bool.false_eq_true, if_false]; omega
          | copy k got =>
            rw [hpc] at h1 hcnt
            cases h1
            simp only [Pc.inside, if_true] at hcnt
            split
            · exact ⟨ho, by simpa [put_same, Pc.inside] using hcnt, rest _, hh, hs⟩
            · refine ⟨?_, ?_, rest _, hh, fun r hr => ?_⟩
              · simp only [St.unlock]; rw [if_neg (by omega)]; exact ho
              · simp only [St.unlock, put_same, Pc.inside, Bool.false_eq_true, if_false]; omega
              · rcases List.mem_append.1 hr with hr | hr
                · exact hs r hr
                · rw [List.mem_singleton] at hr; subst hr; rfl
        · have hin := hout v hv
          have no : ∀ p, s0.lock v p = none := fun p => by
            unfold St.lock
            rw [if_neg]
            rw [ho]
            simp only [Option.some.injEq, reduceCtorEq, false_or]
            exact fun e => hv e.symm
          unfold St.run at h1
          cases hpc : s0.pc v with
          | idle => rw [hpc] at h1; cases h1
          | add y => rw [hpc] at h1; simp only [no] at h1; cases h1
          | look k => rw [hpc] at h1; simp only [no] at h1; cases h1
          | push y => rw [hpc] at hin; cases hin
          | limit y => rw [hpc] at hin; cases hin
          | trim m => rw [hpc] at hin; cases hin
          | copy k got => rw [hpc] at hin; cases hin

/-! ### Examples -/

/-- Two threads with a limit of one; the second has to wait, and drops the first one's alarm. -/
example : (exec { max := some 1 } [.alarm 0 (lit "a"), .alarm 1 (lit "b"), .run 0, .run 1]).isNone = true ∧
    (exec { max := some 1 } [.alarm 0 (lit "a"), .alarm 1 (lit "b"), .run 0, .run 0, .run 0, .run 0, .run 1, .run 1, .look 0, .run 1, .run 1, .run 1, .run 0, .run 0, .run 0]).map (fun s => (s.list, s.owner, s.count, s.hist, s.seen)) =
      some ([lit "b"], none, 0, [(0, lit "a", some 1), (1, lit "b", some 1)], [(0, 1, [lit "b"])]) := ⟨rfl, rfl⟩

/-- The thread whose alarm found no limit can go on itself. -/
example : (exec { max := none } [.alarm 0 (lit "a"), .run 0, .run 0, .run 0, .look 0, .run 0, .run 0, .run 0]).map (fun s => (s.list, s.owner, s.count, s.seen)) = some ([lit "a"], some 0, 1, [(0, 1, [lit "a"])]) ∧
    (exec { max := none } [.alarm 0 (lit "a"), .run 0, .run 0, .run 0, .look 1, .run 1]).isNone = true := ⟨rfl, rfl⟩

end Verif.Logger.AlarmThreads
