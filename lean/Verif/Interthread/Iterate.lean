import Verif.Interthread.Queue

/-
Property C132: going through an `InterthreadQueue` with its iterators under the lock from `qGetLock` (`/repo/Interthread.h:134-141`), as the comments in lines 75-76, 110-111 and
134 recommend.

Any number of threads.  The calls of the queue are one step each, since they hold the lock of the queue (C22).  The loop of a client,
`for (it = q.begin(); it != q.end(); ++it) ...`, is made of the steps `begin`, `look` (the test and `*it`) and `advance`; the client takes and gives back the lock itself,
and may make calls of the queue in the body, as the mutex is recursive (`/repo/Threads.cpp:96`).  The elements of the list are nodes with their own identity: an iterator is
the identity of a node, and using one whose node was erased is undefined.  `connected`: the queue was connected to another one with `iqConnect`, so that its calls use another mutex
(`/repo/Interthread.h:129-135`).
-/

namespace Verif.Interthread.Iterate
open Verif Verif.Interthread

/-- A node of `std::list`. -/
structure Node where
  id : Nat
  val : Val
deriving DecidableEq

/-- Calls: `write`, `write_front`, `readNoBlock` or a `read` that finds an item, `clear`. -/
inductive Op
  | write (v : Val)
  | writeFront (v : Val)
  | read
  | clear
deriving DecidableEq

/-- A loop: the iterator (`none` is `end()`), whether the element was used and is to be left, and what was seen. -/
structure Cur where
  pos : Option Nat
  used : Bool
  seen : List Val
deriving DecidableEq

/-- The queue, `mLock` with its owner and `mLockCnt`, and the loops of the threads. -/
structure St where
  q : List Node
  fresh : Nat
  owner : Option Nat
  depth : Nat
  it : Nat → Option Cur

/-- What can be seen. -/
inductive Obs
  | did (t : Nat) (o : Op)
  | began (t : Nat)
  | ended (t : Nat) (seen : List Val)
deriving DecidableEq

/-- What happens. -/
inductive Ev
  | lock (t : Nat)
  | unlock (t : Nat)
  | op (t : Nat) (o : Op)
  | begin (t : Nat)
  | look (t : Nat)
  | advance (t : Nat)
deriving DecidableEq

/-- The effect of a call (`Interthread.h:189-193, 246-321`). -/
def apply (s : St) : Op → St
  | .write v => { s with q := s.q ++ [⟨s.fresh, v⟩], fresh := s.fresh + 1 }
  | .writeFront v => { s with q := ⟨s.fresh, v⟩ :: s.q, fresh := s.fresh + 1 }
  | .read => { s with q := s.q.tail }
  | .clear => { s with q := [] }

/-- The node after one: `none` if it is not in the list. -/
def after : List Node → Nat → Option (Option Nat)
  | [], _ => none
  | n :: l, i => if n.id = i then some (l.head?.map Node.id) else after l i

/-- Change the loop of a thread. -/
def St.loop (s : St) (t : Nat) (c : Option Cur) : St := { s with it := fun u => if u = t then c else s.it u }

/-- One event; `none`: it cannot happen now. -/
def happen (connected : Bool) (s : St) : Ev → Option (Outcome (St × List Obs))
  /- `qGetLock().lock()` (`Interthread.h:135`) -/
  | .lock t => if s.owner = none ∨ s.owner = some t then some (.ok ({ s with owner := some t, depth := s.depth + 1 }, [])) else none
  /- `qGetLock().unlock()` -/
  | .unlock t => if s.owner = some t then some (.ok ({ s with owner := if s.depth ≤ 1 then none else some t, depth := s.depth - 1 }, [])) else none
  /- the calls lock `*mLockPointer`, which is another mutex after `iqConnect` (`Interthread.h:129-132`) -/
  | .op t o => if connected ∨ s.owner = none ∨ s.owner = some t then some (.ok (apply s o, [.did t o])) else none
  /- `begin()` (`Interthread.h:138`) -/
  | .begin t => some (if s.depth = 0 then .assertFail else .ok (s.loop t (some ⟨s.q.head?.map Node.id, false, []⟩), [.began t]))
  /- `it != end()` (`Interthread.h:139`) and `*it` -/
  | .look t =>
    match s.it t with
    | some ⟨pos, false, seen⟩ => some (
      if s.depth = 0 then .assertFail
      else match pos with
        | none => .ok (s.loop t none, [.ended t seen])
        | some i =>
          match s.q.find? fun n => n.id = i with
          | none => .ub
          | some n => .ok (s.loop t (some ⟨pos, true, seen ++ [n.val]⟩), []))
    | _ => none
  /- `++it` -/
  | .advance t =>
    match s.it t with
    | some ⟨some i, true, seen⟩ => some (
      match after s.q i with
      | none => .ub
      | some p => .ok (s.loop t (some ⟨p, false, seen⟩), []))
    | _ => none

/-- An execution, with what is seen. -/
def exec (connected : Bool) (s : St) : List Ev → Option (Outcome (St × List Obs))
  | [] => some (.ok (s, []))
  | e :: es =>
    match happen connected s e with
    | none => none
    | some (.ok (s1, o1)) =>
      match exec connected s1 es with
      | none => none
      | some (.ok (s2, o2)) => some (.ok (s2, o1 ++ o2))
      | some r => some r
    | some r => some r

/-- A new queue. -/
def start : St := ⟨[], 0, none, 0, fun _ => none⟩

/-! ### Specification -/

/-- The ideal queue. -/
def idealOp (q : List Val) : Op → List Val
  | .write v => q ++ [v]
  | .writeFront v => v :: q
  | .read => q.tail
  | .clear => []

/-- The contents of the ideal queue, and for each thread what its loop is to see: what was in the queue when it began, and what it appended itself since. -/
def watch (x : List Val × (Nat → List Val)) : Obs → List Val × (Nat → List Val)
  | .did t (.write v) => (idealOp x.1 (.write v), fun u => if u = t then x.2 u ++ [v] else x.2 u)
  | .did _ o => (idealOp x.1 o, x.2)
  | .began t => (x.1, fun u => if u = t then x.1 else x.2 u)
  | .ended _ _ => x

/-- The same for all that was seen, from a new queue. -/
def watchAll (o : List Obs) : List Val × (Nat → List Val) := o.foldl watch ([], fun _ => [])

/-- Good use: a loop is run by the owner of the lock, the lock is not given back during a loop, and the calls in the body of a loop only add items. -/
def Good (s : St) : Ev → Prop
  | .begin t => s.owner = some t
  | .look t => s.owner = some t
  | .advance t => s.owner = some t
  | .unlock t => s.it t = none
  | .op t o => ∀ c, s.it t = some c → c.used = true ∧ (∃ v, o = .write v ∨ o = .writeFront v)
  | .lock _ => True

/-- All of an execution is good use. -/
def GoodRun (connected : Bool) (s : St) : List Ev → Prop
  | [] => True
  | e :: es => Good s e ∧ ∀ s1 o1, happen connected s e = some (.ok (s1, o1)) → GoodRun connected s1 es

/-! ### Proof -/

/-- A loop agrees with what it is to see: it stands before the rest `b` of the list. -/
def Fits (q : List Node) (want : List Val) (c : Cur) : Prop :=
  ∃ a b, q = a ++ b ∧ (if c.used then ∃ n l, b = n :: l ∧ c.pos = some n.id ∧ want = c.seen ++ l.map Node.val
    else c.pos = b.head?.map Node.id ∧ want = c.seen ++ b.map Node.val)

structure Inv (s : St) (x : List Val × (Nat → List Val)) : Prop where
  vals : x.1 = s.q.map Node.val
  nodup : (s.q.map Node.id).Nodup
  lt : ∀ n ∈ s.q, n.id < s.fresh
  free : s.owner = none ↔ s.depth = 0
  own : ∀ t c, s.it t = some c → s.owner = some t
  fits : ∀ t c, s.it t = some c → Fits s.q (x.2 t) c

theorem find_node {a l : List Node} {n : Node} (h : ((a ++ n :: l).map Node.id).Nodup) : (a ++ n :: l).find? (fun m => m.id = n.id) = some n := by
  induction a with
  | nil => simp
  | cons m a ih =>
    simp only [List.cons_append, List.map_cons, List.nodup_cons] at h
    rw [List.cons_append, List.find?_cons_of_neg (by
      simp only [decide_eq_true_eq]
      intro e
      exact h.1 (by rw [e]; simp)), ih h.2]

theorem after_node {a l : List Node} {n : Node} (h : ((a ++ n :: l).map Node.id).Nodup) : after (a ++ n :: l) n.id = some (l.head?.map Node.id) := by
  induction a with
  | nil => simp [after]
  | cons m a ih =>
    simp only [List.cons_append, List.map_cons, List.nodup_cons] at h
    rw [List.cons_append, after, if_neg (by
      intro e
      exact h.1 (by rw [e]; simp)), ih h.2]

theorem inv_apply {s : St} {x : List Val × (Nat → List Val)} (h : Inv s x) (t : Nat) (o : Op) (hw : s.owner = none ∨ s.owner = some t)
    (hg : ∀ c, s.it t = some c → c.used = true ∧ (∃ v, o = .write v ∨ o = .writeFront v)) : Inv (apply s o) (watch x (.did t o)) := by
  have alone : ∀ u c, s.it u = some c → u = t := by
    intro u c hc
    have := h.own u c hc
    rcases hw with hw | hw
    · rw [hw] at this; cases this
    · rw [hw] at this; exact (Option.some.inj this).symm
  cases o with
  | write v =>
    refine ⟨?_, ?_, ?_, h.free, h.own, ?_⟩
    · show x.1 ++ [v] = (s.q ++ [(⟨s.fresh, v⟩ : Node)]).map Node.val
      rw [h.vals]; simp
    · show ((s.q ++ [(⟨s.fresh, v⟩ : Node)]).map Node.id).Nodup
      rw [List.map_append, List.nodup_append]
      refine ⟨h.nodup, by simp, ?_⟩
      intro i hi j hj
      simp only [List.map_cons, List.map_nil, List.mem_singleton] at hj
      obtain ⟨n, hn, rfl⟩ := List.mem_map.1 hi
      have := h.lt n hn
      omega
    · intro n hn
      show n.id < s.fresh + 1
      rcases List.mem_append.1 hn with hn | hn
      · have := h.lt n hn; omega
      · rw [List.mem_singleton.1 hn]; exact Nat.lt_succ_self _
    · intro u c hc
      have hu := alone u c hc
      subst hu
      obtain ⟨hused, -⟩ := hg c hc
      obtain ⟨a, b, hq, hf⟩ := h.fits u c hc
      rw [if_pos hused] at hf
      obtain ⟨n, l, rfl, hp, hx⟩ := hf
      refine ⟨a, n :: (l ++ [(⟨s.fresh, v⟩ : Node)]), by show s.q ++ [(⟨s.fresh, v⟩ : Node)] = _; rw [hq]; simp, ?_⟩
      rw [if_pos hused]
      refine ⟨n, l ++ [(⟨s.fresh, v⟩ : Node)], rfl, hp, ?_⟩
      show (if u = u then x.2 u ++ [v] else x.2 u) = _
      rw [if_pos rfl, hx]; simp
  | writeFront v =>
    refine ⟨?_, ?_, ?_, h.free, h.own, ?_⟩
    · show v :: x.1 = (⟨s.fresh, v⟩ :: s.q : List Node).map Node.val
      rw [h.vals]; simp
    · show ((⟨s.fresh, v⟩ :: s.q : List Node).map Node.id).Nodup
      rw [List.map_cons, List.nodup_cons]
      refine ⟨?_, h.nodup⟩
      intro hi
      obtain ⟨n, hn, e⟩ := List.mem_map.1 hi
      have := h.lt n hn
      dsimp only at e
      omega
    · intro n hn
      show n.id < s.fresh + 1
      rcases List.mem_cons.1 hn with rfl | hn
      · exact Nat.lt_succ_self _
      · have := h.lt n hn; omega
    · intro u c hc
      have hu := alone u c hc
      subst hu
      obtain ⟨a, b, hq, hf⟩ := h.fits u c hc
      exact ⟨(⟨s.fresh, v⟩ : Node) :: a, b, by show (⟨s.fresh, v⟩ : Node) :: s.q = _; rw [hq]; rfl, hf⟩
  | read =>
    have none : ∀ u c, s.it u ≠ some c := by
      intro u c hc
      have := alone u c hc; subst this
      obtain ⟨-, v, e | e⟩ := hg c hc <;> cases e
    refine ⟨?_, ?_, ?_, h.free, h.own, fun u c hc => absurd hc (none u c)⟩
    · show x.1.tail = s.q.tail.map Node.val
      rw [h.vals, List.map_tail]
    · show (s.q.tail.map Node.id).Nodup
      rw [List.map_tail]
      exact h.nodup.sublist (List.tail_sublist _)
    · intro n hn
      exact h.lt n (List.mem_of_mem_tail hn)
  | clear =>
    have none : ∀ u c, s.it u ≠ some c := by
      intro u c hc
      have := alone u c hc; subst this
      obtain ⟨-, v, e | e⟩ := hg c hc <;> cases e
    exact ⟨rfl, List.nodup_nil, fun n hn => (nomatch hn), h.free, h.own, fun u c hc => absurd hc (none u c)⟩

theorem inv_loop {s : St} {x x' : List Val × (Nat → List Val)} (h : Inv s x) (t : Nat) (c : Option Cur) (hw : s.owner = some t) (h1 : x'.1 = x.1)
    (h2 : ∀ u, u ≠ t → x'.2 u = x.2 u) (hc : ∀ c', c = some c' → Fits s.q (x'.2 t) c') : Inv (s.loop t c) x' := by
  refine ⟨h1.trans h.vals, h.nodup, h.lt, h.free, ?_, ?_⟩
  · intro u c' hu
    by_cases e : u = t
    · rw [e]; exact hw
    · exact h.own u c' (by simpa [St.loop, e] using hu)
  · intro u c' hu
    by_cases e : u = t
    · subst e
      exact hc c' (by simpa [St.loop] using hu)
    · rw [h2 u e]
      exact h.fits u c' (by simpa [St.loop, e] using hu)

/-- One event of good use keeps the invariant, fails never, and a loop that ends has seen what it was to see. -/
theorem inv_happen {s : St} {x : List Val × (Nat → List Val)} (h : Inv s x) (e : Ev) (hg : Good s e) {r : Outcome (St × List Obs)}
    (hr : happen false s e = some r) : ∃ s' o, r = .ok (s', o) ∧ Inv s' (o.foldl watch x) ∧ ∀ t l, Obs.ended t l ∈ o → o = [.ended t l] ∧ l = x.2 t := by
  cases e with
  | lock t =>
    simp only [happen] at hr
    split at hr
    · next hf =>
      cases hr
      refine ⟨_, _, rfl, ⟨h.vals, h.nodup, h.lt, by simp, ?_, h.fits⟩, by simp⟩
      intro u c hc
      have := h.own u c hc
      rcases hf with hf | hf <;> rw [hf] at this
      · cases this
      · exact this
    · cases hr
  | unlock t =>
    simp only [happen] at hr
    split at hr
    · next hf =>
      cases hr
      refine ⟨_, _, rfl, ⟨h.vals, h.nodup, h.lt, ?_, ?_, h.fits⟩, by simp⟩
      · have : s.depth ≠ 0 := fun hd => by rw [h.free.2 hd] at hf; cases hf
        dsimp only
        split <;> simp <;> omega
      · intro u c hc
        have := h.own u c hc
        rw [hf] at this
        cases this
        have hn : s.it t = none := hg
        have hc : s.it t = some c := hc
        rw [hn] at hc; cases hc
    · cases hr
  | op t o =>
    simp only [happen] at hr
    split at hr
    · next hf =>
      cases hr
      refine ⟨_, _, rfl, ?_, by simp⟩
      exact inv_apply h t o (by simpa using hf) hg
    · cases hr
  | begin t =>
    have hw : s.owner = some t := hg
    have hd : s.depth ≠ 0 := fun hd => by rw [h.free.2 hd] at hw; cases hw
    simp only [happen, if_neg hd] at hr
    cases hr
    refine ⟨_, _, rfl, ?_, by simp⟩
    refine inv_loop h t _ hw rfl (fun u hu => by show (if u = t then _ else _) = _; rw [if_neg hu]) ?_
    intro c' hc'
    cases hc'
    refine ⟨[], s.q, rfl, ?_⟩
    rw [if_neg Bool.false_ne_true]
    refine ⟨rfl, ?_⟩
    show (if t = t then x.1 else x.2 t) = _
    rw [if_pos rfl, h.vals]; rfl
  | look t =>
    have hw : s.owner = some t := hg
    have hd : s.depth ≠ 0 := fun hd => by rw [h.free.2 hd] at hw; cases hw
    simp only [happen] at hr
    split at hr
    · next pos seen hit =>
      rw [if_neg hd] at hr
      obtain ⟨a, b, hq, hf⟩ := h.fits t _ hit
      rw [if_neg Bool.false_ne_true] at hf
      obtain ⟨hp, hx⟩ := hf
      dsimp only at hp hx
      cases b with
      | nil =>
        cases hp
        cases hr
        refine ⟨_, _, rfl, ?_, ?_⟩
        · exact inv_loop h t none hw rfl (fun _ _ => rfl) (fun c' hc' => by cases hc')
        · intro u l hl
          cases List.mem_singleton.1 hl
          exact ⟨rfl, by rw [hx]; simp⟩
      | cons n b =>
        cases hp
        have hn := h.nodup
        rw [hq] at hn
        rw [hq] at hr
        simp only [List.head?_cons, Option.map_some] at hr
        rw [find_node hn] at hr
        cases hr
        refine ⟨_, _, rfl, ?_, by simp⟩
        refine inv_loop h t _ hw rfl (fun _ _ => rfl) ?_
        intro c' hc'
        cases hc'
        refine ⟨a, n :: b, hq, ?_⟩
        rw [if_pos rfl]
        exact ⟨n, b, rfl, rfl, by show x.2 t = _; rw [hx]; simp⟩
    · cases hr
  | advance t =>
    have hw : s.owner = some t := hg
    simp only [happen] at hr
    split at hr
    · next i seen hit =>
      obtain ⟨a, b, hq, hf⟩ := h.fits t _ hit
      rw [if_pos rfl] at hf
      obtain ⟨n, l, rfl, hp, hx⟩ := hf
      cases hp
      have hn := h.nodup
      rw [hq] at hn
      rw [hq, after_node hn] at hr
      cases hr
      refine ⟨_, _, rfl, ?_, by simp⟩
      refine inv_loop h t _ hw rfl (fun _ _ => rfl) ?_
      intro c' hc'
      cases hc'
      refine ⟨a ++ [n], l, by rw [hq]; simp, ?_⟩
      rw [if_neg Bool.false_ne_true]
      exact ⟨rfl, hx⟩
    · cases hr

theorem exec_inv {s : St} {x : List Val × (Nat → List Val)} (h : Inv s x) (es : List Ev) (hg : GoodRun false s es) {r : Outcome (St × List Obs)}
    (hr : exec false s es = some r) : ∃ s' o, r = .ok (s', o) ∧ Inv s' (o.foldl watch x) ∧
      ∀ o1 t l o2, o = o1 ++ Obs.ended t l :: o2 → l = (o1.foldl watch x).2 t := by
  induction es generalizing s x r with
  | nil =>
    cases hr
    exact ⟨_, _, rfl, h, fun o1 t l o2 e => by simp at e⟩
  | cons e es ih =>
    unfold exec at hr
    cases h1 : happen false s e with
    | none => rw [h1] at hr; cases hr
    | some r1 =>
      obtain ⟨s1, o1, rfl, hi, ho⟩ := inv_happen h e hg.1 h1
      rw [h1] at hr
      dsimp only at hr
      cases h2 : exec false s1 es with
      | none => rw [h2] at hr; cases hr
      | some r2 =>
        obtain ⟨s2, o2, rfl, hi2, ho2⟩ := ih hi (hg.2 s1 o1 h1) h2
        rw [h2] at hr
        cases hr
        refine ⟨s2, o1 ++ o2, rfl, by rw [List.foldl_append]; exact hi2, ?_⟩
        intro p t l p2 hp
        rcases List.append_eq_append_iff.1 hp with ⟨k, hk, hk2⟩ | ⟨k, hk, hk2⟩
        · rw [hk, List.foldl_append]
          exact ho2 k t l p2 hk2
        · cases k with
          | nil =>
            rw [List.append_nil] at hk
            rw [← hk]
            exact ho2 [] t l p2 hk2.symm
          | cons y k =>
            cases hk2
            obtain ⟨he, hl⟩ := ho t l (by rw [hk]; simp)
            rw [he] at hk
            have : p = [] := by
              cases p with
              | nil => rfl
              | cons z p =>
                have := congrArg List.length hk
                simp at this
            subst this
            exact hl

/-- C132, partial: in every execution with any number of threads in which loops are run under the lock from `qGetLock`, nothing undefined happens, no assertion fails, and every
loop that ends has seen exactly the items that were in the queue when it began, in order, each once, followed by those its own body appended; whatever the other threads do.
Missing: queues that were connected (`C132_connected_refuted`), loops without the lock (`C132_unlocked_refuted`) and reads in the body (`C132_read_refuted`). -/
theorem C132_snapshot_partial (es : List Ev) (hg : GoodRun false start es) {r : Outcome (St × List Obs)} (hr : exec false start es = some r) :
    ∃ s o, r = .ok (s, o) ∧ (watchAll o).1 = s.q.map Node.val ∧ ∀ o1 t l o2, o = o1 ++ Obs.ended t l :: o2 → l = (watchAll o1).2 t := by
  have hi : Inv start ([], fun _ => []) := {
    vals := rfl
    nodup := List.nodup_nil
    lt := fun n hn => by cases hn
    free := by simp [start]
    own := fun t c hc => by cases hc
    fits := fun t c hc => by cases hc }
  obtain ⟨s, o, h1, h2, h3⟩ := exec_inv hi es hg hr
  exact ⟨s, o, h1, h2.vals, h3⟩

/-- C132: as long as a thread has the lock, no other thread changes the queue. -/
theorem C132_excludes {s : St} {t u : Nat} {o : Op} (h : s.owner = some t) (hu : u ≠ t) : happen false s (.op u o) = none ∧ happen false s (.lock u) = none := by
  have : ¬ (t = u) := fun e => hu e.symm
  simp [happen, h, this]

/-- C132: the assertion in `begin()` fails exactly if no thread has the lock. -/
theorem C132_assertion (connected : Bool) (s : St) (t : Nat) : happen connected s (.begin t) = some .assertFail ↔ s.depth = 0 := by
  simp only [happen]
  split <;> simp_all

/-- C132 fails for connected queues: thread 1 reads the item at which the loop of thread 0 stands, and going on is undefined, though thread 0 has the lock from `qGetLock`. -/
theorem C132_connected_refuted : GoodRun true start [.op 1 (.write (some 7)), .lock 0, .begin 0, .look 0, .op 1 .read, .advance 0] ∧
    exec true start [.op 1 (.write (some 7)), .lock 0, .begin 0, .look 0, .op 1 .read, .advance 0] = some .ub := by
  refine ⟨?_, rfl⟩
  refine ⟨fun c hc => (nomatch hc), ?_⟩
  rintro s o ⟨⟩
  refine ⟨trivial, ?_⟩
  rintro s o ⟨⟩
  refine ⟨rfl, ?_⟩
  rintro s o ⟨⟩
  refine ⟨rfl, ?_⟩
  rintro s o ⟨⟩
  refine ⟨fun c hc => (nomatch hc), ?_⟩
  rintro s o ⟨⟩
  refine ⟨rfl, ?_⟩
  rintro s o h
  cases h

/-- C132 fails without the lock, and the assertions do not tell: thread 0 begins while thread 1 has the lock. -/
theorem C132_unlocked_refuted : exec false start [.lock 1, .op 1 (.write (some 7)), .begin 0, .look 0, .op 1 .read, .advance 0] = some .ub := rfl

/-- C132 fails for a body that reads from the queue it goes through. -/
theorem C132_read_refuted : exec false start [.lock 0, .op 0 (.write (some 7)), .begin 0, .look 0, .op 0 .read, .advance 0] = some .ub := rfl

/-- Good use: the body appends an item, and another thread writes after the lock was given back. -/
example : GoodRun false start [.op 1 (.write (some 1)), .lock 0, .begin 0, .look 0, .op 0 (.write (some 3)), .advance 0, .look 0, .advance 0, .look 0, .unlock 0,
    .op 1 (.write (some 4))] := by
  refine ⟨fun c hc => (nomatch hc), ?_⟩
  rintro s o ⟨⟩
  refine ⟨trivial, ?_⟩
  rintro s o ⟨⟩
  refine ⟨rfl, ?_⟩
  rintro s o ⟨⟩
  refine ⟨rfl, ?_⟩
  rintro s o ⟨⟩
  refine ⟨fun c hc => ?_, ?_⟩
  · cases hc
    exact ⟨rfl, some 3, Or.inl rfl⟩
  rintro s o ⟨⟩
  refine ⟨rfl, ?_⟩
  rintro s o ⟨⟩
  refine ⟨rfl, ?_⟩
  rintro s o ⟨⟩
  refine ⟨rfl, ?_⟩
  rintro s o ⟨⟩
  refine ⟨rfl, ?_⟩
  rintro s o ⟨⟩
  refine ⟨rfl, ?_⟩
  rintro s o ⟨⟩
  refine ⟨fun c hc => (nomatch hc), ?_⟩
  rintro s o ⟨⟩
  trivial

/-- A loop over two items that appends a third when it meets the first; thread 1 writes before and after, not meanwhile. -/
example : (exec false start [.op 1 (.write (some 1)), .op 1 (.write (some 2)), .lock 0, .begin 0, .look 0, .op 0 (.write (some 3)), .advance 0, .look 0, .advance 0, .look 0, .advance 0, .look 0,
    .unlock 0, .op 1 (.write (some 4))]).map (fun r => match r with | .ok (s, o) => (s.q.map Node.val, o.filter fun e => e matches .ended _ _) | _ => ([], [])) =
    some ([some 1, some 2, some 3, some 4], [.ended 0 [some 1, some 2, some 3]]) := by decide +kernel

end Verif.Interthread.Iterate
