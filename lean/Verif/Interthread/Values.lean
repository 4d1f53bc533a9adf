import Verif.Interthread.Together
import Verif.Threads.Guarded

/-
Property C180: what threads read from the data they hand over, give to threads, get back with `join` or guard with locks.  Memory is not assumed to be the same for all threads at all times: by C++
(6.9.2.1) a read may give any write that does not happen after it and is not hidden by another write that happens in between.  In programs that use the classes of `/repo/Threads.h` and `/repo/Interthread.h` as in
C174 and C179 this leaves one write for each read: the last one.
-/

namespace Verif.Values
open Verif

/-! ### What a read may give -/

section
variable {X V : Type} (uses : Nat → Option (X × Bool)) (hb : Nat → Nat → Prop) (x : X)

/-- A read at `k` may give what the write at `j` wrote: the write does not happen after the read, and no other write of `x` happens after the write and before the read (C++ 6.9.2.1: visible side
effects, and those the read races with). -/
def MaySee (j k : Nat) : Prop := uses j = some (x, true) ∧ j ≠ k ∧ ¬ hb k j ∧ ∀ l, uses l = some (x, true) → ¬ (hb j l ∧ hb l k)

/-- A read at `k` may give what was there at the beginning: no write of `x` happens before it. -/
def MaySeeFirst (k : Nat) : Prop := ∀ j, uses j = some (x, true) → ¬ hb j k

/-- Values of reads that memory may give; `v k` is what the use at `k` writes or reads, `v0` what was there at the beginning. -/
def Possible (v0 : V) (v : Nat → V) : Prop :=
  ∀ k, uses k = some (x, false) → (∃ j, MaySee uses hb x j k ∧ v k = v j) ∨ (MaySeeFirst uses hb x k ∧ v k = v0)

variable [DecidableEq X]

/-- What an ordinary memory, the same for all threads, contains at `x` before step `k`. -/
def plain (v0 : V) (v : Nat → V) : Nat → V
  | 0 => v0
  | k + 1 => if uses k = some (x, true) then v k else plain v0 v k

variable {uses hb x}

/-- It is what was written last. -/
theorem plain_last (v0 : V) (v : Nat → V) (k : Nat) :
    (∃ j, j < k ∧ uses j = some (x, true) ∧ (∀ l, j < l → l < k → uses l ≠ some (x, true)) ∧ plain uses x v0 v k = v j) ∨ ((∀ j, j < k → uses j ≠ some (x, true)) ∧ plain uses x v0 v k = v0) := by
  induction k with
  | zero => exact .inr ⟨fun j h => absurd h (Nat.not_lt_zero j), rfl⟩
  | succ k ih =>
    simp only [plain]
    split
    · rename_i h
      exact .inl ⟨k, Nat.lt_succ_self k, h, fun l h1 h2 => by omega, rfl⟩
    · rename_i h
      rcases ih with ⟨j, h1, h2, h3, h4⟩ | ⟨h1, h2⟩
      · refine .inl ⟨j, by omega, h2, fun l hl hk => ?_, h4⟩
        rcases Nat.lt_succ_iff_lt_or_eq.mp hk with hk | rfl
        · exact h3 l hl hk
        · exact h
      · refine .inr ⟨fun j hj => ?_, h2⟩
        rcases Nat.lt_succ_iff_lt_or_eq.mp hj with hj | rfl
        · exact h1 j hj
        · exact h

/-- If uses of which one writes are ordered, the reads give just what an ordinary memory gives. -/
theorem possible_iff (hlt : ∀ j k, hb j k → j < k) (hr : ∀ j k w w', j < k → uses j = some (x, w) → uses k = some (x, w') → (w = true ∨ w' = true) → hb j k) (v0 : V) (v : Nat → V) :
    Possible uses hb x v0 v ↔ ∀ k, uses k = some (x, false) → v k = plain uses x v0 v k := by
  constructor
  · intro h k hk
    rcases h k hk with ⟨j, ⟨h1, h2, h3, h4⟩, h5⟩ | ⟨h1, h2⟩
    · have hj : j < k := by
        rcases Nat.lt_or_gt_of_ne h2 with h | h
        · exact h
        · exact absurd (hr k j false true h hk h1 (.inr rfl)) h3
      rcases plain_last (uses := uses) (x := x) v0 v k with ⟨i, p1, p2, p3, p4⟩ | ⟨p1, -⟩
      · rw [p4, h5]
        rcases Nat.lt_trichotomy i j with h | rfl | h
        · exact absurd h1 (p3 j h hj)
        · rfl
        · exact absurd ⟨hr j i true true h h1 p2 (.inl rfl), hr i k true false p1 p2 hk (.inl rfl)⟩ (h4 i p2)
      · exact absurd h1 (p1 j hj)
    · rcases plain_last (uses := uses) (x := x) v0 v k with ⟨i, p1, p2, -, -⟩ | ⟨-, p2⟩
      · exact absurd (hr i k true false p1 p2 hk (.inl rfl)) (h1 i p2)
      · rw [p2, h2]
  · intro h k hk
    rw [h k hk]
    rcases plain_last (uses := uses) (x := x) v0 v k with ⟨i, p1, p2, p3, p4⟩ | ⟨p1, p2⟩
    · exact .inl ⟨i, ⟨p2, Nat.ne_of_lt p1, fun hh => absurd (hlt k i hh) (by omega), fun l hl ⟨a, b⟩ => p3 l (hlt i l a) (hlt l k b) hl⟩, p4⟩
    · exact .inr ⟨fun j hj hh => p1 j (hlt j k hh) hj, p2⟩
end

/-! ### Threads, mutexes, queues, maps, priority queues and semaphores -/

open Verif.Threads Verif.Threads.Own Verif.Together Verif.Interthread.HandOver

variable {I J X V : Type} {n : Nat}

/-- What the `k`th event uses. -/
def touched (tr : List (OEv I)) (k : Nat) : Option (Loc I × Bool) := tr[k]?.bind OEv.touches

theorem touched_some {tr : List (OEv I)} {k : Nat} {p : Loc I × Bool} (h : touched tr k = some p) : ∃ e, tr[k]? = some e ∧ e.touches = some p := by
  simpa [touched, Option.bind_eq_some_iff] using h

theorem hb_lt {tr : List (OEv I)} (j k : Nat) (h : HB tr j k) : j < k := by
  induction h with
  | order h | fork h | join h | mutex h => exact h
  | trans _ _ h h' => exact Nat.lt_trans h h'

/-- **C180** In the programs of C179 (threads are started and joined, mutexes locked, things handed over through queues, maps, priority queues and semaphores; everybody uses only what they have) each
read of a variable, a field of a `Thread` object or a block passed to a thread gives what was written last, whoever wrote it; and this is all that memory may give. -/
theorem C180_together [DecidableEq I] [DecidableEq J] {kind : J → Kind} {item : Nat → Nat} (hitem : Function.Surjective item) {w : WSt n I (fun j => (kind j).box)} (h : WReach May item w)
    (x : Loc (I ⊕ J)) (hx : ∀ i, x ≠ .record i) (v0 : V) (v : Nat → V) :
    Possible (touched w.g.tr) (HB w.g.tr) x v0 v ↔ ∀ k, touched w.g.tr k = some (x, false) → v k = plain (touched w.g.tr) x v0 v k := by
  refine possible_iff hb_lt (fun j k a b hjk hj hk hw => ?_) v0 v
  obtain ⟨e, h1, h2⟩ := touched_some hj
  obtain ⟨e', h3, h4⟩ := touched_some hk
  exact C179_no_race hitem h x hx j k e e' a b hjk h1 h3 h2 h4 hw

/-! ### Data guarded by a Mutex or an RWLock -/

/-- What the `k`th event uses. -/
def guardUse (tr : List (GEv n I J X)) (k : Nat) : Option (X × Bool) :=
  match tr[k]? with
  | some (.use _ x w) => some (x, w)
  | _ => none

theorem ghb_lt {tr : List (GEv n I J X)} (j k : Nat) (h : GHB tr j k) : j < k := by
  induction h with
  | order h | mutex h | rw h => exact h
  | trans _ _ h h' => exact Nat.lt_trans h h'

theorem guardUse_some {tr : List (GEv n I J X)} {k : Nat} {x : X} {w : Bool} (h : guardUse tr k = some (x, w)) : ∃ t, tr[k]? = some (.use t x w) := by
  simp only [guardUse] at h
  split at h
  · rename_i t y v hk
    simp only [Option.some.injEq, Prod.mk.injEq] at h
    obtain ⟨rfl, rfl⟩ := h
    exact ⟨t, hk⟩
  · simp at h

/-- **C180** In the programs of C174 (each variable has a `Mutex` or an `RWLock` that a thread has when it uses it, for an `RWLock` at least for reading when it reads and for writing when it writes) each
read gives what was written last. -/
theorem C180_guarded [DecidableEq I] [DecidableEq J] [DecidableEq X] {max : Nat} {guard : X → Guard I J} {g : GState n I J X} (h : GReach max guard Valid g) (x : X) (v0 : V) (v : Nat → V) :
    Possible (guardUse g.tr) (GHB g.tr) x v0 v ↔ ∀ k, guardUse g.tr k = some (x, false) → v k = plain (guardUse g.tr) x v0 v k := by
  refine possible_iff ghb_lt (fun j k a b hjk hj hk hw => ?_) v0 v
  obtain ⟨t, h1⟩ := guardUse_some hj
  obtain ⟨u, h2⟩ := guardUse_some hk
  exact C174_no_race h j k t u x a b hjk h1 h2 hw

/-! ### Examples of executions -/

/-- The first thread writes item 7, starts a thread, and sends it item 7; the other thread reads it. -/
def readBack : List (OEv (Unit ⊕ Unit)) := sent.dropLast ++ [.use 1 (.user 7) false]

theorem readBack_reach : ∃ w : WSt 2 Unit Q1, WReach May id w ∧ w.g.tr = readBack := by
  obtain ⟨w, h, hr, ht⟩ := (sent_reach May fun _ _ _ _ h => h).2.2.2
  have hm := C179_arrives (kind := fun _ => .queue) (item := id) Function.surjective_id h (j := ()) hr (Multiset.mem_singleton_self 7) false
  have ha := (winv_reach (B := Q1) (fun _ => Kind.queue.fair) Function.surjective_id h).act () 1 (by rw [hr]; exact fun e => nomatch e)
  have h' := h.ret 1 (fun s => { s with th := Function.update s.th 1 .idle, tr := s.tr ++ [.ret 1 .read (.ptr (some 7))] }) (Monitor.Step.ret _ 1 Interthread.QOp.read (Interthread.QRes.ptr (some 7)) hr)
  refine ⟨_, h'.step (.plain _ _ [.use 1 (.user 7) false] (.use _ 1 7 false ha.1 ha.2 hm) rfl ?_), ?_⟩
  · intro e he
    rw [List.mem_singleton] at he
    subst he
    refine ⟨trivial, fun j t e => ?_⟩
    obtain rfl : t = 1 := Fin.ext e
    rfl
  · show w.g.tr ++ _ = readBack
    rw [ht, readBack]

/- The other thread gets what the first thread wrote. -/
example (v0 : Nat) (v : Nat → Nat) (h : Possible (touched readBack) (HB readBack) (.user 7) v0 v) : v 11 = v 0 := by
  obtain ⟨w, hw, ht⟩ := readBack_reach
  have := C180_together (kind := fun _ => .queue) (item := id) Function.surjective_id hw (.user 7) (by simp) v0 v
  rw [ht] at this
  exact this.mp h 11 rfl

/- Threads that read side by side under an RWLock both get what was written before. -/
example (v0 : Nat) (v : Nat → Nat) (h : Possible (guardUse run2.tr) (GHB run2.tr) false v0 v) : v 5 = v 1 ∧ v 6 = v 1 := by
  have := C180_guarded run2_reach.1 false v0 v
  rw [run2_reach.2] at this h
  exact ⟨this.mp h 5 rfl, this.mp h 6 rfl⟩

/-- **C180** (the rule is needed) If the first thread reads item 7 after it has sent it to the other thread, which has written it, it may get the old value. -/
theorem C180_stale : ∃ w : WSt 2 Unit Q1, WReach (fun _ _ _ _ => True) id w ∧ ∃ (k : Nat) (v : Nat → Nat), touched w.g.tr k = some (.user 7, false) ∧
    Possible (touched w.g.tr) (HB w.g.tr) (.user 7) 0 v ∧ v k ≠ plain (touched w.g.tr) (.user 7) 0 v k := by
  obtain ⟨w, h, ht, hi, hc⟩ := (sent_reach (fun _ _ _ _ => True) fun _ _ _ _ _ => trivial).1
  have h' := h.step (.plain w _ [.use 0 (.user 7) false] (.use w.g 0 7 false trivial hc trivial) rfl
    (by intro e he; rw [List.mem_singleton] at he; subst he; exact ⟨trivial, fun _ t _ => hi t⟩))
  refine ⟨_, h', 12, fun k => if k = 11 then 2 else 1, ?_⟩
  have e : (⟨⟨w.g.sys, w.g.mtx, w.g.who, w.g.tr ++ [.use 0 (.user 7) false]⟩, w.box⟩ : WSt 2 Unit Q1).g.tr = sent ++ [.use 0 (.user 7) false] := by rw [← ht]
  rw [e]
  have no : ¬ HB (sent ++ [.use 0 (.user 7) false]) 11 12 := by
    intro hb
    refine absurd (HB.closed (P := fun k => k = 11) ?_ ?_ ?_ hb rfl) (by decide)
    · rintro j k e e' hjk hj hk hR rfl
      have hk9 : k < 13 := get_lt hk
      obtain rfl : k = 12 := by omega
      obtain rfl : OEv.use 1 (.user 7) true = e := Option.some.inj hj
      obtain rfl : OEv.use 0 (.user 7) false = e' := Option.some.inj hk
      rcases hR with hR | ⟨a, hR⟩
      · exact absurd hR (by decide)
      · simp at hR
    · rintro j k a b hjk hj hk rfl
      exact absurd (Option.some.inj hj) (by simp)
    · rintro j k a b i hjk hj hk rfl
      exact absurd (Option.some.inj hj) (by simp)
  have only : ∀ l w, touched (sent ++ [.use 0 (.user 7) false]) l = some (.user 7, w) → l = 0 ∧ w = true ∨ l = 11 ∧ w = true ∨ l = 12 ∧ w = false := by
    intro l w hl
    have hb : l < 13 := by
      obtain ⟨e, he, -⟩ := touched_some hl
      exact get_lt he
    have key : ∀ l : Fin 13, ∀ w, touched (sent ++ [.use 0 (.user 7) false]) l.val = some (.user 7, w) → l.val = 0 ∧ w = true ∨ l.val = 11 ∧ w = true ∨ l.val = 12 ∧ w = false := by decide
    exact key ⟨l, hb⟩ w hl
  refine ⟨rfl, fun k hk => ?_, by decide⟩
  obtain rfl : k = 12 := by
    rcases only k false hk with h | h | h
    · exact absurd h.2 (by decide)
    · exact absurd h.2 (by decide)
    · exact h.1
  refine .inl ⟨0, ⟨rfl, by decide, fun hb => absurd (hb_lt _ _ hb) (by decide), fun l hl ⟨a, b⟩ => ?_⟩, rfl⟩
  rcases only l true hl with ⟨rfl, -⟩ | ⟨rfl, -⟩ | h
  · exact absurd (hb_lt _ _ a) (by decide)
  · exact no b
  · exact absurd h.2 (by decide)

end Verif.Values
