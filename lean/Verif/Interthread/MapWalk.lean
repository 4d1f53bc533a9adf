import Verif.Core.Outcome
import Mathlib.Order.Defs.LinearOrder
import Mathlib.Order.Basic
import Mathlib.Data.List.Basic
import Mathlib.Data.List.TakeWhile

/-
Property C151: going through an `InterthreadMap` (`Interthread.h:600-605`) while it is being changed.
-/

namespace Verif.Interthread.Walk
open Verif

variable {K : Type} [LinearOrder K]

/-! ### Model -/

/-- A node of a `std::map`: an iterator stays valid as long as the node exists, whatever else is inserted or erased. -/
structure Node (K : Type) where
  key : K
  id : Nat
  val : Nat
  deriving DecidableEq, Repr

/-- `mMap` in the order of its keys (`Interthread.h:447`), and the number of the next node. -/
structure M (K : Type) where
  nodes : List (Node K) := []
  fresh : Nat := 0

/-- `mMap[key] = wData` for a new key, `iter->second = wData` for an old one, whose node stays (`Interthread.h:472-479`). -/
def insert (k : K) (id v : Nat) : List (Node K) → List (Node K)
  | [] => [⟨k, id, v⟩]
  | n :: r => if k < n.key then ⟨k, id, v⟩ :: n :: r else if k = n.key then { n with val := v } :: r else n :: insert k id v r

/-- What a thread can do with the map: `write`, `remove`, `getNoBlock` and `readNoBlock` (`Interthread.h:470-481,548-557,488-496,565-570`).  Deleting the elements is C27. -/
inductive Op (K : Type) where
  | write (k : K) (v : Nat)
  | remove (k : K)
  | get (k : K)
  | read (k : K)

/-- The key whose node an operation erases if there is one. -/
def Op.erases : Op K → Option K
  | .remove k => some k
  | .get k => some k
  | _ => none

/-- The key an operation writes to. -/
def Op.writes : Op K → Option K
  | .write k _ => some k
  | _ => none

def M.op (m : M K) : Op K → M K
  | .write k v => { nodes := insert k m.fresh v m.nodes, fresh := m.fresh + 1 }
  | .remove k => { m with nodes := m.nodes.filter fun n => n.key ≠ k }
  | .get k => { m with nodes := m.nodes.filter fun n => n.key ≠ k }
  | .read _ => m

def M.ops (m : M K) (l : List (Op K)) : M K := l.foldl M.op m

/-- `begin()`, `Interthread.h:604`; `none` is `end()`. -/
def M.begin (m : M K) : Option Nat := m.nodes.head?.map (·.id)

/-- `*it`: undefined at the end and when the node was erased. -/
def M.deref (m : M K) : Option Nat → Outcome (Node K)
  | none => .ub
  | some i => match m.nodes.find? fun n => n.id = i with
    | none => .ub
    | some n => .ok n

/-- `++it`: likewise. -/
def M.next (m : M K) : Option Nat → Outcome (Option Nat)
  | none => .ub
  | some i => match m.nodes.dropWhile fun n => n.id ≠ i with
    | [] => .ub
    | _ :: r => .ok (r.head?.map (·.id))

/-- At most so many turns of `for (it = map.begin(); it != map.end(); ) { look at *it; before; ++it; after }`; what is done may depend on the turn and on what was seen.  The result: the map, the iterator, and what was seen. -/
def loop (before after : Nat → Node K → List (Op K)) : Nat → Nat → M K → Option Nat → Outcome (M K × Option Nat × List (Node K))
  | 0, _, m, it => .ok (m, it, [])
  | _ + 1, _, m, none => .ok (m, none, [])
  | f + 1, j, m, some i => do
    let x ← m.deref (some i)
    let it' ← (m.ops (before j x)).next (some i)
    let r ← loop before after f (j + 1) ((m.ops (before j x)).ops (after j x)) it'
    pure (r.1, r.2.1, x :: r.2.2)

/-! ### Specification -/

/-- A map: the keys in order, each node once. -/
structure Ok (m : M K) : Prop where
  sorted : m.nodes.Pairwise fun a b => a.key < b.key
  ids : m.nodes.Pairwise fun a b => a.id ≠ b.id
  lt : ∀ n ∈ m.nodes, n.id < m.fresh

/-- What was done in the turns that saw these nodes. -/
def doneIn (before after : Nat → Node K → List (Op K)) : Nat → List (Node K) → List (Op K)
  | _, [] => []
  | j, x :: r => before j x ++ after j x ++ doneIn before after (j + 1) r

/-- Before the iterator moves on, the element it is at is not erased; afterwards, nothing behind the element that was seen. -/
def Careful (before after : Nat → Node K → List (Op K)) : Prop :=
  (∀ j x, ∀ o ∈ before j x, o.erases ≠ some x.key) ∧ ∀ j x, ∀ o ∈ after j x, ∀ k, o.erases = some k → k ≤ x.key

/-! ### Lemmas -/

theorem insert_mem (k : K) (id v : Nat) (l : List (Node K)) (n : Node K) (h : n ∈ insert k id v l) : n ∈ l ∨ n.key = k ∧ (n.id = id ∨ ∃ o ∈ l, o.key = k ∧ n.id = o.id) := by
  induction l with
  | nil => rw [insert, List.mem_singleton] at h; subst h; exact .inr ⟨rfl, .inl rfl⟩
  | cons a l ih =>
    rw [insert] at h
    split at h
    · rcases List.mem_cons.1 h with rfl | h
      · exact .inr ⟨rfl, .inl rfl⟩
      · exact .inl h
    · split at h
      · rename_i hk
        rcases List.mem_cons.1 h with rfl | h
        · exact .inr ⟨hk.symm, .inr ⟨a, by simp, hk.symm, rfl⟩⟩
        · exact .inl (by simp [h])
      · rcases List.mem_cons.1 h with rfl | h
        · exact .inl (by simp)
        · rcases ih h with h | ⟨h1, h2 | ⟨o, ho, h2⟩⟩
          · exact .inl (by simp [h])
          · exact .inr ⟨h1, .inl h2⟩
          · exact .inr ⟨h1, .inr ⟨o, by simp [ho], h2⟩⟩

/-- A node that was there is still there, with its key and number. -/
theorem insert_keeps (k : K) (id v : Nat) (l : List (Node K)) (n : Node K) (h : n ∈ l) : ∃ n' ∈ insert k id v l, n'.key = n.key ∧ n'.id = n.id := by
  induction l with
  | nil => cases h
  | cons a l ih =>
    rw [insert]
    split
    · exact ⟨n, List.mem_cons_of_mem _ h, rfl, rfl⟩
    · split
      · rcases List.mem_cons.1 h with rfl | h
        · exact ⟨_, List.mem_cons_self .., rfl, rfl⟩
        · exact ⟨n, List.mem_cons_of_mem _ h, rfl, rfl⟩
      · rcases List.mem_cons.1 h with rfl | h
        · exact ⟨n, by simp, rfl, rfl⟩
        · obtain ⟨n', h1, h2⟩ := ih h
          exact ⟨n', by simp [h1], h2⟩

theorem insert_sorted (k : K) (id v : Nat) (l : List (Node K)) (h : l.Pairwise fun a b => a.key < b.key) : (insert k id v l).Pairwise fun a b => a.key < b.key := by
  induction l with
  | nil => simp [insert]
  | cons a l ih =>
    obtain ⟨h1, h2⟩ := List.pairwise_cons.1 h
    rw [insert]
    split
    · rename_i hk
      refine List.pairwise_cons.2 ⟨fun b hb => ?_, h⟩
      rcases List.mem_cons.1 hb with rfl | hb
      · exact hk
      · exact lt_trans hk (h1 b hb)
    · split
      · exact List.pairwise_cons.2 ⟨fun b hb => h1 b hb, h2⟩
      · rename_i n1 n2
        refine List.pairwise_cons.2 ⟨fun b hb => ?_, ih h2⟩
        rcases insert_mem k id v l b hb with hb | ⟨hb, -⟩
        · exact h1 b hb
        · rw [hb]; exact lt_of_le_of_ne (not_lt.1 n1) (Ne.symm n2)

theorem insert_ids (k : K) (id v : Nat) (l : List (Node K)) (hs : l.Pairwise fun a b => a.key < b.key) (h : l.Pairwise fun a b => a.id ≠ b.id) (hlt : ∀ n ∈ l, n.id < id) :
    (insert k id v l).Pairwise fun a b => a.id ≠ b.id := by
  induction l with
  | nil => simp [insert]
  | cons a l ih =>
    obtain ⟨h1, h2⟩ := List.pairwise_cons.1 h
    obtain ⟨s1, s2⟩ := List.pairwise_cons.1 hs
    rw [insert]
    split
    · refine List.pairwise_cons.2 ⟨fun b hb e => ?_, h⟩
      have := hlt b hb
      simp only at e
      omega
    · split
      · exact List.pairwise_cons.2 ⟨fun b hb => h1 b hb, h2⟩
      · refine List.pairwise_cons.2 ⟨fun b hb => ?_, ih s2 h2 fun n hn => hlt n (by simp [hn])⟩
        rcases insert_mem k id v l b hb with hb | ⟨-, hb | ⟨o, ho, -, hb⟩⟩
        · exact h1 b hb
        · have := hlt a (by simp); omega
        · rw [hb]; exact h1 o ho

theorem Ok.op {m : M K} (h : Ok m) (o : Op K) : Ok (m.op o) := by
  have hf : ∀ k : K, Ok { m with nodes := m.nodes.filter fun n => n.key ≠ k } := fun k => ⟨h.sorted.filter _, h.ids.filter _, fun n hn => h.lt n (List.mem_of_mem_filter hn)⟩
  cases o with
  | write k v =>
    refine ⟨insert_sorted _ _ _ _ h.sorted, insert_ids _ _ _ _ h.sorted h.ids h.lt, fun n hn => ?_⟩
    show n.id < m.fresh + 1
    rcases insert_mem _ _ _ _ _ hn with hn | ⟨-, hn | ⟨o, ho, -, hn⟩⟩
    · have := h.lt n hn; omega
    · omega
    · have := h.lt o ho; omega
  | remove k => exact hf k
  | get k => exact hf k
  | read k => exact h

theorem Ok.ops {m : M K} (h : Ok m) (l : List (Op K)) : Ok (m.ops l) := by
  induction l generalizing m with
  | nil => exact h
  | cons o l ih => exact ih (h.op o)

/-- A node is still there unless its key was erased. -/
theorem op_keeps {m : M K} (o : Op K) (n : Node K) (hn : n ∈ m.nodes) (he : o.erases ≠ some n.key) : ∃ n' ∈ (m.op o).nodes, n'.key = n.key ∧ n'.id = n.id := by
  cases o with
  | write k v => exact insert_keeps _ _ _ _ _ hn
  | remove k => exact ⟨n, List.mem_filter.2 ⟨hn, by simp only [Op.erases, ne_eq, Option.some.injEq] at he; simpa using fun e => he e.symm⟩, rfl, rfl⟩
  | get k => exact ⟨n, List.mem_filter.2 ⟨hn, by simp only [Op.erases, ne_eq, Option.some.injEq] at he; simpa using fun e => he e.symm⟩, rfl, rfl⟩
  | read k => exact ⟨n, hn, rfl, rfl⟩

theorem ops_keeps (l : List (Op K)) (m : M K) (n : Node K) (hn : n ∈ m.nodes) (he : ∀ o ∈ l, o.erases ≠ some n.key) : ∃ n' ∈ (m.ops l).nodes, n'.key = n.key ∧ n'.id = n.id := by
  induction l generalizing m n with
  | nil => exact ⟨n, hn, rfl, rfl⟩
  | cons o l ih =>
    obtain ⟨n1, h1, k1, i1⟩ := op_keeps o n hn (he o (by simp))
    obtain ⟨n2, h2, k2, i2⟩ := ih (m.op o) n1 h1 fun o ho => by rw [k1]; exact he o (by simp [ho])
    exact ⟨n2, h2, k2.trans k1, i2.trans i1⟩

theorem find_id {m : M K} (h : Ok m) {n : Node K} (hn : n ∈ m.nodes) : m.nodes.find? (fun x => x.id = n.id) = some n := by
  have : ∀ l : List (Node K), l.Pairwise (fun a b => a.id ≠ b.id) → n ∈ l → l.find? (fun x => x.id = n.id) = some n := by
    intro l hl hn
    induction l with
    | nil => cases hn
    | cons a l ih =>
      obtain ⟨h1, h2⟩ := List.pairwise_cons.1 hl
      rcases List.mem_cons.1 hn with rfl | hn
      · simp
      · rw [List.find?_cons_of_neg (by simpa using h1 n hn)]
        exact ih h2 hn
  exact this _ h.ids hn

/-- The node after one with a given key. -/
theorem next_spec {m : M K} (h : Ok m) {n : Node K} (hn : n ∈ m.nodes) :
    ∃ it, m.next (some n.id) = .ok it ∧ (it = none → ∀ b ∈ m.nodes, b.key ≤ n.key) ∧ ∀ i, it = some i → ∃ b ∈ m.nodes, b.id = i ∧ n.key < b.key ∧ ∀ c ∈ m.nodes, n.key < c.key → b.key ≤ c.key := by
  have : ∀ l : List (Node K), l.Pairwise (fun a b => a.id ≠ b.id) → l.Pairwise (fun a b => a.key < b.key) → n ∈ l →
      ∃ r, l.dropWhile (fun x => x.id ≠ n.id) = n :: r ∧ (r = [] → ∀ b ∈ l, b.key ≤ n.key) ∧ ∀ b r', r = b :: r' → b ∈ l ∧ n.key < b.key ∧ ∀ c ∈ l, n.key < c.key → b.key ≤ c.key := by
    intro l hl hs hn
    induction l with
    | nil => cases hn
    | cons a l ih =>
      obtain ⟨h1, h2⟩ := List.pairwise_cons.1 hl
      obtain ⟨s1, s2⟩ := List.pairwise_cons.1 hs
      rcases List.mem_cons.1 hn with rfl | hn'
      · refine ⟨l, by simp, ?_, ?_⟩
        · rintro rfl b hb
          rw [List.mem_singleton.1 hb]
        · rintro b r' rfl
          refine ⟨by simp, s1 b (by simp), fun c hc hlt => ?_⟩
          rcases List.mem_cons.1 hc with rfl | hc
          · exact absurd hlt (lt_irrefl _)
          · rcases List.mem_cons.1 hc with rfl | hc
            · exact le_refl _
            · exact ((List.pairwise_cons.1 s2).1 c hc).le
      · obtain ⟨r, e, h3, h4⟩ := ih h2 s2 hn'
        refine ⟨r, ?_, ?_, ?_⟩
        · rw [List.dropWhile_cons, if_pos (by simpa using h1 n hn')]; exact e
        · intro hr b hb
          rcases List.mem_cons.1 hb with rfl | hb
          · exact (s1 n hn').le
          · exact h3 hr b hb
        · intro b r' hr
          obtain ⟨g1, g2, g3⟩ := h4 b r' hr
          refine ⟨by simp [g1], g2, fun c hc hlt => ?_⟩
          rcases List.mem_cons.1 hc with rfl | hc
          · exact absurd (lt_trans hlt (s1 n hn')) (lt_irrefl _)
          · exact g3 c hc hlt
  obtain ⟨r, e, h3, h4⟩ := this _ h.ids h.sorted hn
  refine ⟨r.head?.map (·.id), ?_, ?_, ?_⟩
  · simp only [M.next]
    rw [e]
  · intro hr
    cases r with
    | nil => exact h3 rfl
    | cons b r => cases hr
  · intro i hi
    cases r with
    | nil => cases hi
    | cons b r =>
      obtain ⟨g1, g2, g3⟩ := h4 b r rfl
      cases hi
      exact ⟨b, g1, rfl, g2, g3⟩

theorem mem_key {m : M K} (h : Ok m) {a b : Node K} (ha : a ∈ m.nodes) (hb : b ∈ m.nodes) (e : a.id = b.id) : a = b := by
  have := find_id h ha
  rw [e, find_id h hb] at this
  exact (Option.some.inj this).symm

/-- The loop from an iterator at a node (or at the end) with nothing to be seen before it. -/
theorem loop_spec (before after : Nat → Node K → List (Op K)) (hc : Careful before after) (f : Nat) :
    ∀ (j : Nat) (m : M K) (it : Option Nat), Ok m → (∀ i, it = some i → ∃ n ∈ m.nodes, n.id = i) →
    ∃ m' it' seen, loop before after f j m it = .ok (m', it', seen) ∧ Ok m' ∧ m' = m.ops (doneIn before after j seen) ∧ seen.Pairwise (fun a b => a.key < b.key) ∧
      (∀ i, it = some i → ∀ n ∈ m.nodes, n.id = i → ∀ x ∈ seen, n.key ≤ x.key) ∧
      (∀ i (hi : i < seen.length), seen[i] ∈ (m.ops (doneIn before after j (seen.take i))).nodes) ∧
      (∀ i, it' = some i → ∃ n ∈ m'.nodes, n.id = i ∧ ∀ x ∈ seen, x.key < n.key) ∧
      (∀ n ∈ m.nodes, (∀ i, it = some i → ∀ a ∈ m.nodes, a.id = i → a.key ≤ n.key) → it ≠ none → (∀ i, it' = some i → ∀ b ∈ m'.nodes, b.id = i → n.key < b.key) →
        (∃ x ∈ seen, x.key = n.key) ∨ ∃ o ∈ doneIn before after j (seen.takeWhile fun x => x.key < n.key), o.erases = some n.key) := by
  induction f with
  | zero =>
    intro j m it hm hit
    refine ⟨m, it, [], rfl, hm, rfl, List.Pairwise.nil, fun _ _ _ _ _ _ hx => (nomatch hx), fun i hi => absurd hi (by simp), ?_, ?_⟩
    · intro i hi
      obtain ⟨n, hn, e⟩ := hit i hi
      exact ⟨n, hn, e, fun _ hx => (nomatch hx)⟩
    · intro n hn h1 h2 h3
      cases it with
      | none => exact absurd rfl h2
      | some i =>
        obtain ⟨a, ha, e⟩ := hit i rfl
        exact absurd (h3 i rfl a ha e) (not_lt.2 (h1 i rfl a ha e))
  | succ f ih =>
    intro j m it hm hit
    cases it with
    | none =>
      exact ⟨m, none, [], rfl, hm, rfl, List.Pairwise.nil, fun _ _ _ _ _ _ hx => (nomatch hx), fun i hi => absurd hi (by simp), fun i hi => (nomatch hi), fun n _ _ h => absurd rfl h⟩
    | some i =>
      obtain ⟨x, hx, rfl⟩ := hit i rfl
      have hd : m.deref (some x.id) = .ok x := by simp only [M.deref]; rw [find_id hm hx]
      obtain ⟨x1, hx1, xk, xi⟩ := ops_keeps (before j x) m x hx (hc.1 j x)
      have hm1 := hm.ops (before j x)
      obtain ⟨it1, hn1, hend, hnext⟩ := next_spec hm1 hx1
      rw [xi] at hn1
      rw [xk] at hend hnext
      have hm2 := hm1.ops (after j x)
      have hit1 : ∀ i, it1 = some i → ∃ n ∈ ((m.ops (before j x)).ops (after j x)).nodes, n.id = i ∧ x.key < n.key ∧ ∃ b ∈ (m.ops (before j x)).nodes, b.key = n.key ∧ ∀ c ∈ (m.ops (before j x)).nodes, x.key < c.key → b.key ≤ c.key := by
        intro i hi
        obtain ⟨b, hb, hbi, hlt, hleast⟩ := hnext i hi
        obtain ⟨b1, hb1, bk, bi⟩ := ops_keeps (after j x) _ b hb (fun o ho he => absurd (hc.2 j x o ho _ he) (not_le.2 hlt))
        exact ⟨b1, hb1, bi.trans hbi, bk ▸ hlt, b, hb, bk.symm, hleast⟩
      obtain ⟨m', it', seen, hl, hm', he', hp, hge, hin, hat, hall⟩ := ih (j + 1) ((m.ops (before j x)).ops (after j x)) it1 hm2 (fun i hi => by obtain ⟨n, h1, h2, -⟩ := hit1 i hi; exact ⟨n, h1, h2⟩)
      have hgt : ∀ y ∈ seen, x.key < y.key := by
        intro y hy
        cases it1 with
        | none =>
          have : seen = [] := by
            cases f with
            | zero => simp only [loop] at hl; cases hl; rfl
            | succ f => simp only [loop] at hl; cases hl; rfl
          rw [this] at hy; cases hy
        | some i =>
          obtain ⟨n, h1, h2, h3, -⟩ := hit1 i rfl
          exact lt_of_lt_of_le h3 (hge i rfl n h1 h2 y hy)
      have hdone : ∀ l, (m.ops (doneIn before after j (x :: l))) = ((m.ops (before j x)).ops (after j x)).ops (doneIn before after (j + 1) l) := by
        intro l
        simp [doneIn, M.ops, List.foldl_append]
      refine ⟨m', it', x :: seen, ?_, hm', ?_, List.pairwise_cons.2 ⟨hgt, hp⟩, ?_, ?_, ?_, ?_⟩
      · simp only [loop]
        rw [hd]
        simp only [Outcome.bind_ok]
        rw [hn1]
        simp only [Outcome.bind_ok]
        rw [hl]
        rfl
      · rw [hdone]; exact he'
      · intro i hi n hn hni y hy
        have : n = x := mem_key hm hn hx (hni.trans (Option.some.inj hi).symm)
        subst this
        rcases List.mem_cons.1 hy with rfl | hy
        · exact le_refl _
        · exact (hgt y hy).le
      · intro i hi
        cases i with
        | zero => simpa [doneIn, M.ops] using hx
        | succ i =>
          rw [List.take_succ_cons, hdone]
          exact hin i (by simpa using hi)
      · intro i hi
        obtain ⟨n, h1, h2, h3⟩ := hat i hi
        refine ⟨n, h1, h2, fun y hy => ?_⟩
        rcases List.mem_cons.1 hy with rfl | hy
        · cases it1 with
          | none =>
            cases f with
            | zero => simp only [loop] at hl; cases hl; cases hi
            | succ f => simp only [loop] at hl; cases hl; cases hi
          | some i1 =>
            obtain ⟨b, g1, g2, g3, -⟩ := hit1 i1 rfl
            cases hseen : seen with
            | nil =>
              -- nothing was seen: the iterator is where it was
              cases f with
              | zero =>
                simp only [loop] at hl
                cases hl
                have := Option.some.inj hi
                have : n = b := mem_key hm2 h1 g1 (by omega)
                exact this ▸ g3
              | succ f =>
                obtain ⟨b', hb', hbi⟩ : ∃ b' ∈ ((m.ops (before j y)).ops (after j y)).nodes, b'.id = i1 := ⟨b, g1, g2⟩
                subst hbi
                simp only [loop] at hl
                have hd2 : ((m.ops (before j y)).ops (after j y)).deref (some b'.id) = .ok b' := by simp only [M.deref]; rw [find_id hm2 hb']
                rw [hd2] at hl
                simp only [Outcome.bind_ok] at hl
                obtain ⟨_, _, hl⟩ := Outcome.bind_eq_ok.1 hl
                obtain ⟨_, _, hl⟩ := Outcome.bind_eq_ok.1 hl
                cases hl
                cases hseen
            | cons z s =>
              have hz : z ∈ seen := by simp [hseen]
              exact lt_trans (hgt z hz) (h3 z hz)
        · exact h3 y hy
      · intro n hn hle _ hlt
        have hxn : x.key ≤ n.key := hle x.id rfl x hx rfl
        by_cases hk : x.key = n.key
        · exact .inl ⟨x, by simp, hk⟩
        · have hxlt : x.key < n.key := lt_of_le_of_ne hxn hk
          have htw : (x :: seen).takeWhile (fun y => y.key < n.key) = x :: seen.takeWhile (fun y => y.key < n.key) := by
            rw [List.takeWhile_cons, if_pos (by simpa using hxlt)]
          by_cases her : ∃ o ∈ before j x ++ after j x, o.erases = some n.key
          · obtain ⟨o, ho, hoe⟩ := her
            right
            refine ⟨o, ?_, hoe⟩
            rw [htw, doneIn]
            exact List.mem_append_left _ ho
          · obtain ⟨n1, hn1', nk1, ni1⟩ := ops_keeps (before j x) m n hn fun o ho he => her ⟨o, List.mem_append_left _ ho, he⟩
            obtain ⟨n2, hn2, nk2, ni2⟩ := ops_keeps (after j x) _ n1 hn1' fun o ho he => her ⟨o, List.mem_append_right _ ho, by rw [he, nk1]⟩
            have hne : it1 ≠ none := by
              intro e
              have := hend e n1 hn1'
              rw [nk1] at this
              exact absurd hxlt (not_lt.2 this)
            have ha : ∀ i, it1 = some i → ∀ a ∈ ((m.ops (before j x)).ops (after j x)).nodes, a.id = i → a.key ≤ n2.key := by
              intro i hi a ha hai
              obtain ⟨b, g1, g2, g3, c, hc1, hc2, hc3⟩ := hit1 i hi
              have : a = b := mem_key hm2 ha g1 (by omega)
              rw [this, ← hc2, nk2, nk1]
              have := hc3 n1 hn1' (by rw [nk1]; exact hxlt)
              rwa [nk1] at this
            have hb : ∀ i, it' = some i → ∀ b ∈ m'.nodes, b.id = i → n2.key < b.key := by
              intro i hi b hb hbi
              rw [nk2, nk1]
              exact hlt i hi b hb hbi
            rcases hall n2 hn2 ha hne hb with ⟨y, hy, hyk⟩ | ⟨o, ho, hoe⟩
            · exact .inl ⟨y, by simp [hy], by rw [hyk, nk2, nk1]⟩
            · right
              refine ⟨o, ?_, by rw [hoe, nk2, nk1]⟩
              rw [nk2, nk1] at ho
              rw [htw, doneIn]
              exact List.mem_append_right _ ho

/-! ### Threads -/

/-- The events of several threads: a thread takes and releases `qGetLock()` (`Interthread.h:602`), calls a method, which holds the lock while it works, or moves its own iterator, which needs no lock. -/
inductive Ev (K : Type) where
  | lock (t : Nat)
  | unlock (t : Nat)
  | op (t : Nat) (o : Op K)
  | begin (t : Nat)
  | next (t : Nat)

/-- The lock is recursive (`Threads.cpp:89-101`): its owner and how often it was taken; the map; the iterator of each thread. -/
structure Sys (K : Type) where
  owner : Option Nat := none
  count : Nat := 0
  m : M K := {}
  its : Nat → Option Nat := fun _ => none

/-- The lock is free for a thread. -/
def Sys.free (s : Sys K) (t : Nat) : Prop := s.owner = none ∨ s.owner = some t

instance (s : Sys K) (t : Nat) : Decidable (s.free t) := inferInstanceAs (Decidable (_ ∨ _))

/-- One event; none if the thread has to wait for the lock. -/
def Sys.ev (s : Sys K) : Ev K → Option (Outcome (Sys K))
  | .lock t => if s.free t then some (.ok { s with owner := some t, count := s.count + 1 }) else none
  | .unlock t => if s.owner = some t then some (.ok (if s.count ≤ 1 then { s with owner := none, count := 0 } else { s with count := s.count - 1 })) else none
  | .op t o => if s.free t then some (.ok { s with m := s.m.op o }) else none
  | .begin t => some (.ok { s with its := fun u => if u = t then s.m.begin else s.its u })
  | .next t => some (match s.m.next (s.its t) with
    | .ok it => .ok { s with its := fun u => if u = t then it else s.its u }
    | _ => .ub)

/-- A run; none if an event is not possible. -/
def Sys.run (s : Sys K) : List (Ev K) → Option (Outcome (Sys K))
  | [] => some (.ok s)
  | e :: es => match s.ev e with
    | none => none
    | some (.ok s') => s'.run es
    | some _ => some .ub

/-- The changes of one thread in a list of events. -/
def changes (t : Nat) : List (Ev K) → List (Op K)
  | [] => []
  | .op u o :: es => if u = t then o :: changes t es else changes t es
  | _ :: es => changes t es

/-- A thread gives the lock back as often as it takes it in these events, and never more often than it has. -/
def Balanced (t : Nat) : Nat → List (Ev K) → Prop
  | _, [] => True
  | n, .lock u :: es => if u = t then Balanced t (n + 1) es else Balanced t n es
  | n, .unlock u :: es => if u = t then 1 < n ∧ Balanced t (n - 1) es else Balanced t n es
  | n, _ :: es => Balanced t n es

/-! ### C151 -/

/-- Going through the map.  Whatever is written, removed or taken in the turns, as long as the element the iterator is at is not erased before the iterator moves on and nothing behind it afterwards: nothing undefined happens.
The elements are seen in the order of their keys, each key at most once; each was in the map, with that value, when it was seen; the map is what the changes make of it; and every element that was in the map at the start, up to where the iterator has come, was seen, unless it was erased in the turn of an element with a smaller key. -/
theorem C151_walk (before after : Nat → Node K → List (Op K)) (hc : Careful before after) (m : M K) (hm : Ok m) (turns : Nat) :
    ∃ m' it seen, loop before after turns 0 m m.begin = .ok (m', it, seen) ∧ m' = m.ops (doneIn before after 0 seen) ∧ seen.Pairwise (fun a b => a.key < b.key) ∧
      (∀ i (hi : i < seen.length), seen[i] ∈ (m.ops (doneIn before after 0 (seen.take i))).nodes) ∧
      (∀ i, it = some i → ∃ n ∈ m'.nodes, n.id = i ∧ ∀ x ∈ seen, x.key < n.key) ∧
      ∀ n ∈ m.nodes, (∀ i, it = some i → ∀ b ∈ m'.nodes, b.id = i → n.key < b.key) →
        (∃ x ∈ seen, x.key = n.key) ∨ ∃ o ∈ doneIn before after 0 (seen.takeWhile fun x => x.key < n.key), o.erases = some n.key := by
  have hb : ∀ i, m.begin = some i → ∃ n ∈ m.nodes, n.id = i ∧ ∀ c ∈ m.nodes, n.key ≤ c.key := by
    intro i hi
    unfold M.begin at hi
    cases hl : m.nodes with
    | nil => rw [hl] at hi; cases hi
    | cons a l =>
      rw [hl] at hi
      refine ⟨a, by simp, Option.some.inj hi, fun c hc => ?_⟩
      have := hm.sorted
      rw [hl] at this
      rcases List.mem_cons.1 hc with rfl | hc
      · exact le_refl _
      · exact ((List.pairwise_cons.1 this).1 c hc).le
  obtain ⟨m', it, seen, h1, -, h2, h3, -, h4, h5, h6⟩ := loop_spec before after hc turns 0 m m.begin hm fun i hi => by obtain ⟨n, g1, g2, -⟩ := hb i hi; exact ⟨n, g1, g2⟩
  refine ⟨m', it, seen, h1, h2, h3, h4, h5, fun n hn hlt => h6 n hn ?_ ?_ hlt⟩
  · intro i hi a ha hai
    obtain ⟨b, g1, g2, g3⟩ := hb i hi
    have : a = b := mem_key hm ha g1 (hai.trans g2.symm)
    exact this ▸ g3 n hn
  · unfold M.begin
    cases hl : m.nodes with
    | nil => rw [hl] at hn; cases hn
    | cons a l => simp

/-- The rest of a walk is a walk. -/
theorem loop_drop (before after : Nat → Node K → List (Op K)) (f : Nat) :
    ∀ (j : Nat) (m : M K) (it : Option Nat) (m' : M K) (it' : Option Nat) (seen : List (Node K)), Ok m → loop before after f j m it = .ok (m', it', seen) → ∀ i (hi : i < seen.length),
      ∃ f', loop before after f' (j + i) (m.ops (doneIn before after j (seen.take i))) (some seen[i].id) = .ok (m', it', seen.drop i) := by
  induction f with
  | zero => intro j m it m' it' seen _ h i hi; simp only [loop] at h; cases h; simp at hi
  | succ f ih =>
    intro j m it m' it' seen hm h i hi
    cases it with
    | none => simp only [loop] at h; cases h; simp at hi
    | some d =>
      have h' := h
      simp only [loop] at h'
      obtain ⟨x, hx, h'⟩ := Outcome.bind_eq_ok.1 h'
      obtain ⟨it1, h1, h'⟩ := Outcome.bind_eq_ok.1 h'
      obtain ⟨r, h2, h'⟩ := Outcome.bind_eq_ok.1 h'
      cases h'
      have hxi : x.id = d := by
        simp only [M.deref] at hx
        split at hx
        · cases hx
        · rename_i n hn
          cases hx
          simpa using List.find?_some hn
      cases i with
      | zero => exact ⟨f + 1, by simpa [doneIn, M.ops, hxi] using h⟩
      | succ i =>
        obtain ⟨f', hf'⟩ := ih (j + 1) _ it1 r.1 r.2.1 r.2.2 ((hm.ops _).ops _) h2 i (by simpa using hi)
        refine ⟨f', ?_⟩
        have e : (m.ops (doneIn before after j ((x :: r.2.2).take (i + 1)))) = ((m.ops (before j x)).ops (after j x)).ops (doneIn before after (j + 1) (r.2.2.take i)) := by
          simp [doneIn, M.ops, List.foldl_append]
        rw [e]
        have : j + (i + 1) = j + 1 + i := by omega
        rw [this]
        exact hf'

/-- Elements written during the walk: one that is in the map when a turn begins, at the element of this turn or behind it, is seen once the iterator has come so far, unless it is erased in this turn or one of the following. -/
theorem C151_later (before after : Nat → Node K → List (Op K)) (hc : Careful before after) (m : M K) (hm : Ok m) (turns : Nat) (m' : M K) (it : Option Nat) (seen : List (Node K))
    (h : loop before after turns 0 m m.begin = .ok (m', it, seen)) (i : Nat) (hi : i < seen.length) (n : Node K) (hn : n ∈ (m.ops (doneIn before after 0 (seen.take i))).nodes)
    (hge : seen[i].key ≤ n.key) (hlt : ∀ d, it = some d → ∀ b ∈ m'.nodes, b.id = d → n.key < b.key) :
    (∃ x ∈ seen.drop i, x.key = n.key) ∨ ∃ o ∈ doneIn before after i ((seen.drop i).takeWhile fun x => x.key < n.key), o.erases = some n.key := by
  obtain ⟨f, hf⟩ := loop_drop before after turns 0 m m.begin m' it seen hm h i hi
  obtain ⟨m2, it2, seen2, h2, -, -, h4, -⟩ := C151_walk before after hc m hm turns
  rw [h] at h2
  cases h2
  have hmem := h4 i hi
  have hok := hm.ops (doneIn before after 0 (seen.take i))
  obtain ⟨m3, it3, seen3, g1, -, -, -, -, -, -, g6⟩ := loop_spec before after hc f (0 + i) _ (some seen[i].id) hok fun d hd => ⟨seen[i], hmem, Option.some.inj hd⟩
  rw [hf] at g1
  cases g1
  have := g6 n hn (fun d hd a ha hai => ?_) (by simp) hlt
  · simpa using this
  · have : a = seen[i] := mem_key hok ha hmem (hai.trans (Option.some.inj hd).symm)
    rw [this]; exact hge

/-- The elements behind a key. -/
def behind (m : M K) (k : K) : Nat := (m.nodes.filter fun n => k < n.key).length

theorem behind_op (m : M K) (o : Op K) (k : K) (h : ∀ k', o.writes = some k' → k' ≤ k) : behind (m.op o) k ≤ behind m k := by
  have hf : ∀ k' : K, behind { m with nodes := m.nodes.filter fun n => n.key ≠ k' } k ≤ behind m k := by
    intro k'
    unfold behind
    simp only
    rw [List.filter_filter]
    have : ∀ l : List (Node K), (l.filter fun n => decide (k < n.key) && decide (n.key ≠ k')).length ≤ (l.filter fun n => decide (k < n.key)).length := by
      intro l
      rw [← List.filter_filter, List.filter_comm]
      exact List.length_filter_le _ _
    exact this _
  cases o with
  | write k' v =>
    have hk := h k' rfl
    have : ∀ l : List (Node K), ((insert k' m.fresh v l).filter fun n => decide (k < n.key)).length ≤ (l.filter fun n => decide (k < n.key)).length := by
      intro l
      induction l with
      | nil => simp [insert, not_lt.2 hk]
      | cons a l ih =>
        rw [insert]
        split
        · rw [List.filter_cons, if_neg (by simpa using hk)]
        · split
          · by_cases hka : k < a.key
            · simp [hka]
            · simp [hka]
          · by_cases hka : k < a.key
            · simpa [hka] using ih
            · simpa [hka] using ih
    exact this _
  | remove k' => exact hf k'
  | get k' => exact hf k'
  | read k' => exact le_refl _

theorem behind_ops (l : List (Op K)) (m : M K) (k : K) (h : ∀ o ∈ l, ∀ k', o.writes = some k' → k' ≤ k) : behind (m.ops l) k ≤ behind m k := by
  induction l generalizing m with
  | nil => exact le_refl _
  | cons o l ih => exact le_trans (ih (m.op o) fun o ho => h o (by simp [ho])) (behind_op m o k (h o (by simp)))

/-- The loop ends: if the turns write only to keys up to the one that was seen, after at most one turn for each element that was in the map at the start. -/
theorem C151_ends (before after : Nat → Node K → List (Op K)) (hc : Careful before after) (hw : ∀ j x, ∀ o ∈ before j x ++ after j x, ∀ k, o.writes = some k → k ≤ x.key) (m : M K) (hm : Ok m)
    (turns : Nat) (ht : m.nodes.length ≤ turns) : ∃ m' seen, loop before after turns 0 m m.begin = .ok (m', none, seen) ∧ seen.length ≤ m.nodes.length := by
  have key : ∀ (f j : Nat) (m : M K) (n : Node K), Ok m → n ∈ m.nodes → behind m n.key < f → ∃ m' seen, loop before after f j m (some n.id) = .ok (m', none, seen) ∧ seen.length ≤ behind m n.key + 1 := by
    intro f
    induction f with
    | zero => intro j m n _ _ h; omega
    | succ f ih =>
      intro j m x hm hx hf
      have hd : m.deref (some x.id) = .ok x := by simp only [M.deref]; rw [find_id hm hx]
      obtain ⟨x1, hx1, xk, xi⟩ := ops_keeps (before j x) m x hx (hc.1 j x)
      have hm1 := hm.ops (before j x)
      obtain ⟨it1, hn1, -, hnext⟩ := next_spec hm1 hx1
      rw [xi] at hn1
      rw [xk] at hnext
      have hm2 := hm1.ops (after j x)
      have hle : behind ((m.ops (before j x)).ops (after j x)) x.key ≤ behind m x.key :=
        le_trans (behind_ops _ _ _ fun o ho => hw j x o (List.mem_append_right _ ho)) (behind_ops _ _ _ fun o ho => hw j x o (List.mem_append_left _ ho))
      simp only [loop]
      rw [hd]
      simp only [Outcome.bind_ok]
      rw [hn1]
      simp only [Outcome.bind_ok]
      cases it1 with
      | none =>
        have : loop before after f (j + 1) ((m.ops (before j x)).ops (after j x)) none = .ok ((m.ops (before j x)).ops (after j x), none, []) := by cases f <;> rfl
        rw [this]
        exact ⟨_, _, rfl, by simp⟩
      | some i =>
        obtain ⟨b, hb, hbi, hlt, -⟩ := hnext i rfl
        obtain ⟨b1, hb1, bk, bi⟩ := ops_keeps (after j x) _ b hb (fun o ho he => absurd (hc.2 j x o ho _ he) (not_le.2 hlt))
        have hlt2 : behind ((m.ops (before j x)).ops (after j x)) b1.key < behind ((m.ops (before j x)).ops (after j x)) x.key := by
          have : ∀ l : List (Node K), b1 ∈ l → (l.filter fun n => decide (b1.key < n.key)).length < (l.filter fun n => decide (x.key < n.key)).length := by
            intro l hl
            have hsub : (l.filter fun n => decide (b1.key < n.key)) = (l.filter fun n => decide (x.key < n.key)).filter fun n => decide (b1.key < n.key) := by
              rw [List.filter_filter]
              apply List.filter_congr
              intro n _
              have : b1.key < n.key → x.key < n.key := fun h => lt_trans (bk ▸ hlt) h
              by_cases h1 : b1.key < n.key
              · simp [h1, this h1]
              · simp [h1]
            rw [hsub]
            refine lt_of_le_of_ne (List.length_filter_le _ _) fun e => ?_
            have := List.length_filter_eq_length_iff.1 e b1 (List.mem_filter.2 ⟨hl, by simpa [bk] using hlt⟩)
            simp at this
          exact this _ hb1
        obtain ⟨m', seen, g1, g2⟩ := ih (j + 1) _ b1 hm2 hb1 (by omega)
        rw [bi, hbi] at g1
        rw [g1]
        exact ⟨_, _, rfl, by simp; omega⟩
  unfold M.begin
  cases hl : m.nodes with
  | nil =>
    refine ⟨m, [], ?_, by simp⟩
    cases turns <;> rfl
  | cons a l =>
    have hs := hm.sorted
    rw [hl] at hs
    have hbe : behind m a.key ≤ l.length := by
      unfold behind
      rw [hl, List.filter_cons, if_neg (by simp)]
      exact List.length_filter_le _ _
    rw [hl] at ht
    simp only [List.length_cons] at ht
    obtain ⟨m', seen, g1, g2⟩ := key turns 0 m a hm (by simp [hl]) (by omega)
    exact ⟨m', seen, g1, by simp; omega⟩

/-- While a thread has the lock the others change nothing: the map at the end is what this thread's own changes make of it, whatever the others attempt. -/
theorem C151_alone (t : Nat) (es : List (Ev K)) (s s' : Sys K) (ho : s.owner = some t) (hb : Balanced t s.count es) (hr : s.run es = some (.ok s')) :
    s'.m = s.m.ops (changes t es) ∧ s'.owner = some t := by
  induction es generalizing s with
  | nil => simp only [Sys.run, Option.some.injEq, Outcome.ok.injEq] at hr; subst hr; exact ⟨rfl, ho⟩
  | cons e es ih =>
    have hfree : ∀ u, s.free u ↔ u = t := fun u => by unfold Sys.free; rw [ho]; simp [eq_comm]
    cases e with
    | lock u =>
      simp only [Sys.run, Sys.ev] at hr
      by_cases hu : u = t
      · subst hu
        rw [if_pos ((hfree u).2 rfl)] at hr
        simp only [Balanced, if_true] at hb
        exact ih { s with owner := some u, count := s.count + 1 } rfl hb hr
      · rw [if_neg (fun h => hu ((hfree u).1 h))] at hr; cases hr
    | unlock u =>
      simp only [Sys.run, Sys.ev] at hr
      by_cases hu : u = t
      · subst hu
        simp only [Balanced, if_true] at hb
        rw [if_pos ho, if_neg (by omega)] at hr
        exact ih { s with count := s.count - 1 } ho hb.2 hr
      · rw [if_neg (by rw [ho]; simpa using fun h => hu h.symm)] at hr; cases hr
    | op u o =>
      simp only [Sys.run, Sys.ev] at hr
      by_cases hu : u = t
      · subst hu
        rw [if_pos ((hfree u).2 rfl)] at hr
        have := ih _ (by exact ho) (by exact hb) hr
        simpa [changes, M.ops] using this
      · rw [if_neg (fun h => hu ((hfree u).1 h))] at hr; cases hr
    | begin u =>
      simp only [Sys.run, Sys.ev] at hr
      exact ih { s with its := fun v => if v = u then s.m.begin else s.its v } ho hb hr
    | next u =>
      simp only [Sys.run, Sys.ev] at hr
      cases hn : s.m.next (s.its u) with
      | ok it =>
        rw [hn] at hr
        exact ih { s with its := fun v => if v = u then it else s.its v } ho hb hr
      | assertFail => rw [hn] at hr; cases hr
      | ub => rw [hn] at hr; cases hr
      | diverge => rw [hn] at hr; cases hr

/-- Without the lock: when another thread removes the element an iterator is at, moving the iterator on is undefined, for every map that is not empty. -/
theorem C151_unlocked_refuted (m : M K) (hm : Ok m) (n : Node K) (l : List (Node K)) (hn : m.nodes = n :: l) (t u : Nat) :
    Sys.run { m := m } [.begin t, .op u (.remove n.key), .next t] = some .ub := by
  have h0 : m.begin = some n.id := by simp [M.begin, hn]
  have h1 : (m.op (.remove n.key)).next (some n.id) = .ub := by
    simp only [M.next, M.op]
    have : (m.nodes.filter fun x => decide (x.key ≠ n.key)).dropWhile (fun x => decide (x.id ≠ n.id)) = [] := by
      rw [List.dropWhile_eq_nil_iff]
      intro x hx
      obtain ⟨hx1, hx2⟩ := List.mem_filter.1 hx
      simp only [decide_eq_true_eq] at hx2 ⊢
      intro e
      exact hx2 (by rw [mem_key hm hx1 (by simp [hn]) e])
    rw [this]
  simp only [Sys.run, Sys.ev, Sys.free]
  simp [h0, h1]

/-- Nor may a turn remove its own element before the iterator moves on, even under the lock. -/
theorem C151_current_refuted (m : M K) (hm : Ok m) (hne : m.nodes ≠ []) (after : Nat → Node K → List (Op K)) (turns : Nat) :
    loop (fun _ x => [.remove x.key]) after (turns + 1) 0 m m.begin = .ub := by
  obtain ⟨n, l, hn⟩ := List.exists_cons_of_ne_nil hne
  have hr := C151_unlocked_refuted m hm n l hn 0 1
  have h0 : m.begin = some n.id := by simp [M.begin, hn]
  have h1 : (m.op (.remove n.key)).next (some n.id) = .ub := by
    simp only [Sys.run, Sys.ev, Sys.free] at hr
    simp only [h0, true_or, if_true] at hr
    cases hx : (m.op (.remove n.key)).next (some n.id) with
    | ub => rfl
    | ok it => rw [hx] at hr; simp at hr
    | assertFail =>
      simp only [M.next] at hx
      split at hx <;> cases hx
    | diverge =>
      simp only [M.next] at hx
      split at hx <;> cases hx
  rw [h0]
  simp only [loop]
  have hd : m.deref (some n.id) = .ok n := by simp only [M.deref]; rw [find_id hm (by simp [hn])]
  rw [hd]
  simp only [Outcome.bind_ok, M.ops, List.foldl_cons, List.foldl_nil]
  rw [h1]
  rfl

/-- And turns that write behind the element that was seen may keep the loop from ever ending: here each turn writes the next key. -/
theorem C151_grows_refuted (turns : Nat) : ∃ m' it seen, loop (fun _ x => [.write (x.key + 1) 0]) (fun _ _ => []) turns 0 ({ nodes := [⟨0, 0, 7⟩], fresh := 1 } : M Nat) (some 0) = .ok (m', it, seen) ∧
    it ≠ none ∧ seen.length = turns := by
  have ins : ∀ (l : List (Node Nat)) (k id v : Nat), (∀ x ∈ l, x.key < k) → insert k id v l = l ++ [⟨k, id, v⟩] := by
    intro l k id v h
    induction l with
    | nil => rfl
    | cons a l ih =>
      have := h a (by simp)
      rw [insert, if_neg (by omega), if_neg (by omega), ih fun x hx => h x (by simp [hx])]
      rfl
  have key : ∀ (f j : Nat) (m : M Nat) (l : List (Node Nat)) (n : Node Nat), Ok m → m.nodes = l ++ [n] →
      ∃ m' it seen, loop (fun _ x => [.write (x.key + 1) 0]) (fun _ _ => []) f j m (some n.id) = .ok (m', it, seen) ∧ it ≠ none ∧ seen.length = f := by
    intro f
    induction f with
    | zero => intro j m l n _ _; exact ⟨m, some n.id, [], rfl, by simp, rfl⟩
    | succ f ih =>
      intro j m l n hm hn
      have hmem : n ∈ m.nodes := by simp [hn]
      have hd : m.deref (some n.id) = .ok n := by simp only [M.deref]; rw [find_id hm hmem]
      have hs := hm.sorted
      rw [hn] at hs
      have hlast : ∀ x ∈ m.nodes, x.key < n.key + 1 := by
        intro x hx
        rw [hn] at hx
        rcases List.mem_append.1 hx with hx | hx
        · have := (List.pairwise_append.1 hs).2.2 x hx n (by simp); omega
        · rw [List.mem_singleton.1 hx]; omega
      have hn2 : (m.op (.write (n.key + 1) 0)).nodes = l ++ [n] ++ [⟨n.key + 1, m.fresh, 0⟩] := by
        show insert _ _ _ m.nodes = _
        rw [ins _ _ _ _ hlast, hn]
      have hm2 := hm.op (.write (n.key + 1) 0)
      have hnx : (m.op (.write (n.key + 1) 0)).next (some n.id) = .ok (some m.fresh) := by
        obtain ⟨it, e, h1, h2⟩ := next_spec hm2 (n := n) (by rw [hn2]; simp)
        rw [e]
        cases it with
        | none =>
          have := h1 rfl ⟨n.key + 1, m.fresh, 0⟩ (by rw [hn2]; simp)
          simp only at this
          omega
        | some i =>
          obtain ⟨b, hb, hbi, hlt, -⟩ := h2 i rfl
          rw [hn2, ← hn] at hb
          rcases List.mem_append.1 hb with hb | hb
          · have := hlast b hb; omega
          · rw [List.mem_singleton] at hb; subst hb; rw [← hbi]
      simp only [loop]
      rw [hd]
      simp only [Outcome.bind_ok, M.ops, List.foldl_cons, List.foldl_nil]
      rw [hnx]
      simp only [Outcome.bind_ok]
      obtain ⟨m', it, seen, g1, g2, g3⟩ := ih (j + 1) (m.op (.write (n.key + 1) 0)) (l ++ [n]) ⟨n.key + 1, m.fresh, 0⟩ hm2 hn2
      simp only at g1
      rw [g1]
      exact ⟨m', it, n :: seen, rfl, g2, by simp [g3]⟩
  exact key turns 0 _ [] ⟨0, 0, 7⟩ ⟨by simp, by simp, by simp⟩ rfl

/-! ### Examples -/

/-- Three elements. -/
def abc : M Nat := (({} : M Nat).ops [.write 5 50, .write 3 30, .write 9 90])

/-- Taking out each element after the iterator has moved on, and replacing the value of the last one while the first is seen. -/
example : Careful (K := Nat) (fun j _ => if j = 0 then [.write 9 91] else []) (fun _ x => [.remove x.key]) := by
  refine ⟨fun j x o ho => ?_, fun j x o ho k hk => ?_⟩
  · by_cases hj : j = 0
    · simp only [hj, if_true, List.mem_singleton] at ho; subst ho; simp [Op.erases]
    · simp [hj] at ho
  · rw [List.mem_singleton] at ho; subst ho; simp [Op.erases] at hk; omega

example : loop (K := Nat) (fun j _ => if j = 0 then [.write 9 91] else []) (fun _ x => [.remove x.key]) 10 0 abc abc.begin = .ok ({ nodes := [], fresh := 4 }, none, [⟨3, 1, 30⟩, ⟨5, 0, 50⟩, ⟨9, 2, 91⟩]) := by
  rfl

/-- An element removed in the turn of a smaller key is not seen; one written behind is. -/
example : loop (K := Nat) (fun j _ => if j = 0 then [.remove 5, .write 7 70] else []) (fun _ _ => []) 10 0 abc abc.begin =
    .ok ({ nodes := [⟨3, 1, 30⟩, ⟨7, 3, 70⟩, ⟨9, 2, 90⟩], fresh := 4 }, none, [⟨3, 1, 30⟩, ⟨7, 3, 70⟩, ⟨9, 2, 90⟩]) := by
  rfl

/-- One written in front of the iterator but after it has moved on past its place is not. -/
example : loop (K := Nat) (fun _ _ => []) (fun j _ => if j = 1 then [.write 7 70] else []) 10 0 abc abc.begin =
    .ok ({ nodes := [⟨3, 1, 30⟩, ⟨5, 0, 50⟩, ⟨7, 3, 70⟩, ⟨9, 2, 90⟩], fresh := 4 }, none, [⟨3, 1, 30⟩, ⟨5, 0, 50⟩, ⟨9, 2, 90⟩]) := by
  rfl

/-- With the lock a thread goes on from the element another one is about to remove; that one has to wait. -/
example : (Sys.run { m := abc } [.lock 0, .begin 0, .op 1 (.remove 3), .next 0]).isNone ∧ Balanced (K := Nat) 0 1 [.begin 0, .lock 0, .op 0 (.write 3 31), .unlock 0, .next 0] ∧
    ¬ Balanced (K := Nat) 0 1 [.unlock 0] := by
  refine ⟨rfl, ?_, ?_⟩ <;> simp [Balanced]

example : Ok abc := ((((⟨by simp, by simp, by simp⟩ : Ok ({} : M Nat))).ops _))

end Verif.Interthread.Walk
