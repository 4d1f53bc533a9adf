import Verif.Interthread.PriorityQueue
import Verif.Interthread.QueueProps

/-
Property C28.
-/

namespace Verif.Interthread
open Verif Verif.Monitor

/-! ### Specification -/

/-- One call on an ideal priority queue (a bag of items); `before a b`: `a` is more urgent than `b`.  A read takes out an item that no item in the bag precedes. -/
def BagStep (before : Nat → Nat → Prop) (q : List Nat) : PQOp × PQRes → List Nat → Prop
  | (.write v, .unit), q' => q'.Perm (v :: q)
  | (.read, .ptr (some x)), q' => (∀ y ∈ q, ¬ before y x) ∧ q.Perm (x :: q')
  | (.readT _, .ptr (some x)), q' => (∀ y ∈ q, ¬ before y x) ∧ q.Perm (x :: q')
  | (.readNoBlock, .ptr (some x)), q' => (∀ y ∈ q, ¬ before y x) ∧ q.Perm (x :: q')
  | (.readT _, .ptr none), q' => q = [] ∧ q' = []
  | (.readNoBlock, .ptr none), q' => q = [] ∧ q' = []
  | (.peek, .ptr (some x)), q' => x ∈ q ∧ (∀ y ∈ q, ¬ before y x) ∧ q' = q
  | (.peek, .ptr none), q' => q = [] ∧ q' = []
  | (.size, .num k), q' => k = q.length ∧ q' = q
  | (.clear, .deleted l), q' => l.Perm q ∧ (l.Pairwise fun a b => ¬ before b a) ∧ q' = []
  | _, _ => False

inductive BagRun (before : Nat → Nat → Prop) : List Nat → List (PQOp × PQRes) → List Nat → Prop where
  | nil (q) : BagRun before q [] q
  | snoc {q es q1 e q2} : BagRun before q es q1 → BagStep before q1 e q2 → BagRun before q (es ++ [e]) q2

variable {gt before : Nat → Nat → Prop}

theorem pqget_cases (hgt : ∀ a b, gt a b ↔ before b a) {q q' : List Nat} {r : Option Nat} (h : PQGet gt q r q') :
    (q = [] ∧ r = none ∧ q' = []) ∨ ∃ x, r = some x ∧ x ∈ q ∧ (∀ y ∈ q, ¬ before y x) ∧ q' = q.erase x ∧ q.Perm (x :: q') := by
  rcases h with h | ⟨x, ⟨hx, ht⟩, rfl, rfl⟩
  · exact .inl h
  · exact .inr ⟨x, rfl, hx, fun y hy hb => ht y hy ((hgt _ _).mpr hb), rfl, List.perm_cons_erase hx⟩

/-- The signals a call sends. -/
def pqSignals : PQOp → List (Sig WS)
  | .write _ => [.one ()]
  | _ => []

/-- Calls that take an item and may sleep until there is one. -/
def pqConsumes : PQOp → Bool
  | .read => true
  | .readT ms => decide (ms ≠ 0)
  | _ => false

/-- `clear` deletes each element once. -/
theorem drains_perm : ∀ {l q : List Nat}, Drains gt q l → l.Perm q
  | [], q, h => by rw [show q = [] from h]
  | x :: l, q, ⟨h1, h2⟩ => ((drains_perm h2).cons x).trans (List.perm_cons_erase h1.1).symm

/-- ... in the order of priority. -/
theorem drains_order (hgt : ∀ a b, gt a b ↔ before b a) : ∀ {l q : List Nat}, Drains gt q l → l.Pairwise fun a b => ¬ before b a
  | [], _, _ => List.Pairwise.nil
  | _ :: _, _, ⟨h1, h2⟩ => .cons (fun y hy hb => h1.2 y (List.mem_of_mem_erase ((drains_perm h2).mem_iff.mp hy)) ((hgt _ _).mpr hb)) (drains_order hgt h2)

/-- What a completed pass does. -/
theorem pq_done (hgt : ∀ a b, gt a b ↔ before b a) {op : PQOp} {t0 : Stamp} {nw : Clock} {q q' : List Nat} {r : PQRes} {i o : List (Sig WS)}
    (hb : (pqueue gt).body op t0 nw q (.done q' r i o)) :
    BagStep before q (op, r) q' ∧ i = [] ∧ o = pqSignals op := by
  have hb : pqbody gt op t0 nw q (.done q' r i o) := hb
  cases op with
  | write v => simp only [pqbody] at hb; cases hb; exact ⟨List.Perm.refl _, rfl, rfl⟩
  | read =>
    simp only [pqbody] at hb
    rcases hb with ⟨-, e⟩ | ⟨hl, r', q1, hg, e⟩
    · cases e
    · cases e
      rcases pqget_cases hgt hg with ⟨rfl, -⟩ | ⟨x, rfl, -, h1, -, h2⟩
      · exact absurd rfl hl
      · exact ⟨⟨h1, h2⟩, rfl, rfl⟩
  | readT ms =>
    simp only [pqbody] at hb
    split at hb
    · next hl =>
      obtain ⟨r', -, hb⟩ := hb
      split at hb
      · cases hb
        have : q = [] := List.eq_nil_of_length_eq_zero hl.2
        exact ⟨⟨this, this⟩, rfl, rfl⟩
      · rcases timedWait_cases (R := PQRes) nw r' q () with e | e <;> rw [e] at hb <;> cases hb
    · obtain ⟨r', q1, hg, e⟩ := hb
      cases e
      rcases pqget_cases hgt hg with ⟨rfl, rfl, rfl⟩ | ⟨x, rfl, -, h1, -, h2⟩
      · exact ⟨⟨rfl, rfl⟩, rfl, rfl⟩
      · exact ⟨⟨h1, h2⟩, rfl, rfl⟩
  | readNoBlock =>
    simp only [pqbody] at hb
    obtain ⟨r', q1, hg, e⟩ := hb
    cases e
    rcases pqget_cases hgt hg with ⟨rfl, rfl, rfl⟩ | ⟨x, rfl, -, h1, -, h2⟩
    · exact ⟨⟨rfl, rfl⟩, rfl, rfl⟩
    · exact ⟨⟨h1, h2⟩, rfl, rfl⟩
  | peek =>
    simp only [pqbody] at hb
    rcases hb with ⟨rfl, e⟩ | ⟨x, ⟨hx, ht⟩, e⟩
    · cases e; exact ⟨⟨rfl, rfl⟩, rfl, rfl⟩
    · cases e; exact ⟨⟨hx, fun y hy hb => ht y hy ((hgt _ _).mpr hb), rfl⟩, rfl, rfl⟩
  | size => simp only [pqbody] at hb; cases hb; exact ⟨⟨rfl, rfl⟩, rfl, rfl⟩
  | clear =>
    simp only [pqbody] at hb
    obtain ⟨l, hl, e⟩ := hb
    cases e
    exact ⟨⟨drains_perm hl, drains_order hgt hl, rfl⟩, rfl, rfl⟩

theorem pq_wait {op : PQOp} {t0 : Stamp} {nw : Clock} {q q' : List Nat} {c : WS} (hb : (pqueue gt).body op t0 nw q (.wait q' c)) :
    q = [] ∧ q' = [] ∧ (op = .read ∨ ∃ ms, ms ≠ 0 ∧ op = .readT ms) := by
  have hb : pqbody gt op t0 nw q (.wait q' c) := hb
  cases op with
  | read =>
    simp only [pqbody] at hb
    rcases hb with ⟨hl, e⟩ | ⟨-, r', q1, hg, e⟩
    · cases e
      have : q = [] := List.eq_nil_of_length_eq_zero hl
      exact ⟨this, this, .inl rfl⟩
    · cases e
  | readT ms =>
    simp only [pqbody] at hb
    split at hb
    · next hl =>
      obtain ⟨r', -, hb⟩ := hb
      split at hb
      · cases hb
      · have : q = [] := List.eq_nil_of_length_eq_zero hl.2
        rcases timedWait_cases (R := PQRes) nw r' q () with e | e <;> rw [e] at hb <;> cases hb
        exact ⟨this, this, .inr ⟨ms, hl.1, rfl⟩⟩
    · obtain ⟨r', q1, hg, e⟩ := hb
      cases e
  | peek => simp [pqbody] at hb
  | write _ | readNoBlock | size | clear => simp [pqbody] at hb

theorem pq_spin {op : PQOp} {t0 : Stamp} {nw : Clock} {q q' : List Nat} (hb : (pqueue gt).body op t0 nw q (.spin q')) : q' = q := by
  have hb : pqbody gt op t0 nw q (.spin q') := hb
  cases op with
  | readT ms =>
    simp only [pqbody] at hb
    split at hb
    · next hl =>
      obtain ⟨r', -, hb⟩ := hb
      split at hb
      · cases hb
      · rcases timedWait_cases (R := PQRes) nw r' q () with e | e <;> rw [e] at hb <;> cases hb
        rfl
    · obtain ⟨r', q1, hg, e⟩ := hb
      cases e
  | peek => simp [pqbody] at hb
  | write _ | read | readNoBlock | size | clear => simp [pqbody] at hb

/-! ### C28 -/

/-- C28: with any number of threads and any interleaving the calls take effect one after the other as on an ideal priority queue, smallest first: every item returned
by a read is one that no queued item precedes. -/
theorem C28_linearizable (hgt : ∀ a b, gt a b ↔ before b a) {n : Nat} {now : Clock} {ok : Fin n → PQOp → Prop} {s : St n (List Nat) WS PQOp PQRes}
    (h : Reach (pqueue gt) ok (init n now []) s) : BagRun before [] (effects s.tr) s.data := by
  refine data_invariant (fun q es => BagRun before [] es q) (.nil []) ?_ ?_ ?_ h
  · rintro t op t0 nw d d' r i o es hk hp hb
    exact hp.snoc (pq_done hgt hb).1
  · rintro t op t0 nw d d' c es hk hp hb
    obtain ⟨rfl, rfl, -⟩ := pq_wait hb
    exact hp
  · rintro t op t0 nw d d' es hk hp hb
    rw [pq_spin hb]; exact hp

/-- C28: each call takes effect once, between call and return (per thread: call, effect, return, ...). -/
theorem C28_real_time {n : Nat} {now : Clock} {ok : Fin n → PQOp → Prop} {s : St n (List Nat) WS PQOp PQRes}
    (h : Reach (pqueue gt) ok (init n now []) s) (t : Fin n) : Seq (s.tr.filter fun e => e.thread = t) (s.th t).phase := reach_lin h t

/-- Items written. -/
def pqWritten : List (PQOp × PQRes) → List Nat
  | [] => []
  | (.write v, _) :: es => v :: pqWritten es
  | _ :: es => pqWritten es

/-- The item handed out by one call. -/
def pqTaken : PQOp × PQRes → List Nat
  | (.read, .ptr (some x)) => [x]
  | (.readT _, .ptr (some x)) => [x]
  | (.readNoBlock, .ptr (some x)) => [x]
  | _ => []

/-- Items returned by reads, in order. -/
def pqDelivered (es : List (PQOp × PQRes)) : List Nat := es.flatMap pqTaken

/-- Items deleted by `clear`. -/
def pqCleared : List (PQOp × PQRes) → List Nat
  | [] => []
  | (.clear, .deleted l) :: es => l ++ pqCleared es
  | _ :: es => pqCleared es

theorem pqWritten_append (a b : List (PQOp × PQRes)) : pqWritten (a ++ b) = pqWritten a ++ pqWritten b := by
  induction a with
  | nil => rfl
  | cons e a ih => obtain ⟨op, r⟩ := e; cases op <;> simp [pqWritten, ih]

theorem pqCleared_append (a b : List (PQOp × PQRes)) : pqCleared (a ++ b) = pqCleared a ++ pqCleared b := by
  induction a with
  | nil => rfl
  | cons e a ih => obtain ⟨op, r⟩ := e; cases op <;> cases r <;> simp [pqCleared, ih]

/-- Effect of one step on the bag, in terms of items written, taken and cleared. -/
theorem bag_balance {q q' : List Nat} {e : PQOp × PQRes} (h : BagStep before q e q') :
    (pqTaken e ++ pqCleared [e] ++ q').Perm (q ++ pqWritten [e]) := by
  obtain ⟨op, r⟩ := e
  cases op with
  | write v =>
    cases r with
    | unit => simp only [pqTaken, pqCleared, pqWritten, List.nil_append]; exact h.trans (List.perm_append_comm (l₁ := [v]))
    | _ => exact h.elim
  | read =>
    cases r with
    | ptr p => cases p with
      | none => exact h.elim
      | some x => simpa [pqTaken, pqCleared, pqWritten] using h.2.symm
    | _ => exact h.elim
  | readT ms =>
    cases r with
    | ptr p => cases p with
      | none => obtain ⟨rfl, rfl⟩ := h; exact List.Perm.refl _
      | some x => simpa [pqTaken, pqCleared, pqWritten] using h.2.symm
    | _ => exact h.elim
  | readNoBlock =>
    cases r with
    | ptr p => cases p with
      | none => obtain ⟨rfl, rfl⟩ := h; exact List.Perm.refl _
      | some x => simpa [pqTaken, pqCleared, pqWritten] using h.2.symm
    | _ => exact h.elim
  | peek =>
    cases r with
    | ptr p => cases p with
      | none => obtain ⟨rfl, rfl⟩ := h; exact List.Perm.refl _
      | some x => obtain ⟨-, -, rfl⟩ := h; simp [pqTaken, pqCleared, pqWritten]
    | _ => exact h.elim
  | size =>
    cases r with
    | num k => obtain ⟨-, rfl⟩ := h; simp [pqTaken, pqCleared, pqWritten]
    | _ => exact h.elim
  | clear =>
    cases r with
    | deleted l => obtain ⟨h1, -, rfl⟩ := h; simpa [pqTaken, pqCleared, pqWritten] using h1
    | _ => exact h.elim

/-- C28: nothing is lost or duplicated: the items returned, cleared and still queued together are the items written. -/
theorem C28_conservation (hgt : ∀ a b, gt a b ↔ before b a) {n : Nat} {now : Clock} {ok : Fin n → PQOp → Prop} {s : St n (List Nat) WS PQOp PQRes}
    (h : Reach (pqueue gt) ok (init n now []) s) :
    (pqDelivered (effects s.tr) ++ pqCleared (effects s.tr) ++ s.data).Perm (pqWritten (effects s.tr)) := by
  have key : ∀ es q, BagRun before [] es q → (pqDelivered es ++ pqCleared es ++ q).Perm (pqWritten es) := by
    intro es q hr
    induction hr with
    | nil => exact List.Perm.refl _
    | @snoc es q1 e q2 hr hs ih =>
      have hb := bag_balance hs
      rw [pqCleared_append, pqWritten_append]
      unfold pqDelivered at ih ⊢
      rw [List.flatMap_append]
      have e1 : List.flatMap pqTaken [e] = pqTaken e := by simp
      rw [e1]
      generalize List.flatMap pqTaken es = D at *
      generalize pqCleared es = C at *
      have p1 : (D ++ pqTaken e ++ (C ++ pqCleared [e]) ++ q2).Perm (D ++ C ++ (pqTaken e ++ pqCleared [e] ++ q2)) := by
        simp only [List.append_assoc]
        refine List.Perm.append_left D ?_
        rw [← List.append_assoc, ← List.append_assoc C]
        exact List.Perm.append_right _ List.perm_append_comm
      refine p1.trans ((List.Perm.append_left (D ++ C) hb).trans ?_)
      rw [← List.append_assoc]
      exact List.Perm.append_right _ ih
  exact key _ _ (C28_linearizable hgt h)

theorem bagrun_split {es es' : List (PQOp × PQRes)} {q q' : List Nat} (h : BagRun before q (es ++ es') q') :
    ∃ q1, BagRun before q es q1 ∧ BagRun before q1 es' q' := by
  induction es' using List.reverseRecOn generalizing q' with
  | nil => rw [List.append_nil] at h; exact ⟨q', h, .nil _⟩
  | append_singleton es' e ih =>
    rw [← List.append_assoc] at h
    generalize hes : es ++ es' ++ [e] = l at h
    cases h with
    | nil => simp at hes
    | snoc hr hs =>
      obtain ⟨h1, h2⟩ := List.append_inj' hes rfl
      cases h2
      rw [← h1] at hr
      obtain ⟨q2, h3, h4⟩ := ih hr
      exact ⟨q2, h3, h4.snoc hs⟩

theorem bag_nowrite {q q' : List Nat} {e : PQOp × PQRes} (h : BagStep before q e q') (hno : ∀ v, e.1 ≠ .write v) :
    (∀ y ∈ pqTaken e ++ q', y ∈ q) ∧ ∀ x ∈ pqTaken e, ∀ y ∈ q, ¬ before y x := by
  constructor
  · intro y hy
    have hb := bag_balance h
    have hw : pqWritten [e] = [] := by
      obtain ⟨op, r⟩ := e
      cases op with
      | write v => exact absurd rfl (hno v)
      | _ => rfl
    rw [hw, List.append_nil] at hb
    apply hb.mem_iff.mp
    simp only [List.mem_append] at hy ⊢
    tauto
  · intro x hx
    obtain ⟨op, r⟩ := e
    cases op <;> cases r <;> simp only [pqTaken, List.not_mem_nil] at hx
    all_goals
      next p =>
        cases p with
        | none => simp at hx
        | some z =>
          simp only [List.mem_singleton] at hx
          subst hx
          exact h.1

/-- C28: items come out in order: as long as nothing is written, no item returned later precedes an item returned earlier. -/
theorem C28_sorted (hgt : ∀ a b, gt a b ↔ before b a) {n : Nat} {now : Clock} {ok : Fin n → PQOp → Prop} {s : St n (List Nat) WS PQOp PQRes}
    (h : Reach (pqueue gt) ok (init n now []) s) {es es' : List (PQOp × PQRes)} (he : effects s.tr = es ++ es') (hno : ∀ e ∈ es', ∀ v, e.1 ≠ .write v) :
    (pqDelivered es').Pairwise fun x y => ¬ before y x := by
  have hr := C28_linearizable hgt h
  rw [he] at hr
  obtain ⟨q1, -, hr⟩ := bagrun_split hr
  have key : ∀ (es' : List (PQOp × PQRes)) (q : List Nat), (∀ e ∈ es', ∀ v, e.1 ≠ .write v) → BagRun before q1 es' q →
      (pqDelivered es').Pairwise (fun x y => ¬ before y x) ∧ (∀ x ∈ pqDelivered es', ∀ y ∈ q, ¬ before y x) := by
    intro es' q hno hr
    induction hr with
    | nil => exact ⟨List.Pairwise.nil, by intro x hx; cases hx⟩
    | @snoc es q1 e q2 hr hs ih =>
      obtain ⟨h1, h2⟩ := ih (fun e he => hno e (List.mem_append_left _ he))
      obtain ⟨h3, h4⟩ := bag_nowrite hs (hno e (List.mem_append_right _ (List.mem_singleton.mpr rfl)))
      have e1 : pqDelivered (es ++ [e]) = pqDelivered es ++ pqTaken e := by simp [pqDelivered]
      rw [e1]
      refine ⟨List.pairwise_append.mpr ⟨h1, ?_, ?_⟩, ?_⟩
      · obtain ⟨op, r⟩ := e
        cases op <;> cases r <;> simp only [pqTaken, List.Pairwise.nil]
        all_goals
          next p => cases p <;> simp
      · intro x hx y hy
        exact h2 x hx y (h3 y (List.mem_append_left _ hy))
      · intro x hx y hy
        rcases List.mem_append.mp hx with hx | hx
        · exact h2 x hx y (h3 y (List.mem_append_right _ hy))
        · exact h4 x hx y (h3 y (List.mem_append_right _ hy))
  exact (key es' _ hno hr).1

/-- C28: no reader is left asleep while items are queued and nobody else is active. -/
theorem C28_no_lost_wakeup (hgt : ∀ a b, gt a b ↔ before b a) {n : Nat} {now : Clock} {ok : Fin n → PQOp → Prop} {s : St n (List Nat) WS PQOp PQRes}
    (h : Reach (pqueue gt) ok (init n now []) s) (hs : Settled s) {t : Fin n} {op : PQOp} {t0 : Stamp} (hw : s.th t = .waiting op t0 ()) : s.data = [] := by
  have key : Covered () pqConsumes (fun q : List Nat => q.length) s := by
    refine no_lost_wakeup () _ _ (fun _ => True) (fun _ _ => trivial) ?_ ?_ ?_ h
    · rintro t op t0 nw q q' r i o - - hb
      obtain ⟨hs, rfl, rfl⟩ := pq_done hgt hb
      have hl := (bag_balance hs).length_eq
      simp only [List.length_append] at hl
      cases op with
      | write v => left; cases r <;> simp only [pqTaken, pqCleared, pqWritten, List.length_nil, List.length_cons] at hl <;> simp [ones, pqSignals, pqConsumes] <;> omega
      | read =>
        left
        cases r with
        | ptr p => cases p with
          | none => exact hs.elim
          | some x => simp only [pqTaken, pqCleared, pqWritten, List.length_nil, List.length_cons] at hl; simp [ones, pqSignals, pqConsumes]; omega
        | _ => exact hs.elim
      | readT ms =>
        cases r with
        | ptr p => cases p with
          | none => right; rw [hs.2]; simp
          | some x =>
            left
            simp only [pqTaken, pqCleared, pqWritten, List.length_nil, List.length_cons] at hl
            have : ∀ b : Bool, (if b = true then 1 else 0) ≤ 1 := by decide
            have := this (pqConsumes (.readT ms))
            simp only [List.append_nil, ones, pqSignals]
            omega
        | _ => exact hs.elim
      | readNoBlock => left; simp [ones, pqWritten, pqSignals, pqConsumes] at hl ⊢; omega
      | peek => left; simp [ones, pqWritten, pqSignals, pqConsumes] at hl ⊢; omega
      | size => left; simp [ones, pqWritten, pqSignals, pqConsumes] at hl ⊢; omega
      | clear => left; simp [ones, pqWritten, pqSignals, pqConsumes] at hl ⊢; omega
    · rintro t op t0 nw d d' c - - hb
      obtain ⟨rfl, rfl, e⟩ := pq_wait hb
      rw [if_pos rfl]
      refine ⟨?_, rfl⟩
      rcases e with rfl | ⟨ms, hm, rfl⟩
      · rfl
      · simp [pqConsumes, hm]
    · rintro t op t0 nw d d' - - hb
      rw [pq_spin hb]
  exact List.eq_nil_of_length_eq_zero (settled_covered key hs ⟨t, op, t0, hw⟩)

/-- C28: the hypotheses are met and the relation is not empty: for an irreflexive, transitive `>` every non-empty queue has a top. -/
theorem C28_top_exists (hirr : ∀ a, ¬ gt a a) (htr : ∀ a b c, gt a b → gt b c → gt a c) (q : List Nat) (hq : q ≠ []) : ∃ x, IsTop (pointerCompare gt) q x := by
  classical
  induction q with
  | nil => exact absurd rfl hq
  | cons a q ih =>
    by_cases h0 : q = []
    · subst h0
      exact ⟨a, by simp, by intro y hy; simp at hy; subst hy; exact hirr y⟩
    · obtain ⟨x, hx, hm⟩ := ih h0
      by_cases hax : gt x a
      · refine ⟨a, by simp, ?_⟩
        intro y hy hg
        rcases List.mem_cons.mp hy with rfl | hy
        · exact hirr _ hg
        · exact hm y hy (htr _ _ _ hax hg)
      · refine ⟨x, List.mem_cons_of_mem _ hx, ?_⟩
        intro y hy hg
        rcases List.mem_cons.mp hy with rfl | hy
        · exact hax hg
        · exact hm y hy hg

/-- A queue of numbers compared as numbers, with the first smallest element on top: one of the behaviours allowed. -/
def pqfirst : PQOp → Stamp → Clock → List Nat → Option (Act (List Nat) WS PQRes)
  | .write v, _, _, q => some (.done (v :: q) .unit [] [.one ()])
  | .read, _, _, q =>
    if q.length = 0 then some (.wait q ())
    else match q.find? fun x => q.all fun y => ¬ x > y with
      | some x => some (.done (q.erase x) (.ptr (some x)) [] [])
      | none => none
  | _, _, _, _ => none

theorem pqfirst_refines (op : PQOp) (t0 : Stamp) (now : Clock) (q : List Nat) (a : Act (List Nat) WS PQRes) (h : (Mon.ofFun pqfirst).body op t0 now q a) :
    (pqueue (· > ·)).body op t0 now q a := by
  have h : pqfirst op t0 now q = some a := h
  show pqbody _ op t0 now q a
  cases op with
  | write v => cases h; rfl
  | read =>
    simp only [pqfirst] at h
    split at h
    · next hl => cases h; exact .inl ⟨hl, rfl⟩
    · next hl =>
      split at h
      · next x hx =>
        cases h
        refine .inr ⟨hl, some x, q.erase x, .inr ⟨x, ⟨List.mem_of_find?_eq_some hx, ?_⟩, rfl, rfl⟩, rfl⟩
        have := List.find?_some hx
        intro y hy
        have := List.all_eq_true.mp this y hy
        simpa [pointerCompare] using this
      · cases h
  | readT _ | readNoBlock | peek | size | clear => simp [pqfirst] at h

/-- C28: an execution meeting the hypotheses: items 5 and 3 are written, the reads return 3 and then 5, and the third read sleeps. -/
example : ∃ s : St 1 (List Nat) WS PQOp PQRes, Reach (pqueue (· > ·)) (fun _ _ => True) (init 1 ⟨5, 0⟩ []) s ∧ Settled s ∧
    s.th 0 = .waiting .read ⟨⟨5, 0⟩, ⟨5, 0⟩⟩ () ∧ effects s.tr = [(.write 5, .unit), (.write 3, .unit), (.read, .ptr (some 3)), (.read, .ptr (some 5))] := by
  have h : (match exec pqfirst (init 1 ⟨5, 0⟩ []) ([.start 0 (.write 5), .lock 0, .body 0, .unlock 0, .notify 0 none, .ret 0,
      .start 0 (.write 3), .lock 0, .body 0, .unlock 0, .notify 0 none, .ret 0, .start 0 .read, .lock 0, .body 0, .unlock 0, .ret 0,
      .start 0 .read, .lock 0, .body 0, .unlock 0, .ret 0, .start 0 .read, .lock 0, .body 0] : List (Cmd 1 PQOp)) with
    | some s => (match s.th 0 with
      | .waiting .read t0 () => decide (t0 = ⟨⟨5, 0⟩, ⟨5, 0⟩⟩ ∧
          effects s.tr = [(.write 5, .unit), (.write 3, .unit), (.read, .ptr (some 3)), (.read, .ptr (some 5))])
      | _ => false)
    | none => false) = true := by decide
  split at h
  · next s hs =>
    split at h
    · next e0 =>
      obtain ⟨rfl, hd⟩ := of_decide_eq_true h
      refine ⟨s, (exec_reach hs .refl (fun _ _ _ => trivial)).refine pqfirst_refines, ?_, e0, hd⟩
      intro t
      have : t = 0 := by omega
      subst this
      exact .inr ⟨_, _, _, e0⟩
    · cases h
  · cases h

end Verif.Interthread
