import Verif.Monitor.HandOver
import Verif.Interthread.QueueProps
import Verif.Interthread.Pair
import Verif.Interthread.WithWaitProps
import Verif.Interthread.MapProps
import Verif.Interthread.PriorityQueueProps
import Verif.Interthread.Semaphore

/-
The classes of `/repo/Interthread.h` as places where things are kept (`Verif.Monitor.HandOver`): who has an item at what time, and why nobody else uses it then.
-/

namespace Verif.Interthread.HandOver
open Verif Verif.Monitor Verif.Interthread

/-- The items behind pointers; NULL is none. -/
def one : Val → Multiset Nat
  | none => 0
  | some v => {v}

def items (l : List Val) : Multiset Nat := (l.map one).sum

@[simp] theorem items_nil : items [] = 0 := rfl
@[simp] theorem items_cons (v : Val) (l : List Val) : items (v :: l) = one v + items l := by simp [items]
@[simp] theorem items_append (l l' : List Val) : items (l ++ l') = items l + items l' := by simp [items]

/-- The item that a result is. -/
def got : QRes → Multiset Nat
  | .ptr v => one v
  | .removed l => items l
  | _ => 0

/-! ### InterthreadQueue -/

/-- What the caller parts with: the item written, Interthread.h:296-321. -/
def qGives : QOp → Multiset Nat
  | .write v => one v
  | .writeFront v => one v
  | _ => 0

/-- What the caller has got: the item read, the items removed by `clear` (which deletes them) or `flushNoDelete`, Interthread.h:189-200,246-293; but not the item that `front` shows. -/
def qTakes : QOp → QRes → Multiset Nat
  | .front, _ => 0
  | _, r => got r

def queueBox : Box Nat := ⟨List Val, WS, QOp, QRes, inferInstance, queue, items, qGives, qTakes⟩

theorem getQ_items (q : List Val) : items (getQ q).2 + one (getQ q).1 = items q := by
  cases q with
  | nil => rfl
  | cons v q => rw [items_cons, add_comm]; rfl

theorem getQ_none {q : List Val} (h : (getQ q).1 = none) : items (getQ q).2 = items q := by rw [← getQ_items q, h]; exact (add_zero _).symm

/-- What a pass does with the items: none may become two (`≤`), none may be lost (`Saved`), neither (`=`). -/
def Keeps {σ C R : Type} (rel : Multiset Nat → Multiset Nat → Prop) (holds : σ → Multiset Nat) (gives : Multiset Nat) (takes : R → Multiset Nat) (d : σ) : Act σ C R → Prop
  | .done d' r _ _ => rel (holds d' + takes r) (holds d + gives)
  | .wait d' _ => rel (holds d') (holds d)
  | .spin d' => rel (holds d') (holds d)

def Saved (a b : Multiset Nat) : Prop := ∀ x ∈ b, x ∈ a

theorem Keeps.mono {σ C R : Type} {rel rel' : Multiset Nat → Multiset Nat → Prop} (h : ∀ a b, rel a b → rel' a b) {holds : σ → Multiset Nat} {gives : Multiset Nat} {takes : R → Multiset Nat} {d : σ}
    {a : Act σ C R} (k : Keeps rel holds gives takes d a) : Keeps rel' holds gives takes d a := by
  cases a <;> exact h _ _ k

theorem keeps_timedWait {σ C R : Type} {rel : Multiset Nat → Multiset Nat → Prop} (hr : ∀ a, rel a a) {holds : σ → Multiset Nat} {gives : Multiset Nat} {takes : R → Multiset Nat} {d : σ} {now : Clock} {r : Int}
    {c : C} : Keeps rel holds gives takes d (timedWait now r d c : Act σ C R) := by
  unfold timedWait
  split
  · exact hr _
  · dsimp only
    split <;> exact hr _

theorem fair_of {X : Type} {B : Box X} (h : ∀ op t0 now d a, B.M.body op t0 now d a → match a with
    | .done d' r _ _ => B.holds d' + B.takes op r ≤ B.holds d + B.gives op
    | .wait d' _ => B.holds d' ≤ B.holds d
    | .spin d' => B.holds d' ≤ B.holds d) : B.Fair :=
  ⟨fun hb => h _ _ _ _ _ hb, fun hb => h _ _ _ _ _ hb, fun hb => h _ _ _ _ _ hb⟩

theorem safe_of {B : Box Nat} {good : B.σ → Prop} (h : ∀ op t0 now d a, good d → B.M.body op t0 now d a → match a with
    | .done d' r _ _ => good d' ∧ Saved (B.holds d' + B.takes op r) (B.holds d + B.gives op)
    | .wait d' _ => good d' ∧ Saved (B.holds d') (B.holds d)
    | .spin d' => good d' ∧ Saved (B.holds d') (B.holds d)) : B.Safe good :=
  ⟨fun hg hb => h _ _ _ _ _ hg hb, fun hg hb => h _ _ _ _ _ hg hb, fun hg hb => h _ _ _ _ _ hg hb⟩

theorem eq_le (a b : Multiset Nat) (h : a = b) : a ≤ b := le_of_eq h

theorem eq_saved (a b : Multiset Nat) (h : a = b) : Saved a b := fun _ hx => h ▸ hx

theorem q_keeps {op : QOp} {t0 : Stamp} {now : Clock} {q : List Val} {a : Act (List Val) WS QRes} (h : qbody op t0 now q = some a) : Keeps Eq items (qGives op) (qTakes op) q a := by
  have get : items (getQ q).2 + one (getQ q).1 = items q + 0 := by rw [getQ_items, add_zero]
  cases op with
  | write v => cases h; simp [Keeps, qGives, qTakes, got]
  | writeFront v => cases h; simp [Keeps, qGives, qTakes, got, add_comm]
  | read =>
    simp only [qbody] at h
    split at h <;> cases h
    · exact getQ_none ‹_›
    · exact get
  | readT ms =>
    simp only [qbody, readTimed] at h
    split at h
    · cases h; exact get
    · split at h
      · split at h
        · split at h <;> cases h
          · simp [Keeps, qGives, qTakes, got, one]
          · exact keeps_timedWait fun _ => rfl
        · cases h
      · cases h; exact get
  | readNoBlock => cases h; exact get
  | front => cases h; simp [Keeps, qGives, qTakes]
  | size => cases h; simp [Keeps, qGives, qTakes, got]
  | clear => cases h; simp [Keeps, qGives, qTakes, got]
  | flush => cases h; simp [Keeps, qGives, qTakes, got]

/-- Nothing is needed of the data. -/
theorem safe_keeps {B : Box Nat} (h : ∀ op t0 now d a, B.M.body op t0 now d a → Keeps Eq B.holds (B.gives op) (B.takes op) d a) : B.Safe fun _ => True :=
  safe_of fun op t0 now d a _ hb => by
    have := (h op t0 now d a hb).mono eq_saved
    cases a <;> exact ⟨trivial, this⟩

theorem queue_safe : queueBox.Safe fun _ => True := safe_keeps fun _ _ _ _ _ h => q_keeps h

theorem queue_fair : queueBox.Fair := fair_of fun _ _ _ _ a h => by have := (q_keeps h).mono eq_le; cases a <;> exact this

/-! ### Two queues with a common lock -/

/-- The same for both queues, Interthread.h:113-321; waiting for either hands nothing over. -/
def pGives : POp → Multiset Nat
  | .on _ op => qGives op
  | .waitEither _ => 0

def pTakes : POp → QRes → Multiset Nat
  | .on _ op, r => qTakes op r
  | .waitEither _, _ => 0

def bothItems (d : Both) : Multiset Nat := items d.1 + items d.2

def pairBox : Box Nat := ⟨Both, WS, POp, QRes, inferInstance, pair, bothItems, pGives, pTakes⟩

theorem both_items (d : Both) (i : Bool) (q : List Val) : items (d.set i q).1 + items (d.set i q).2 = items q + items (d.get !i) := by
  cases i
  · rfl
  · exact add_comm _ _

theorem both_items' (d : Both) (i : Bool) : items d.1 + items d.2 = items (d.get i) + items (d.get !i) := by
  cases i
  · rfl
  · exact add_comm _ _

theorem p_keeps {op : POp} {t0 : Stamp} {now : Clock} {d : Both} {a : Act Both WS QRes} (h : pbody op t0 now d = some a) : Keeps Eq bothItems (pGives op) (pTakes op) d a := by
  cases op with
  | on i op =>
    simp only [pbody] at h
    split at h
    · rename_i q r inn out hq
      cases h
      have := q_keeps hq
      simp only [Keeps] at this
      simp only [Keeps, bothItems, both_items, both_items' d i, pTakes, pGives]
      rw [add_right_comm, add_right_comm (items (d.get i))]
      rw [this]
    · rename_i q c hq
      cases h
      have := q_keeps hq
      simp only [Keeps] at this
      simp only [Keeps, bothItems, both_items, both_items' d i]
      rw [this]
    · rename_i q hq
      cases h
      have := q_keeps hq
      simp only [Keeps] at this
      simp only [Keeps, bothItems, both_items, both_items' d i]
      rw [this]
    · cases h
  | waitEither ms =>
    simp only [pbody, eitherBody] at h
    split at h
    · split at h
      · split at h
        · cases h; exact keeps_timedWait fun _ => rfl
        · cases h
      · cases h; rfl
    · cases h; rfl

theorem pair_safe : pairBox.Safe fun _ => True := safe_keeps fun _ _ _ _ _ h => p_keeps h

theorem pair_fair : pairBox.Fair := fair_of fun _ _ _ _ a h => by have := (p_keeps h).mono eq_le; cases a <;> exact this

/-! ### InterthreadQueueWithWait -/

/-- The item written, Interthread.h:415-422. -/
def wGives : WOp → Multiset Nat
  | .write v => one v
  | _ => 0

def queueWBox : Box Nat := ⟨List Val, WC, WOp, QRes, inferInstance, queueW, items, wGives, fun _ => got⟩

theorem w_keeps {op : WOp} {t0 : Stamp} {now : Clock} {q : List Val} {a : Act (List Val) WC QRes} (h : wbody op t0 now q = some a) : Keeps Eq items (wGives op) got q a := by
  have get : items (getQ q).2 + one (getQ q).1 = items q + 0 := by rw [getQ_items, add_zero]
  cases op with
  | write v => cases h; simp [Keeps, wGives, got]
  | read =>
    simp only [wbody] at h
    split at h <;> cases h
    · exact getQ_none ‹_›
    · exact get
  | readT ms =>
    simp only [wbody, readTimedW] at h
    split at h
    · cases h; exact get
    · split at h
      · split at h
        · split at h <;> cases h
          · simp [Keeps, wGives, got, one]
          · exact keeps_timedWait fun _ => rfl
        · cases h
      · cases h; exact get
  | readNoBlock => cases h; exact get
  | size => cases h; simp [Keeps, wGives, got]
  | clear => cases h; simp [Keeps, wGives, got]
  | waitLow sz =>
    simp only [wbody] at h
    split at h <;> cases h
    · rfl
    · simp [Keeps, wGives, got]

theorem queueW_safe : queueWBox.Safe fun _ => True := safe_keeps fun _ _ _ _ _ h => w_keeps h

theorem queueW_fair : queueWBox.Fair := fair_of fun _ _ _ _ a h => by have := (w_keeps h).mono eq_le; cases a <;> exact this

/-! ### InterthreadMap -/

def elements (m : KV) : Multiset Nat := (m.map fun e => one e.2).sum

@[simp] theorem elements_nil : elements [] = 0 := rfl
@[simp] theorem elements_cons (e : Nat × Val) (m : KV) : elements (e :: m) = one e.2 + elements m := by simp [elements]

/-- The element written, Interthread.h:470-481. -/
def mGives : MOp → Multiset Nat
  | .write _ v => one v
  | _ => 0

/-- What the caller has got: the element removed, or replaced by `write` (which deletes it), Interthread.h:470-557; but not one that stays in the map. -/
def mTakes : MOp → MRes → Multiset Nat
  | .write _ _, .wrote (some old) => one old
  | .getNoBlock _ true, .found v => one v
  | .getT _ _ true, .found v => one v
  | .get _ true, .found v => one v
  | .remove _, .deleted v => one v
  | _, _ => 0

def mapBox : Box Nat := ⟨KV, WS, MOp, MRes, inferInstance, imap, elements, mGives, mTakes⟩

theorem erase_le (m : KV) (k : Nat) : elements (erase m k) ≤ elements m := by
  induction m with
  | nil => exact le_refl _
  | cons e m ih =>
    simp only [erase, List.filter_cons]
    split
    · rw [elements_cons, elements_cons]
      exact add_le_add (le_refl _) ih
    · rw [elements_cons]
      exact ih.trans (Multiset.le_add_left _ _)

theorem erase_find {m : KV} {k : Nat} {v : Val} (h : find m k = some v) : elements (erase m k) + one v ≤ elements m := by
  induction m with
  | nil => cases h
  | cons e m ih =>
    obtain ⟨k', v'⟩ := e
    simp only [find, List.lookup_cons] at h
    by_cases hk : k = k'
    · subst hk
      simp only [beq_self_eq_true] at h
      cases h
      simp only [erase, List.filter_cons, ne_eq, not_true, decide_false]
      rw [elements_cons, add_comm]
      exact add_le_add (le_refl _) (erase_le m k)
    · have hb : (k == k') = false := beq_false_of_ne hk
      rw [hb] at h
      have := ih h
      have hd : decide (k' ≠ k) = true := decide_eq_true fun e => hk e.symm
      simp only [erase, List.filter_cons, hd, if_true]
      rw [elements_cons, elements_cons, add_assoc]
      exact add_le_add (le_refl _) this

theorem m_keeps {op : MOp} {t0 : Stamp} {now : Clock} {m : KV} {a : Act KV WS MRes} (h : mbody op t0 now m = some a) : Keeps (· ≤ ·) elements (mGives op) (mTakes op) m a := by
  have take : ∀ k v rm, find m k = some v → elements (takeM m k rm) + (if rm then one v else 0) ≤ elements m := by
    intro k v rm hf
    cases rm
    · simp [takeM]
    · exact erase_find hf
  cases op with
  | write k v =>
    cases h
    simp only [Keeps, mGives, mTakes, store, elements_cons]
    rw [add_comm (one v), add_right_comm]
    refine add_le_add ?_ (le_refl _)
    cases hf : find m k with
    | none => rw [add_zero]; exact erase_le m k
    | some v' => exact erase_find hf
  | getNoBlock k rm =>
    simp only [mbody] at h
    split at h <;> cases h
    · cases rm <;> simp [Keeps, mGives, mTakes]
    · rename_i v hf
      have := take k v rm hf
      cases rm <;> simpa [Keeps, mGives, mTakes] using this
  | getT k ms rm =>
    simp only [mbody] at h
    split at h
    · cases h
      rename_i v hf
      have := take k v rm hf
      cases rm <;> simpa [Keeps, mGives, mTakes] using this
    · split at h
      · cases h
        cases rm <;> simp [Keeps, mGives, mTakes]
      · split at h
        · split at h <;> cases h
          · cases rm <;> simp [Keeps, mGives, mTakes]
          · exact keeps_timedWait le_refl
        · cases h
  | get k rm =>
    simp only [mbody] at h
    split at h <;> cases h
    · exact le_refl _
    · rename_i v hf
      have := take k v rm hf
      cases rm <;> simpa [Keeps, mGives, mTakes] using this
  | remove k =>
    simp only [mbody] at h
    split at h <;> cases h
    · simp [Keeps, mGives, mTakes]
    · rename_i v hf
      simpa [Keeps, mGives, mTakes] using erase_find hf

theorem elements_perm {m m' : List Val} (h : m.Perm m') : (m.map one).sum = (m'.map one).sum := (h.map one).sum_eq

theorem elements_eq (m : KV) : elements m = ((m.map Prod.snd).map one).sum := by simp [elements, Function.comp_def]

theorem erase_find_eq {m : KV} (hk : Keys m) {k : Nat} {v : Val} (h : find m k = some v) : elements (erase m k) + one v = elements m := by
  rw [elements_eq, elements_eq, ← elements_perm (perm_erase_found hk h), List.map_cons, List.sum_cons, add_comm]

theorem erase_none {m : KV} {k : Nat} (h : find m k = none) : erase m k = m := by
  simp only [erase, List.filter_eq_self]
  intro e he
  refine decide_eq_true fun e' => ?_
  rw [find, List.lookup_eq_none_iff] at h
  have := h e he
  simp [e'] at this

/-- Each key only once, after a pass. -/
def KeysAfter : Act KV WS MRes → Prop
  | .done d' _ _ _ => Keys d'
  | .wait d' _ => Keys d'
  | .spin d' => Keys d'

theorem keysAfter_timedWait {m : KV} (hk : Keys m) {now : Clock} {r : Int} : KeysAfter (timedWait now r m ()) := by
  unfold timedWait
  split
  · exact hk
  · dsimp only
    split <;> exact hk

/-- With each key only once, nothing is lost. -/
theorem m_saves {op : MOp} {t0 : Stamp} {now : Clock} {m : KV} (hk : Keys m) {a : Act KV WS MRes} (h : mbody op t0 now m = some a) :
    Keeps Eq elements (mGives op) (mTakes op) m a ∧ KeysAfter a := by
  have take : ∀ k v rm, find m k = some v → elements (takeM m k rm) + (if rm then one v else 0) = elements m := by
    intro k v rm hf
    cases rm
    · simp [takeM]
    · exact erase_find_eq hk hf
  have keys : ∀ k rm, Keys (takeM m k rm) := by
    intro k rm
    cases rm
    · exact hk
    · exact keys_erase hk k
  cases op with
  | write k v =>
    cases h
    refine ⟨?_, keys_store hk k v⟩
    simp only [Keeps, mGives, mTakes, store, elements_cons]
    rw [add_comm (one v), add_right_comm]
    congr 1
    cases hf : find m k with
    | none => rw [erase_none hf]; exact add_zero _
    | some v' => exact erase_find_eq hk hf
  | getNoBlock k rm =>
    simp only [mbody] at h
    split at h <;> cases h
    · exact ⟨by cases rm <;> simp [Keeps, mGives, mTakes], hk⟩
    · rename_i v hf
      have := take k v rm hf
      exact ⟨by cases rm <;> simpa [Keeps, mGives, mTakes] using this, keys k rm⟩
  | getT k ms rm =>
    simp only [mbody] at h
    split at h
    · cases h
      rename_i v hf
      have := take k v rm hf
      exact ⟨by cases rm <;> simpa [Keeps, mGives, mTakes] using this, keys k rm⟩
    · split at h
      · cases h
        exact ⟨by cases rm <;> simp [Keeps, mGives, mTakes], hk⟩
      · split at h
        · split at h <;> cases h
          · exact ⟨by cases rm <;> simp [Keeps, mGives, mTakes], hk⟩
          · exact ⟨keeps_timedWait fun _ => rfl, keysAfter_timedWait hk⟩
        · cases h
  | get k rm =>
    simp only [mbody] at h
    split at h <;> cases h
    · exact ⟨rfl, hk⟩
    · rename_i v hf
      have := take k v rm hf
      exact ⟨by cases rm <;> simpa [Keeps, mGives, mTakes] using this, keys k rm⟩
  | remove k =>
    simp only [mbody] at h
    split at h <;> cases h
    · exact ⟨by simp [Keeps, mGives, mTakes], hk⟩
    · rename_i v hf
      exact ⟨by simpa [Keeps, mGives, mTakes] using erase_find_eq hk hf, keys_erase hk k⟩

theorem map_safe : mapBox.Safe Keys := safe_of fun _ _ _ _ a hg h => by
  obtain ⟨h1, h2⟩ := m_saves hg h
  have := h1.mono eq_saved
  cases a <;> exact ⟨h2, this⟩

theorem map_fair : mapBox.Fair := fair_of fun _ _ _ _ a h => by have := m_keeps h; cases a <;> exact this

/-! ### InterthreadPriorityQueue -/

/-- The item written, Interthread.h:724-730. -/
def pqGives : PQOp → Multiset Nat
  | .write v => {v}
  | _ => 0

/-- The items read, or deleted by `clear`, Interthread.h:663-714; but not the item that `peek` shows. -/
def pqTakes : PQOp → PQRes → Multiset Nat
  | .peek, _ => 0
  | _, .ptr v => one v
  | _, .deleted l => l
  | _, _ => 0

def pqueueBox (gt : Nat → Nat → Prop) : Box Nat := ⟨List Nat, WS, PQOp, PQRes, inferInstance, pqueue gt, fun l => l, pqGives, pqTakes⟩

theorem pqget_keeps {gt : Nat → Nat → Prop} {q q' : List Nat} {r : Option Nat} (h : PQGet gt q r q') : (q' : Multiset Nat) + one r = q := by
  rcases h with ⟨rfl, rfl, rfl⟩ | ⟨x, hx, rfl, rfl⟩
  · rfl
  · have := List.perm_cons_erase hx.1
    rw [Multiset.coe_eq_coe.mpr this, add_comm]
    rfl

theorem pq_keeps {gt : Nat → Nat → Prop} {op : PQOp} {t0 : Stamp} {now : Clock} {q : List Nat} {a : Act (List Nat) WS PQRes} (h : pqbody gt op t0 now q a) :
    Keeps Eq (fun l : List Nat => (l : Multiset Nat)) (pqGives op) (pqTakes op) q a := by
  cases op with
  | write v =>
    simp only [pqbody] at h
    subst h
    simp only [Keeps, pqGives, pqTakes, add_zero]
    rw [add_comm]
    rfl
  | read =>
    simp only [pqbody] at h
    rcases h with ⟨-, rfl⟩ | ⟨-, r, q', hg, rfl⟩
    · rfl
    · simpa [Keeps, pqGives, pqTakes] using pqget_keeps hg
  | readT ms =>
    simp only [pqbody] at h
    split at h
    · obtain ⟨r, -, h⟩ := h
      split at h
      · subst h
        simp [Keeps, pqGives, pqTakes, one]
      · subst h
        exact keeps_timedWait fun _ => rfl
    · obtain ⟨r, q', hg, rfl⟩ := h
      simpa [Keeps, pqGives, pqTakes] using pqget_keeps hg
  | readNoBlock =>
    simp only [pqbody] at h
    obtain ⟨r, q', hg, rfl⟩ := h
    simpa [Keeps, pqGives, pqTakes] using pqget_keeps hg
  | peek =>
    simp only [pqbody] at h
    rcases h with ⟨-, rfl⟩ | ⟨x, -, rfl⟩ <;> simp [Keeps, pqGives, pqTakes]
  | size =>
    simp only [pqbody] at h
    subst h
    simp [Keeps, pqGives, pqTakes]
  | clear =>
    simp only [pqbody] at h
    obtain ⟨l, hl, rfl⟩ := h
    simp only [Keeps, pqGives, pqTakes, Multiset.coe_eq_coe.mpr (drains_perm hl), add_zero]
    exact zero_add _

theorem pqueue_safe (gt : Nat → Nat → Prop) : (pqueueBox gt).Safe fun _ => True := safe_keeps fun _ _ _ _ _ h => pq_keeps h

theorem pqueue_fair (gt : Nat → Nat → Prop) : (pqueueBox gt).Fair := fair_of fun _ _ _ _ a h => by have := (pq_keeps h).mono eq_le; cases a <;> exact this

/-! ### Semaphore -/

/-- A semaphore that protects the things `P`: whoever posts parts with them, whoever gets it has them, Interthread.h:738-774. -/
def sTakes (P : Multiset Nat) : SOp → SRes → Multiset Nat
  | .get, _ => P
  | .semtry, .flag true => P
  | _, _ => 0

def sGives (P : Multiset Nat) : SOp → Multiset Nat
  | .post => P
  | _ => 0

def sHolds (P : Multiset Nat) (f : Bool) : Multiset Nat := if f then P else 0

def semBox (P : Multiset Nat) : Box Nat := ⟨Bool, Unit, SOp, SRes, inferInstance, semaphore, sHolds P, sGives P, sTakes P⟩

theorem s_keeps {P : Multiset Nat} {op : SOp} {t0 : Stamp} {now : Clock} {f : Bool} {a : Act Bool Unit SRes} (h : sbody op t0 now f = some a) :
    Keeps (· ≤ ·) (sHolds P) (sGives P op) (sTakes P op) f a := by
  cases op with
  | post => cases h; simp [Keeps, sTakes, sGives, sHolds]
  | get =>
    simp only [sbody] at h
    split at h <;> cases h
    · exact le_refl _
    · rename_i hf
      simp [Keeps, sTakes, sGives, sHolds, hf]
  | semtry => cases h; cases f <;> simp [Keeps, sTakes, sGives, sHolds]

theorem s_saves {P : Multiset Nat} {op : SOp} {t0 : Stamp} {now : Clock} {f : Bool} {a : Act Bool Unit SRes} (h : sbody op t0 now f = some a) :
    Keeps Saved (sHolds P) (sGives P op) (sTakes P op) f a := by
  cases op with
  | post => cases h; cases f <;> simp [Keeps, sTakes, sGives, sHolds, Saved]
  | get =>
    simp only [sbody] at h
    split at h <;> cases h
    · exact fun _ => id
    · rename_i hf
      simp [Keeps, sTakes, sGives, sHolds, hf, Saved]
  | semtry => cases h; cases f <;> simp [Keeps, sTakes, sGives, sHolds, Saved]

theorem sem_safe (P : Multiset Nat) : (semBox P).Safe fun _ => True := safe_of fun _ _ _ _ a _ h => by have := s_saves (P := P) h; cases a <;> exact ⟨trivial, this⟩

theorem sem_fair (P : Multiset Nat) : (semBox P).Fair := fair_of fun _ _ _ _ a h => by have := s_keeps (P := P) h; cases a <;> exact this

/-! ### All together -/

/-- The classes. -/
inductive Kind where
  | queue
  | pair
  | queueW
  | map
  | prio (gt : Nat → Nat → Prop)
  | sem (P : Multiset Nat)

def Kind.box : Kind → Box Nat
  | .queue => queueBox
  | .pair => pairBox
  | .queueW => queueWBox
  | .map => mapBox
  | .prio gt => pqueueBox gt
  | .sem P => semBox P

theorem Kind.fair (k : Kind) : k.box.Fair := by
  cases k
  · exact queue_fair
  · exact pair_fair
  · exact queueW_fair
  · exact map_fair
  · exact pqueue_fair _
  · exact sem_fair _

/-- What must be true of the data at the beginning: a map has each key only once. -/
def Kind.good : (k : Kind) → k.box.σ → Prop
  | .map => Keys
  | _ => fun _ => True

theorem Kind.safe (k : Kind) : k.box.Safe k.good := by
  cases k
  · exact queue_safe
  · exact pair_safe
  · exact queueW_safe
  · exact map_safe
  · exact pqueue_safe _
  · exact sem_safe _

/-- **C173** Things handed over through any objects of these classes need no lock of their own: as long as every thread uses only what it has made (or had at the beginning) and has not handed over, or has
received, any two uses of the same thing are ordered by happens-before. -/
theorem C173_classes {I : Type} [DecidableEq I] {n : Nat} {kind : I → Kind} {h0 h : HState (fun i => (kind i).box) n} (h0s : h0.Start) (hr : HReach (fun i => (kind i).box) h0 h)
    {j k : Nat} {t u : Fin n} {x : Nat} (hjk : j < k) (hj : h.tr[j]? = some (.use t x)) (hk : h.tr[k]? = some (.use u x)) : HB h.tr j k :=
  C173_no_race (fun i => (kind i).fair) h0s hr hjk hj hk

/-- **C173** At each time nobody else has, or is about to get, what a thread has. -/
theorem C173_alone {I : Type} [DecidableEq I] {n : Nat} {kind : I → Kind} {h0 h : HState (fun i => (kind i).box) n} (h0s : h0.Start) (hr : HReach (fun i => (kind i).box) h0 h)
    {t : Fin n} {x : Nat} (hx : x ∈ h.have_ t) : (∀ u, u ≠ t → x ∉ h.have_ u) ∧ (∀ i, x ∉ (kind i).box.holds (h.obj i).data) ∧ ∀ i u, x ∉ (kind i).box.inside (view ((h.obj i).th u)) := by
  have hs := (C173_one_place (fun i => (kind i).fair) h0s hr).2
  refine ⟨fun u hu h' => hu ?_, fun i h' => ?_, fun i u h' => ?_⟩
  · have := hs (.mine t) (.mine u) x hx h'
    cases this
    rfl
  · exact nomatch hs (.mine t) (.box i) x hx h'
  · exact nomatch hs (.mine t) (.call i u) x hx h'

/-- **C173** Nothing is lost on the way: every thing is at every time with one thread, in a call that hands it over, or in one of the objects. -/
theorem C173_not_lost_classes {I : Type} [DecidableEq I] {n : Nat} {kind : I → Kind} {h0 h : HState (fun i => (kind i).box) n} (hg : ∀ i, (kind i).good (h0.obj i).data)
    (hr : HReach (fun i => (kind i).box) h0 h) {x : Nat} (hx : ∃ t, x ∈ h0.have_ t) :
    (∃ t, x ∈ h.have_ t) ∨ (∃ i, x ∈ (kind i).box.holds (h.obj i).data) ∨ ∃ i t, x ∈ (kind i).box.inside (view ((h.obj i).th t)) := by
  obtain ⟨t, ht⟩ := hx
  obtain ⟨⟨p, hp⟩, -⟩ := C173_not_lost (fun i => (kind i).safe) hg hr ⟨.mine t, ht⟩
  cases p with
  | mine t => exact .inl ⟨t, hp⟩
  | box i => exact .inr (.inl ⟨i, hp⟩)
  | call i t => exact .inr (.inr ⟨i, t, hp⟩)

/-! ### Examples -/

/-- Thread 0 has item 7; there is one queue, and it is empty. -/
def before7 : HState (fun _ : Unit => Kind.queue.box) 2 := ⟨fun _ => init 2 ⟨5, 0⟩ ([] : List Val), fun t => if t = 0 then {7} else 0, []⟩

theorem before7_start : before7.Start := by
  refine ⟨fun _ _ => rfl, fun _ => rfl, ⟨fun p => ?_, fun p q x hp hq => ?_⟩, rfl⟩
  · cases p with
    | mine t => simp only [HState.at_, before7]; split <;> simp
    | call i t => exact Multiset.nodup_zero
    | box i => exact Multiset.nodup_zero
  · have key : ∀ p, x ∈ before7.at_ p → p = .mine 0 := by
      intro p hp
      cases p with
      | mine t =>
        simp only [HState.at_, before7] at hp
        split at hp
        · rename_i e; rw [e]
        · simp at hp
      | call i t => exact absurd hp (Multiset.notMem_zero x)
      | box i => exact absurd hp (Multiset.notMem_zero x)
    rw [key p hp, key q hq]

/- It uses the item, writes it to the queue, thread 1 reads it and uses it. -/
example : ∃ h, HReach (fun _ : Unit => Kind.queue.box) before7 h ∧ h.tr = [.use 0 7, .acq 0 (), .rel 0 (), .acq 1 (), .rel 1 (), .use 1 7] ∧ h.have_ 0 = 0 ∧ h.have_ 1 = {7} := by
  have r1 := HReach.refl.step (HStep.use (B := fun _ : Unit => Kind.queue.box) before7 0 7 (fun _ => rfl) (by simp [before7]))
  have r2 := r1.step (HStep.call _ 0 () (QOp.write (some 7)) 0 _ (fun _ => rfl) (by simp [before7, Kind.box, queueBox, qGives, one]) (Step.start _ 0 _ rfl))
  have r3 := r2.step (HStep.inner _ () _ _ (Step.lock _ 0 (QOp.write (some 7)) ⟨⟨5, 0⟩, ⟨5, 0⟩⟩ rfl rfl) (fun _ _ e => nomatch e) (fun _ e => nomatch e))
  have r4 := r3.step (HStep.inner _ () _ _ (Step.bodyDone _ 0 (QOp.write (some 7)) ⟨⟨5, 0⟩, ⟨5, 0⟩⟩ [some 7] QRes.unit [] [.one ()] rfl rfl (show qbody _ _ _ _ = _ from rfl)) (fun _ _ e => nomatch e) (fun _ e => nomatch e))
  have r5 := r4.step (HStep.inner _ () _ _ (Step.unlock _ 0 (QOp.write (some 7)) QRes.unit [.one ()] rfl rfl) (fun _ _ e => nomatch e) (fun _ e => nomatch e))
  have r6 := r5.step (HStep.call _ 1 () QOp.read 0 _ (fun _ => rfl) (by simp [before7, Kind.box, queueBox, qGives]) (Step.start _ 1 _ rfl))
  have r7 := r6.step (HStep.inner _ () _ _ (Step.lock _ 1 QOp.read ⟨⟨5, 0⟩, ⟨5, 0⟩⟩ rfl rfl) (fun _ _ e => nomatch e) (fun _ e => nomatch e))
  have r8 := r7.step (HStep.inner _ () _ _ (Step.bodyDone _ 1 QOp.read ⟨⟨5, 0⟩, ⟨5, 0⟩⟩ [] (QRes.ptr (some 7)) [] [] rfl rfl (show qbody _ _ _ _ = _ from rfl)) (fun _ _ e => nomatch e) (fun _ e => nomatch e))
  have r9 := r8.step (HStep.inner _ () _ _ (Step.unlock _ 1 QOp.read (QRes.ptr (some 7)) [] rfl rfl) (fun _ _ e => nomatch e) (fun _ e => nomatch e))
  have r10 := r9.step (HStep.ret _ 1 () QOp.read (QRes.ptr (some 7)) _ rfl (Step.ret _ 1 QOp.read (QRes.ptr (some 7)) rfl))
  have r11 := r10.step (HStep.use _ 1 7 (fun _ => rfl) (by simp [Kind.box, queueBox, qTakes, got, one]))
  exact ⟨_, r11, rfl, rfl, by simp [before7, Kind.box, queueBox, qTakes, got, one]⟩

/- What is not ordered: two threads that use the item without handing it over, even if both call the same queue in between (here thread 1 has seen the item with `front`). -/
example : ¬ HB ([.acq 0 (), .rel 0 (), .acq 1 (), .rel 1 (), .acq 0 (), .rel 0 (), .use 1 7, .use 0 7] : List (Mem 2 Unit Nat)) 6 7 := by
  intro h
  have key : ∀ j k, HB ([.acq 0 (), .rel 0 (), .acq 1 (), .rel 1 (), .acq 0 (), .rel 0 (), .use 1 7, .use 0 7] : List (Mem 2 Unit Nat)) j k → j < k ∧ j ≠ 6 := by
    intro j k h
    induction h with
    | @order j k e e' hjk h1 h2 h3 =>
      refine ⟨hjk, fun e => ?_⟩
      subst e
      have hk := (List.getElem?_eq_some_iff.mp h2).1
      simp at hk
      have : k = 7 := by omega
      subst this
      cases h1
      cases h2
      cases h3
    | @sync j k _ _ _ hjk h1 h2 =>
      refine ⟨hjk, fun e => ?_⟩
      subst e
      cases h1
    | trans _ _ h1 h2 => exact ⟨h1.1.trans h2.1, h1.2⟩
  exact (key _ _ h).2 rfl

end Verif.Interthread.HandOver
