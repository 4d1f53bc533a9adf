import Verif.Monitor.Programs
import Verif.Interthread.QueueProps
import Verif.Interthread.MapProps
import Verif.Interthread.PriorityQueueProps
import Verif.Interthread.Semaphore
import Mathlib.Tactic.FinCases

/-
C166: programs whose threads share any number of `InterthreadQueue`s (`/repo/Interthread.h:113-322`), `InterthreadMap`s (440-623), `InterthreadPriorityQueue`s (626-734) and
`Semaphore`s (738-774).
-/

namespace Verif.Interthread
open Verif Verif.Monitor

/-! ### The objects, with what single calls on them do -/

def QUntimed : QOp → Prop
  | .readT _ => False
  | _ => True

/-- An InterthreadQueue; the description is the ideal queue of C22. -/
def queueObj : Obj := ⟨List Val, WS, QOp, QRes, List Nat, inferInstance, queue, [], [], NonNull, QUntimed, fun q op r q' => idealStep q (op, r) = some q', fun d q => d = q.map some⟩

def MUntimed : MOp → Prop
  | .getT .. => False
  | _ => True

/-- An InterthreadMap; the description is the map of C27. -/
def mapObj : Obj :=
  ⟨KV, WS, MOp, MRes, Nat → Option Val, inferInstance, imap, [], fun _ => none, fun _ => True, MUntimed, fun f op r f' => mapStep f (op, r) = some f', fun m f => find m = f⟩

def PQUntimed : PQOp → Prop
  | .readT _ => False
  | _ => True

/-- An InterthreadPriorityQueue; the description is the bag of C28. -/
def prioObj (before : Nat → Nat → Prop) : Obj :=
  ⟨List Nat, WS, PQOp, PQRes, List Nat, inferInstance, pqueue fun a b => before b a, [], [], fun _ => True, PQUntimed, fun q op r q' => BagStep before q (op, r) q', fun d q => d.Perm q⟩

/-- A Semaphore; the description is the flag of C29. -/
def semObj : Obj := ⟨Bool, Unit, SOp, SRes, Bool, inferInstance, semaphore, false, false, fun _ => True, fun _ => True, fun f op r f' => semStep f (op, r) = some f', fun d f => d = f⟩

/-! ### Single passes do what the descriptions say -/

theorem queue_does {op : QOp} {t0 : Stamp} {now : Clock} {a : List Nat} {d' : List Val} {r : QRes} {i o : List (Sig WS)} (hk : NonNull op)
    (hb : qbody op t0 now (a.map some) = some (.done d' r i o)) : ∃ a' : List Nat, idealStep a (op, r) = some a' ∧ d' = a'.map some := by
  cases op with
  | write v =>
    cases v with
    | none => exact absurd rfl hk
    | some v => cases hb; exact ⟨_, rfl, by simp⟩
  | writeFront v =>
    cases v with
    | none => exact absurd rfl hk
    | some v => cases hb; exact ⟨_, rfl, by simp⟩
  | read =>
    simp only [qbody] at hb
    split at hb
    · cases hb
    · next hne =>
      rw [getQ_map] at hb hne
      cases a with
      | nil => exact absurd rfl hne
      | cons v q => cases hb; exact ⟨q, by simp [idealStep], rfl⟩
  | readT ms =>
    rcases readTimed_cases (show readTimed ms t0 now (a.map some) = some _ from hb) with ⟨e, -⟩ | ⟨e0, -, r', -, ⟨-, e⟩ | ⟨-, e | e⟩⟩
    · rw [getQ_map] at e; cases e; exact ⟨a.tail, by simp [idealStep], rfl⟩
    · cases e
      have : a = [] := List.map_eq_nil_iff.mp e0
      subst this
      exact ⟨[], by simp [idealStep], rfl⟩
    · cases e
    · cases e
  | readNoBlock => simp only [qbody, getQ_map] at hb; cases hb; exact ⟨a.tail, by simp [idealStep], rfl⟩
  | front => simp only [qbody, getQ_map] at hb; cases hb; exact ⟨a, by simp [idealStep], rfl⟩
  | size => simp only [qbody] at hb; cases hb; exact ⟨a, by simp [idealStep], rfl⟩
  | clear => simp only [qbody] at hb; cases hb; exact ⟨[], by simp [idealStep], rfl⟩
  | flush => simp only [qbody] at hb; cases hb; exact ⟨[], by simp [idealStep], rfl⟩

theorem queueObj_good : queueObj.Good where
  start := rfl
  done := by
    intro op t0 now d d' r i o a hk ha hb
    cases (show d = List.map some a from ha)
    exact queue_does hk hb
  wait := by
    intro op t0 now d d' c a hk ha hb
    obtain ⟨h1, h2, -⟩ := wait_same (q := a) ha hb
    exact (h2.trans h1.symm).trans ha
  spin := by
    intro op t0 now d d' a hk ha hb
    exact (spin_same hb).trans ha

theorem queue_sleeps {n : Nat} {now : Clock} {s : St n (List Val) WS QOp QRes} (h : QReach n now s) (hs : Settled s) {t : Fin n} {op : QOp} {t0 : Stamp} (hw : s.th t = .waiting op t0 ())
    (hu : QUntimed op) {a : List Nat} (ha : s.data = a.map some) (r : QRes) (a' : List Nat) : idealStep a (op, r) ≠ some a' := by
  have hd := C23_settled h hs ⟨t, op, t0, hw⟩
  have hw' : op = .read ∨ ∃ ms, ms ≠ 0 ∧ op = .readT ms :=
    waiting_invariant () (fun op => op = .read ∨ ∃ ms, ms ≠ 0 ∧ op = .readT ms) (fun s hs op t0 d' hb => by
      obtain ⟨q, -, hq⟩ := C22_linearizable hs
      exact (wait_same hq hb).2.2) h hw
  rw [hd] at ha
  have : a = [] := List.map_eq_nil_iff.mp ha.symm
  subst this
  rcases hw' with rfl | ⟨ms, -, rfl⟩
  · cases r with
    | ptr p => cases p <;> simp [idealStep]
    | _ => simp [idealStep]
  · exact hu.elim

theorem queueObj_wakes (n : Nat) : queueObj.Wakes n := fun _ _ h hs _ _ _ _ hw hu _ ha r a' => queue_sleeps h hs hw hu ha r a'

theorem map_does {op : MOp} {t0 : Stamp} {now : Clock} {m m' : KV} {r : MRes} {i o : List (Sig WS)} (hb : imap.body op t0 now m (.done m' r i o)) :
    mapStep (find m) (op, r) = some (find m') := by
  rcases m_done hb with ⟨k, v, rfl, rfl, rfl, -⟩ | ⟨k, rm, v, hop, hf, rfl, rfl, -⟩ | ⟨k, v, rfl, hf, rfl, rfl, -⟩ | ⟨k, hop, hf, rfl, rfl, -⟩
  · simp [mapStep, find_store]
  · rw [find_take]
    rcases hop with rfl | ⟨ms, rfl⟩ | rfl <;> simp [mapStep, hf]
  · simp [mapStep, hf, find_erase]
  · rcases hop with ⟨rm, rfl⟩ | ⟨ms, rm, rfl⟩ | rfl <;> simp [mapStep, hf]

theorem mapObj_good : mapObj.Good where
  start := rfl
  done := by
    intro op t0 now m m' r i o f _ hf hb
    cases (show find m = f from hf)
    exact ⟨_, map_does hb, rfl⟩
  wait := by
    intro op t0 now m m' c f _ hf hb
    exact (congrArg find (m_wait hb).1).trans hf
  spin := by
    intro op t0 now m m' f _ hf hb
    exact (congrArg find (m_spin hb)).trans hf

theorem map_sleeps {n : Nat} {now : Clock} {ok : Fin n → MOp → Prop} {s : St n KV WS MOp MRes} (h : Reach imap ok (init n now []) s) (hs : Settled s) {t : Fin n} {op : MOp} {t0 : Stamp}
    (hw : s.th t = .waiting op t0 ()) (hu : MUntimed op) (r : MRes) (f' : Nat → Option Val) : mapStep (find s.data) (op, r) ≠ some f' := by
  have hw' : ∃ k rm, (∃ ms, op = .getT k ms rm) ∨ op = .get k rm :=
    waiting_invariant () (fun op => ∃ k rm, (∃ ms, op = .getT k ms rm) ∨ op = .get k rm) (fun s hs op t0 d' hb => by
      obtain ⟨-, k, rm, h, -⟩ := m_wait hb
      exact ⟨k, rm, h⟩) h hw
  obtain ⟨k, rm, ⟨ms, rfl⟩ | rfl⟩ := hw'
  · exact hu.elim
  · have hn := C27_no_lost_wakeup h hs hw
    cases r <;> simp [mapStep, hn]

theorem mapObj_wakes (n : Nat) : mapObj.Wakes n := by
  intro now s h hs t op t0 c hw hu a ha r a' hsp
  cases (show find s.data = a from ha)
  exact map_sleeps h hs hw hu r a' hsp

/-- The description of a priority queue does not depend on how the items lie in memory. -/
theorem bag_perm {before : Nat → Nat → Prop} {d d' a : List Nat} {op : PQOp} {r : PQRes} (h : BagStep before d (op, r) d') (ha : d.Perm a) : ∃ a', BagStep before a (op, r) a' ∧ d'.Perm a' := by
  have hm : ∀ y, y ∈ a → y ∈ d := fun y hy => ha.mem_iff.mpr hy
  have nil : d = [] → a = [] := fun e => by subst e; exact ha.nil_eq.symm
  cases op with
  | write v =>
    cases r with
    | unit => exact ⟨d', List.Perm.trans h (ha.cons v), .refl _⟩
    | _ => exact h.elim
  | read =>
    cases r with
    | ptr p =>
      cases p with
      | none => exact h.elim
      | some x => exact ⟨d', ⟨fun y hy => h.1 y (hm y hy), ha.symm.trans h.2⟩, .refl _⟩
    | _ => exact h.elim
  | readT ms =>
    cases r with
    | ptr p =>
      cases p with
      | none => exact ⟨d', ⟨nil h.1, h.2⟩, .refl _⟩
      | some x => exact ⟨d', ⟨fun y hy => h.1 y (hm y hy), ha.symm.trans h.2⟩, .refl _⟩
    | _ => exact h.elim
  | readNoBlock =>
    cases r with
    | ptr p =>
      cases p with
      | none => exact ⟨d', ⟨nil h.1, h.2⟩, .refl _⟩
      | some x => exact ⟨d', ⟨fun y hy => h.1 y (hm y hy), ha.symm.trans h.2⟩, .refl _⟩
    | _ => exact h.elim
  | peek =>
    cases r with
    | ptr p =>
      cases p with
      | none => exact ⟨d', ⟨nil h.1, h.2⟩, .refl _⟩
      | some x =>
        obtain ⟨h1, h2, rfl⟩ := h
        exact ⟨a, ⟨ha.mem_iff.mp h1, fun y hy => h2 y (hm y hy), rfl⟩, ha⟩
    | _ => exact h.elim
  | size =>
    cases r with
    | num k =>
      obtain ⟨h1, rfl⟩ := h
      exact ⟨a, ⟨h1.trans ha.length_eq, rfl⟩, ha⟩
    | _ => exact h.elim
  | clear =>
    cases r with
    | deleted l => exact ⟨d', ⟨h.1.trans ha, h.2⟩, .refl _⟩
    | _ => exact h.elim

theorem prioObj_good (before : Nat → Nat → Prop) : (prioObj before).Good where
  start := List.Perm.refl _
  done := by
    intro op t0 now d d' r i o a _ ha hb
    exact bag_perm (pq_done (before := before) (fun _ _ => Iff.rfl) hb).1 ha
  wait := by
    intro op t0 now d d' c a _ ha hb
    obtain ⟨h1, h2, -⟩ := pq_wait hb
    cases (show d = [] from h1)
    cases (show d' = [] from h2)
    exact ha
  spin := by
    intro op t0 now d d' a _ ha hb
    cases (show d' = d from pq_spin hb)
    exact ha

theorem prio_sleeps {before : Nat → Nat → Prop} {n : Nat} {now : Clock} {ok : Fin n → PQOp → Prop} {s : St n (List Nat) WS PQOp PQRes}
    (h : Reach (pqueue fun a b => before b a) ok (init n now []) s) (hs : Settled s) {t : Fin n} {op : PQOp} {t0 : Stamp} (hw : s.th t = .waiting op t0 ()) (hu : PQUntimed op) (r : PQRes)
    (q' : List Nat) : ¬ BagStep before s.data (op, r) q' := by
  have hd := C28_no_lost_wakeup (before := before) (fun _ _ => Iff.rfl) h hs hw
  have hw' : op = .read ∨ ∃ ms, ms ≠ 0 ∧ op = .readT ms :=
    waiting_invariant () (fun op => op = .read ∨ ∃ ms, ms ≠ 0 ∧ op = .readT ms) (fun s hs op t0 d' hb => (pq_wait hb).2.2) h hw
  rw [hd]
  rcases hw' with rfl | ⟨ms, -, rfl⟩
  · cases r with
    | ptr p => cases p <;> simp [BagStep]
    | _ => simp [BagStep]
  · exact hu.elim

theorem prioObj_wakes (before : Nat → Nat → Prop) (n : Nat) : (prioObj before).Wakes n := by
  intro now s h hs t op t0 c hw hu a ha r a' hsp
  obtain ⟨q', h1, -⟩ := bag_perm hsp (List.Perm.symm ha)
  exact prio_sleeps h hs hw hu r q' h1

theorem sem_does {op : SOp} {t0 : Stamp} {now : Clock} {f f' : Bool} {r : SRes} {i o : List (Sig Unit)} (hb : semaphore.body op t0 now f (.done f' r i o)) : semStep f (op, r) = some f' := by
  rcases s_done hb with ⟨rfl, rfl, rfl, -⟩ | ⟨rfl, rfl, rfl, rfl, -⟩ | ⟨rfl, rfl, rfl, -⟩
  · rfl
  · rfl
  · simp [semStep]

theorem semObj_good : semObj.Good where
  start := rfl
  done := by
    intro op t0 now d d' r i o a _ ha hb
    cases (show d = a from ha)
    exact ⟨d', sem_does hb, rfl⟩
  wait := by
    intro op t0 now d d' c a _ ha hb
    obtain ⟨-, h1, h2⟩ := s_wait hb
    exact (h2.trans h1.symm).trans ha
  spin := by
    intro op t0 now d d' a _ ha hb
    exact (s_spin hb).elim

theorem sem_sleeps {n : Nat} {now : Clock} {ok : Fin n → SOp → Prop} {s : St n Bool Unit SOp SRes} (h : Reach semaphore ok (init n now false) s) (hs : Settled s) {t : Fin n} {op : SOp}
    {t0 : Stamp} (hw : s.th t = .waiting op t0 ()) (r : SRes) (f' : Bool) : semStep s.data (op, r) ≠ some f' := by
  have hw' : op = .get := waiting_invariant () (fun op => op = .get) (fun s hs op t0 d' hb => (s_wait hb).1) h hw
  subst hw'
  rw [C29_no_lost_wakeup h hs hw]
  cases r <;> simp [semStep]

theorem semObj_wakes (n : Nat) : semObj.Wakes n := by
  intro now s h hs t op t0 c hw hu a ha r a' hsp
  cases (show s.data = a from ha)
  exact sem_sleeps h hs hw r a' hsp

/-! ### Every result the descriptions allow can come about -/

theorem queue_can {op : QOp} {a a' : List Nat} {r : QRes} (t0 : Stamp) (now : Clock) (hu : QUntimed op) (hs : idealStep a (op, r) = some a') :
    ∃ (d' : List Val) (i o : List (Sig WS)), qbody op t0 now (a.map some) = some (.done d' r i o) ∧ d' = a'.map some := by
  cases op with
  | write v =>
    cases v with
    | none => cases r <;> simp [idealStep] at hs
    | some v => cases r <;> simp [idealStep] at hs; subst hs; exact ⟨_, _, _, rfl, by simp⟩
  | writeFront v =>
    cases v with
    | none => cases r <;> simp [idealStep] at hs
    | some v => cases r <;> simp [idealStep] at hs; subst hs; exact ⟨_, _, _, rfl, by simp⟩
  | read =>
    cases r with
    | ptr p =>
      cases p with
      | none => simp [idealStep] at hs
      | some v =>
        simp only [idealStep] at hs
        split at hs
        · next h => cases hs; simp only [qbody, getQ_map, h]; exact ⟨_, _, _, rfl, rfl⟩
        · cases hs
    | _ => simp [idealStep] at hs
  | readT ms => exact hu.elim
  | readNoBlock =>
    cases r with
    | ptr p =>
      simp only [idealStep] at hs
      split at hs
      · next h => cases hs; simp only [qbody, getQ_map, h]; exact ⟨_, _, _, rfl, rfl⟩
      · cases hs
    | _ => simp [idealStep] at hs
  | front =>
    cases r with
    | ptr p =>
      simp only [idealStep] at hs
      split at hs
      · next h => cases hs; simp only [qbody, getQ_map, h]; exact ⟨_, _, _, rfl, rfl⟩
      · cases hs
    | _ => simp [idealStep] at hs
  | size =>
    cases r with
    | num k =>
      simp only [idealStep] at hs
      split at hs
      · next h => cases hs; simp only [qbody, List.length_map, h]; exact ⟨_, _, _, rfl, rfl⟩
      · cases hs
    | _ => simp [idealStep] at hs
  | clear =>
    cases r with
    | removed l =>
      simp only [idealStep] at hs
      split at hs
      · next h => cases hs; simp only [qbody, h]; exact ⟨_, _, _, rfl, rfl⟩
      · cases hs
    | _ => simp [idealStep] at hs
  | flush =>
    cases r with
    | removed l =>
      simp only [idealStep] at hs
      split at hs
      · next h => cases hs; simp only [qbody, h]; exact ⟨_, _, _, rfl, rfl⟩
      · cases hs
    | _ => simp [idealStep] at hs

theorem queueObj_can : queueObj.Can QUntimed := by
  intro op a r a' d t0 now hu hs ha
  cases (show d = List.map some a from ha)
  exact queue_can t0 now hu hs

theorem map_can {op : MOp} {m : KV} {r : MRes} {f' : Nat → Option Val} (t0 : Stamp) (now : Clock) (hu : MUntimed op) (hs : mapStep (find m) (op, r) = some f') :
    ∃ m' i o, mbody op t0 now m = some (.done m' r i o) ∧ find m' = f' := by
  cases op with
  | write k v =>
    cases r with
    | wrote old =>
      simp only [mapStep] at hs
      split at hs
      · next h => cases hs; subst h; exact ⟨_, _, _, rfl, by funext j; simp [find_store]⟩
      · cases hs
    | _ => simp [mapStep] at hs
  | getNoBlock k rm =>
    cases r with
    | found v =>
      simp only [mapStep] at hs
      split at hs
      · next h => cases hs; simp only [mbody, h]; exact ⟨_, _, _, rfl, by rw [find_take]⟩
      · cases hs
    | notFound =>
      simp only [mapStep] at hs
      split at hs
      · next h => cases hs; simp only [mbody, h]; exact ⟨_, _, _, rfl, rfl⟩
      · cases hs
    | _ => simp [mapStep] at hs
  | getT k ms rm => exact hu.elim
  | get k rm =>
    cases r with
    | found v =>
      simp only [mapStep] at hs
      split at hs
      · next h => cases hs; simp only [mbody, h]; exact ⟨_, _, _, rfl, by rw [find_take]⟩
      · cases hs
    | _ => simp [mapStep] at hs
  | remove k =>
    cases r with
    | deleted v =>
      simp only [mapStep] at hs
      split at hs
      · next h => cases hs; simp only [mbody, h]; exact ⟨_, _, _, rfl, by rw [find_erase]⟩
      · cases hs
    | notFound =>
      simp only [mapStep] at hs
      split at hs
      · next h => cases hs; simp only [mbody, h]; exact ⟨_, _, _, rfl, rfl⟩
      · cases hs
    | _ => simp [mapStep] at hs

theorem mapObj_can : mapObj.Can MUntimed := by
  intro op a r a' d t0 now hu hs ha
  cases (show find d = a from ha)
  exact map_can t0 now hu hs

/-- `clear` deletes in the order in memory, which the description leaves open. -/
def PQSeen : PQOp → Prop
  | .readT _ => False
  | .clear => False
  | _ => True

theorem prio_can {before : Nat → Nat → Prop} {op : PQOp} {d a' : List Nat} {r : PQRes} (t0 : Stamp) (now : Clock) (hu : PQSeen op) (hs : BagStep before d (op, r) a') :
    ∃ d' i o, pqbody (fun a b => before b a) op t0 now d (.done d' r i o) ∧ d'.Perm a' := by
  have get : ∀ x, (∀ y ∈ d, ¬ before y x) → d.Perm (x :: a') → PQGet (fun a b => before b a) d (some x) (d.erase x) ∧ (d.erase x).Perm a' := by
    intro x h1 h2
    have hx : x ∈ d := h2.mem_iff.mpr List.mem_cons_self
    exact ⟨.inr ⟨x, ⟨hx, h1⟩, rfl, rfl⟩, ((List.perm_cons_erase hx).symm.trans h2).cons_inv⟩
  cases op with
  | write v =>
    cases r with
    | unit => exact ⟨_, _, _, rfl, List.Perm.symm hs⟩
    | _ => exact hs.elim
  | read =>
    cases r with
    | ptr p =>
      cases p with
      | none => exact hs.elim
      | some x =>
        obtain ⟨h1, h2⟩ := get x hs.1 hs.2
        refine ⟨_, _, _, .inr ⟨fun h => ?_, _, _, h1, rfl⟩, h2⟩
        have := hs.2.length_eq
        rw [h] at this
        simp at this
    | _ => exact hs.elim
  | readT ms => exact hu.elim
  | readNoBlock =>
    cases r with
    | ptr p =>
      cases p with
      | none => obtain ⟨rfl, rfl⟩ := hs; exact ⟨[], _, _, ⟨none, [], .inl ⟨rfl, rfl, rfl⟩, rfl⟩, .refl _⟩
      | some x =>
        obtain ⟨h1, h2⟩ := get x hs.1 hs.2
        exact ⟨_, _, _, ⟨_, _, h1, rfl⟩, h2⟩
    | _ => exact hs.elim
  | peek =>
    cases r with
    | ptr p =>
      cases p with
      | none => obtain ⟨rfl, rfl⟩ := hs; exact ⟨_, _, _, .inl ⟨rfl, rfl⟩, .refl _⟩
      | some x =>
        obtain ⟨h1, h2, rfl⟩ := hs
        exact ⟨_, _, _, .inr ⟨x, ⟨h1, h2⟩, rfl⟩, .refl _⟩
    | _ => exact hs.elim
  | size =>
    cases r with
    | num k => obtain ⟨rfl, rfl⟩ := hs; exact ⟨_, _, _, rfl, .refl _⟩
    | _ => exact hs.elim
  | clear => exact hu.elim

theorem prioObj_can (before : Nat → Nat → Prop) : (prioObj before).Can PQSeen := by
  intro op a r a' d t0 now hu hs ha
  obtain ⟨b, h1, h2⟩ := bag_perm hs (List.Perm.symm ha)
  obtain ⟨d', i, o, h3, h4⟩ := prio_can t0 now hu h1
  exact ⟨d', i, o, h3, h4.trans h2.symm⟩

theorem sem_can {op : SOp} {f f' : Bool} {r : SRes} (t0 : Stamp) (now : Clock) (hs : semStep f (op, r) = some f') : ∃ i o, sbody op t0 now f = some (.done f' r i o) := by
  cases op with
  | post => cases r <;> simp [semStep] at hs; subst hs; exact ⟨_, _, rfl⟩
  | get =>
    cases r with
    | unit =>
      simp only [semStep] at hs
      split at hs
      · next h => cases hs; subst h; exact ⟨_, _, rfl⟩
      · cases hs
    | _ => simp [semStep] at hs
  | semtry =>
    cases r with
    | flag b =>
      simp only [semStep] at hs
      split at hs
      · next h => cases hs; subst h; exact ⟨_, _, rfl⟩
      · cases hs
    | _ => simp [semStep] at hs

theorem semObj_can : semObj.Can fun _ => True := by
  intro op a r a' d t0 now hu hs ha
  cases (show d = a from ha)
  obtain ⟨i, o, h⟩ := sem_can t0 now hs
  exact ⟨a', i, o, h, rfl⟩

/-! ### C166 -/

/-- The kinds of objects; a priority queue with its order. -/
inductive Kind where
  | queue
  | map
  | prio (before : Nat → Nat → Prop)
  | sem

def Kind.obj : Kind → Obj
  | .queue => queueObj
  | .map => mapObj
  | .prio before => prioObj before
  | .sem => semObj

theorem Kind.good (k : Kind) : k.obj.Good := by
  cases k with
  | queue => exact queueObj_good
  | map => exact mapObj_good
  | prio before => exact prioObj_good before
  | sem => exact semObj_good

theorem Kind.wakes (k : Kind) (n : Nat) : k.obj.Wakes n := by
  cases k with
  | queue => exact queueObj_wakes n
  | map => exact mapObj_wakes n
  | prio before => exact prioObj_wakes before n
  | sem => exact semObj_wakes n

/-- Calls without time limit whose result the description determines. -/
def Kind.plain : (k : Kind) → k.obj.Op → Prop
  | .queue => QUntimed
  | .map => MUntimed
  | .prio _ => PQSeen
  | .sem => fun _ => True

theorem Kind.can (k : Kind) : k.obj.Can k.plain := by
  cases k with
  | queue => exact queueObj_can
  | map => exact mapObj_can
  | prio before => exact prioObj_can before
  | sem => exact semObj_can

/-- C166: whatever program the threads run on whatever number of queues, maps, priority queues and semaphores, and however it is scheduled: it could be where it is, each thread with the same
results from its calls and each object with the same contents, if every call were one indivisible step that happens when the call can be done. -/
theorem C166_indivisible {I : Type} [DecidableEq I] (kind : I → Kind) {n : Nat} {L : Type} {P : Prog (fun i => (kind i).obj) n L} (hP : ∀ t l i op, P.call t l i op → (kind i).obj.ok op)
    {now : I → Clock} {l0 : Fin n → L} {c : CState (fun i => (kind i).obj) n L} (h : CReach _ P now l0 c) :
    ∃ a : (i : I) → (kind i).obj.A, GReach _ P l0 ⟨a, gpos c⟩ ∧ ∀ i, (kind i).obj.abs (c.obj i).data (a i) :=
  (refines (fun i => (kind i).good) hP h).2

/-- C166: and if it comes to a point where every thread has finished or sleeps in a call without time limit, then no thread could go on with indivisible calls either: a program that does not
deadlock with indivisible calls does not deadlock. -/
theorem C166_no_new_deadlock {I : Type} [DecidableEq I] (kind : I → Kind) {n : Nat} {L : Type} {P : Prog (fun i => (kind i).obj) n L} (hP : ∀ t l i op, P.call t l i op → (kind i).obj.ok op)
    {now : I → Clock} {l0 : Fin n → L} {c : CState (fun i => (kind i).obj) n L} (h : CReach _ P now l0 c) (hs : Stuck P c) :
    ∃ a : (i : I) → (kind i).obj.A, GReach _ P l0 ⟨a, gpos c⟩ ∧ (∀ i, (kind i).obj.abs (c.obj i).data (a i)) ∧ ∀ g', ¬ GStep _ P ⟨a, gpos c⟩ g' :=
  stuck (fun i => (kind i).good) (fun i => (kind i).wakes n) hP h hs

/-- C166: the other way round: with calls without time limits, every state the program can be in with indivisible calls it can be in. -/
theorem C166_exact {I : Type} [DecidableEq I] (kind : I → Kind) {n : Nat} {L : Type} {P : Prog (fun i => (kind i).obj) n L}
    (hP : ∀ t l i op, P.call t l i op → (kind i).obj.ok op ∧ (kind i).plain op) (now : I → Clock) {l0 : Fin n → L} {g : GState (fun i => (kind i).obj) n L} (h : GReach _ P l0 g) :
    ∃ c, CReach _ P now l0 c ∧ gpos c = g.pos ∧ ∀ i, (kind i).obj.abs (c.obj i).data (g.obj i) := by
  obtain ⟨c, h1, h2, h3, -⟩ := exact (fun i => (kind i).good) (fun i => (kind i).plain) (fun i => (kind i).can) hP now h
  exact ⟨c, h1, h2, h3⟩

/-! ### An example: asking a server -/

namespace Ask

/-- The client: `q.write(5); x = r.read();`, the server: `v = q.read(); r.write(v + 1);`. -/
inductive Loc where
  | c0 | c1 | c2 (x : Nat)
  | s0 | s1 (v : Nat) | s2

/-- Two queues, `q` (false) and `r` (true). -/
abbrev kind : Bool → Kind := fun _ => .queue

def prog : Prog (fun i => (kind i).obj) 2 Loc where
  tau := fun _ _ _ => False
  call := fun _ l i op => match l with
    | .c0 => i = false ∧ op = QOp.write (some 5)
    | .c1 => i = true ∧ op = QOp.read
    | .s0 => i = false ∧ op = QOp.read
    | .s1 v => i = true ∧ op = QOp.write (some (v + 1))
    | _ => False
  cont := fun _ l _ _ r l' => match l with
    | .c0 => l' = .c1
    | .c1 => ∃ x, r = QRes.ptr (some x) ∧ l' = .c2 x
    | .s0 => ∃ v, r = QRes.ptr (some v) ∧ l' = .s1 v
    | .s1 _ => l' = .s2
    | _ => False

def l0 : Fin 2 → Loc
  | 0 => .c0
  | 1 => .s0

abbrev G := GState (fun i => (kind i).obj) 2 Loc
abbrev GP := GPos (fun i => (kind i).obj) Loc

/-- The client after `a` steps, the server after `b`. -/
def cl : Fin 7 → GP
  | 0 => .out .c0
  | 1 => .asked .c0 false (QOp.write (some 5))
  | 2 => .got .c0 false (QOp.write (some 5)) QRes.unit
  | 3 => .out .c1
  | 4 => .asked .c1 true QOp.read
  | 5 => .got .c1 true QOp.read (QRes.ptr (some 6))
  | 6 => .out (.c2 6)

def sv : Fin 7 → GP
  | 0 => .out .s0
  | 1 => .asked .s0 false QOp.read
  | 2 => .got .s0 false QOp.read (QRes.ptr (some 5))
  | 3 => .out (.s1 5)
  | 4 => .asked (.s1 5) true (QOp.write (some 6))
  | 5 => .got (.s1 5) true (QOp.write (some 6)) QRes.unit
  | 6 => .out .s2

def qAt (a b : Fin 7) : List Nat := if 2 ≤ a ∧ b < 2 then [5] else []
def rAt (a b : Fin 7) : List Nat := if 5 ≤ b ∧ a < 5 then [6] else []

def At (g : G) (a b : Fin 7) : Prop := g.pos 0 = cl a ∧ g.pos 1 = sv b ∧ g.obj false = qAt a b ∧ g.obj true = rAt a b ∧ (2 ≤ b → 2 ≤ a) ∧ (5 ≤ a → 5 ≤ b)

theorem two (t : Fin 2) : t = 0 ∨ t = 1 := by omega

/-- The client goes on. -/
theorem at_client {g : G} {a b : Fin 7} (a' : Fin 7) (h : At g a b) {obj : (i : Bool) → (kind i).obj.A} (h1 : obj false = qAt a' b) (h2 : obj true = rAt a' b) (h3 : 2 ≤ b → 2 ≤ a') (h4 : 5 ≤ a' → 5 ≤ b)
    {p : GP} (hp : p = cl a') : At (⟨obj, Function.update g.pos 0 p⟩ : G) a' b := ⟨by subst hp; dsimp only; rw [Function.update_self], h.2.1, h1, h2, h3, h4⟩

theorem at_server {g : G} {a b : Fin 7} (b' : Fin 7) (h : At g a b) {obj : (i : Bool) → (kind i).obj.A} (h1 : obj false = qAt a b') (h2 : obj true = rAt a b') (h3 : 2 ≤ b' → 2 ≤ a) (h4 : 5 ≤ a → 5 ≤ b')
    {p : GP} (hp : p = sv b') : At (⟨obj, Function.update g.pos 1 p⟩ : G) a b' := ⟨h.1, by subst hp; dsimp only; rw [Function.update_self], h1, h2, h3, h4⟩

theorem read_res {q q' : List Nat} {r : QRes} (h : idealStep q (.read, r) = some q') : ∃ v, r = .ptr (some v) ∧ q = v :: q' := by
  cases r with
  | ptr p =>
    cases p with
    | none => cases h
    | some v =>
      simp only [idealStep] at h
      split at h
      · next e => cases h; cases q with
        | nil => cases e
        | cons w q => cases e; exact ⟨v, rfl, rfl⟩
      · cases h
  | _ => cases h

theorem write_res {q q' : List Nat} {v : Nat} {r : QRes} (h : idealStep q (.write (some v), r) = some q') : r = .unit ∧ q' = q ++ [v] := by
  cases r with
  | unit => cases h; exact ⟨rfl, rfl⟩
  | _ => cases h

theorem at_some {g : G} (h : GReach _ prog l0 g) : ∃ a b, At g a b := by
  induction h with
  | refl => exact ⟨0, 0, rfl, rfl, rfl, rfl, by decide, by decide⟩
  | @step g g' _ st ih =>
    obtain ⟨a, b, ih⟩ := ih
    have hq := ih.2.2.1
    have hr := ih.2.2.2.1
    have h5 := ih.2.2.2.2.1
    have h6 := ih.2.2.2.2.2
    cases st with
    | tau t l l' h1 h2 => exact h2.elim
    | ask t l i op h1 h2 =>
      rcases two t with rfl | rfl
      · rw [ih.1] at h1
        fin_cases a <;> cases h1
        · obtain ⟨rfl, rfl⟩ := h2
          fin_cases b <;> first | exact absurd (h5 (by decide)) (by decide) | exact ⟨1, _, at_client 1 ih hq hr (by decide) (by decide) rfl⟩
        · obtain ⟨rfl, rfl⟩ := h2
          fin_cases b <;> exact ⟨4, _, at_client 4 ih hq hr (by decide) (by decide) rfl⟩
        · exact h2.elim
      · rw [ih.2.1] at h1
        fin_cases b <;> cases h1
        · obtain ⟨rfl, rfl⟩ := h2
          fin_cases a <;> first | exact absurd (h6 (by decide)) (by decide) | exact ⟨_, 1, at_server 1 ih hq hr (by decide) (by decide) rfl⟩
        · obtain ⟨rfl, rfl⟩ := h2
          fin_cases a <;> first | exact absurd (h5 (by decide)) (by decide) | exact absurd (h6 (by decide)) (by decide) | exact ⟨_, 4, at_server 4 ih hq hr (by decide) (by decide) rfl⟩
        · exact h2.elim
    | does t l i op r a' h1 h2 =>
      rcases two t with rfl | rfl
      · rw [ih.1] at h1
        fin_cases a <;> cases h1
        · obtain ⟨rfl, rfl⟩ := write_res h2
          fin_cases b <;> first
            | exact absurd (h5 (by decide)) (by decide)
            | exact ⟨2, _, at_client 2 ih ((Function.update_self ..).trans (congrArg (· ++ [5]) hq)) ((Function.update_of_ne (by decide) ..).trans hr) (by decide) (by decide) rfl⟩
        · obtain ⟨v, rfl, e⟩ := read_res h2
          fin_cases b <;> first
            | exact absurd (e.symm.trans hr) (List.cons_ne_nil _ _)
            | (cases (e.symm.trans hr); exact ⟨5, _, at_client 5 ih ((Function.update_of_ne (by decide) ..).trans hq) (Function.update_self ..) (by decide) (by decide) rfl⟩)
      · rw [ih.2.1] at h1
        fin_cases b <;> cases h1
        · obtain ⟨v, rfl, e⟩ := read_res h2
          fin_cases a <;> first
            | exact absurd (e.symm.trans hq) (List.cons_ne_nil _ _)
            | exact absurd (h6 (by decide)) (by decide)
            | (cases (e.symm.trans hq); exact ⟨_, 2, at_server 2 ih (Function.update_self ..) ((Function.update_of_ne (by decide) ..).trans hr) (by decide) (by decide) rfl⟩)
        · obtain ⟨rfl, rfl⟩ := write_res h2
          fin_cases a <;> first
            | exact absurd (h5 (by decide)) (by decide)
            | exact absurd (h6 (by decide)) (by decide)
            | exact ⟨_, 5, at_server 5 ih ((Function.update_of_ne (by decide) ..).trans hq) ((Function.update_self ..).trans (congrArg (· ++ [6]) hr)) (by decide) (by decide) rfl⟩
    | cont t l i op r l' h1 h2 =>
      rcases two t with rfl | rfl
      · rw [ih.1] at h1
        fin_cases a <;> cases h1
        · cases (show l' = .c1 from h2)
          fin_cases b <;> exact ⟨3, _, at_client 3 ih hq hr (by decide) (by decide) rfl⟩
        · obtain ⟨x, e, rfl⟩ := h2
          cases e
          fin_cases b <;> first | exact absurd (h6 (by decide)) (by decide) | exact ⟨6, _, at_client 6 ih hq hr (by decide) (by decide) rfl⟩
      · rw [ih.2.1] at h1
        fin_cases b <;> cases h1
        · obtain ⟨v, e, rfl⟩ := h2
          cases e
          fin_cases a <;> first | exact absurd (h5 (by decide)) (by decide) | exact absurd (h6 (by decide)) (by decide) | exact ⟨_, 3, at_server 3 ih hq hr (by decide) (by decide) rfl⟩
        · cases (show l' = .s2 from h2)
          fin_cases a <;> first | exact absurd (h5 (by decide)) (by decide) | exact ⟨_, 6, at_server 6 ih hq hr (by decide) (by decide) rfl⟩

theorem calls_ok : ∀ t l i op, prog.call t l i op → (kind i).obj.ok op ∧ (kind i).plain op := by
  intro t l i op h
  cases l with
  | c0 => obtain ⟨rfl, rfl⟩ := h; exact ⟨(fun h => nomatch h), trivial⟩
  | c1 => obtain ⟨rfl, rfl⟩ := h; exact ⟨trivial, trivial⟩
  | c2 x => exact h.elim
  | s0 => obtain ⟨rfl, rfl⟩ := h; exact ⟨trivial, trivial⟩
  | s1 v => obtain ⟨rfl, rfl⟩ := h; exact ⟨(fun h => nomatch h), trivial⟩
  | s2 => exact h.elim

/-- With indivisible calls there is always a next step until the client has its answer and the server is done. -/
theorem goes_on {g : G} {a b : Fin 7} (h : At g a b) (hs : ∀ g', ¬ GStep _ prog g g') : a = 6 ∧ b = 6 := by
  obtain ⟨h0, h1, hq, hr, h5, h6⟩ := h
  fin_cases a
  · exact absurd (.ask g 0 .c0 false (QOp.write (some 5)) h0 ⟨rfl, rfl⟩) (hs _)
  · exact absurd (.does g 0 .c0 false (QOp.write (some 5)) QRes.unit _ h0 rfl) (hs _)
  · exact absurd (.cont g 0 .c0 false (QOp.write (some 5)) QRes.unit .c1 h0 rfl) (hs _)
  · exact absurd (.ask g 0 .c1 true QOp.read h0 ⟨rfl, rfl⟩) (hs _)
  · fin_cases b
    · exact absurd (.ask g 1 .s0 false QOp.read h1 ⟨rfl, rfl⟩) (hs _)
    · exact absurd (.does g 1 .s0 false QOp.read (QRes.ptr (some 5)) ([] : List Nat) h1 (show idealStep (g.obj false) _ = _ by rw [show g.obj false = ([5] : List Nat) from hq]; rfl)) (hs _)
    · exact absurd (.cont g 1 .s0 false QOp.read (QRes.ptr (some 5)) (.s1 5) h1 ⟨5, rfl, rfl⟩) (hs _)
    · exact absurd (.ask g 1 (.s1 5) true (QOp.write (some 6)) h1 ⟨rfl, rfl⟩) (hs _)
    · exact absurd (.does g 1 (.s1 5) true (QOp.write (some 6)) QRes.unit _ h1 rfl) (hs _)
    · exact absurd (.cont g 1 (.s1 5) true (QOp.write (some 6)) QRes.unit .s2 h1 rfl) (hs _)
    · exact absurd (.does g 0 .c1 true QOp.read (QRes.ptr (some 6)) ([] : List Nat) h0 (show idealStep (g.obj true) _ = _ by rw [show g.obj true = ([6] : List Nat) from hr]; rfl)) (hs _)
  · exact absurd (.cont g 0 .c1 true QOp.read (QRes.ptr (some 6)) (.c2 6) h0 ⟨6, rfl, rfl⟩) (hs _)
  · fin_cases b
    · exact absurd (h6 (by decide)) (by decide)
    · exact absurd (h6 (by decide)) (by decide)
    · exact absurd (h6 (by decide)) (by decide)
    · exact absurd (h6 (by decide)) (by decide)
    · exact absurd (h6 (by decide)) (by decide)
    · exact absurd (.cont g 1 (.s1 5) true (QOp.write (some 6)) QRes.unit .s2 h1 rfl) (hs _)
    · exact ⟨rfl, rfl⟩

theorem pos_out {c : CState (fun i => (kind i).obj) 2 Loc} {t : Fin 2} {l : Loc} (e : gpos c t = .out l) : c.pos t = .out l := by
  cases hp : c.pos t with
  | out l1 => simp only [gpos, hp] at e; cases e; rfl
  | inside l1 i op =>
    simp only [gpos, hp] at e
    split at e <;> cases e

/-- So, however the two threads are scheduled, when neither can go on the client has got 6 and the server has finished. -/
theorem client_served (now : Bool → Clock) {c : CState (fun i => (kind i).obj) 2 Loc} (h : CReach _ prog now l0 c) (hs : Stuck prog c) : c.pos 0 = .out (.c2 6) ∧ c.pos 1 = .out .s2 := by
  obtain ⟨a, hg, -, hst⟩ := C166_no_new_deadlock kind (fun t l i op h => (calls_ok t l i op h).1) h hs
  obtain ⟨x, y, hat⟩ := at_some hg
  obtain ⟨rfl, rfl⟩ := goes_on hat hst
  exact ⟨pos_out hat.1, pos_out hat.2.1⟩

/-- And that can happen. -/
example (now : Bool → Clock) : ∃ c, CReach _ prog now l0 c ∧ Stuck prog c ∧ c.pos 0 = .out (.c2 6) := by
  have h0 : GReach _ prog l0 (.start (fun i => (kind i).obj) l0) := .refl
  have h1 := h0.step (GStep.ask (P := prog) _ 0 Loc.c0 false (QOp.write (some 5)) (by rfl) (by exact ⟨rfl, rfl⟩))
  have h2 := h1.step (GStep.does (P := prog) _ 0 Loc.c0 false (QOp.write (some 5)) QRes.unit [5] (by rfl) (by rfl))
  have h3 := h2.step (GStep.cont (P := prog) _ 0 Loc.c0 false (QOp.write (some 5)) QRes.unit Loc.c1 (by rfl) (by rfl))
  have h4 := h3.step (GStep.ask (P := prog) _ 1 Loc.s0 false QOp.read (by rfl) (by exact ⟨rfl, rfl⟩))
  have h5 := h4.step (GStep.does (P := prog) _ 1 Loc.s0 false QOp.read (QRes.ptr (some 5)) ([] : List Nat) (by rfl) (by rfl))
  have h6 := h5.step (GStep.cont (P := prog) _ 1 Loc.s0 false QOp.read (QRes.ptr (some 5)) (Loc.s1 5) (by rfl) (by exact ⟨5, rfl, rfl⟩))
  have h7 := h6.step (GStep.ask (P := prog) _ 1 (Loc.s1 5) true (QOp.write (some 6)) (by rfl) (by exact ⟨rfl, rfl⟩))
  have h8 := h7.step (GStep.does (P := prog) _ 1 (Loc.s1 5) true (QOp.write (some 6)) QRes.unit [6] (by rfl) (by rfl))
  have h9 := h8.step (GStep.cont (P := prog) _ 1 (Loc.s1 5) true (QOp.write (some 6)) QRes.unit Loc.s2 (by rfl) (by rfl))
  have h10 := h9.step (GStep.ask (P := prog) _ 0 Loc.c1 true QOp.read (by rfl) (by exact ⟨rfl, rfl⟩))
  have h11 := h10.step (GStep.does (P := prog) _ 0 Loc.c1 true QOp.read (QRes.ptr (some 6)) ([] : List Nat) (by rfl) (by rfl))
  have h12 := h11.step (GStep.cont (P := prog) _ 0 Loc.c1 true QOp.read (QRes.ptr (some 6)) (Loc.c2 6) (by rfl) (by exact ⟨6, rfl, rfl⟩))
  obtain ⟨c, hc, hp, -⟩ := C166_exact kind calls_ok now h12
  have p0 : c.pos 0 = .out (.c2 6) := pos_out ((congrFun hp 0).trans rfl)
  have p1 : c.pos 1 = .out .s2 := pos_out ((congrFun hp 1).trans rfl)
  refine ⟨c, hc, fun t => ?_, p0⟩
  rcases two t with rfl | rfl
  · exact .inl ⟨_, p0, fun _ h => h, fun _ _ h => h⟩
  · exact .inl ⟨_, p1, fun _ h => h, fun _ _ h => h⟩

end Ask

end Verif.Interthread
