import Verif.Interthread.MapProps
import Verif.Interthread.WithWaitProps
import Verif.Interthread.PriorityQueueProps
import Mathlib.Algebra.BigOperators.Fin

/-
Property C181: the end of an `InterthreadMap`, `InterthreadQueueWithWait` or `InterthreadPriorityQueue` (`Interthread.h:328-733`).

As in C141, whatever a thread does between the begin of a call and the unlock uses the object, and so does a notification after the unlock; the return does not (`Mutex::unlock` uses no member after
releasing the mutex, `Threads.cpp:183-189`, and POSIX allows to end a mutex from then on).
-/

namespace Verif.Interthread.MapLife
open Verif Verif.Monitor Verif.Interthread

/-! ### Specification -/

/-- The calls with these arguments that have begun. -/
def begun {n : Nat} {σ Op R : Type} [DecidableEq Op] (op : Op) (tr : List (Ev n σ Op R)) : Nat := tr.countP fun
  | .call _ o _ => o = op
  | _ => false

/-- The steps that use the object: all but the return from a call, the begin of one and the clock. -/
def Uses {n : Nat} {Op : Type} : Lbl n Op → Prop
  | .start .. => False
  | .ret .. => False
  | .tick => False
  | _ => True

/-- The calls that look for key `k` and return the element, with or without removing it (`Interthread.h:486-539, 565-595`). -/
def Asks (k : Nat) (op : MOp) : Prop := (∃ rm, op = .getNoBlock k rm) ∨ (∃ ms rm, op = .getT k ms rm) ∨ ∃ rm, op = .get k rm

/-- Some thread has got element `v` under key `k`. -/
def Got {n : Nat} (tr : List (Ev n KV MOp MRes)) (k : Nat) (v : Val) : Prop := ∃ op, Asks k op ∧ (op, .found v) ∈ effects tr

/-! ### Lemmas -/

section
variable {n : Nat} {σ C Op R : Type} [DecidableEq Op]

/-- The calls with these arguments that took effect. -/
def made (op : Op) (es : List (Op × R)) : Nat := es.countP fun e => e.1 = op

def madeTr (op : Op) (tr : List (Ev n σ Op R)) : Nat := tr.countP fun
  | .lin _ o _ _ _ _ => o = op
  | _ => false

theorem made_eq (op : Op) (tr : List (Ev n σ Op R)) : made op (effects tr) = madeTr op tr := by
  unfold made madeTr
  induction tr with
  | nil => rfl
  | cons e tr ih => cases e <;> simp [effects, List.countP_cons, ih]

def pend (op : Op) : TS C Op R → Nat
  | .entering o _ => if o = op then 1 else 0
  | _ => 0

theorem seq_count (op : Op) {l : List (Ev n σ Op R)} {x : TS C Op R} (h : Seq l x) : begun op l = madeTr op l + pend op x := by
  unfold begun madeTr
  induction h with
  | nil => rfl
  | @call l t o t0 _ ih => by_cases e : o = op <;> simp [List.countP_append, pend, e] at ih ⊢ <;> omega
  | @lin l t o t0 now d r _ ih => by_cases e : o = op <;> simp [List.countP_append, pend, e] at ih ⊢ <;> omega
  | @ret l t o r _ ih => simp [List.countP_append, pend] at ih ⊢; omega

omit [DecidableEq Op] in
theorem count_threads (p : Ev n σ Op R → Bool) (tr : List (Ev n σ Op R)) : tr.countP p = ∑ t : Fin n, (tr.filter fun e => e.thread = t).countP p := by
  induction tr with
  | nil => simp
  | cons e tr ih =>
    have : ∀ t : Fin n, ((e :: tr).filter fun e => e.thread = t).countP p = (tr.filter fun e => e.thread = t).countP p + if e.thread = t then (if p e then 1 else 0) else 0 := by
      intro t
      by_cases h : e.thread = t
      · simp [h, List.countP_cons]
      · simp [h]
    rw [List.countP_cons, ih, Finset.sum_congr rfl fun t _ => this t, Finset.sum_add_distrib, Finset.sum_ite_eq]
    simp

/-- All calls with these arguments but those under way have taken effect. -/
theorem begun_eq (op : Op) {s : St n σ C Op R} (hl : Lin s) : begun op s.tr = madeTr op s.tr + ∑ t : Fin n, pend op (s.th t).phase := by
  have h : ∀ t ∈ (Finset.univ : Finset (Fin n)), begun op (s.tr.filter fun e => e.thread = t) = madeTr op (s.tr.filter fun e => e.thread = t) + pend op (s.th t).phase := fun t _ => seq_count op (hl t)
  have := Finset.sum_congr rfl h
  rw [Finset.sum_add_distrib] at this
  unfold begun madeTr at *
  rw [count_threads _ s.tr, count_threads (fun | .lin _ o _ _ _ _ => decide (o = op) | _ => false) s.tr, this]

theorem pend_le (op : Op) {s : St n σ C Op R} (t : Fin n) : pend op (s.th t).phase ≤ ∑ t : Fin n, pend op (s.th t).phase :=
  Finset.single_le_sum (f := fun t => pend op (s.th t).phase) (fun _ _ => Nat.zero_le _) (Finset.mem_univ t)
end

/-- Who is still inside of the lock after its effect is the one whose effect was the last; nothing is left to do after the unlock. -/
def Latest {n : Nat} (s : St n KV WS MOp MRes) : Prop :=
  (∀ t op r i o, s.th t = .inLock op r i o → o = [] ∧ (effects s.tr).getLast? = some (op, r)) ∧ ∀ t op r o, s.th t = .after op r o → o = []

theorem wake_eq {c : WS} {x : TS WS MOp MRes} : (∀ op r i o, x.wake c = .inLock op r i o → x = .inLock op r i o) ∧ ∀ op r o, x.wake c = .after op r o → x = .after op r o := by
  cases x <;> simp only [TS.wake] <;> (try split) <;> simp

theorem latest {n : Nat} {now : Clock} {ok : Fin n → MOp → Prop} {s : St n KV WS MOp MRes} (h : Reach imap ok (init n now []) s) : Latest s := by
  refine Reach.induct Latest ⟨fun _ _ _ _ _ e => by simp [init] at e, fun _ _ _ _ e => by simp [init] at e⟩ ?_ h
  intro s l s' hr ⟨h1, h3⟩ st _
  have hx := reach_excl hr
  -- a step of thread `t` to `x` that makes no effect
  have one : ∀ (t : Fin n) (x : TS WS MOp MRes) (d : KV) (ow : Option (Fin n)) (es : List (Ev n KV MOp MRes)), effects es = [] →
      (∀ op r i o, x = .inLock op r i o → o = [] ∧ (effects s.tr).getLast? = some (op, r)) → (∀ op r o, x = .after op r o → o = []) →
      Latest ⟨s.now, d, ow, Function.update s.th t x, s.tr ++ es⟩ := by
    intro t x d ow es he g1 g3
    constructor
    · intro u op r i o e
      simp only [effects_append, he, List.append_nil]
      by_cases q : u = t
      · subst q
        simp only [upd_same] at e
        exact g1 _ _ _ _ e
      · simp only [upd_ne _ _ _ _ q] at e
        exact h1 _ _ _ _ _ e
    · intro u op r o e
      by_cases q : u = t
      · subst q
        simp only [upd_same] at e
        exact g3 _ _ _ e
      · simp only [upd_ne _ _ _ _ q] at e
        exact h3 _ _ _ _ e
  have one0 : ∀ (t : Fin n) (x : TS WS MOp MRes) (d : KV) (ow : Option (Fin n)), (∀ op r i o, x = .inLock op r i o → o = [] ∧ (effects s.tr).getLast? = some (op, r)) →
      (∀ op r o, x = .after op r o → o = []) → Latest ⟨s.now, d, ow, Function.update s.th t x, s.tr⟩ := by
    intro t x d ow g1 g3
    have := one t x d ow [] rfl g1 g3
    rwa [List.append_nil] at this
  cases st with
  | start t op e => exact one t _ _ _ _ rfl nofun nofun
  | lock t op t0 e ho => exact one0 t _ _ _ nofun nofun
  | bodyDone t op t0 d r inner outer e ho hb =>
    have hout : outer = [] := by
      rcases m_done hb with ⟨k, v, rfl, rfl, rfl, -, h⟩ | ⟨k, rm, v, hop, hf, rfl, rfl, -, h⟩ | ⟨k, v, rfl, hf, rfl, rfl, -, h⟩ | ⟨k, hop, hf, rfl, rfl, -, h⟩ <;> exact h
    constructor
    · intro u op' r' i' o' e'
      by_cases q : u = t
      · subst q
        simp only [upd_same, TS.inLock.injEq] at e'
        obtain ⟨rfl, rfl, rfl, rfl⟩ := e'
        exact ⟨hout, by simp [effects_append, effects]⟩
      · simp only [upd_ne _ _ _ _ q] at e'
        have := (hx u).mp (by rw [e']; rfl)
        rw [ho] at this
        exact absurd (Option.some.inj this).symm q
    · intro u op' r' o' e'
      by_cases q : u = t
      · subst q
        simp at e'
      · simp only [upd_ne _ _ _ _ q] at e'
        exact h3 _ _ _ _ e'
  | bodyWait t op t0 d c e ho hb => exact one0 t _ _ _ nofun nofun
  | bodySpin t op t0 d e ho hb => exact ⟨h1, h3⟩
  | spurious t op t0 c e => exact one0 t _ _ _ nofun nofun
  | relock t op t0 e ho => exact one0 t _ _ _ nofun nofun
  | signalIn t op r c inner outer u op' t0 e eu =>
    have hne : t ≠ u := by rintro rfl; rw [e] at eu; cases eu
    constructor
    · intro v a b i o ev
      by_cases q : v = u
      · subst q; simp at ev
      · simp only [upd_ne _ _ _ _ q] at ev
        by_cases q' : v = t
        · subst q'
          simp only [upd_same, TS.inLock.injEq] at ev
          obtain ⟨rfl, rfl, rfl, rfl⟩ := ev
          exact h1 _ _ _ _ _ e
        · simp only [upd_ne _ _ _ _ q'] at ev
          exact h1 _ _ _ _ _ ev
    · intro v a b o ev
      by_cases q : v = u
      · subst q; simp at ev
      · simp only [upd_ne _ _ _ _ q] at ev
        by_cases q' : v = t
        · subst q'; simp at ev
        · simp only [upd_ne _ _ _ _ q'] at ev
          exact h3 _ _ _ _ ev
  | signalInNone t op r c inner outer e eu => exact one0 t _ _ _ (fun _ _ _ _ e' => by cases e'; exact h1 _ _ _ _ _ e) nofun
  | bcastIn t op r c inner outer e =>
    constructor
    · intro v a b i o ev
      by_cases q : v = t
      · subst q
        simp only [upd_same, TS.inLock.injEq] at ev
        obtain ⟨rfl, rfl, rfl, rfl⟩ := ev
        exact h1 _ _ _ _ _ e
      · simp only [upd_ne _ _ _ _ q] at ev
        exact h1 _ _ _ _ _ (wake_eq.1 _ _ _ _ ev)
    · intro v a b o ev
      by_cases q : v = t
      · subst q; simp at ev
      · simp only [upd_ne _ _ _ _ q] at ev
        exact h3 _ _ _ _ (wake_eq.2 _ _ _ ev)
  | unlock t op r outer e ho => exact one0 t _ _ _ nofun (fun _ _ _ e' => by cases e'; exact (h1 _ _ _ _ _ e).1)
  | signalOut t op r c outer u op' t0 e eu => cases h3 _ _ _ _ e
  | signalOutNone t op r c outer e eu => cases h3 _ _ _ _ e
  | bcastOut t op r c outer e => cases h3 _ _ _ _ e
  | ret t op r e => exact one t _ _ _ _ rfl nofun nofun
  | tick now => exact ⟨h1, h3⟩

/-- Each element found was written before under that key. -/
def Backed (m : KV) (es : List (MOp × MRes)) : Prop :=
  (∀ k v, find m k = some v → ∃ r, (.write k v, r) ∈ es) ∧ ∀ a b op k v, es = a ++ (op, .found v) :: b → Asks k op → ∃ r, (.write k v, r) ∈ a

theorem backed_step {m m' : KV} {es : List (MOp × MRes)} {op : MOp} {r : MRes} (h : Backed m es) (hm : ∀ k v, find m' k = some v → find m k = some v ∨ op = .write k v)
    (hf : ∀ k v, Asks k op → r = .found v → find m k = some v) : Backed m' (es ++ [(op, r)]) := by
  constructor
  · intro k v e
    rcases hm k v e with e | rfl
    · obtain ⟨r', hr⟩ := h.1 k v e
      exact ⟨r', List.mem_append_left _ hr⟩
    · exact ⟨r, by simp⟩
  · intro a b op' k v e ha
    rcases List.eq_nil_or_concat b with rfl | ⟨b', x, rfl⟩
    · obtain ⟨rfl, e2⟩ := List.append_inj' e rfl
      simp only [List.cons.injEq, Prod.mk.injEq, and_true] at e2
      obtain ⟨rfl, rfl⟩ := e2
      exact h.1 k v (hf k v ha rfl)
    · have e' : es ++ [(op, r)] = (a ++ (op', .found v) :: b') ++ [x] := by rw [e]; simp
      obtain ⟨rfl, -⟩ := List.append_inj' e' rfl
      exact h.2 a b' op' k v rfl ha

theorem backed {n : Nat} {now : Clock} {ok : Fin n → MOp → Prop} {s : St n KV WS MOp MRes} (h : Reach imap ok (init n now []) s) : Backed s.data (effects s.tr) := by
  refine data_invariant Backed ⟨fun k v e => by simp [find] at e, fun a b op k v e => by simp at e⟩ ?_ ?_ ?_ h
  · rintro t op t0 nw m m' r i o es hk hp hb
    rcases m_done hb with ⟨k, v, rfl, rfl, rfl, -⟩ | ⟨k, rm, v, hop, hf, rfl, rfl, -⟩ | ⟨k, v, rfl, hf, rfl, rfl, -⟩ | ⟨k, hop, hf, rfl, rfl, -⟩
    · refine backed_step hp (fun k' v' e => ?_) (fun _ _ _ e => by cases e)
      rw [find_store] at e
      by_cases q : k' = k
      · subst q
        simp only [Function.update_self, Option.some.injEq] at e
        subst e
        exact .inr rfl
      · rw [Function.update_of_ne q] at e
        exact .inl e
    · refine backed_step hp (fun k' v' e => .inl ?_) (fun k' v' ha e => ?_)
      · rw [find_take] at e
        split at e
        · by_cases q : k' = k
          · subst q; simp at e
          · rwa [Function.update_of_ne q] at e
        · exact e
      · cases e
        have : k' = k := by
          rcases hop with rfl | ⟨ms, rfl⟩ | rfl <;> rcases ha with ⟨_, e⟩ | ⟨_, _, e⟩ | ⟨_, e⟩ <;> cases e <;> rfl
        rw [this]
        exact hf
    · refine backed_step hp (fun k' v' e => .inl ?_) (fun _ _ _ e => by cases e)
      rw [find_erase] at e
      by_cases q : k' = k
      · subst q; simp at e
      · rwa [Function.update_of_ne q] at e
    · exact backed_step hp (fun _ _ e => .inl e) (fun _ _ _ e => by cases e)
  · rintro t op t0 nw m m' c es hk hp hb
    rw [(m_wait hb).1]; exact hp
  · rintro t op t0 nw m m' es hk hp hb
    rw [m_spin hb]; exact hp

/-! ### C181 -/

/-- **C181** (writers) When some thread has got the element that a call of `write` stores, and this element was stored under this key only once, the thread inside of this call has released the lock and only has to return. -/
theorem C181_writer_left {n : Nat} {now : Clock} {ok : Fin n → MOp → Prop} {s : St n KV WS MOp MRes} (h : Reach imap ok (init n now []) s) {k : Nat} {v : Val} (hone : begun (.write k v) s.tr ≤ 1)
    (hgot : Got s.tr k v) (t : Fin n) (hp : (s.th t).op? = some (.write k v)) : ∃ r, s.th t = .after (.write k v) r [] := by
  obtain ⟨op, ha, hm⟩ := hgot
  obtain ⟨a, b, hab⟩ := List.append_of_mem hm
  obtain ⟨r', hr'⟩ := (backed h).2 a b op k v hab ha
  have hb := begun_eq (.write k v) (reach_lin h)
  rw [← made_eq] at hb
  have hpl := pend_le (.write k v) (s := s) t
  have ha1 : 1 ≤ made (.write k v) a := List.countP_pos_iff.mpr ⟨_, hr', by simp⟩
  have hsplit : made (.write k v) (effects s.tr) = made (.write k v) a + made (.write k v) ((op, .found v) :: b) := by rw [hab]; simp [made]
  have hz : pend (.write k v) (s.th t).phase = 0 := by omega
  cases e : s.th t with
  | idle => rw [e] at hp; cases hp
  | entering o t0 => rw [e] at hp; cases hp; rw [e] at hz; simp [TS.phase, pend] at hz
  | holding o t0 => rw [e] at hp; cases hp; rw [e] at hz; simp [TS.phase, pend] at hz
  | waiting o t0 c => rw [e] at hp; cases hp; rw [e] at hz; simp [TS.phase, pend] at hz
  | waking o t0 => rw [e] at hp; cases hp; rw [e] at hz; simp [TS.phase, pend] at hz
  | inLock o r i o' =>
    rw [e] at hp
    cases hp
    have hl := ((latest h).1 _ _ _ _ _ e).2
    rw [hab, List.getLast?_append_of_ne_nil _ (by simp)] at hl
    have hmem := List.mem_of_getLast? hl
    have : 1 ≤ made (.write k v) ((op, .found v) :: b) := List.countP_pos_iff.mpr ⟨_, hmem, by simp⟩
    omega
  | after o r o' =>
    rw [e] at hp
    cases hp
    rw [(latest h).2 _ _ _ _ e]
    exact ⟨r, rfl⟩

/-- **C181** An `InterthreadMap` can be destroyed when every call under way is a `write` whose element, stored under its key once, some thread has got: as long as nobody begins another call, no thread uses the
object any more, whatever the threads inside of `write` still do. -/
theorem C181_destroy_map {n : Nat} {now : Clock} {ok : Fin n → MOp → Prop} {s : St n KV WS MOp MRes} (h : Reach imap ok (init n now []) s)
    (hall : ∀ t op, (s.th t).op? = some op → ∃ k v, op = .write k v ∧ begun (.write k v) s.tr ≤ 1 ∧ Got s.tr k v)
    {s' : St n KV WS MOp MRes} (h' : Reach imap (fun _ _ => False) s s') {l : Lbl n MOp} {s'' : St n KV WS MOp MRes} (st : Step imap s' l s'') : ¬ Uses l := by
  have quiet : ∀ {s' : St n KV WS MOp MRes}, Reach imap (fun _ _ => False) s s' → ∀ t, s'.th t = .idle ∨ ∃ op r, s'.th t = .after op r [] := by
    intro s' h'
    induction h' with
    | refl =>
      intro t
      cases e : (s.th t).op? with
      | none => cases e' : s.th t <;> rw [e'] at e <;> first | exact .inl rfl | cases e
      | some op =>
        obtain ⟨k, v, rfl, h1, h2⟩ := hall t op e
        obtain ⟨r, hr⟩ := C181_writer_left h h1 h2 t e
        exact .inr ⟨_, r, hr⟩
    | step _ st hok ih =>
      intro t
      cases st with
      | start u op e => exact (hok u op rfl).elim
      | ret u op r e =>
        by_cases q : t = u
        · subst q; left; simp
        · simp only [upd_ne _ _ _ _ q]; exact ih t
      | tick now => exact ih t
      | lock u _ _ e | bodyDone u _ _ _ _ _ _ e | bodyWait u _ _ _ _ e | bodySpin u _ _ _ e | spurious u _ _ _ e | relock u _ _ e | signalIn u _ _ _ _ _ _ _ _ e | signalInNone u _ _ _ _ _ e
      | bcastIn u _ _ _ _ _ e | unlock u _ _ _ e | signalOut u _ _ _ _ _ _ _ e | signalOutNone u _ _ _ _ e | bcastOut u _ _ _ _ e =>
        rcases ih u with q | ⟨_, r, q⟩ <;> rw [e] at q <;> cases q
  have hq := quiet h'
  cases st with
  | start u op e => exact id
  | ret u op r e => exact id
  | tick now => exact id
  | lock u _ _ e | bodyDone u _ _ _ _ _ _ e | bodyWait u _ _ _ _ e | bodySpin u _ _ _ e | spurious u _ _ _ e | relock u _ _ e | signalIn u _ _ _ _ _ _ _ _ e | signalInNone u _ _ _ _ _ e
  | bcastIn u _ _ _ _ _ e | unlock u _ _ _ e | signalOut u _ _ _ _ _ _ _ e | signalOutNone u _ _ _ _ e | bcastOut u _ _ _ _ e =>
    rcases hq u with q | ⟨_, r, q⟩ <;> rw [e] at q <;> cases q

/- An execution meeting the hypotheses: thread 1 sleeps in `get` for key 4, thread 0 writes it, and has not returned when the get of thread 1 has. -/
example : ∃ s : St 2 KV WS MOp MRes, Reach imap (fun _ _ => True) (init 2 ⟨5, 0⟩ []) s ∧ begun (.write 4 (some 7)) s.tr = 1 ∧ Got s.tr 4 (some 7) ∧
    (∃ r, s.th 0 = .after (.write 4 (some 7)) r []) ∧ s.th 1 = .idle := by
  have h : (match exec mbody (init 2 ⟨5, 0⟩ []) ([.start 1 (.get 4 true), .lock 1, .body 1, .start 0 (.write 4 (some 7)), .lock 0, .body 0, .notify 0 none, .unlock 0, .relock 1, .body 1, .unlock 1, .ret 1]
      : List (Cmd 2 MOp)) with
    | some s => (match s.th 0, s.th 1 with
      | .after op _ [], .idle => decide (op = .write 4 (some 7) ∧ begun (.write 4 (some 7)) s.tr = 1 ∧ (MOp.get 4 true, MRes.found (some 7)) ∈ effects s.tr)
      | _, _ => false)
    | none => false) = true := by decide
  split at h
  · next s hs =>
    split at h
    · next op r e0 e1 =>
      obtain ⟨rfl, h1, h2⟩ := of_decide_eq_true h
      exact ⟨s, exec_reach hs .refl (fun _ _ _ => trivial), h1, ⟨_, .inr (.inr ⟨true, rfl⟩), h2⟩, ⟨r, e0⟩, e1⟩
    · cases h
  · cases h

/-- C181 is false for an `InterthreadQueueWithWait`: the only item has been read and the read has returned, and `write` is still about to signal, after the lock (`Interthread.h:421`). -/
theorem C181_queue_with_wait_refuted : ∃ s : St 2 (List Val) WC WOp QRes, Reach queueW (fun _ _ => True) (init 2 ⟨5, 0⟩ []) s ∧ effects s.tr = [(.write (some 7), .unit), (.read, .ptr (some 7))] ∧
    (∃ r o, s.th 0 = .after (.write (some 7)) r o) ∧ s.th 1 = .idle ∧ ∃ s', Step queueW s (.notify 0) s' ∧ Uses (.notify 0 : Lbl 2 WOp) := by
  have h : (match exec wbody (init 2 ⟨5, 0⟩ []) ([.start 0 (.write (some 7)), .lock 0, .body 0, .unlock 0, .start 1 .read, .lock 1, .body 1, .notify 1 none, .unlock 1, .ret 1] : List (Cmd 2 WOp)) with
    | some s => (match s.th 0, s.th 1 with
      | .after op _ [.one _], .idle => decide (op = .write (some 7) ∧ effects s.tr = [(.write (some 7), .unit), (.read, .ptr (some 7))])
      | _, _ => false)
    | none => false) = true := by decide
  split at h
  · next s hs =>
    split at h
    · next op r c e0 e1 =>
      obtain ⟨rfl, h1⟩ := of_decide_eq_true h
      refine ⟨s, exec_reach hs .refl (fun _ _ _ => trivial), h1, ⟨_, _, e0⟩, e1, _, .signalOutNone s 0 _ _ _ _ e0 ?_, trivial⟩
      intro u op' t0 eu
      have : u = 0 ∨ u = 1 := by omega
      rcases this with rfl | rfl
      · rw [e0] at eu; cases eu
      · rw [e1] at eu; cases eu
    · cases h
  · cases h

/-- C181 is false for an `InterthreadPriorityQueue` in the same way (`Interthread.h:729`). -/
theorem C181_priority_refuted : ∃ s : St 2 (List Nat) WS PQOp PQRes, Reach (pqueue (· > ·)) (fun _ _ => True) (init 2 ⟨5, 0⟩ []) s ∧ effects s.tr = [(.write 7, .unit), (.read, .ptr (some 7))] ∧
    (∃ r o, s.th 0 = .after (.write 7) r o) ∧ s.th 1 = .idle ∧ ∃ s', Step (pqueue (· > ·)) s (.notify 0) s' ∧ Uses (.notify 0 : Lbl 2 PQOp) := by
  have h : (match exec pqfirst (init 2 ⟨5, 0⟩ []) ([.start 0 (.write 7), .lock 0, .body 0, .unlock 0, .start 1 .read, .lock 1, .body 1, .unlock 1, .ret 1] : List (Cmd 2 PQOp)) with
    | some s => (match s.th 0, s.th 1 with
      | .after op _ [.one _], .idle => decide (op = .write 7 ∧ effects s.tr = [(.write 7, .unit), (.read, .ptr (some 7))])
      | _, _ => false)
    | none => false) = true := by decide
  split at h
  · next s hs =>
    split at h
    · next op r c e0 e1 =>
      obtain ⟨rfl, h1⟩ := of_decide_eq_true h
      refine ⟨s, (exec_reach hs .refl (fun _ _ _ => trivial)).refine pqfirst_refines, h1, ⟨_, _, e0⟩, e1, _, .signalOutNone s 0 _ _ _ _ e0 ?_, trivial⟩
      intro u op' t0 eu
      have : u = 0 ∨ u = 1 := by omega
      rcases this with rfl | rfl
      · rw [e0] at eu; cases eu
      · rw [e1] at eu; cases eu
    · cases h
  · cases h

end Verif.Interthread.MapLife
