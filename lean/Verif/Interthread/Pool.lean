import Verif.Interthread.Programs
import Mathlib.Algebra.Order.BigOperators.Group.Finset
import Mathlib.Algebra.BigOperators.Fin
import Mathlib.Data.Multiset.MapFold
import Mathlib.Tactic.Abel

/-
C167: a pool of workers between two `InterthreadQueue`s (`/repo/Interthread.h:113-322`). Producers write items to the first queue; workers read them there and write their results to the second,
where collectors read them. By C166 it is enough to look at indivisible calls.
-/

namespace Verif.Interthread.Pool
open Verif Verif.Monitor Verif.Interthread

/-! ### The program -/

/-- What a thread is about: a producer with items still to be written, a worker without or with an item, a collector with the number of results it is to read and what it has read. -/
inductive Loc where
  | send (rest : List Nat)
  | idle
  | busy (v : Nat)
  | take (need : Nat) (got : List Nat)

/-- The two queues: items (false), results (true). -/
abbrev kind : Bool → Kind := fun _ => .queue
abbrev O : Bool → Obj := fun i => (kind i).obj

/-- Producers `for (x in rest) items.write(x)`, workers `for (;;) results.write(f(items.read()))`, collectors `while (need--) got.push_back(results.read())`. -/
def prog (f : Nat → Nat) (n : Nat) : Prog O n Loc where
  tau := fun _ _ _ => False
  call := fun _ l i op => match l with
    | .send [] => False
    | .send (x :: _) => i = false ∧ op = QOp.write (some x)
    | .idle => i = false ∧ op = QOp.read
    | .busy v => i = true ∧ op = QOp.write (some (f v))
    | .take need got => got.length < need ∧ i = true ∧ op = QOp.read
  cont := fun _ l _ _ r l' => match l with
    | .send rest => l' = .send rest.tail
    | .idle => ∃ v, r = QRes.ptr (some v) ∧ l' = .busy v
    | .busy _ => l' = .idle
    | .take need got => ∃ v, r = QRes.ptr (some v) ∧ l' = .take need (got ++ [v])

/-- A thread at its beginning. -/
def Fresh : Loc → Prop
  | .send _ => True
  | .idle => True
  | .busy _ => False
  | .take _ got => got = []

/-- The items a producer is to write. -/
def items : Loc → List Nat
  | .send rest => rest
  | _ => []

/-- The number of results a collector is to read. -/
def needs : Loc → Nat
  | .take need _ => need
  | _ => 0

/-- What a collector has read. -/
def results : Loc → List Nat
  | .take _ got => got
  | _ => []

/-- Where a thread is in its program. -/
def knows : Pos O Loc → Loc
  | .out l => l
  | .inside l _ _ => l

/-! ### With indivisible calls -/

abbrev G (n : Nat) := GState O n Loc
abbrev GP := GPos O Loc

def loc : GP → Loc
  | .out l => l
  | .asked l _ _ => l
  | .got l _ _ _ => l

/-- The results that a thread holds, or holds the items for. -/
def holds (f : Nat → Nat) : Loc → Multiset Nat
  | .send rest => (rest.map f : List Nat)
  | .idle => 0
  | .busy v => {f v}
  | .take _ got => (got : List Nat)

def resVal : QRes → Multiset Nat
  | .ptr (some v) => {v}
  | _ => 0

/-- The same after the call has been done. -/
def holdsAfter (f : Nat → Nat) : Loc → QRes → Multiset Nat
  | .send rest, _ => (rest.tail.map f : List Nat)
  | .idle, r => (resVal r).map f
  | .busy _, _ => 0
  | .take _ got, r => (got : Multiset Nat) + resVal r

/-- Results of objects are those of queues. -/
def asQ : (i : Bool) → (O i).R → QRes := fun _ r => r
def asL : (i : Bool) → (O i).A → List Nat := fun _ q => q

def part (f : Nat → Nat) : GP → Multiset Nat
  | .out l => holds f l
  | .asked l _ _ => holds f l
  | .got l i _ r => holdsAfter f l (asQ i r)

/-- Everything there is. -/
def total (f : Nat → Nat) {n : Nat} (g : G n) : Multiset Nat := (∑ t, part f (g.pos t)) + ((asL false (g.obj false)).map f : List Nat) + (asL true (g.obj true) : List Nat)

theorem sum_upd {α β : Type} [AddCommMonoid β] {n : Nat} (w : α → β) (pos : Fin n → α) (t : Fin n) (p : α) :
    (∑ u, w (Function.update pos t p u)) + w (pos t) = (∑ u, w (pos u)) + w p := by
  have h1 : (∑ u, w (Function.update pos t p u)) = w p + ∑ u ∈ Finset.univ.erase t, w (pos u) := by
    rw [← Finset.add_sum_erase _ _ (Finset.mem_univ t), Function.update_self]
    congr 1
    refine Finset.sum_congr rfl fun u hu => ?_
    rw [Function.update_of_ne (Finset.ne_of_mem_erase hu)]
  have h2 : (∑ u, w (pos u)) = w (pos t) + ∑ u ∈ Finset.univ.erase t, w (pos u) := (Finset.add_sum_erase _ _ (Finset.mem_univ t)).symm
  rw [h1, h2]
  abel

theorem read_does {q q' : List Nat} {r : QRes} (h : idealStep q (.read, r) = some q') : ∃ v, r = .ptr (some v) ∧ q = v :: q' := Ask.read_res h

theorem write_does {q q' : List Nat} {v : Nat} {r : QRes} (h : idealStep q (.write (some v), r) = some q') : r = .unit ∧ q' = q ++ [v] := Ask.write_res h

theorem balance {S S' x y a b : Multiset Nat} (h : S' + x = S + y) (h2 : a + y = b + x) : S' + a = S + b := by
  have : S' + a + x + y = S + b + x + y := by
    calc S' + a + x + y = (S' + x) + (a + y) := by abel
      _ = (S + y) + (b + x) := by rw [h, h2]
      _ = _ := by abel
  exact add_right_cancel (add_right_cancel this)

theorem bal_items {S S' x y R : Multiset Nat} {f : Nat → Nat} {q q' : List Nat} (h : S' + x = S + y) (h2 : ((q'.map f : List Nat) : Multiset Nat) + y = ((q.map f : List Nat) : Multiset Nat) + x) :
    S' + ((q'.map f : List Nat) : Multiset Nat) + R = S + ((q.map f : List Nat) : Multiset Nat) + R := by rw [balance h h2]

theorem bal_results {S S' x y R : Multiset Nat} {q q' : List Nat} (h : S' + x = S + y) (h2 : (q' : Multiset Nat) + y = (q : Multiset Nat) + x) :
    S' + R + (q' : Multiset Nat) = S + R + (q : Multiset Nat) := by
  rw [add_right_comm, balance h h2, add_right_comm]

theorem bal_send {f : Nat → Nat} {q rest : List Nat} {x : Nat} :
    (((q ++ [x]).map f : List Nat) : Multiset Nat) + ((rest.map f : List Nat) : Multiset Nat) = ((q.map f : List Nat) : Multiset Nat) + (((x :: rest).map f : List Nat) : Multiset Nat) := by
  simp only [Multiset.coe_add, List.map_append, List.map_cons, List.map_nil, List.append_assoc, List.singleton_append]

theorem bal_idle {f : Nat → Nat} {q : List Nat} {v : Nat} : ((q.map f : List Nat) : Multiset Nat) + ({v} : Multiset Nat).map f = (((v :: q).map f : List Nat) : Multiset Nat) + 0 := by
  simp only [List.map_cons, ← Multiset.cons_coe, Multiset.map_singleton, ← Multiset.singleton_add]
  abel

theorem bal_busy {q : List Nat} {v : Nat} : ((q ++ [v] : List Nat) : Multiset Nat) + 0 = (q : Multiset Nat) + {v} := by
  rw [← Multiset.coe_add, add_zero]; rfl

theorem bal_take {q got : List Nat} {v : Nat} : (q : Multiset Nat) + ((got : Multiset Nat) + {v}) = ((v :: q : List Nat) : Multiset Nat) + (got : Multiset Nat) := by
  simp only [← Multiset.cons_coe, ← Multiset.singleton_add]
  abel

/-- The calls in progress are those of the program. -/
def Called (f : Nat → Nat) (n : Nat) : GP → Prop
  | .out _ => True
  | .asked l i op => ∃ t, (prog f n).call t l i op
  | .got l i op r => (∃ t, (prog f n).call t l i op) ∧ ∃ q q', idealStep q (op, asQ i r) = some q'

/-- The role of a thread and its limits do not change. -/
def Role : Loc → Loc → Prop
  | .send _, .send _ => True
  | .idle, .idle => True
  | .idle, .busy _ => True
  | .take k _, .take k' got => k = k' ∧ got.length ≤ k
  | _, _ => False

theorem role_fresh {l : Loc} (h : Fresh l) : Role l l := by
  cases l with
  | send rest => trivial
  | idle => trivial
  | busy v => exact h.elim
  | take k got => cases (show got = [] from h); exact ⟨rfl, Nat.zero_le _⟩

structure Inv (f : Nat → Nat) {n : Nat} (l0 : Fin n → Loc) (g : G n) : Prop where
  total : total f g = (∑ t, (items (l0 t) : Multiset Nat)).map f
  role : ∀ t, Role (l0 t) (loc (g.pos t))
  called : ∀ t, Called f n (g.pos t)

theorem inv_start (f : Nat → Nat) {n : Nat} {l0 : Fin n → Loc} (h0 : ∀ t, Fresh (l0 t)) : Inv f l0 (GState.start O l0) where
  total := by
    have h : ∀ l, Fresh l → holds f l = ((items l : List Nat) : Multiset Nat).map f := by
      intro l hl
      cases l with
      | send rest => rfl
      | idle => rfl
      | busy v => exact hl.elim
      | take k got => cases (show got = [] from hl); rfl
    show (∑ t, holds f (l0 t)) + (([] : List Nat).map f : List Nat) + (([] : List Nat) : Multiset Nat) = _
    rw [← Multiset.coe_mapAddMonoidHom, map_sum, Finset.sum_congr rfl fun t _ => h (l0 t) (h0 t)]
    simp
  role := fun t => role_fresh (h0 t)
  called := fun _ => trivial

theorem inv_step {f : Nat → Nat} {n : Nat} {l0 : Fin n → Loc} {g g' : G n} (h : Inv f l0 g) (st : GStep O (prog f n) g g') : Inv f l0 g' := by
  cases st with
  | tau t l l' h1 h2 => exact h2.elim
  | ask t l i op h1 h2 =>
    refine ⟨?_, fun u => ?_, fun u => ?_⟩
    · rw [← h.total]
      have := sum_upd (part f) g.pos t (.asked l i op)
      rw [h1] at this
      simp only [total]
      rw [add_right_cancel this]
    · by_cases e : u = t
      · subst e; dsimp only; rw [Function.update_self]; have := h.role u; rw [h1] at this; exact this
      · dsimp only; rw [Function.update_of_ne e]; exact h.role u
    · by_cases e : u = t
      · subst e; dsimp only; rw [Function.update_self]; exact ⟨u, h2⟩
      · dsimp only; rw [Function.update_of_ne e]; exact h.called u
  | does t l i op r a' h1 h2 =>
    have hc : ∃ t, (prog f n).call t l i op := by have := h.called t; rw [h1] at this; exact this
    refine ⟨?_, fun u => ?_, fun u => ?_⟩
    · rw [← h.total]
      have hu := sum_upd (part f) g.pos t (.got l i op r)
      rw [h1] at hu
      obtain ⟨_, hc⟩ := hc
      cases l with
      | send rest =>
        cases rest with
        | nil => exact hc.elim
        | cons x rest =>
          obtain ⟨rfl, rfl⟩ := hc
          obtain ⟨rfl, e⟩ := write_does h2
          subst e
          exact bal_items hu bal_send
      | idle =>
        obtain ⟨rfl, rfl⟩ := hc
        obtain ⟨v, rfl, e⟩ := read_does h2
        exact bal_items hu (bal_idle.trans (congrArg (fun l : List Nat => ((l.map f : List Nat) : Multiset Nat) + 0) e.symm))
      | busy v =>
        obtain ⟨rfl, rfl⟩ := hc
        obtain ⟨rfl, e⟩ := write_does h2
        subst e
        exact bal_results hu bal_busy
      | take k got =>
        obtain ⟨-, rfl, rfl⟩ := hc
        obtain ⟨v, rfl, e⟩ := read_does h2
        exact bal_results hu (bal_take.trans (congrArg (fun l : List Nat => (l : Multiset Nat) + (got : Multiset Nat)) e.symm))
    · by_cases e : u = t
      · subst e; dsimp only; rw [Function.update_self]; have := h.role u; rw [h1] at this; exact this
      · dsimp only; rw [Function.update_of_ne e]; exact h.role u
    · by_cases e : u = t
      · subst e; dsimp only; rw [Function.update_self]; exact ⟨hc, _, _, h2⟩
      · dsimp only; rw [Function.update_of_ne e]; exact h.called u
  | cont t l i op r l' h1 h2 =>
    have hc := h.called t
    have hr := h.role t
    rw [h1] at hc hr
    obtain ⟨⟨_, hc⟩, q, q', hq⟩ := hc
    have key : part f (.out l' : GP) = part f (.got l i op r : GP) ∧ Role (l0 t) l' := by
      cases l with
      | send rest => cases (show l' = .send rest.tail from h2); exact ⟨rfl, by revert hr; cases l0 t <;> exact id⟩
      | idle => obtain ⟨v, rfl, rfl⟩ := h2; exact ⟨rfl, by revert hr; cases l0 t <;> exact id⟩
      | busy v => cases (show l' = .idle from h2); exact ⟨rfl, by revert hr; cases l0 t <;> exact id⟩
      | take k got =>
        obtain ⟨v, rfl, rfl⟩ := h2
        refine ⟨?_, ?_⟩
        · show ((got ++ [v] : List Nat) : Multiset Nat) = (got : Multiset Nat) + {v}
          rw [← Multiset.coe_add]; rfl
        · revert hr
          cases l0 t with
          | take k' g' => intro hr; obtain ⟨rfl, -⟩ := hr; exact ⟨rfl, by have := hc.1; simp; omega⟩
          | _ => exact id
    refine ⟨?_, fun u => ?_, fun u => ?_⟩
    · rw [← h.total]
      have hu := sum_upd (part f) g.pos t (.out l')
      rw [h1, key.1] at hu
      simp only [total]
      rw [add_right_cancel hu]
    · by_cases e : u = t
      · subst e; dsimp only; rw [Function.update_self]; exact key.2
      · dsimp only; rw [Function.update_of_ne e]; exact h.role u
    · by_cases e : u = t
      · subst e; dsimp only; rw [Function.update_self]; trivial
      · dsimp only; rw [Function.update_of_ne e]; exact h.called u

theorem inv {f : Nat → Nat} {n : Nat} {l0 : Fin n → Loc} (h0 : ∀ t, Fresh (l0 t)) {g : G n} (h : GReach O (prog f n) l0 g) : Inv f l0 g := by
  induction h with
  | refl => exact inv_start f h0
  | step _ st ih => exact inv_step ih st

/-! ### Collected so far, and at the end -/

theorem results_le (f : Nat → Nat) (p : GP) : (results (loc p) : Multiset Nat) ≤ part f p := by
  cases p with
  | out l => cases l <;> first | exact le_refl _ | exact Multiset.zero_le _
  | asked l i op => cases l <;> first | exact le_refl _ | exact Multiset.zero_le _
  | got l i op r => cases l <;> first | exact Multiset.le_add_right _ _ | exact Multiset.zero_le _

theorem calls_ok (f : Nat → Nat) (n : Nat) : ∀ t l i op, (prog f n).call t l i op → (kind i).obj.ok op ∧ (kind i).plain op := by
  intro t l i op h
  cases l with
  | send rest => cases rest with
    | nil => exact h.elim
    | cons x rest => obtain ⟨rfl, rfl⟩ := h; exact ⟨(fun h => nomatch h), trivial⟩
  | idle => obtain ⟨rfl, rfl⟩ := h; exact ⟨trivial, trivial⟩
  | busy v => obtain ⟨rfl, rfl⟩ := h; exact ⟨(fun h => nomatch h), trivial⟩
  | take k got => obtain ⟨-, rfl, rfl⟩ := h; exact ⟨trivial, trivial⟩

theorem loc_gpos {n : Nat} (c : CState O n Loc) (t : Fin n) : loc (gpos c t) = knows (c.pos t) := by
  simp only [gpos]
  cases c.pos t with
  | out l => rfl
  | inside l i op => dsimp only; split <;> rfl

/-- C167: whatever the number of producers, workers and collectors and however they are scheduled, at any time what the collectors have read are results of items the producers were to write, each
used once. -/
theorem C167_once {f : Nat → Nat} {n : Nat} {l0 : Fin n → Loc} (h0 : ∀ t, Fresh (l0 t)) {now : Bool → Clock} {c : CState O n Loc} (h : CReach O (prog f n) now l0 c) :
    (∑ t, (results (knows (c.pos t)) : Multiset Nat)) ≤ (∑ t, (items (l0 t) : Multiset Nat)).map f := by
  obtain ⟨a, hg, -⟩ := C166_indivisible kind (fun t l i op h => (calls_ok f n t l i op h).1) h
  have hi := inv h0 hg
  rw [← hi.total, total, add_assoc]
  refine le_trans (Finset.sum_le_sum fun t _ => ?_) (Multiset.le_add_right _ _)
  rw [← loc_gpos]
  exact results_le f _

theorem role_take {l : Loc} {k : Nat} {got : List Nat} (h : Role l (.take k got)) : got.length ≤ k ∧ ∃ g0, l = .take k g0 := by
  cases l with
  | take k' g' => obtain ⟨rfl, h⟩ := h; exact ⟨h, _, rfl⟩
  | _ => exact h.elim

/-- With indivisible calls, when nothing can go on: producers have finished, workers wait for items, collectors have finished or wait for results. -/
theorem at_end {f : Nat → Nat} {n : Nat} {l0 : Fin n → Loc} {g : G n} (h : Inv f l0 g) (hs : ∀ g', ¬ GStep O (prog f n) g g') (t : Fin n) :
    (g.pos t = .out (.send [])) ∨ (g.pos t = .asked .idle false QOp.read ∧ asL false (g.obj false) = []) ∨
      (∃ k got, g.pos t = .out (.take k got) ∧ got.length = k) ∨ (∃ k got, g.pos t = .asked (.take k got) true QOp.read ∧ got.length < k ∧ asL true (g.obj true) = []) := by
  have hc := h.called t
  have hr := h.role t
  cases hp : g.pos t with
  | out l =>
    rw [hp] at hr
    cases l with
    | send rest =>
      cases rest with
      | nil => exact .inl rfl
      | cons x rest => exact absurd (GStep.ask (P := prog f n) g t (.send (x :: rest)) false (QOp.write (some x)) hp ⟨rfl, rfl⟩) (hs _)
    | idle => exact absurd (GStep.ask (P := prog f n) g t .idle false QOp.read hp ⟨rfl, rfl⟩) (hs _)
    | busy v => exact absurd (GStep.ask (P := prog f n) g t (.busy v) true (QOp.write (some (f v))) hp ⟨rfl, rfl⟩) (hs _)
    | take k got =>
      by_cases e : got.length < k
      · exact absurd (GStep.ask (P := prog f n) g t (.take k got) true QOp.read hp ⟨e, rfl, rfl⟩) (hs _)
      · exact .inr (.inr (.inl ⟨k, got, rfl, by have := (role_take hr).1; omega⟩))
  | asked l i op =>
    rw [hp] at hc
    obtain ⟨_, hc⟩ := hc
    cases l with
    | send rest =>
      cases rest with
      | nil => exact hc.elim
      | cons x rest =>
        obtain ⟨rfl, rfl⟩ := hc
        exact absurd (GStep.does (P := prog f n) g t (.send (x :: rest)) false (QOp.write (some x)) QRes.unit _ hp rfl) (hs _)
    | idle =>
      obtain ⟨rfl, rfl⟩ := hc
      cases e : asL false (g.obj false) with
      | nil => exact .inr (.inl ⟨rfl, rfl⟩)
      | cons v q =>
        exact absurd (GStep.does (P := prog f n) g t .idle false QOp.read (QRes.ptr (some v)) q hp (show idealStep (asL false (g.obj false)) (.read, .ptr (some v)) = some q by rw [e]; simp [idealStep]))
          (hs _)
    | busy v =>
      obtain ⟨rfl, rfl⟩ := hc
      exact absurd (GStep.does (P := prog f n) g t (.busy v) true (QOp.write (some (f v))) QRes.unit _ hp rfl) (hs _)
    | take k got =>
      obtain ⟨hl, rfl, rfl⟩ := hc
      cases e : asL true (g.obj true) with
      | nil => exact .inr (.inr (.inr ⟨k, got, rfl, hl, rfl⟩))
      | cons v q =>
        exact absurd (GStep.does (P := prog f n) g t (.take k got) true QOp.read (QRes.ptr (some v)) q hp (show idealStep (asL true (g.obj true)) (.read, .ptr (some v)) = some q by rw [e]; simp [idealStep]))
          (hs _)
  | got l i op r =>
    rw [hp] at hc
    obtain ⟨⟨_, hc⟩, q, q', hq⟩ := hc
    cases l with
    | send rest => exact absurd (GStep.cont (P := prog f n) g t (.send rest) i op r _ hp rfl) (hs _)
    | idle =>
      obtain ⟨rfl, rfl⟩ := hc
      obtain ⟨v, e, -⟩ := read_does hq
      exact absurd (GStep.cont (P := prog f n) g t .idle false QOp.read r (.busy v) hp ⟨v, e, rfl⟩) (hs _)
    | busy v => exact absurd (GStep.cont (P := prog f n) g t (.busy v) i op r _ hp rfl) (hs _)
    | take k got =>
      obtain ⟨-, rfl, rfl⟩ := hc
      obtain ⟨v, e, -⟩ := read_does hq
      exact absurd (GStep.cont (P := prog f n) g t (.take k got) true QOp.read r (.take k (got ++ [v])) hp ⟨v, e, rfl⟩) (hs _)

theorem pos_of_gpos {n : Nat} {c : CState O n Loc} {t : Fin n} {l : Loc} (e : gpos c t = .out l) : c.pos t = .out l := by
  cases hp : c.pos t with
  | out l1 => simp only [gpos, hp] at e; cases e; rfl
  | inside l1 i op =>
    simp only [gpos, hp] at e
    split at e <;> cases e

/-- C167: if there is a worker, and no more results are to be read than there are items: the threads cannot come to a standstill before every collector has all its results; and if as many results
are to be read as there are items, these are the results of all the items, each once. -/
theorem C167_complete {f : Nat → Nat} {n : Nat} {l0 : Fin n → Loc} (h0 : ∀ t, Fresh (l0 t)) {now : Bool → Clock} {c : CState O n Loc} (h : CReach O (prog f n) now l0 c) (hs : Stuck (prog f n) c)
    (hw : ∃ w, l0 w = .idle) (hn : ∑ t, needs (l0 t) ≤ ∑ t, (items (l0 t)).length) :
    (∀ t, 0 < needs (l0 t) → ∃ got, c.pos t = .out (.take (needs (l0 t)) got) ∧ got.length = needs (l0 t)) ∧
      (∑ t, needs (l0 t) = ∑ t, (items (l0 t)).length → (∑ t, (results (knows (c.pos t)) : Multiset Nat)) = (∑ t, (items (l0 t) : Multiset Nat)).map f) := by
  obtain ⟨a, hg, -, hst⟩ := C166_no_new_deadlock kind (fun t l i op h => (calls_ok f n t l i op h).1) h hs
  have hi := inv h0 hg
  have he := at_end hi hst
  dsimp only at he
  have hrole : ∀ t, Role (l0 t) (loc (gpos c t)) := hi.role
  obtain ⟨w, hw⟩ := hw
  -- the items have all been read
  have hin : asL false (a false) = [] := by
    have hr := hrole w
    rw [hw] at hr
    rcases he w with e | ⟨-, e⟩ | ⟨k, got, e, -⟩ | ⟨k, got, e, -⟩
    · rw [e] at hr; exact hr.elim
    · exact e
    · rw [e] at hr; exact hr.elim
    · rw [e] at hr; exact hr.elim
  have hpart : ∀ t, part f (gpos c t) = (results (knows (c.pos t)) : Multiset Nat) := by
    intro t
    rw [← loc_gpos]
    rcases he t with e | ⟨e, -⟩ | ⟨k, got, e, -⟩ | ⟨k, got, e, -⟩ <;> (rw [e]; rfl)
  have htot : (∑ t, (results (knows (c.pos t)) : Multiset Nat)) + (asL true (a true) : Multiset Nat) = (∑ t, (items (l0 t) : Multiset Nat)).map f := by
    rw [← hi.total, total]
    show _ = (∑ t, part f (gpos c t)) + (((asL false (a false)).map f : List Nat) : Multiset Nat) + _
    rw [hin, Finset.sum_congr rfl fun t _ => hpart t]
    simp
  have hcard : (∑ t, (results (knows (c.pos t))).length) + (asL true (a true)).length = ∑ t, (items (l0 t)).length := by
    have := congrArg Multiset.card htot
    simpa [Multiset.card_sum] using this
  have hres : ∀ t, (results (knows (c.pos t))).length ≤ needs (l0 t) := by
    intro t
    have hr := hrole t
    rw [loc_gpos] at hr
    cases e : knows (c.pos t) with
    | take k got => rw [e] at hr; obtain ⟨h1, g0, h2⟩ := role_take hr; rw [h2]; exact h1
    | _ => exact Nat.zero_le _
  have hfull : ∀ t, needs (l0 t) = (results (knows (c.pos t))).length := by
    intro t
    rcases he t with e | ⟨e, -⟩ | ⟨k, got, e, hl⟩ | ⟨k, got, e, hl, ho⟩
    · have hr := hrole t; rw [← loc_gpos]; rw [e] at hr ⊢; revert hr; cases l0 t <;> intro hr <;> first | rfl | exact hr.elim
    · have hr := hrole t; rw [← loc_gpos]; rw [e] at hr ⊢; revert hr; cases l0 t <;> intro hr <;> first | rfl | exact hr.elim
    · have hr := hrole t
      rw [← loc_gpos]; rw [e] at hr ⊢
      obtain ⟨-, g0, h2⟩ := role_take hr
      rw [h2]; exact hl.symm
    · exfalso
      have hr := hrole t
      rw [e] at hr
      obtain ⟨-, g0, h2⟩ := role_take hr
      have hlt : (∑ t, (results (knows (c.pos t))).length) < ∑ t, needs (l0 t) := by
        refine Finset.sum_lt_sum (fun t _ => hres t) ⟨t, Finset.mem_univ t, ?_⟩
        rw [← loc_gpos, e, h2]; exact hl
      rw [ho] at hcard
      simp only [List.length_nil] at hcard
      omega
  refine ⟨fun t ht => ?_, fun heq => ?_⟩
  · have hr := hrole t
    rcases he t with e | ⟨e, -⟩ | ⟨k, got, e, hl⟩ | ⟨k, got, e, hl, ho⟩
    · exfalso; have := hfull t; rw [← loc_gpos] at this; rw [e] at this; exact absurd this (Nat.ne_of_gt ht)
    · exfalso; have := hfull t; rw [← loc_gpos] at this; rw [e] at this; exact absurd this (Nat.ne_of_gt ht)
    · rw [e] at hr
      obtain ⟨-, g0, h2⟩ := role_take hr
      rw [h2]; exact ⟨got, pos_of_gpos e, hl⟩
    · exfalso
      have := hfull t
      rw [e] at hr
      obtain ⟨-, g0, h2⟩ := role_take hr
      rw [← loc_gpos, e, h2] at this
      exact absurd this (Nat.ne_of_gt hl)
  · have : (asL true (a true)).length = 0 := by
      rw [Finset.sum_congr rfl fun t _ => hfull t] at heq
      omega
    rw [List.eq_nil_of_length_eq_zero this] at htot
    simpa using htot

/-- Two workers may change the order: the items 1 and 2, with `f` adding 10, are collected as 12, 11. -/
def four : Fin 4 → Loc := ![.send [1, 2], .idle, .idle, .take 2 []]

example (now : Bool → Clock) : ∃ c, CReach O (prog (· + 10) 4) now four c ∧ c.pos 3 = .out (.take 2 [12, 11]) := by
  have h0 : GReach O (prog (· + 10) 4) four (.start O four) := .refl
  have h1 := h0.step (GStep.ask (P := prog (· + 10) 4) _ 0 (Loc.send [1, 2]) false (QOp.write (some 1)) (by rfl) (by exact ⟨rfl, rfl⟩))
  have h2 := h1.step (GStep.does (P := prog (· + 10) 4) _ 0 (Loc.send [1, 2]) false (QOp.write (some 1)) (QRes.unit) ([1] : List Nat) (by rfl) (by rfl))
  have h3 := h2.step (GStep.cont (P := prog (· + 10) 4) _ 0 (Loc.send [1, 2]) false (QOp.write (some 1)) (QRes.unit) (Loc.send [2]) (by rfl) (by exact rfl))
  have h4 := h3.step (GStep.ask (P := prog (· + 10) 4) _ 1 (Loc.idle) false (QOp.read) (by rfl) (by exact ⟨rfl, rfl⟩))
  have h5 := h4.step (GStep.does (P := prog (· + 10) 4) _ 1 (Loc.idle) false (QOp.read) (QRes.ptr (some 1)) ([] : List Nat) (by rfl) (by rfl))
  have h6 := h5.step (GStep.cont (P := prog (· + 10) 4) _ 1 (Loc.idle) false (QOp.read) (QRes.ptr (some 1)) (Loc.busy 1) (by rfl) (by exact ⟨1, rfl, rfl⟩))
  have h7 := h6.step (GStep.ask (P := prog (· + 10) 4) _ 0 (Loc.send [2]) false (QOp.write (some 2)) (by rfl) (by exact ⟨rfl, rfl⟩))
  have h8 := h7.step (GStep.does (P := prog (· + 10) 4) _ 0 (Loc.send [2]) false (QOp.write (some 2)) (QRes.unit) ([2] : List Nat) (by rfl) (by rfl))
  have h9 := h8.step (GStep.cont (P := prog (· + 10) 4) _ 0 (Loc.send [2]) false (QOp.write (some 2)) (QRes.unit) (Loc.send []) (by rfl) (by exact rfl))
  have h10 := h9.step (GStep.ask (P := prog (· + 10) 4) _ 2 (Loc.idle) false (QOp.read) (by rfl) (by exact ⟨rfl, rfl⟩))
  have h11 := h10.step (GStep.does (P := prog (· + 10) 4) _ 2 (Loc.idle) false (QOp.read) (QRes.ptr (some 2)) ([] : List Nat) (by rfl) (by rfl))
  have h12 := h11.step (GStep.cont (P := prog (· + 10) 4) _ 2 (Loc.idle) false (QOp.read) (QRes.ptr (some 2)) (Loc.busy 2) (by rfl) (by exact ⟨2, rfl, rfl⟩))
  have h13 := h12.step (GStep.ask (P := prog (· + 10) 4) _ 2 (Loc.busy 2) true (QOp.write (some 12)) (by rfl) (by exact ⟨rfl, rfl⟩))
  have h14 := h13.step (GStep.does (P := prog (· + 10) 4) _ 2 (Loc.busy 2) true (QOp.write (some 12)) (QRes.unit) ([12] : List Nat) (by rfl) (by rfl))
  have h15 := h14.step (GStep.cont (P := prog (· + 10) 4) _ 2 (Loc.busy 2) true (QOp.write (some 12)) (QRes.unit) (Loc.idle) (by rfl) (by exact rfl))
  have h16 := h15.step (GStep.ask (P := prog (· + 10) 4) _ 1 (Loc.busy 1) true (QOp.write (some 11)) (by rfl) (by exact ⟨rfl, rfl⟩))
  have h17 := h16.step (GStep.does (P := prog (· + 10) 4) _ 1 (Loc.busy 1) true (QOp.write (some 11)) (QRes.unit) ([12, 11] : List Nat) (by rfl) (by rfl))
  have h18 := h17.step (GStep.cont (P := prog (· + 10) 4) _ 1 (Loc.busy 1) true (QOp.write (some 11)) (QRes.unit) (Loc.idle) (by rfl) (by exact rfl))
  have h19 := h18.step (GStep.ask (P := prog (· + 10) 4) _ 3 (Loc.take 2 []) true (QOp.read) (by rfl) (by exact ⟨by decide, rfl, rfl⟩))
  have h20 := h19.step (GStep.does (P := prog (· + 10) 4) _ 3 (Loc.take 2 []) true (QOp.read) (QRes.ptr (some 12)) ([11] : List Nat) (by rfl) (by rfl))
  have h21 := h20.step (GStep.cont (P := prog (· + 10) 4) _ 3 (Loc.take 2 []) true (QOp.read) (QRes.ptr (some 12)) (Loc.take 2 [12]) (by rfl) (by exact ⟨12, rfl, rfl⟩))
  have h22 := h21.step (GStep.ask (P := prog (· + 10) 4) _ 3 (Loc.take 2 [12]) true (QOp.read) (by rfl) (by exact ⟨by decide, rfl, rfl⟩))
  have h23 := h22.step (GStep.does (P := prog (· + 10) 4) _ 3 (Loc.take 2 [12]) true (QOp.read) (QRes.ptr (some 11)) ([] : List Nat) (by rfl) (by rfl))
  have h24 := h23.step (GStep.cont (P := prog (· + 10) 4) _ 3 (Loc.take 2 [12]) true (QOp.read) (QRes.ptr (some 11)) (Loc.take 2 [12, 11]) (by rfl) (by exact ⟨11, rfl, rfl⟩))
  obtain ⟨c, hc, hp, -⟩ := C166_exact kind (calls_ok _ _) now h24
  exact ⟨c, hc, pos_of_gpos ((congrFun hp 3).trans rfl)⟩

/-- The hypotheses of `C167_complete` are met by these four threads. -/
example : (∀ t, Fresh (four t)) ∧ (∃ w, four w = .idle) ∧ ∑ t, needs (four t) = ∑ t, (items (four t)).length :=
  ⟨fun t => by fin_cases t <;> trivial, ⟨1, rfl⟩, by simp [Fin.sum_univ_four, four, needs, items]⟩

end Verif.Interthread.Pool
