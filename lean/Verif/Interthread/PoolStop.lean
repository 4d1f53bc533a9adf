import Verif.Interthread.PoolEnds
import Mathlib.Data.Multiset.Count

/-
C170: shutting down a pool of workers between two `InterthreadQueue`s (`/repo/Interthread.h:113-322`) with stop items: a worker that reads one ends. By C166 it is enough to look at indivisible calls.
-/

namespace Verif.Interthread.PoolStop
open Verif Verif.Monitor Verif.Interthread
open Verif.Interthread.Pool (sum_upd read_does write_does)

/-! ### The program -/

/-- A producer with items still to be written; a worker without or with an item, or ended; a collector with the number of results it is to read and what it has read. -/
inductive Loc where
  | send (rest : List Nat)
  | idle
  | busy (v : Nat)
  | ended
  | take (need : Nat) (got : List Nat)

/-- The two queues: items (false), results (true). -/
abbrev kind : Bool → Kind := fun _ => .queue
abbrev O : Bool → Obj := fun i => (kind i).obj

/-- Producers `for (x in rest) items.write(x)`, workers `while ((v = items.read()) != stop) results.write(f(v))`, collectors `while (need--) got.push_back(results.read())`. -/
def prog (f : Nat → Nat) (stop n : Nat) : Prog O n Loc where
  tau := fun _ _ _ => False
  call := fun _ l i op => match l with
    | .send [] => False
    | .send (x :: _) => i = false ∧ op = QOp.write (some x)
    | .idle => i = false ∧ op = QOp.read
    | .busy v => i = true ∧ op = QOp.write (some (f v))
    | .ended => False
    | .take need got => got.length < need ∧ i = true ∧ op = QOp.read
  cont := fun _ l _ _ r l' => match l with
    | .send rest => l' = .send rest.tail
    | .idle => ∃ v, r = QRes.ptr (some v) ∧ l' = if v = stop then .ended else .busy v
    | .busy _ => l' = .idle
    | .ended => False
    | .take need got => ∃ v, r = QRes.ptr (some v) ∧ l' = .take need (got ++ [v])

/-- A list of items that is empty or ends with a stop item. -/
def Ends (stop : Nat) (l : List Nat) : Prop := ∀ x ∈ l.getLast?, x = stop

/-- A thread at its beginning; a producer's last item is a stop item. -/
def Fresh (stop : Nat) : Loc → Prop
  | .send rest => Ends stop rest
  | .idle => True
  | .take _ got => got = []
  | _ => False

/-- The items a producer is to write, stop items among them. -/
def items : Loc → List Nat
  | .send rest => rest
  | _ => []

/-- The number of results a collector is to read. -/
def needs : Loc → Nat
  | .take need _ => need
  | _ => 0

/-- What a collector has read. -/
def results : Loc → List Nat
  | .take _ got => got
  | _ => []

/-- Whether a thread is a worker. -/
def works : Loc → Nat
  | .idle => 1
  | _ => 0

/-- Whether it is one that has ended. -/
def gone : Loc → Nat
  | .ended => 1
  | _ => 0

/-- Where a thread is in its program. -/
def knows : Pos O Loc → Loc
  | .out l => l
  | .inside l _ _ => l

/-- What becomes of an item: nothing, or its result. -/
def out (f : Nat → Nat) (stop v : Nat) : Option Nat := if v = stop then none else some (f v)

/-! ### With indivisible calls -/

abbrev G (n : Nat) := GState O n Loc
abbrev GP := GPos O Loc

def loc : GP → Loc
  | .out l => l
  | .asked l _ _ => l
  | .got l _ _ _ => l

def asQ : (i : Bool) → (O i).R → QRes := fun _ r => r
def asL : (i : Bool) → (O i).A → List Nat := fun _ q => q

/-- What a thread holds: results, or items for them. -/
def holds (f : Nat → Nat) (stop : Nat) : Loc → Multiset (Option Nat)
  | .send rest => (rest.map (out f stop) : List (Option Nat))
  | .idle => 0
  | .busy v => {some (f v)}
  | .ended => {none}
  | .take _ got => (got.map some : List (Option Nat))

def resOut (w : Nat → Option Nat) : QRes → Multiset (Option Nat)
  | .ptr (some v) => {w v}
  | _ => 0

/-- The same after a call with this result. -/
def holdsAfter (f : Nat → Nat) (stop : Nat) : Loc → QRes → Multiset (Option Nat)
  | .send rest, _ => (rest.tail.map (out f stop) : List (Option Nat))
  | .idle, r => resOut (out f stop) r
  | .busy _, _ => 0
  | .ended, _ => {none}
  | .take _ got, r => ((got.map some : List (Option Nat)) : Multiset (Option Nat)) + resOut some r

def part (f : Nat → Nat) (stop : Nat) : GP → Multiset (Option Nat)
  | .out l => holds f stop l
  | .asked l _ _ => holds f stop l
  | .got l i _ r => holdsAfter f stop l (asQ i r)

/-- Everything there is. -/
def total (f : Nat → Nat) (stop : Nat) {n : Nat} (g : G n) : Multiset (Option Nat) :=
  (∑ t, part f stop (g.pos t)) + ((asL false (g.obj false)).map (out f stop) : List (Option Nat)) + ((asL true (g.obj true)).map some : List (Option Nat))

/-- What a producer has still to write. -/
def rest : GP → List Nat
  | .out (.send r) => r
  | .asked (.send r) _ _ => r
  | .got (.send r) _ _ _ => r.tail
  | _ => []

/-- The role of a thread and its limits do not change. -/
def Role : Loc → Loc → Prop
  | .send _, .send _ => True
  | .idle, .idle => True
  | .idle, .busy _ => True
  | .idle, .ended => True
  | .take k _, .take k' got => k = k' ∧ got.length ≤ k
  | _, _ => False

structure Inv (f : Nat → Nat) (stop : Nat) {n : Nat} (l0 : Fin n → Loc) (g : G n) : Prop where
  total : total f stop g = (∑ t, (items (l0 t) : Multiset Nat)).map (out f stop)
  role : ∀ t, Role (l0 t) (loc (g.pos t))
  busy : ∀ t v, loc (g.pos t) = .busy v → v ≠ stop
  ends : ∀ t, Ends stop (rest (g.pos t))
  last : ∀ x ∈ (asL false (g.obj false)).getLast?, x = stop ∨ ∃ t, rest (g.pos t) ≠ []

theorem balance {α : Type} {S S' x y a b : Multiset α} (h : S' + x = S + y) (h2 : a + y = b + x) : S' + a = S + b := by
  have : (S' + a) + (x + y) = (S + b) + (x + y) := by
    calc (S' + a) + (x + y) = (S' + x) + (a + y) := by abel
      _ = (S + b) + (x + y) := by rw [h, h2]; abel
  exact add_right_cancel this

theorem inv_start (f : Nat → Nat) {stop n : Nat} {l0 : Fin n → Loc} (h0 : ∀ t, Fresh stop (l0 t)) : Inv f stop l0 (GState.start O l0) where
  total := by
    have h : ∀ l, Fresh stop l → holds f stop l = ((items l : List Nat) : Multiset Nat).map (out f stop) := by
      intro l hl
      cases l with
      | send rest => rfl
      | idle => rfl
      | busy v => exact hl.elim
      | ended => exact hl.elim
      | take k got => cases (show got = [] from hl); rfl
    show (∑ t, holds f stop (l0 t)) + (([] : List Nat).map (out f stop) : List (Option Nat)) + ((([] : List Nat).map some : List (Option Nat)) : Multiset (Option Nat)) = _
    rw [← Multiset.coe_mapAddMonoidHom, map_sum, Finset.sum_congr rfl fun t _ => h (l0 t) (h0 t)]
    simp
  role := fun t => by
    show Role (l0 t) (l0 t)
    have := h0 t
    revert this
    cases l0 t with
    | send rest => exact fun _ => trivial
    | idle => exact fun _ => trivial
    | take k got => intro e; cases (show got = [] from e); exact ⟨rfl, Nat.zero_le _⟩
    | _ => exact fun h => h.elim
  busy := fun t v e => by
    have := h0 t
    rw [show l0 t = .busy v from e] at this
    exact this.elim
  ends := fun t => by
    show Ends stop (rest (.out (l0 t)))
    have := h0 t
    revert this
    cases l0 t with
    | send r => exact id
    | _ => intro _ x hx; cases hx
  last := fun x hx => by cases hx

theorem ends_tail {stop : Nat} {r : List Nat} (h : Ends stop r) : Ends stop r.tail := by
  intro x hx
  cases r with
  | nil => cases hx
  | cons a r =>
    refine h x ?_
    cases r with
    | nil => cases hx
    | cons b r => rw [List.getLast?_cons_cons]; exact hx

theorem inv_step {f : Nat → Nat} {stop n : Nat} {l0 : Fin n → Loc} {g g' : G n} (hg : GReach O (prog f stop n) l0 g) (h : Inv f stop l0 g) (st : GStep O (prog f stop n) g g') : Inv f stop l0 g' := by
  have hmade := calls_made hg
  -- the parts that concern one thread
  have upd : ∀ {t : Fin n} {p : GP} {obj : (i : Bool) → (O i).A}, total f stop (⟨obj, Function.update g.pos t p⟩ : G n) = total f stop g → Role (l0 t) (loc p) → (∀ v, loc p = .busy v → v ≠ stop) →
      Ends stop (rest p) → (∀ x ∈ (asL false (obj false)).getLast?, x = stop ∨ ∃ u, rest (Function.update g.pos t p u) ≠ []) → Inv f stop l0 (⟨obj, Function.update g.pos t p⟩ : G n) := by
    intro t p obj h1 h2 h3 h4 h5
    refine ⟨h1.trans h.total, fun u => ?_, fun u v => ?_, fun u => ?_, h5⟩
    · dsimp only
      by_cases e : u = t
      · subst e; rw [Function.update_self]; exact h2
      · rw [Function.update_of_ne e]; exact h.role u
    · dsimp only
      by_cases e : u = t
      · subst e; rw [Function.update_self]; exact h3 v
      · rw [Function.update_of_ne e]; exact h.busy u v
    · dsimp only
      by_cases e : u = t
      · subst e; rw [Function.update_self]; exact h4
      · rw [Function.update_of_ne e]; exact h.ends u
  have lastSame : ∀ {t : Fin n} {p : GP}, rest p = rest (g.pos t) → ∀ x, (x = stop ∨ ∃ u, rest (g.pos u) ≠ []) → x = stop ∨ ∃ u, rest (Function.update g.pos t p u) ≠ [] := by
    intro t p e x hx
    rcases hx with hx | ⟨u, hu⟩
    · exact .inl hx
    · refine .inr ⟨u, ?_⟩
      by_cases q : u = t
      · subst q; rw [Function.update_self, e]; exact hu
      · rw [Function.update_of_ne q]; exact hu
  have totSame : ∀ {t : Fin n} {p : GP}, part f stop p = part f stop (g.pos t) → total f stop (⟨g.obj, Function.update g.pos t p⟩ : G n) = total f stop g := by
    intro t p e
    have hu := sum_upd (part f stop) g.pos t p
    rw [e] at hu
    simp only [total]
    rw [add_right_cancel hu]
  cases st with
  | tau t l l' h1 h2 => exact h2.elim
  | ask t l i op h1 h2 =>
    have hr := h.role t
    have hb := h.busy t
    have he := h.ends t
    rw [h1] at hr hb he
    have e : rest (.asked l i op : GP) = rest (.out l : GP) := by cases l <;> rfl
    exact upd (totSame (by rw [h1]; rfl)) hr hb (by rw [e]; exact he) fun x hx => lastSame (by rw [h1, e]) x (h.last x hx)
  | does t l i op r a' h1 h2 =>
    have hc := (hmade t).1 l i op h1
    have hr := h.role t
    have hb := h.busy t
    have he := h.ends t
    rw [h1] at hr hb he
    have hu := sum_upd (part f stop) g.pos t (.got l i op r)
    rw [h1] at hu
    cases l with
    | send rs =>
      cases rs with
      | nil => exact hc.elim
      | cons x rs =>
        obtain ⟨rfl, rfl⟩ := hc
        obtain ⟨rfl, e⟩ := write_does h2
        subst e
        refine upd ?_ hr hb (ends_tail he) ?_
        · simp only [total]
          refine congrArg (· + _) (balance hu ?_)
          show (((asL false (g.obj false) ++ [x]).map (out f stop) : List (Option Nat)) : Multiset (Option Nat)) + ((rs.map (out f stop) : List (Option Nat)) : Multiset (Option Nat)) =
            (((asL false (g.obj false)).map (out f stop) : List (Option Nat)) : Multiset (Option Nat)) + (((x :: rs).map (out f stop) : List (Option Nat)) : Multiset (Option Nat))
          rw [Multiset.coe_add, Multiset.coe_add]
          simp
        · intro y hy
          have hy : y ∈ (asL false (g.obj false) ++ [x]).getLast? := hy
          rw [List.getLast?_append] at hy
          cases (show x = y by simpa using hy)
          cases rs with
          | nil => exact .inl (he x rfl)
          | cons b rs => exact .inr ⟨t, by rw [Function.update_self]; exact fun e => nomatch e⟩
    | idle =>
      obtain ⟨rfl, rfl⟩ := hc
      obtain ⟨v, rfl, e⟩ := read_does h2
      have e : asL false (g.obj false) = v :: asL false a' := e
      refine upd ?_ hr hb he ?_
      · simp only [total]
        refine congrArg (· + _) (balance hu ?_)
        show (((asL false a').map (out f stop) : List (Option Nat)) : Multiset (Option Nat)) + {out f stop v} = (((asL false (g.obj false)).map (out f stop) : List (Option Nat)) : Multiset (Option Nat)) + 0
        rw [e, add_zero, List.map_cons, ← Multiset.cons_coe, add_comm]
        rfl
      · intro y hy
        have hy : y ∈ (asL false a').getLast? := hy
        refine lastSame (by rw [h1]; rfl) y (h.last y ?_)
        rw [e]
        cases e2 : asL false a' with
        | nil => rw [e2] at hy; cases hy
        | cons b q => rw [List.getLast?_cons_cons]; rw [e2] at hy; exact hy
    | busy v =>
      obtain ⟨rfl, rfl⟩ := hc
      obtain ⟨rfl, e⟩ := write_does h2
      subst e
      refine upd ?_ hr hb he fun y hy => lastSame (by rw [h1]; rfl) y (h.last y hy)
      simp only [total]
      rw [add_assoc, add_assoc, add_comm (((asL false _).map (out f stop) : List (Option Nat)) : Multiset (Option Nat)), add_comm (((asL false _).map (out f stop) : List (Option Nat)) : Multiset (Option Nat)),
        ← add_assoc, ← add_assoc]
      refine congrArg (· + _) (balance hu ?_)
      show (((asL true (g.obj true) ++ [f v]).map some : List (Option Nat)) : Multiset (Option Nat)) + 0 = (((asL true (g.obj true)).map some : List (Option Nat)) : Multiset (Option Nat)) + {some (f v)}
      rw [add_zero, List.map_append, ← Multiset.coe_add]
      rfl
    | ended => exact hc.elim
    | take k got =>
      obtain ⟨-, rfl, rfl⟩ := hc
      obtain ⟨v, rfl, e⟩ := read_does h2
      have e : asL true (g.obj true) = v :: asL true a' := e
      refine upd ?_ hr hb he fun y hy => lastSame (by rw [h1]; rfl) y (h.last y hy)
      simp only [total]
      rw [add_assoc, add_assoc, add_comm (((asL false _).map (out f stop) : List (Option Nat)) : Multiset (Option Nat)), add_comm (((asL false _).map (out f stop) : List (Option Nat)) : Multiset (Option Nat)),
        ← add_assoc, ← add_assoc]
      refine congrArg (· + _) (balance hu ?_)
      show (((asL true a').map some : List (Option Nat)) : Multiset (Option Nat)) + (((got.map some : List (Option Nat)) : Multiset (Option Nat)) + {some v}) =
        (((asL true (g.obj true)).map some : List (Option Nat)) : Multiset (Option Nat)) + ((got.map some : List (Option Nat)) : Multiset (Option Nat))
      rw [e, List.map_cons, ← Multiset.cons_coe, ← Multiset.singleton_add]
      abel
  | cont t l i op r l' h1 h2 =>
    obtain ⟨hc, a, a', hs⟩ := (hmade t).2 l i op r h1
    have hr := h.role t
    have hb := h.busy t
    have he := h.ends t
    rw [h1] at hr hb he
    have same : rest (.out l' : GP) = rest (.got l i op r : GP) → ∀ x ∈ (asL false (g.obj false)).getLast?, x = stop ∨ ∃ u, rest (Function.update g.pos t (.out l') u) ≠ [] :=
      fun e x hx => lastSame (by rw [h1, e]) x (h.last x hx)
    cases l with
    | send rs =>
      cases (show l' = .send rs.tail from h2)
      exact upd (totSame (by rw [h1]; rfl)) (by revert hr; cases l0 t <;> exact id) (fun v e => nomatch e) he (same rfl)
    | idle =>
      obtain ⟨v, e, rfl⟩ := h2
      cases (show asQ i r = .ptr (some v) from e)
      by_cases q : v = stop
      · rw [if_pos q] at same ⊢
        refine upd (totSame ?_) (by revert hr; cases l0 t <;> exact id) (fun v e => nomatch e) he (same rfl)
        rw [h1]
        show {none} = resOut (out f stop) (.ptr (some v))
        simp only [resOut, out, if_pos q]
      · rw [if_neg q] at same ⊢
        refine upd (totSame ?_) (by revert hr; cases l0 t <;> exact id) (fun w e => by cases e; exact q) he (same rfl)
        rw [h1]
        show {some (f v)} = resOut (out f stop) (.ptr (some v))
        simp only [resOut, out, if_neg q]
    | busy v =>
      cases (show l' = .idle from h2)
      exact upd (totSame (by rw [h1]; rfl)) (by revert hr; cases l0 t <;> exact id) (fun v e => nomatch e) he (same rfl)
    | ended => exact hc.elim
    | take k got =>
      obtain ⟨v, e, rfl⟩ := h2
      cases (show asQ i r = .ptr (some v) from e)
      refine upd (totSame ?_) ?_ (fun v e => nomatch e) he (same rfl)
      · rw [h1]
        show (((got ++ [v]).map some : List (Option Nat)) : Multiset (Option Nat)) = ((got.map some : List (Option Nat)) : Multiset (Option Nat)) + {some v}
        rw [List.map_append, ← Multiset.coe_add]; rfl
      · revert hr
        cases l0 t with
        | take k' g' => intro hr; obtain ⟨rfl, -⟩ := hr; exact ⟨rfl, by have := hc.1; simp; omega⟩
        | _ => exact id

theorem inv {f : Nat → Nat} {stop n : Nat} {l0 : Fin n → Loc} (h0 : ∀ t, Fresh stop (l0 t)) {g : G n} (h : GReach O (prog f stop n) l0 g) : Inv f stop l0 g := by
  induction h with
  | refl => exact inv_start f h0
  | step hg st ih => exact inv_step hg ih st

/-! ### Counting items and results -/

/-- The results among what there is. -/
def keep : Multiset (Option Nat) →+ Multiset Nat where
  toFun := fun s => s.bind fun o => match o with | none => 0 | some v => {v}
  map_zero' := Multiset.zero_bind _
  map_add' := fun s t => Multiset.add_bind s t _

/-- The items that are not stop items. -/
def data {n : Nat} (stop : Nat) (l0 : Fin n → Loc) : Multiset Nat := (∑ t, (items (l0 t) : Multiset Nat)).filter (· ≠ stop)

/-- The number of stop items. -/
def stops {n : Nat} (stop : Nat) (l0 : Fin n → Loc) : Nat := ∑ t, (items (l0 t)).count stop

theorem keep_cons (o : Option Nat) (s : Multiset (Option Nat)) : keep (o ::ₘ s) = (match o with | none => 0 | some v => {v}) + keep s := Multiset.cons_bind o s _

theorem keep_single (o : Option Nat) : keep {o} = match o with | none => 0 | some v => {v} := Multiset.singleton_bind o _

theorem keep_some (l : List Nat) : keep (l.map some : List (Option Nat)) = (l : Multiset Nat) := by
  induction l with
  | nil => exact map_zero keep
  | cons a l ih => rw [List.map_cons, ← Multiset.cons_coe, keep_cons, ih]; rfl

theorem keep_out (f : Nat → Nat) (stop : Nat) (s : Multiset Nat) : keep (s.map (out f stop)) = (s.filter (· ≠ stop)).map f := by
  induction s using Multiset.induction with
  | empty => exact map_zero keep
  | cons a s ih =>
    rw [Multiset.map_cons, keep_cons, ih]
    by_cases e : a = stop
    · rw [Multiset.filter_cons_of_neg _ (by simp [e])]
      simp [out, e]
    · rw [Multiset.filter_cons_of_pos _ (by exact e), Multiset.map_cons]
      simp [out, e]

theorem none_some (l : List Nat) : Multiset.count none ((l.map some : List (Option Nat)) : Multiset (Option Nat)) = 0 := by
  rw [Multiset.count_eq_zero]; simp

theorem none_out (f : Nat → Nat) (stop : Nat) (s : Multiset Nat) : Multiset.count none (s.map (out f stop)) = s.count stop := by
  induction s using Multiset.induction with
  | empty => rfl
  | cons a s ih =>
    rw [Multiset.map_cons, Multiset.count_cons, Multiset.count_cons, ih]
    by_cases e : a = stop
    · simp [out, e]
    · simp [out, e, Ne.symm e]

theorem count_sum {α : Type} [DecidableEq α] {n : Nat} (x : α) (w : Fin n → Multiset α) : Multiset.count x (∑ t, w t) = ∑ t, Multiset.count x (w t) :=
  map_sum (Multiset.countAddMonoidHom x) w Finset.univ

/-! ### Collected so far, and at the end -/

theorem results_le (f : Nat → Nat) (stop : Nat) (p : GP) : (results (loc p) : Multiset Nat) ≤ keep (part f stop p) := by
  cases p with
  | out l => cases l <;> first | exact (keep_some _).ge | exact Multiset.zero_le _
  | asked l i op => cases l <;> first | exact (keep_some _).ge | exact Multiset.zero_le _
  | got l i op r =>
    cases l with
    | take k got =>
      show (got : Multiset Nat) ≤ keep (((got.map some : List (Option Nat)) : Multiset (Option Nat)) + resOut some (asQ i r))
      rw [map_add, keep_some]
      exact Multiset.le_add_right _ _
    | _ => exact Multiset.zero_le _

theorem gone_le (f : Nat → Nat) (stop : Nat) (p : GP) : gone (loc p) ≤ Multiset.count none (part f stop p) := by
  cases p with
  | out l => cases l <;> first | exact Nat.zero_le _ | exact Nat.le_refl 1
  | asked l i op => cases l <;> first | exact Nat.zero_le _ | exact Nat.le_refl 1
  | got l i op r => cases l <;> first | exact Nat.zero_le _ | exact Nat.le_refl 1

theorem calls_ok (f : Nat → Nat) (stop n : Nat) : ∀ t l i op, (prog f stop n).call t l i op → (kind i).obj.ok op ∧ (kind i).plain op := by
  intro t l i op h
  cases l with
  | send rest => cases rest with
    | nil => exact h.elim
    | cons x rest => obtain ⟨rfl, rfl⟩ := h; exact ⟨(fun h => nomatch h), trivial⟩
  | idle => obtain ⟨rfl, rfl⟩ := h; exact ⟨trivial, trivial⟩
  | busy v => obtain ⟨rfl, rfl⟩ := h; exact ⟨(fun h => nomatch h), trivial⟩
  | ended => exact h.elim
  | take k got => obtain ⟨-, rfl, rfl⟩ := h; exact ⟨trivial, trivial⟩

theorem loc_gpos {n : Nat} (c : CState O n Loc) (t : Fin n) : loc (gpos c t) = knows (c.pos t) := by
  simp only [gpos]
  cases c.pos t with
  | out l => rfl
  | inside l i op => dsimp only; split <;> rfl

/-- C170: at any time what the collectors have read are results of items other than stop items, each used once, and no more workers have ended than there are stop items. -/
theorem C170_once {f : Nat → Nat} {stop n : Nat} {l0 : Fin n → Loc} (h0 : ∀ t, Fresh stop (l0 t)) {now : Bool → Clock} {c : CState O n Loc} (h : CReach O (prog f stop n) now l0 c) :
    (∑ t, (results (knows (c.pos t)) : Multiset Nat)) ≤ (data stop l0).map f ∧ ∑ t, gone (knows (c.pos t)) ≤ stops stop l0 := by
  obtain ⟨a, hg, -⟩ := C166_indivisible kind (fun t l i op h => (calls_ok f stop n t l i op h).1) h
  have hi := inv h0 hg
  constructor
  · have e := congrArg keep hi.total
    rw [keep_out] at e
    rw [data, ← e, total, map_add, map_add, add_assoc, map_sum]
    refine le_trans (Finset.sum_le_sum fun t _ => ?_) (Multiset.le_add_right _ _)
    rw [← loc_gpos]
    exact results_le f stop _
  · have e := congrArg (Multiset.count none) hi.total
    rw [none_out, count_sum, total, Multiset.count_add, Multiset.count_add, count_sum] at e
    have h1 : ∑ t, gone (knows (c.pos t)) ≤ ∑ t, Multiset.count none (part f stop (gpos c t)) := by
      refine Finset.sum_le_sum fun t _ => ?_
      rw [← loc_gpos]; exact gone_le f stop _
    have h2 : stops stop l0 = ∑ t, Multiset.count stop ((items (l0 t) : List Nat) : Multiset Nat) := Finset.sum_congr rfl fun t _ => (Multiset.coe_count _ _).symm
    rw [h2, ← e]
    exact h1.trans ((Nat.le_add_right _ _).trans (Nat.le_add_right _ _))

theorem role_take {l : Loc} {k : Nat} {got : List Nat} (h : Role l (.take k got)) : got.length ≤ k ∧ ∃ g0, l = .take k g0 := by
  cases l with
  | take k' g' => obtain ⟨rfl, h⟩ := h; exact ⟨h, _, rfl⟩
  | _ => exact h.elim

/-- With indivisible calls, when nothing can go on: producers have finished, workers have ended or wait for items, collectors have finished or wait for results. -/
inductive AtEnd {n : Nat} (g : G n) (t : Fin n) : Prop where
  | sent (e : g.pos t = .out (.send []))
  | waits (e : g.pos t = .asked .idle false QOp.read) (h : asL false (g.obj false) = [])
  | ended (e : g.pos t = .out .ended)
  | full (k : Nat) (got : List Nat) (e : g.pos t = .out (.take k got)) (h : got.length = k)
  | wants (k : Nat) (got : List Nat) (e : g.pos t = .asked (.take k got) true QOp.read) (h : got.length < k) (ho : asL true (g.obj true) = [])

theorem at_end {f : Nat → Nat} {stop n : Nat} {l0 : Fin n → Loc} {g : G n} (hg : GReach O (prog f stop n) l0 g) (h : Inv f stop l0 g) (hs : ∀ g', ¬ GStep O (prog f stop n) g g') (t : Fin n) : AtEnd g t := by
  have hm := calls_made hg t
  have hr := h.role t
  cases hp : g.pos t with
  | out l =>
    rw [hp] at hr
    cases l with
    | send rest =>
      cases rest with
      | nil => exact .sent hp
      | cons x rest => exact absurd (GStep.ask (P := prog f stop n) g t (.send (x :: rest)) false (QOp.write (some x)) hp ⟨rfl, rfl⟩) (hs _)
    | idle => exact absurd (GStep.ask (P := prog f stop n) g t .idle false QOp.read hp ⟨rfl, rfl⟩) (hs _)
    | busy v => exact absurd (GStep.ask (P := prog f stop n) g t (.busy v) true (QOp.write (some (f v))) hp ⟨rfl, rfl⟩) (hs _)
    | ended => exact .ended hp
    | take k got =>
      by_cases e : got.length < k
      · exact absurd (GStep.ask (P := prog f stop n) g t (.take k got) true QOp.read hp ⟨e, rfl, rfl⟩) (hs _)
      · exact .full k got hp (by have := (role_take hr).1; omega)
  | asked l i op =>
    have hc := hm.1 l i op hp
    cases l with
    | send rest =>
      cases rest with
      | nil => exact hc.elim
      | cons x rest =>
        obtain ⟨rfl, rfl⟩ := hc
        exact absurd (GStep.does (P := prog f stop n) g t (.send (x :: rest)) false (QOp.write (some x)) QRes.unit _ hp rfl) (hs _)
    | idle =>
      obtain ⟨rfl, rfl⟩ := hc
      cases e : asL false (g.obj false) with
      | nil => exact .waits hp e
      | cons v q =>
        exact absurd (GStep.does (P := prog f stop n) g t .idle false QOp.read (QRes.ptr (some v)) q hp
          (show idealStep (asL false (g.obj false)) (.read, .ptr (some v)) = some q by rw [e]; simp [idealStep])) (hs _)
    | busy v =>
      obtain ⟨rfl, rfl⟩ := hc
      exact absurd (GStep.does (P := prog f stop n) g t (.busy v) true (QOp.write (some (f v))) QRes.unit _ hp rfl) (hs _)
    | ended => exact hc.elim
    | take k got =>
      obtain ⟨hl, rfl, rfl⟩ := hc
      cases e : asL true (g.obj true) with
      | nil => exact .wants k got hp hl e
      | cons v q =>
        exact absurd (GStep.does (P := prog f stop n) g t (.take k got) true QOp.read (QRes.ptr (some v)) q hp
          (show idealStep (asL true (g.obj true)) (.read, .ptr (some v)) = some q by rw [e]; simp [idealStep])) (hs _)
  | got l i op r =>
    obtain ⟨hc, q, q', hq⟩ := hm.2 l i op r hp
    cases l with
    | send rest => exact absurd (GStep.cont (P := prog f stop n) g t (.send rest) i op r _ hp rfl) (hs _)
    | idle =>
      obtain ⟨rfl, rfl⟩ := hc
      obtain ⟨v, e, -⟩ := read_does hq
      exact absurd (GStep.cont (P := prog f stop n) g t .idle false QOp.read r _ hp ⟨v, e, rfl⟩) (hs _)
    | busy v => exact absurd (GStep.cont (P := prog f stop n) g t (.busy v) i op r _ hp rfl) (hs _)
    | ended => exact hc.elim
    | take k got =>
      obtain ⟨-, rfl, rfl⟩ := hc
      obtain ⟨v, e, -⟩ := read_does hq
      exact absurd (GStep.cont (P := prog f stop n) g t (.take k got) true QOp.read r (.take k (got ++ [v])) hp ⟨v, e, rfl⟩) (hs _)

theorem pos_of_gpos {n : Nat} {c : CState O n Loc} {t : Fin n} {l : Loc} (e : gpos c t = .out l) : c.pos t = .out l := by
  cases hp : c.pos t with
  | out l1 => simp only [gpos, hp] at e; cases e; rfl
  | inside l1 i op =>
    simp only [gpos, hp] at e
    split at e <;> cases e

/-- C170: if every producer's last item is a stop item, and there are no fewer workers than stop items: the threads cannot come to a standstill before every collector has all its results (if no
more are wanted than there are items other than stop items), as many workers as there are stop items have ended, and if there are as many stop items as workers all of them. If as many results are to be
read as there are items, these are the results of all the items, each once. -/
theorem C170_complete {f : Nat → Nat} {stop n : Nat} {l0 : Fin n → Loc} (h0 : ∀ t, Fresh stop (l0 t)) {now : Bool → Clock} {c : CState O n Loc} (h : CReach O (prog f stop n) now l0 c)
    (hs : Stuck (prog f stop n) c) (hle : stops stop l0 ≤ ∑ t, works (l0 t)) (hn : ∑ t, needs (l0 t) ≤ (data stop l0).card) :
    (∀ t, 0 < needs (l0 t) → ∃ got, c.pos t = .out (.take (needs (l0 t)) got) ∧ got.length = needs (l0 t)) ∧
      (∑ t, needs (l0 t) = (data stop l0).card → (∑ t, (results (knows (c.pos t)) : Multiset Nat)) = (data stop l0).map f) ∧ ∑ t, gone (knows (c.pos t)) = stops stop l0 ∧
      (stops stop l0 = ∑ t, works (l0 t) → ∀ t, l0 t = .idle → c.pos t = .out .ended) := by
  obtain ⟨a, hg, -, hst⟩ := C166_no_new_deadlock kind (fun t l i op h => (calls_ok f stop n t l i op h).1) h hs
  have hi := inv h0 hg
  have he : ∀ t, AtEnd (⟨a, gpos c⟩ : G n) t := at_end hg hi hst
  have hrole : ∀ t, Role (l0 t) (loc (gpos c t)) := hi.role
  have hkeep : ∀ t, keep (part f stop (gpos c t)) = (results (knows (c.pos t)) : Multiset Nat) := by
    intro t
    rw [← loc_gpos]
    cases he t with
    | sent e => rw [show gpos c t = _ from e]; exact map_zero keep
    | waits e _ => rw [show gpos c t = _ from e]; exact map_zero keep
    | ended e => rw [show gpos c t = _ from e]; exact keep_single none
    | full k got e _ => rw [show gpos c t = _ from e]; exact keep_some got
    | wants k got e _ _ => rw [show gpos c t = _ from e]; exact keep_some got
  have hnone : ∀ t, Multiset.count none (part f stop (gpos c t)) = gone (knows (c.pos t)) := by
    intro t
    rw [← loc_gpos]
    cases he t with
    | sent e => rw [show gpos c t = _ from e]; rfl
    | waits e _ => rw [show gpos c t = _ from e]; rfl
    | ended e => rw [show gpos c t = _ from e]; rfl
    | full k got e _ => rw [show gpos c t = _ from e]; exact none_some got
    | wants k got e _ _ => rw [show gpos c t = _ from e]; exact none_some got
  have hrest : ∀ t, rest (gpos c t) = [] := by
    intro t
    cases he t with
    | sent e => rw [show gpos c t = _ from e]; rfl
    | waits e _ => rw [show gpos c t = _ from e]; rfl
    | ended e => rw [show gpos c t = _ from e]; rfl
    | full k got e _ => rw [show gpos c t = _ from e]; rfl
    | wants k got e _ _ => rw [show gpos c t = _ from e]; rfl
  have hcount : ∑ t, gone (knows (c.pos t)) + (asL false (a false)).count stop = stops stop l0 := by
    have e := congrArg (Multiset.count none) hi.total
    rw [none_out, count_sum, total, Multiset.count_add, Multiset.count_add, count_sum] at e
    have h2 : stops stop l0 = ∑ t, Multiset.count stop ((items (l0 t) : List Nat) : Multiset Nat) := Finset.sum_congr rfl fun t _ => (Multiset.coe_count _ _).symm
    rw [h2, ← e]
    have h3 : Multiset.count none (((asL true (a true)).map some : List (Option Nat)) : Multiset (Option Nat)) = 0 := none_some _
    have h4 : Multiset.count none (((asL false (a false)).map (out f stop) : List (Option Nat)) : Multiset (Option Nat)) = (asL false (a false)).count stop := by
      rw [← Multiset.map_coe, none_out, Multiset.coe_count]
    have h5 : ∑ t, Multiset.count none (part f stop (gpos c t)) = ∑ t, gone (knows (c.pos t)) := Finset.sum_congr rfl fun t _ => hnone t
    show _ = ∑ t, Multiset.count none (part f stop (gpos c t)) + Multiset.count none (((asL false (a false)).map (out f stop) : List (Option Nat)) : Multiset (Option Nat)) +
      Multiset.count none (((asL true (a true)).map some : List (Option Nat)) : Multiset (Option Nat))
    rw [h3, h4, h5, Nat.add_zero]
  -- the items have all been read
  have hin : asL false (a false) = [] := by
    by_cases hx : ∃ t, gpos c t = .asked .idle false QOp.read
    · obtain ⟨t, ht⟩ := hx
      cases he t with
      | waits _ e => exact e
      | sent e => rw [show gpos c t = _ from e] at ht; cases ht
      | ended e => rw [show gpos c t = _ from e] at ht; cases ht
      | full k got e _ => rw [show gpos c t = _ from e] at ht; cases ht
      | wants k got e _ _ => rw [show gpos c t = _ from e] at ht; cases ht
    · have hall : ∑ t, works (l0 t) ≤ ∑ t, gone (knows (c.pos t)) := by
        refine Finset.sum_le_sum fun t _ => ?_
        have hr := hrole t
        rw [← loc_gpos]
        cases he t with
        | waits e _ => exact absurd ⟨t, e⟩ hx
        | sent e => rw [show gpos c t = _ from e] at hr ⊢; revert hr; cases l0 t <;> intro hr <;> first | exact Nat.zero_le _ | exact hr.elim
        | ended e => rw [show gpos c t = _ from e] at hr ⊢; revert hr; cases l0 t <;> intro hr <;> first | exact Nat.le_refl 1 | exact hr.elim
        | full k got e _ => rw [show gpos c t = _ from e] at hr ⊢; revert hr; cases l0 t <;> intro hr <;> first | exact Nat.zero_le _ | exact hr.elim
        | wants k got e _ _ => rw [show gpos c t = _ from e] at hr ⊢; revert hr; cases l0 t <;> intro hr <;> first | exact Nat.zero_le _ | exact hr.elim
      have hz : (asL false (a false)).count stop = 0 := by omega
      cases hq : (asL false (a false)).getLast? with
      | none => exact List.getLast?_eq_none_iff.1 hq
      | some x =>
        exfalso
        rcases hi.last x hq with e | ⟨t, ht⟩
        · subst e
          exact List.count_eq_zero.1 hz (List.mem_of_getLast? hq)
        · exact ht (hrest t)
  have hgone : ∑ t, gone (knows (c.pos t)) = stops stop l0 := by rw [← hcount, hin]; simp
  have htot : (∑ t, (results (knows (c.pos t)) : Multiset Nat)) + (asL true (a true) : Multiset Nat) = (data stop l0).map f := by
    have e := congrArg keep hi.total
    rw [keep_out] at e
    rw [data, ← e, total, map_add, map_add, map_sum]
    show _ = (∑ t, keep (part f stop (gpos c t))) + keep (((asL false (a false)).map (out f stop) : List (Option Nat)) : Multiset (Option Nat)) + keep (((asL true (a true)).map some : List (Option Nat)) : Multiset (Option Nat))
    rw [hin, keep_some, Finset.sum_congr rfl fun t _ => hkeep t]
    have z : keep ((([] : List Nat).map (out f stop) : List (Option Nat)) : Multiset (Option Nat)) = 0 := map_zero keep
    rw [z, add_zero]
  have hcard : (∑ t, (results (knows (c.pos t))).length) + (asL true (a true)).length = (data stop l0).card := by
    have := congrArg Multiset.card htot
    simpa [Multiset.card_sum] using this
  have hres : ∀ t, (results (knows (c.pos t))).length ≤ needs (l0 t) := by
    intro t
    have hr := hrole t
    rw [loc_gpos] at hr
    cases e : knows (c.pos t) with
    | take k got => rw [e] at hr; obtain ⟨h1, g0, h2⟩ := role_take hr; rw [h2]; exact h1
    | _ => exact Nat.zero_le _
  have hfull : ∀ t, needs (l0 t) = (results (knows (c.pos t))).length := by
    intro t
    have hr := hrole t
    cases he t with
    | sent e => rw [← loc_gpos]; rw [show gpos c t = _ from e] at hr ⊢; revert hr; cases l0 t <;> intro hr <;> first | rfl | exact hr.elim
    | waits e _ => rw [← loc_gpos]; rw [show gpos c t = _ from e] at hr ⊢; revert hr; cases l0 t <;> intro hr <;> first | rfl | exact hr.elim
    | ended e => rw [← loc_gpos]; rw [show gpos c t = _ from e] at hr ⊢; revert hr; cases l0 t <;> intro hr <;> first | rfl | exact hr.elim
    | full k got e hl =>
      rw [← loc_gpos]; rw [show gpos c t = _ from e] at hr ⊢
      obtain ⟨-, g0, h2⟩ := role_take hr
      rw [h2]; exact hl.symm
    | wants k got e hl ho =>
      exfalso
      have e : gpos c t = _ := e
      rw [e] at hr
      obtain ⟨-, g0, h2⟩ := role_take hr
      have hlt : (∑ t, (results (knows (c.pos t))).length) < ∑ t, needs (l0 t) := by
        refine Finset.sum_lt_sum (fun t _ => hres t) ⟨t, Finset.mem_univ t, ?_⟩
        rw [← loc_gpos, e, h2]; exact hl
      rw [show asL true (a true) = [] from ho] at hcard
      simp only [List.length_nil] at hcard
      omega
  refine ⟨fun t ht => ?_, fun heq => ?_, hgone, fun heq t ht => ?_⟩
  · have hr := hrole t
    have hf := hfull t
    rw [← loc_gpos] at hf
    cases he t with
    | full k got e hl =>
      have e : gpos c t = _ := e
      rw [e] at hr
      obtain ⟨-, g0, h2⟩ := role_take hr
      rw [h2]; exact ⟨got, pos_of_gpos e, hl⟩
    | wants k got e hl ho =>
      exfalso
      have e : gpos c t = _ := e
      rw [e] at hr hf
      obtain ⟨-, g0, h2⟩ := role_take hr
      rw [h2] at hf
      exact absurd hf (Nat.ne_of_gt hl)
    | sent e => rw [show gpos c t = _ from e] at hf; exact absurd hf (Nat.ne_of_gt ht)
    | waits e _ => rw [show gpos c t = _ from e] at hf; exact absurd hf (Nat.ne_of_gt ht)
    | ended e => rw [show gpos c t = _ from e] at hf; exact absurd hf (Nat.ne_of_gt ht)
  · have : (asL true (a true)).length = 0 := by
      rw [Finset.sum_congr rfl fun t _ => hfull t] at heq
      omega
    rw [List.eq_nil_of_length_eq_zero this] at htot
    simpa using htot
  · have hpt : ∀ t ∈ Finset.univ, gone (knows (c.pos t)) ≤ works (l0 t) := by
      intro t _
      have hr := hrole t
      rw [loc_gpos] at hr
      cases e : knows (c.pos t) with
      | ended => rw [e] at hr; revert hr; cases l0 t <;> intro hr <;> first | exact Nat.le_refl 1 | exact hr.elim
      | _ => exact Nat.zero_le _
    have := (Finset.sum_eq_sum_iff_of_le hpt).1 (hgone.trans heq) t (Finset.mem_univ t)
    rw [ht, ← loc_gpos] at this
    cases he t with
    | ended e => exact pos_of_gpos e
    | sent e => rw [show gpos c t = _ from e] at this; cases this
    | waits e _ => rw [show gpos c t = _ from e] at this; cases this
    | full k got e _ => rw [show gpos c t = _ from e] at this; cases this
    | wants k got e _ _ => rw [show gpos c t = _ from e] at this; cases this

/-! ### It always finishes -/

/-- The calls a thread can still make, and those it enables others to make. -/
def left : GP → Nat
  | .out (.send rest) => 3 * rest.length
  | .out .idle => 1
  | .out (.busy _) => 2
  | .out .ended => 0
  | .out (.take k got) => k - got.length
  | .asked (.send rest) _ _ => 3 * rest.length - 1
  | .asked .idle _ _ => 0
  | .asked (.busy _) _ _ => 1
  | .asked .ended _ _ => 0
  | .asked (.take k got) _ _ => k - got.length - 1
  | .got (.send rest) _ _ _ => 3 * rest.tail.length
  | .got .idle _ _ _ => 2
  | .got (.busy _) _ _ _ => 1
  | .got .ended _ _ _ => 0
  | .got (.take k got) _ _ _ => k - got.length - 1

/-- The calls still to come. -/
def todo {n : Nat} (g : G n) : Nat := (∑ t, left (g.pos t)) + 2 * (asL false (g.obj false)).length

theorem left_call {f : Nat → Nat} {stop n : Nat} {t : Fin n} {l : Loc} {i : Bool} {op : (O i).Op} (h : (prog f stop n).call t l i op) : left (.asked l i op) < left (.out l) := by
  cases l with
  | send rest => cases rest with
    | nil => exact h.elim
    | cons x rest => simp only [left, List.length_cons]; omega
  | idle => exact Nat.one_pos
  | busy v => exact Nat.lt_succ_self 1
  | ended => exact h.elim
  | take k got => have := h.1; simp only [left]; omega

theorem ask_less {f : Nat → Nat} {stop n : Nat} {g : G n} {t : Fin n} {l : Loc} {i : Bool} {op : (O i).Op} (h1 : g.pos t = .out l) (h2 : (prog f stop n).call t l i op) :
    todo { g with pos := Function.update g.pos t (.asked l i op) } < todo g := by
  have hu := sum_upd left g.pos t (.asked l i op)
  rw [h1] at hu
  have := left_call h2
  simp only [todo]
  omega

theorem pool_measure (f : Nat → Nat) {stop n : Nat} (l0 : Fin n → Loc) : Measure O (prog f stop n) l0 todo where
  tau := fun _ _ _ _ _ _ h => h.elim
  call := fun g t l i op _ h1 h2 => ask_less h1 h2
  le := by
    intro g g' hg st
    have hm := calls_made hg
    cases st with
    | tau t l l' h1 h2 => exact h2.elim
    | ask t l i op h1 h2 => exact (ask_less h1 h2).le
    | does t l i op r a' h1 h2 =>
      have hc := (hm t).1 l i op h1
      have hu := sum_upd left g.pos t (.got l i op r)
      rw [h1] at hu
      have step : ∀ {S S' q q' x y : Nat}, S' + x = S + y → y + 2 * q' ≤ x + 2 * q → S' + 2 * q' ≤ S + 2 * q := fun h1 h2 => by omega
      cases l with
      | send rest =>
        cases rest with
        | nil => exact hc.elim
        | cons x rest =>
          obtain ⟨rfl, rfl⟩ := hc
          obtain ⟨rfl, e⟩ := write_does h2
          subst e
          refine step hu ?_
          simp only [left, asL, List.length_cons, List.tail_cons]
          show 3 * rest.length + 2 * (asL false (g.obj false) ++ [x]).length ≤ 3 * (rest.length + 1) - 1 + 2 * (asL false (g.obj false)).length
          rw [List.length_append, List.length_singleton]; omega
      | idle =>
        obtain ⟨rfl, rfl⟩ := hc
        obtain ⟨v, rfl, e⟩ := read_does h2
        refine step hu ?_
        have e : asL false (g.obj false) = v :: asL false a' := e
        rw [e]
        show 2 + 2 * (asL false a').length ≤ 0 + 2 * (v :: asL false a').length
        rw [List.length_cons]; omega
      | busy v =>
        obtain ⟨rfl, rfl⟩ := hc
        exact step hu (Nat.le_refl _)
      | ended => exact hc.elim
      | take k got =>
        obtain ⟨-, rfl, rfl⟩ := hc
        exact step hu (Nat.le_refl _)
    | cont t l i op r l' h1 h2 =>
      have hu := sum_upd left g.pos t (.out l')
      rw [h1] at hu
      have key : left (.out l' : GP) ≤ left (.got l i op r : GP) := by
        cases l with
        | send rest => cases (show l' = .send rest.tail from h2); exact Nat.le_refl _
        | idle =>
          obtain ⟨v, rfl, rfl⟩ := h2
          by_cases e : v = stop
          · rw [if_pos e]; exact Nat.zero_le _
          · rw [if_neg e]; exact Nat.le_refl _
        | busy v => cases (show l' = .idle from h2); exact Nat.le_refl _
        | ended => exact h2.elim
        | take k got =>
          obtain ⟨v, rfl, rfl⟩ := h2
          simp only [left, List.length_append, List.length_singleton]; omega
      simp only [todo]
      omega

theorem ready (f : Nat → Nat) (stop n : Nat) : (prog f stop n).Ready := by
  intro t l i op r a a' hc h
  cases l with
  | send rest => exact ⟨_, rfl⟩
  | idle => obtain ⟨rfl, rfl⟩ := hc; obtain ⟨v, rfl, -⟩ := read_does h; exact ⟨_, v, rfl, rfl⟩
  | busy v => exact ⟨_, rfl⟩
  | ended => exact hc.elim
  | take k got => obtain ⟨-, rfl, rfl⟩ := hc; obtain ⟨v, rfl, -⟩ := read_does h; exact ⟨_, v, rfl, rfl⟩

theorem calls_untimed (f : Nat → Nat) (stop n : Nat) : ∀ t l i op, (prog f stop n).call t l i op → (kind i).obj.ok op ∧ (kind i).obj.untimed op := by
  intro t l i op h
  refine ⟨(calls_ok f stop n t l i op h).1, ?_⟩
  cases l with
  | send rest => cases rest with
    | nil => exact h.elim
    | cons x rest => obtain ⟨rfl, rfl⟩ := h; trivial
  | idle => obtain ⟨rfl, rfl⟩ := h; trivial
  | busy v => obtain ⟨rfl, rfl⟩ := h; trivial
  | ended => exact h.elim
  | take k got => obtain ⟨-, rfl, rfl⟩ := h; trivial

/-- C170: from wherever it is the pool does not go on for ever, whichever of the threads that can go on do so; and when none can, with as many stop items as workers, all workers have ended, and
every collector has all its results. -/
theorem C170_finishes {f : Nat → Nat} {stop n : Nat} {l0 : Fin n → Loc} (h0 : ∀ t, Fresh stop (l0 t)) {now : Bool → Clock} {c : CState O n Loc} (h : CReach O (prog f stop n) now l0 c)
    (heq : stops stop l0 = ∑ t, works (l0 t)) (hn : ∑ t, needs (l0 t) ≤ (data stop l0).card) :
    (∃ N, ∀ c' k, Goes O (prog f stop n) c c' k → k ≤ N) ∧ (∃ c' k, Goes O (prog f stop n) c c' k ∧ Rest (prog f stop n) c') ∧
      ∀ c' k, Goes O (prog f stop n) c c' k → Rest (prog f stop n) c' → (∀ t, l0 t = .idle → c'.pos t = .out .ended) ∧
        (∀ t, 0 < needs (l0 t) → ∃ got, c'.pos t = .out (.take (needs (l0 t)) got) ∧ got.length = needs (l0 t)) ∧
        (∑ t, needs (l0 t) = (data stop l0).card → (∑ t, (results (knows (c'.pos t)) : Multiset Nat)) = (data stop l0).map f) := by
  obtain ⟨h1, h2, h3⟩ := C166_comes_to_rest kind (fun _ => trivial) (calls_untimed f stop n) (ready f stop n) (pool_measure f l0) h
  refine ⟨h1, h2, fun c' k hg hr => ?_⟩
  obtain ⟨a, b, -, d⟩ := C170_complete h0 (hg.reach h) (h3 c' k hg hr).1 heq.le hn
  exact ⟨d heq, a, b⟩

/-- Two producers with one item and a stop item (0) each, two workers and a collector of both results. -/
def five : Fin 5 → Loc := ![.send [1, 0], .send [2, 0], .idle, .idle, .take 2 []]

example : (∀ t, Fresh 0 (five t)) ∧ stops 0 five = ∑ t, works (five t) ∧ ∑ t, needs (five t) = (data 0 five).card ∧ (data 0 five).map (· + 10) = {11, 12} := by
  refine ⟨fun t => ?_, ?_, ?_, ?_⟩
  · fin_cases t
    · exact fun x hx => by cases hx; rfl
    · exact fun x hx => by cases hx; rfl
    all_goals trivial
  all_goals decide +kernel

/-- If a producer's last item is not a stop item, a worker can end before that item has been written, and the item is never read: the collector waits for ever. -/
example (now : Bool → Clock) : ∃ c, CReach O (prog id 0 4) now ![.send [0], .send [1], .idle, .take 1 []] c ∧ c.pos 0 = .out (.send []) ∧ c.pos 1 = .out (.send []) ∧ c.pos 2 = .out .ended ∧
    knows (c.pos 3) = .take 1 [] := by
  have h0 : GReach O (prog id 0 4) ![.send [0], .send [1], .idle, .take 1 []] (.start O _) := .refl
  have h1 := h0.step (GStep.ask (P := prog id 0 4) _ 0 (Loc.send [0]) false (QOp.write (some 0)) (by rfl) (by exact ⟨rfl, rfl⟩))
  have h2 := h1.step (GStep.does (P := prog id 0 4) _ 0 (Loc.send [0]) false (QOp.write (some 0)) (QRes.unit) ([0] : List Nat) (by rfl) (by rfl))
  have h3 := h2.step (GStep.cont (P := prog id 0 4) _ 0 (Loc.send [0]) false (QOp.write (some 0)) (QRes.unit) (Loc.send []) (by rfl) (by exact rfl))
  have h4 := h3.step (GStep.ask (P := prog id 0 4) _ 2 (Loc.idle) false (QOp.read) (by rfl) (by exact ⟨rfl, rfl⟩))
  have h5 := h4.step (GStep.does (P := prog id 0 4) _ 2 (Loc.idle) false (QOp.read) (QRes.ptr (some 0)) ([] : List Nat) (by rfl) (by rfl))
  have h6 := h5.step (GStep.cont (P := prog id 0 4) _ 2 (Loc.idle) false (QOp.read) (QRes.ptr (some 0)) (Loc.ended) (by rfl) (by exact ⟨0, rfl, rfl⟩))
  have h7 := h6.step (GStep.ask (P := prog id 0 4) _ 1 (Loc.send [1]) false (QOp.write (some 1)) (by rfl) (by exact ⟨rfl, rfl⟩))
  have h8 := h7.step (GStep.does (P := prog id 0 4) _ 1 (Loc.send [1]) false (QOp.write (some 1)) (QRes.unit) ([1] : List Nat) (by rfl) (by rfl))
  have h9 := h8.step (GStep.cont (P := prog id 0 4) _ 1 (Loc.send [1]) false (QOp.write (some 1)) (QRes.unit) (Loc.send []) (by rfl) (by exact rfl))
  have h10 := h9.step (GStep.ask (P := prog id 0 4) _ 3 (Loc.take 1 []) true (QOp.read) (by rfl) (by exact ⟨by decide, rfl, rfl⟩))
  obtain ⟨c, hc, hp, -⟩ := C166_exact kind (calls_ok _ _ _) now h10
  refine ⟨c, hc, pos_of_gpos ((congrFun hp 0).trans rfl), pos_of_gpos ((congrFun hp 1).trans rfl), pos_of_gpos ((congrFun hp 2).trans rfl), ?_⟩
  rw [← loc_gpos, show gpos c 3 = _ from congrFun hp 3]
  rfl

end Verif.Interthread.PoolStop
