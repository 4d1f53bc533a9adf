import Verif.Interthread.ProgramSteps
import Verif.Interthread.Pool

/-
C167, continued: the pool of workers always finishes.
-/

namespace Verif.Interthread.Pool
open Verif Verif.Monitor Verif.Interthread

/-- The calls a thread can still make, and those it enables others to make. -/
def left : GP → Nat
  | .out (.send rest) => 3 * rest.length
  | .out .idle => 1
  | .out (.busy _) => 2
  | .out (.take k got) => k - got.length
  | .asked (.send rest) _ _ => 3 * rest.length - 1
  | .asked .idle _ _ => 0
  | .asked (.busy _) _ _ => 1
  | .asked (.take k got) _ _ => k - got.length - 1
  | .got (.send rest) _ _ _ => 3 * rest.tail.length
  | .got .idle _ _ _ => 2
  | .got (.busy _) _ _ _ => 1
  | .got (.take k got) _ _ _ => k - got.length - 1

/-- The calls still to come. -/
def todo {n : Nat} (g : G n) : Nat := (∑ t, left (g.pos t)) + 2 * (asL false (g.obj false)).length

theorem left_call {f : Nat → Nat} {n : Nat} {t : Fin n} {l : Loc} {i : Bool} {op : (O i).Op} (h : (prog f n).call t l i op) : left (.asked l i op) < left (.out l) := by
  cases l with
  | send rest => cases rest with
    | nil => exact h.elim
    | cons x rest => simp only [left, List.length_cons]; omega
  | idle => exact Nat.one_pos
  | busy v => exact Nat.lt_succ_self 1
  | take k got => have := h.1; simp only [left]; omega

theorem ask_less {f : Nat → Nat} {n : Nat} {g : G n} {t : Fin n} {l : Loc} {i : Bool} {op : (O i).Op} (h1 : g.pos t = .out l) (h2 : (prog f n).call t l i op) :
    todo { g with pos := Function.update g.pos t (.asked l i op) } < todo g := by
  have hu := sum_upd left g.pos t (.asked l i op)
  rw [h1] at hu
  have := left_call h2
  simp only [todo]
  omega

theorem pool_measure (f : Nat → Nat) {n : Nat} {l0 : Fin n → Loc} (h0 : ∀ t, Fresh (l0 t)) : Measure O (prog f n) l0 todo where
  tau := fun _ _ _ _ _ _ h => h.elim
  call := fun g t l i op _ h1 h2 => ask_less h1 h2
  le := by
    intro g g' hg st
    have hi := inv h0 hg
    cases st with
    | tau t l l' h1 h2 => exact h2.elim
    | ask t l i op h1 h2 => exact (ask_less h1 h2).le
    | does t l i op r a' h1 h2 =>
      have hc : ∃ t, (prog f n).call t l i op := by have := hi.called t; rw [h1] at this; exact this
      obtain ⟨_, hc⟩ := hc
      have hu := sum_upd left g.pos t (.got l i op r)
      rw [h1] at hu
      have step : ∀ {S S' q q' x y : Nat}, S' + x = S + y → y + 2 * q' ≤ x + 2 * q → S' + 2 * q' ≤ S + 2 * q := fun h1 h2 => by omega
      cases l with
      | send rest =>
        cases rest with
        | nil => exact hc.elim
        | cons x rest =>
          obtain ⟨rfl, rfl⟩ := hc
          obtain ⟨rfl, e⟩ := write_does h2
          subst e
          refine step hu ?_
          simp only [left, asL, List.length_cons, List.tail_cons]
          show 3 * rest.length + 2 * (asL false (g.obj false) ++ [x]).length ≤ 3 * (rest.length + 1) - 1 + 2 * (asL false (g.obj false)).length
          rw [List.length_append, List.length_singleton]; omega
      | idle =>
        obtain ⟨rfl, rfl⟩ := hc
        obtain ⟨v, rfl, e⟩ := read_does h2
        refine step hu ?_
        have e : asL false (g.obj false) = v :: asL false a' := e
        rw [e]
        show 2 + 2 * (asL false a').length ≤ 0 + 2 * (v :: asL false a').length
        rw [List.length_cons]; omega
      | busy v =>
        obtain ⟨rfl, rfl⟩ := hc
        exact step hu (Nat.le_refl _)
      | take k got =>
        obtain ⟨-, rfl, rfl⟩ := hc
        exact step hu (Nat.le_refl _)
    | cont t l i op r l' h1 h2 =>
      have hu := sum_upd left g.pos t (.out l')
      rw [h1] at hu
      have key : left (.out l' : GP) = left (.got l i op r : GP) := by
        cases l with
        | send rest => cases (show l' = .send rest.tail from h2); rfl
        | idle => obtain ⟨v, rfl, rfl⟩ := h2; rfl
        | busy v => cases (show l' = .idle from h2); rfl
        | take k got =>
          obtain ⟨v, rfl, rfl⟩ := h2
          simp only [left, List.length_append, List.length_singleton]; omega
      simp only [todo]
      omega

/-- Whether a thread is a worker. -/
def works : Loc → Nat
  | .idle => 1
  | _ => 0

/-- The number of calls of the pool: three for each item on its way, one in vain for each worker, one for each result collected. -/
def calls {n : Nat} (l0 : Fin n → Loc) : Nat := ∑ t, (3 * (items (l0 t)).length + works (l0 t) + needs (l0 t))

theorem todo_start {n : Nat} {l0 : Fin n → Loc} (h0 : ∀ t, Fresh (l0 t)) : todo (GState.start O l0) = calls l0 := by
  show (∑ t, left (.out (l0 t))) + 2 * 0 = ∑ t, _
  rw [Nat.mul_zero, Nat.add_zero]
  refine Finset.sum_congr rfl fun t _ => ?_
  have := h0 t
  cases e : l0 t with
  | send rest => rfl
  | idle => rfl
  | busy v => rw [e] at this; exact this.elim
  | take k got =>
    rw [e] at this
    cases (show got = [] from this)
    show k - 0 = 3 * 0 + 0 + k
    omega

theorem ready (f : Nat → Nat) (n : Nat) : (prog f n).Ready := by
  intro t l i op r a a' hc h
  cases l with
  | send rest => exact ⟨_, rfl⟩
  | idle => obtain ⟨rfl, rfl⟩ := hc; obtain ⟨v, rfl, -⟩ := read_does h; exact ⟨_, v, rfl, rfl⟩
  | busy v => exact ⟨_, rfl⟩
  | take k got => obtain ⟨-, rfl, rfl⟩ := hc; obtain ⟨v, rfl, -⟩ := read_does h; exact ⟨_, v, rfl, rfl⟩

theorem calls_untimed (f : Nat → Nat) (n : Nat) : ∀ t l i op, (prog f n).call t l i op → (kind i).obj.ok op ∧ (kind i).obj.untimed op := by
  intro t l i op h
  refine ⟨(calls_ok f n t l i op h).1, ?_⟩
  cases l with
  | send rest => cases rest with
    | nil => exact h.elim
    | cons x rest => obtain ⟨rfl, rfl⟩ := h; trivial
  | idle => obtain ⟨rfl, rfl⟩ := h; trivial
  | busy v => obtain ⟨rfl, rfl⟩ := h; trivial
  | take k got => obtain ⟨-, rfl, rfl⟩ := h; trivial

/-- C167: all threads together make at most three calls per item, one per worker and one per result to be collected, and take at most 7 steps in the queues for each (and two for each wakeup out
of turn). -/
theorem C167_bounded {f : Nat → Nat} {n : Nat} {l0 : Fin n → Loc} (h0 : ∀ t, Fresh (l0 t)) {now : Bool → Clock} {c : CState O n Loc} {taus made unasked own : Nat}
    (h : CRun O (prog f n) now l0 c taus made unasked own) : made ≤ calls l0 ∧ own ≤ 7 * made + 2 * unasked := by
  have := C166_bounded kind (K := 7) (fun _ => Nat.le_refl _) (fun t l i op h => (calls_ok f n t l i op h).1) (pool_measure f h0) h
  rw [todo_start h0] at this
  omega

/-- C167: from wherever it is the pool does not go on for ever, whichever of the threads that can go on do so; and when none can, every collector has all its results (if there is a worker and no
more are wanted than there are items). -/
theorem C167_finishes {f : Nat → Nat} {n : Nat} {l0 : Fin n → Loc} (h0 : ∀ t, Fresh (l0 t)) {now : Bool → Clock} {c : CState O n Loc} (h : CReach O (prog f n) now l0 c)
    (hw : ∃ w, l0 w = .idle) (hn : ∑ t, needs (l0 t) ≤ ∑ t, (items (l0 t)).length) :
    (∃ N, ∀ c' k, Goes O (prog f n) c c' k → k ≤ N) ∧ (∃ c' k, Goes O (prog f n) c c' k ∧ Rest (prog f n) c') ∧
      ∀ c' k, Goes O (prog f n) c c' k → Rest (prog f n) c' → (∀ t, 0 < needs (l0 t) → ∃ got, c'.pos t = .out (.take (needs (l0 t)) got) ∧ got.length = needs (l0 t)) ∧
        (∑ t, needs (l0 t) = ∑ t, (items (l0 t)).length → (∑ t, (results (knows (c'.pos t)) : Multiset Nat)) = (∑ t, (items (l0 t) : Multiset Nat)).map f) := by
  obtain ⟨h1, h2, h3⟩ := C166_comes_to_rest kind (fun _ => trivial) (calls_untimed f n) (ready f n) (pool_measure f h0) h
  exact ⟨h1, h2, fun c' k hg hr => C167_complete h0 (hg.reach h) (h3 c' k hg hr).1 hw hn⟩

/-- The four threads make at most ten calls: two writes and two reads of items, two writes and two reads of results, and one more read by each worker. -/
example : calls four = 10 := by simp [calls, four, Fin.sum_univ_four, items, works, needs]

/-- So each order of the four threads ends with both results collected. -/
example (now : Bool → Clock) (c : CState O 4 Loc) (h : CReach O (prog (· + 10) 4) now four c) : ∃ c' k got, Goes O (prog (· + 10) 4) c c' k ∧ c'.pos 3 = .out (.take 2 got) ∧ (got : Multiset Nat) = {11, 12} := by
  have h0 : ∀ t, Fresh (four t) := fun t => by fin_cases t <;> trivial
  have hn : ∑ t, needs (four t) = ∑ t, (items (four t)).length := by simp [Fin.sum_univ_four, four, needs, items]
  obtain ⟨-, ⟨c', k, hg, hr⟩, h3⟩ := C167_finishes h0 h ⟨1, rfl⟩ hn.le
  obtain ⟨h4, h5⟩ := h3 c' k hg hr
  obtain ⟨got, h6, -⟩ := h4 3 (by decide)
  refine ⟨c', k, got, hg, h6, ?_⟩
  have hle := h5 hn
  rw [Fin.sum_univ_four, h6] at hle
  have key : ((results (knows (c'.pos 0)) : Multiset Nat)) = 0 ∧ ((results (knows (c'.pos 1)) : Multiset Nat)) = 0 ∧ ((results (knows (c'.pos 2)) : Multiset Nat)) = 0 := by
    obtain ⟨a, hgr, -⟩ := C166_indivisible kind (fun t l i op h => (calls_ok _ 4 t l i op h).1) (hg.reach h)
    have hrole : ∀ t, Role (four t) (loc (gpos c' t)) := (inv h0 hgr).role
    have none : ∀ t, (∀ k g, four t ≠ .take k g) → ((results (knows (c'.pos t)) : Multiset Nat)) = 0 := by
      intro t ht
      have := hrole t
      rw [loc_gpos] at this
      cases e : knows (c'.pos t) with
      | take k got => rw [e] at this; obtain ⟨-, g0, e2⟩ := role_take this; exact absurd e2 (ht _ _)
      | _ => rfl
    exact ⟨none 0 (fun _ _ e => nomatch e), none 1 (fun _ _ e => nomatch e), none 2 (fun _ _ e => nomatch e)⟩
  rw [key.1, key.2.1, key.2.2] at hle
  have e : (∑ t, (items (four t) : Multiset Nat)).map (· + 10) = {11, 12} := by rw [Fin.sum_univ_four]; rfl
  rw [e, zero_add, zero_add, zero_add] at hle
  exact hle

end Verif.Interthread.Pool
