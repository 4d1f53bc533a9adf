import Verif.Reporting.Crash
import Mathlib.Algebra.BigOperators.Group.Finset.Basic
import Mathlib.Algebra.BigOperators.Group.Finset.Piecewise
import Mathlib.Algebra.Order.Group.Int
import Mathlib.Algebra.BigOperators.Ring.Finset
import Mathlib.Data.Int.Cast.Basic

/-
Property C154: several programs that count into one reporting database (`Reporting.cpp:41-206`).
-/

namespace Verif.Reporting.Crash.Programs
open Verif

/-! ### Model -/

/-- A process without the database: `mBatch` and the entries its threads still have to write (`Reporting.h:48`, `Reporting.cpp:170`). -/
structure Prog where
  batch : Batch := []
  thr : Nat → Option Batch := fun _ => none

/-- The rows of the table (`Reporting.cpp:31-38`), and the programs. -/
structure World where
  db : Rows
  prog : Nat → Prog := fun _ => {}

/-- A step of a program (`Verif.Reporting.Crash.step`; statements of the programs do not overlap, as SQLite locks the file), or its end, at any point, and its next start. -/
inductive Ev where
  | at' (p : Nat) (e : Crash.Ev)
  | die (p : Nat)

/-- One event; none if it is not possible. -/
def World.ev (w : World) : Ev → Option World
  | .at' p e => (Crash.step ⟨(w.prog p).batch, w.db, (w.prog p).thr⟩ e).map fun s => { db := s.db, prog := fun q => if q = p then ⟨s.batch, s.thr⟩ else w.prog q }
  | .die p => some { w with prog := fun q => if q = p then {} else w.prog q }

def exec (w : World) : List Ev → Option World
  | [] => some w
  | e :: es => (w.ev e).bind fun w' => exec w' es

/-! ### Specification -/

/-- What one program did, life by life; the last one may be going on. -/
def lifeStep (p : Nat) (a : List (List Crash.Ev) × List Crash.Ev) : Ev → List (List Crash.Ev) × List Crash.Ev
  | .at' q e => if q = p then (a.1, a.2 ++ [e]) else a
  | .die q => if q = p then (a.1 ++ [a.2], []) else a

def livesOf (p : Nat) (es : List Ev) : List (List Crash.Ev) :=
  let r := es.foldl (lifeStep p) ([], [])
  r.1 ++ [r.2]

/-- The programs have numbers below `P`, in each only one thread commits, and nothing but increments and commits that succeed changes the value of `n`. -/
def Counts (P : Nat) (c : Nat → Nat) (n : Str) : Ev → Prop
  | .at' p e => p < P ∧ Counting (c p) n e
  | .die p => p < P

/-! ### Proof -/

/-- A step of a program does the same to its batch whatever the rows are, and adds the same to the counter. -/
theorem step_indep {c : Nat} {n : Str} {b : Batch} {d d' : Rows} {t : Nat → Option Batch} {e : Crash.Ev} {s : St} {y y' : Int} (h : Crash.step ⟨b, d, t⟩ e = some s) (hy : d n = some y) (hy' : d' n = some y')
    (hc : Counting c n e) : ∃ s', Crash.step ⟨b, d', t⟩ e = some s' ∧ s'.batch = s.batch ∧ s'.thr = s.thr ∧ ∃ k : Nat, s.db n = some (y + k) ∧ s'.db n = some (y' + k) := by
  have same : ∀ s : St, s.db n = some y → ∀ s' : St, s'.db n = some y' → ∃ k : Nat, s.db n = some (y + k) ∧ s'.db n = some (y' + k) :=
    fun s h s' h' => ⟨0, by simpa using h, by simpa using h'⟩
  cases e with
  | createName m => cases h; exact ⟨_, rfl, rfl, rfl, same _ hy _ hy'⟩
  | createRow m ok =>
    cases ok
    · cases h; exact ⟨_, rfl, rfl, rfl, same _ hy _ hy'⟩
    · cases h
      refine ⟨_, rfl, rfl, rfl, same _ ?_ _ ?_⟩
      · show (if n = m then some ((d n).getD 0) else d n) = _
        rw [hy]; simp
      · show (if n = m then some ((d' n).getD 0) else d' n) = _
        rw [hy']; simp
  | incr m => cases h; exact ⟨_, rfl, rfl, rfl, same _ hy _ hy'⟩
  | max m v ok =>
    have hm : n ≠ m := fun x => hc x.symm
    cases ok
    · cases h; exact ⟨_, rfl, rfl, rfl, same _ hy _ hy'⟩
    · cases h
      refine ⟨_, rfl, rfl, rfl, same _ ?_ _ ?_⟩
      · show update d m _ n = _
        rw [update, if_neg hm, hy]
      · show update d' m _ n = _
        rw [update, if_neg hm, hy']
  | clear m ok =>
    have hm : n ≠ m := fun x => hc x.symm
    cases ok
    · cases h; exact ⟨_, rfl, rfl, rfl, same _ hy _ hy'⟩
    · cases h
      refine ⟨_, rfl, rfl, rfl, same _ ?_ _ ?_⟩
      · show update d m _ n = _
        rw [update, if_neg hm, hy]
      · show update d' m _ n = _
        rw [update, if_neg hm, hy']
  | clearAll ok => exact hc.elim
  | copy t' =>
    simp only [Crash.step] at h ⊢
    split at h
    · rename_i ht
      cases h
      exact ⟨_, rfl, rfl, rfl, same _ hy _ hy'⟩
    · cases h
  | write t' ok =>
    simp only [Crash.step] at h ⊢
    split at h
    · rename_i m k r hl
      cases h
      obtain ⟨-, rfl⟩ := hc
      refine ⟨_, rfl, rfl, rfl, if n = m then k else 0, ?_, ?_⟩
      · show update d m _ n = _
        rw [update]
        split
        · rw [hy]; rfl
        · rw [hy]; simp
      · show update d' m _ n = _
        rw [update]
        split
        · rw [hy']; rfl
        · rw [hy']; simp
    · cases h
  | done t' =>
    simp only [Crash.step] at h ⊢
    split at h
    · rename_i hl
      cases h
      exact ⟨_, rfl, rfl, rfl, same _ hy _ hy'⟩
    · cases h

theorem exec_append (w : World) (a b : List Ev) : exec w (a ++ b) = (exec w a).bind fun t => exec t b := by
  induction a generalizing w with
  | nil => rfl
  | cons e a ih =>
    simp only [List.cons_append, exec]
    cases w.ev e with
    | none => rfl
    | some t => exact ih t

theorem lives_snoc (d : Rows) (ls : List (List Crash.Ev)) (l : List Crash.Ev) : lives d (ls ++ [l]) = (lives d ls).bind fun d' => life d' l := by
  induction ls generalizing d with
  | nil => simp [lives]
  | cons a ls ih =>
    simp only [List.cons_append, lives]
    cases life d a with
    | none => rfl
    | some d' => exact ih d'

/-- Rows with every counter at zero. -/
def zero : Rows := fun _ => some 0

/-- The programs taken one by one, each on rows of its own. -/
structure Alone (n : Str) (p : Nat) (g : Prog) (a : List (List Crash.Ev) × List Crash.Ev) (y : Int) : Prop where
  ex : ∃ d s, lives zero a.1 = some d ∧ run { db := d } a.2 = some s ∧ s.batch = g.batch ∧ s.thr = g.thr ∧ s.db n = some y

theorem sum_change (P p : Nat) (hp : p < P) (f g : Nat → Int) (k : Int) (h : ∀ q, q ≠ p → g q = f q) (hk : g p = f p + k) : ∑ q ∈ Finset.range P, g q = ∑ q ∈ Finset.range P, f q + k := by
  have : ∀ q ∈ Finset.range P, g q = f q + if q = p then k else 0 := by
    intro q _
    by_cases hq : q = p
    · rw [hq, hk, if_pos rfl]
    · rw [h q hq, if_neg hq, add_zero]
  rw [Finset.sum_congr rfl this, Finset.sum_add_distrib, Finset.sum_ite_eq', if_pos (Finset.mem_range.2 hp)]

theorem alone_run (P : Nat) (c : Nat → Nat) (n : Str) (d : Rows) (x : Int) (hx : d n = some x) (es : List Ev) (w : World) (h : exec { db := d } es = some w) (hc : ∀ e ∈ es, Counts P c n e) :
    ∃ y : Nat → Int, (∀ p, Alone n p (w.prog p) (es.foldl (lifeStep p) ([], [])) (y p)) ∧ w.db n = some (x + ∑ p ∈ Finset.range P, y p) := by
  induction es using List.reverseRecOn generalizing w with
  | nil =>
    cases h
    exact ⟨fun _ => 0, fun p => ⟨zero, { db := zero }, rfl, rfl, rfl, rfl, rfl⟩, by simpa using hx⟩
  | append_singleton es e ih =>
    rw [exec_append] at h
    obtain ⟨v, hv, h⟩ := Option.bind_eq_some_iff.1 h
    obtain ⟨y, hal, hdb⟩ := ih v hv fun e' he' => hc e' (by simp [he'])
    have hce := hc e (by simp)
    simp only [exec] at h
    obtain ⟨w', hw', h⟩ := Option.bind_eq_some_iff.1 h
    cases h
    simp only [List.foldl_append, List.foldl_cons, List.foldl_nil]
    cases e with
    | die p =>
      cases hw'
      refine ⟨y, fun q => ?_, hdb⟩
      by_cases hq : q = p
      · subst hq
        obtain ⟨d1, s, h1, h2, h3, h4, h5⟩ := (hal q).ex
        refine ⟨s.db, { db := s.db }, ?_, ?_, ?_, ?_, h5⟩
        · simp only [lifeStep, if_true]
          rw [lives_snoc, h1]
          simp [life, h2]
        · simp [lifeStep, run]
        · simp
        · simp
      · simpa [lifeStep, hq, Ne.symm hq] using hal q
    | at' p e =>
      obtain ⟨hp, hcn⟩ := hce
      simp only [World.ev, Option.map_eq_some_iff] at hw'
      obtain ⟨s, hs, rfl⟩ := hw'
      obtain ⟨d1, s1, h1, h2, h3, h4, h5⟩ := (hal p).ex
      obtain ⟨s', hs', hb, ht, k, hk, hk'⟩ := step_indep hs hdb h5 hcn
      refine ⟨fun q => if q = p then y p + k else y q, fun q => ?_, ?_⟩
      · by_cases hq : q = p
        · subst hq
          simp only [if_true, lifeStep]
          refine ⟨d1, s', h1, ?_, hb, ht, hk'⟩
          rw [run_append, h2]
          simp only [Option.bind_some, run]
          rw [show s1 = ⟨(v.prog q).batch, s1.db, (v.prog q).thr⟩ by rw [← h3, ← h4], hs']
          rfl
        · simpa [lifeStep, hq, Ne.symm hq] using hal q
      · show s.db n = _
        rw [hk, sum_change P p hp y (fun q => if q = p then y p + k else y q) k (fun q hq => by simp [hq]) (by simp)]
        simp only [Option.some.injEq]
        omega

/-! ### C154 -/

/-- C154: any number of programs, each of which may end at any point and start again, every interleaving of their steps: the value of a counter is what it was at first and, for every life of every program, what that life counted
up to some moment, no commit of it that returned having begun later. -/
theorem C154_counts_partial (P : Nat) (c : Nat → Nat) (n : Str) (d : Rows) (x : Int) (hx : d n = some x) (es : List Ev) (w : World) (h : exec { db := d } es = some w) (hc : ∀ e ∈ es, Counts P c n e)
    (hlt : ∀ p, ∀ l ∈ livesOf p es, incrs n l < 2 ^ 32) :
    ∃ ks : Nat → List Nat, (∀ p, List.Forall₂ (Moment (c p)) (livesOf p es) (ks p)) ∧
      w.db n = some (x + ∑ p ∈ Finset.range P, ((List.zipWith (fun l k => incrs n (l.take k)) (livesOf p es) (ks p)).sum : Int)) := by
  obtain ⟨y, hal, hdb⟩ := alone_run P c n d x hx es w h hc
  have hmem : ∀ p, ∀ l ∈ livesOf p es, ∀ e ∈ l, Counting (c p) n e := by
    intro p
    have key : ∀ (es : List Ev) (a : List (List Crash.Ev) × List Crash.Ev), (∀ e ∈ es, Counts P c n e) → (∀ l ∈ a.1 ++ [a.2], ∀ e ∈ l, Counting (c p) n e) →
        ∀ l ∈ (es.foldl (lifeStep p) a).1 ++ [(es.foldl (lifeStep p) a).2], ∀ e ∈ l, Counting (c p) n e := by
      intro es
      induction es with
      | nil => intro a _ ha; exact ha
      | cons e es ih =>
        intro a he ha
        refine ih _ (fun e' h' => he e' (List.mem_cons_of_mem _ h')) ?_
        have hce := he e (by simp)
        cases e with
        | die q =>
          simp only [lifeStep]
          split
          · intro l hl e' he'
            rcases List.mem_append.1 hl with hl | hl
            · exact ha l hl e' he'
            · rw [List.mem_singleton.1 hl] at he'; cases he'
          · exact ha
        | at' q e =>
          simp only [lifeStep]
          split
          · rename_i hq
            subst hq
            intro l hl e' he'
            rcases List.mem_append.1 hl with hl | hl
            · exact ha l (List.mem_append_left _ hl) e' he'
            · rw [List.mem_singleton.1 hl] at he'
              rcases List.mem_append.1 he' with he' | he'
              · exact ha a.2 (by simp) e' he'
              · rw [List.mem_singleton.1 he']; exact hce.2
          · exact ha
    exact key es ([], []) hc (by intro l hl e he; simp at hl; rw [hl] at he; cases he)
  have each : ∀ p, ∃ ks : List Nat, List.Forall₂ (Moment (c p)) (livesOf p es) ks ∧ y p = ((List.zipWith (fun l k => incrs n (l.take k)) (livesOf p es) ks).sum : Int) := by
    intro p
    obtain ⟨d1, s, h1, h2, _, _, h5⟩ := (hal p).ex
    have hl : lives zero (livesOf p es) = some s.db := by
      simp only [livesOf]
      rw [lives_snoc, h1]
      simp [life, h2]
    obtain ⟨ks, hk, hv⟩ := C146_lives (c p) n (livesOf p es) zero s.db 0 hl rfl (hmem p) (hlt p)
    refine ⟨ks, hk, ?_⟩
    rw [h5] at hv
    simpa using hv
  choose ks hk using each
  refine ⟨ks, fun p => (hk p).1, ?_⟩
  rw [hdb, Finset.sum_congr rfl fun p _ => (hk p).2]

/-- C154, readers: while nothing but increments and commits changes a counter, its value never goes down. -/
theorem C154_grows_partial (P : Nat) (c : Nat → Nat) (n : Str) (w w' : World) (es : List Ev) (x : Int) (hx : w.db n = some x) (h : exec w es = some w') (hc : ∀ e ∈ es, Counts P c n e) :
    ∃ y, w'.db n = some y ∧ x ≤ y := by
  induction es generalizing w x with
  | nil => cases h; exact ⟨x, hx, le_rfl⟩
  | cons e es ih =>
    simp only [exec] at h
    obtain ⟨v, hv, h⟩ := Option.bind_eq_some_iff.1 h
    have hce := hc e (by simp)
    have hes : ∀ e ∈ es, Counts P c n e := fun e' he' => hc e' (List.mem_cons_of_mem _ he')
    cases e with
    | die p => cases hv; exact ih _ x (by exact hx) h hes
    | at' p e =>
      simp only [World.ev, Option.map_eq_some_iff] at hv
      obtain ⟨s, hs, rfl⟩ := hv
      obtain ⟨_, _, _, _, k, hk, _⟩ := step_indep hs hx hx hce.2
      obtain ⟨y, h1, h2⟩ := ih _ _ hk h hes
      exact ⟨y, h1, by omega⟩

/-- How often `n` was incremented by all programs together. -/
def counted (n : Str) : List Ev → Nat
  | [] => 0
  | .at' _ e :: es => (if e = .incr n then 1 else 0) + counted n es
  | .die _ :: es => counted n es

/-- A life whose last increment of `n`, if any, was before the beginning of a commit that returned. -/
def Settled (c : Nat) (n : Str) (l : List Crash.Ev) : Prop :=
  incrs n l = 0 ∨ ∃ i j : Nat, i < j ∧ l[i]? = some (.copy c) ∧ l[j]? = some (.done c) ∧ incrs n (l.drop i) = 0

theorem incrs_append (n : Str) (a b : List Crash.Ev) : incrs n (a ++ b) = incrs n a + incrs n b := List.count_append ..

theorem settled_moment {c : Nat} {n : Str} {l : List Crash.Ev} {k : Nat} (h : Settled c n l) (hk : Moment c l k) : incrs n (l.take k) = incrs n l := by
  rcases h with h | ⟨i, j, hij, hi, hj, h0⟩
  · have := incrs_take_le n l k
    omega
  · have hik := hk.2 i j hij hi hj
    have h1 : incrs n l = incrs n (l.take k) + incrs n (l.drop k) := by rw [← incrs_append, List.take_append_drop]
    have h2 : incrs n (l.drop i) = incrs n ((l.drop i).take (k - i)) + incrs n (l.drop k) := by
      rw [← incrs_append, show l.drop k = (l.drop i).drop (k - i) by rw [List.drop_drop]; congr 1; omega, List.take_append_drop]
    omega

theorem zip_settled {c : Nat} {n : Str} {ls : List (List Crash.Ev)} {ks : List Nat} (h : ∀ l ∈ ls, Settled c n l) (hk : List.Forall₂ (Moment c) ls ks) :
    (List.zipWith (fun l k => incrs n (l.take k)) ls ks).sum = (ls.map (incrs n)).sum := by
  induction hk with
  | nil => rfl
  | cons h1 _ ih =>
    simp only [List.zipWith_cons_cons, List.sum_cons, List.map_cons]
    rw [settled_moment (h _ (by simp)) h1, ih fun l hl => h l (List.mem_cons_of_mem _ hl)]

theorem counted_lives (P : Nat) (c : Nat → Nat) (n : Str) (es : List Ev) (hc : ∀ e ∈ es, Counts P c n e) (a : Nat → List (List Crash.Ev) × List Crash.Ev) :
    (∑ p ∈ Finset.range P, (((es.foldl (lifeStep p) (a p)).1 ++ [(es.foldl (lifeStep p) (a p)).2]).map (incrs n)).sum : Nat) =
      ∑ p ∈ Finset.range P, (((a p).1 ++ [(a p).2]).map (incrs n)).sum + counted n es := by
  induction es generalizing a with
  | nil => rfl
  | cons e es ih =>
    have hce := hc e (by simp)
    simp only [List.foldl_cons]
    rw [ih (fun e' he' => hc e' (List.mem_cons_of_mem _ he')) fun p => lifeStep p (a p) e]
    cases e with
    | die q =>
      rw [counted]
      congr 1
      refine Finset.sum_congr rfl fun p _ => ?_
      simp only [lifeStep]
      split
      · simp [incrs]
      · rfl
    | at' q e =>
      rw [counted, ← Nat.add_assoc]
      congr 1
      have : ∀ p ∈ Finset.range P, (((lifeStep p (a p) (.at' q e)).1 ++ [(lifeStep p (a p) (.at' q e)).2]).map (incrs n)).sum =
          (((a p).1 ++ [(a p).2]).map (incrs n)).sum + if p = q then (if e = .incr n then 1 else 0) else 0 := by
        intro p _
        simp only [lifeStep]
        by_cases hq : q = p
        · simp only [if_pos hq, if_pos hq.symm, List.map_append, List.map_cons, List.map_nil, List.sum_append, List.sum_cons, List.sum_nil, Nat.add_zero, incrs_append]
          have : incrs n [e] = if e = .incr n then 1 else 0 := by
            simp only [incrs, List.count_singleton, beq_iff_eq]
          omega
        · simp only [if_neg hq, if_neg (Ne.symm hq), Nat.add_zero]
      rw [Finset.sum_congr rfl this, Finset.sum_add_distrib, Finset.sum_ite_eq', if_pos (Finset.mem_range.2 hce.1)]

/-- C154: when every life of every program has committed its increments, nothing is missing and nothing counted twice. -/
theorem C154_total_partial (P : Nat) (c : Nat → Nat) (n : Str) (d : Rows) (x : Int) (hx : d n = some x) (es : List Ev) (w : World) (h : exec { db := d } es = some w) (hc : ∀ e ∈ es, Counts P c n e)
    (hlt : ∀ p, ∀ l ∈ livesOf p es, incrs n l < 2 ^ 32) (hs : ∀ p, ∀ l ∈ livesOf p es, Settled (c p) n l) : w.db n = some (x + counted n es) := by
  obtain ⟨ks, hk, hv⟩ := C154_counts_partial P c n d x hx es w h hc hlt
  rw [hv]
  have := counted_lives P c n es hc fun _ => ([], [])
  simp only [List.nil_append, List.map_cons, List.map_nil, List.sum_cons, List.sum_nil, Nat.add_zero, show incrs n [] = 0 from rfl, Finset.sum_const_zero, Nat.zero_add] at this
  rw [← this, Finset.sum_congr rfl fun p _ => by rw [zip_settled (hs p) (hk p)]]
  rw [Nat.cast_sum]
  rfl

/-- The maxima that programs reported for `n` with success. -/
def reported (n : Str) : List Ev → List Nat
  | [] => []
  | .at' _ (.max m v true) :: es => if m = n then v :: reported n es else reported n es
  | _ :: es => reported n es

/-- A program that has nothing to add to `n`. -/
def Still (n : Str) (b : Batch) (t : Nat → Option Batch) : Prop := total n b = 0 ∧ ∀ i, leftOf (t i) n = 0

theorem still_step {n : Str} {s s' : St} {e : Crash.Ev} (h : step s e = some s') (hs : Still n s.batch s.thr) (he : e ≠ .incr n) : Still n s'.batch s'.thr := by
  cases e with
  | createName m => cases h; exact ⟨by simpa [total_addName] using hs.1, hs.2⟩
  | createRow m ok => cases ok <;> cases h <;> exact hs
  | incr m =>
    cases h
    have hmn : m ≠ n := fun x => he (by rw [x])
    exact ⟨by simpa [total_bump_other hmn] using hs.1, hs.2⟩
  | max m v ok => cases ok <;> cases h <;> exact hs
  | clear m ok => cases ok <;> cases h <;> exact hs
  | clearAll ok => cases ok <;> cases h <;> exact hs
  | copy t' =>
    simp only [step] at h
    split at h
    · cases h
      refine ⟨total_zero .., fun t2 => ?_⟩
      by_cases ht : t2 = t'
      · simpa [leftOf, ht, total_positive] using hs.1
      · simpa [ht] using hs.2 t2
    · cases h
  | write t' ok =>
    simp only [step] at h
    split at h
    · rename_i m k r hl
      cases h
      have h0 := hs.2 t'
      rw [hl] at h0
      simp only [leftOf, Option.getD_some, total_cons] at h0
      refine ⟨hs.1, fun t2 => ?_⟩
      by_cases ht : t2 = t'
      · simp only [ht, if_true, leftOf, Option.getD_some]; omega
      · simpa [ht] using hs.2 t2
    · cases h
  | done t' =>
    simp only [step] at h
    split at h
    · cases h
      refine ⟨hs.1, fun t2 => ?_⟩
      by_cases ht : t2 = t'
      · simp [leftOf, ht, total]
      · simpa [ht] using hs.2 t2
    · cases h

theorem max_exec (n : Str) (es : List Ev) (w w' : World) (x : Int) (hx : w.db n = some x) (hq : ∀ p, Still n (w.prog p).batch (w.prog p).thr) (h : exec w es = some w')
    (hc : ∀ p e, Ev.at' p e ∈ es → e ≠ .incr n ∧ (∀ ok, e ≠ .clear n ok) ∧ ∀ ok, e ≠ .clearAll ok) :
    w'.db n = some ((reported n es).foldl (fun (a : Int) (v : Nat) => Max.max a (v : Int)) x) := by
  induction es generalizing w x with
  | nil => cases h; simpa [reported] using hx
  | cons e es ih =>
    simp only [exec] at h
    obtain ⟨v, hv, h⟩ := Option.bind_eq_some_iff.1 h
    have hes : ∀ p e, Ev.at' p e ∈ es → e ≠ .incr n ∧ (∀ ok, e ≠ .clear n ok) ∧ ∀ ok, e ≠ .clearAll ok := fun p e' he' => hc p e' (List.mem_cons_of_mem _ he')
    cases e with
    | die p =>
      cases hv
      refine ih _ x (by exact hx) (fun q => ?_) h hes
      by_cases hqp : q = p
      · simp only [hqp, if_true]; exact ⟨rfl, fun _ => rfl⟩
      · simpa [hqp] using hq q
    | at' p e =>
      simp only [World.ev, Option.map_eq_some_iff] at hv
      obtain ⟨s, hs, rfl⟩ := hv
      have hce := hc p e (by simp)
      have h1 := max_run n [e] ⟨(w.prog p).batch, w.db, (w.prog p).thr⟩ s x (by simp [run, hs]) hx (hq p).1 (hq p).2 (by simpa using hce)
      have h2 := still_step hs (hq p) hce.1
      have h3 := ih _ _ h1 (fun q => ?_) h hes
      · rw [h3, ← List.foldl_append]
        congr 2
        cases e with
        | max m v ok =>
          cases ok
          · rfl
          · simp only [maxima, reported]
            split <;> rfl
        | _ => rfl
      · by_cases hqp : q = p
        · simpa [hqp] using h2
        · simpa [hqp] using hq q

/-- C154, maxima: a value that is never incremented nor cleared is the largest of the first value and everything any program reported with success; no end of a program loses one. -/
theorem C154_max (n : Str) (d : Rows) (x : Int) (hx : d n = some x) (es : List Ev) (w : World) (h : exec { db := d } es = some w)
    (hc : ∀ p e, Ev.at' p e ∈ es → e ≠ .incr n ∧ (∀ ok, e ≠ .clear n ok) ∧ ∀ ok, e ≠ .clearAll ok) :
    w.db n = some ((reported n es).foldl (fun (a : Int) (v : Nat) => Max.max a (v : Int)) x) :=
  max_exec n es _ w x hx (fun _ => ⟨rfl, fun _ => rfl⟩) h hc

/-- C154 (negation): a program clears the counter, and afterwards it still gets what another program counted before. -/
theorem C154_clear_refuted : (exec { db := fresh } [.at' 1 (.incr (lit "call.try")), .at' 0 (.clear (lit "call.try") true), .at' 1 (.copy 0), .at' 1 (.write 0 true), .at' 1 (.done 0)]).map (·.db (lit "call.try")) =
    some (some 1) := by decide +kernel

/-- C154 (negation): the database is busy with another program and refuses the statement of a commit.  The commit returns, no program has ended, nothing is left to be written, and what was counted is missing. -/
theorem C154_busy_refuted : ∃ w, exec { db := fresh } [.at' 1 (.incr (lit "call.try")), .at' 0 (.incr (lit "call.ok")), .at' 1 (.copy 0), .at' 0 (.copy 0), .at' 1 (.write 0 false), .at' 0 (.write 0 true), .at' 1 (.done 0),
      .at' 0 (.done 0)] = some w ∧ w.db (lit "call.ok") = some 1 ∧ w.db (lit "call.try") = some 0 ∧ ∀ p, Still (lit "call.try") (w.prog p).batch (w.prog p).thr := by
  refine ⟨_, rfl, by decide +kernel, by decide +kernel, fun p => ?_⟩
  match p with
  | 0 => exact ⟨by decide +kernel, fun i => by match i with | 0 => rfl | i + 1 => rfl⟩
  | 1 => exact ⟨by decide +kernel, fun i => by match i with | 0 => rfl | i + 1 => rfl⟩
  | p + 2 => exact ⟨rfl, fun _ => rfl⟩

/-! ### Examples -/

/-- Two programs count and commit at the same time, and one of them ends while it commits and starts again. -/
def sample : List Ev := [.at' 0 (.incr (lit "call.try")), .at' 1 (.incr (lit "call.try")), .at' 1 (.copy 7), .at' 0 (.copy 0), .at' 1 (.write 7 true), .at' 0 (.write 0 true), .at' 1 (.done 7), .at' 1 (.incr (lit "call.try")),
  .die 1, .at' 1 (.createName (lit "call.try")), .at' 1 (.createRow (lit "call.try") true), .at' 1 (.incr (lit "call.try")), .at' 0 (.done 0)]

/-- One increment was lost with program 1, one is still to be written. -/
example : (exec { db := fresh } sample).map (fun w => (w.db (lit "call.try"), (w.prog 1).batch)) = some (some 2, [(lit "call.try", 1)]) ∧ counted (lit "call.try") sample = 4 ∧
    (livesOf 1 sample).map List.length = [5, 3] := by decide +kernel

/-- The hypotheses of the theorem hold. -/
example : (∀ e ∈ sample, Counts 2 (fun p => if p = 1 then 7 else 0) (lit "call.try") e) ∧ (livesOf 1 sample).map (incrs (lit "call.try")) = [2, 1] := by
  refine ⟨?_, by decide +kernel⟩
  simp [sample, Counts, Counting]

example : (exec { db := fresh } [.at' 0 (.max (lit "call.ok") 5 true), .at' 1 (.max (lit "call.ok") 9 true), .die 1, .at' 0 (.max (lit "call.ok") 7 true)]).map (·.db (lit "call.ok")) = some (some 9) := by decide +kernel

end Verif.Reporting.Crash.Programs
