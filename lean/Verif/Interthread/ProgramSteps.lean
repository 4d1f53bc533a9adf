import Verif.Monitor.ProgramSteps
import Verif.Interthread.Programs
import Verif.Interthread.Steps

/-
C166, continued: programs on queues, maps, priority queues and semaphores (`/repo/Interthread.h:113-774`) that come to an end when calls are indivisible come to an end.
-/

namespace Verif.Interthread
open Verif Verif.Monitor

theorem queue_firm : queueObj.Firm := by
  intro op t0 now d _ hu
  have h : ∃ a, qbody op t0 now d = some a ∧ ∀ d', a ≠ .spin d' := by
    cases op with
    | readT ms => exact hu.elim
    | read => simp only [qbody]; split <;> exact ⟨_, rfl, fun _ e => nomatch e⟩
    | _ => exact ⟨_, rfl, fun _ e => nomatch e⟩
  obtain ⟨a, h1, h2⟩ := h
  exact ⟨⟨a, h1⟩, fun d' (h3 : qbody op t0 now d = some (.spin d')) => by rw [h1] at h3; cases h3; exact h2 _ rfl⟩

theorem map_firm : mapObj.Firm := by
  intro op t0 now d _ hu
  have h : ∃ a, mbody op t0 now d = some a ∧ ∀ d', a ≠ .spin d' := by
    cases op with
    | getT k ms rm => exact hu.elim
    | write k v => exact ⟨_, rfl, fun _ e => nomatch e⟩
    | getNoBlock k rm => simp only [mbody]; split <;> exact ⟨_, rfl, fun _ e => nomatch e⟩
    | get k rm => simp only [mbody]; split <;> exact ⟨_, rfl, fun _ e => nomatch e⟩
    | remove k => simp only [mbody]; split <;> exact ⟨_, rfl, fun _ e => nomatch e⟩
  obtain ⟨a, h1, h2⟩ := h
  exact ⟨⟨a, h1⟩, fun d' (h3 : mbody op t0 now d = some (.spin d')) => by rw [h1] at h3; cases h3; exact h2 _ rfl⟩

theorem sem_firm : semObj.Firm := by
  intro op t0 now d _ _
  have h : ∃ a, sbody op t0 now d = some a ∧ ∀ d', a ≠ .spin d' := by
    cases op with
    | get => simp only [sbody]; split <;> exact ⟨_, rfl, fun _ e => nomatch e⟩
    | _ => exact ⟨_, rfl, fun _ e => nomatch e⟩
  obtain ⟨a, h1, h2⟩ := h
  exact ⟨⟨a, h1⟩, fun d' (h3 : sbody op t0 now d = some (.spin d')) => by rw [h1] at h3; cases h3; exact h2 _ rfl⟩

theorem prio_firm {before : Nat → Nat → Prop} (hirr : ∀ a, ¬ before a a) (htr : ∀ a b c, before a b → before b c → before a c) : (prioObj before).Firm := by
  intro op t0 now d _ hu
  have top : ∀ q : List Nat, q ≠ [] → ∃ x, IsTop (pointerCompare fun a b => before b a) q x := fun q hq => C28_top_exists (gt := fun a b => before b a) hirr (fun a b c h1 h2 => htr c b a h2 h1) q hq
  have get : ∀ q : List Nat, ∃ r q', PQGet (fun a b => before b a) q r q' := by
    intro q
    by_cases e : q = []
    · exact ⟨none, [], .inl ⟨e, rfl, rfl⟩⟩
    · obtain ⟨x, hx⟩ := top q e
      exact ⟨some x, q.erase x, .inr ⟨x, hx, rfl, rfl⟩⟩
  have drain : ∀ m (q : List Nat), q.length = m → ∃ l, Drains (fun a b => before b a) q l := by
    intro m
    induction m with
    | zero => intro q hq; exact ⟨[], List.length_eq_zero_iff.mp hq⟩
    | succ m ih =>
      intro q hq
      obtain ⟨x, hx⟩ := top q (by rintro rfl; cases hq)
      obtain ⟨l, hl⟩ := ih (q.erase x) (by rw [List.length_erase_of_mem hx.1, hq]; rfl)
      exact ⟨x :: l, hx, hl⟩
  suffices h : ∀ q : List Nat, (∃ a, pqbody (fun a b => before b a) op t0 now q a) ∧ ∀ d', ¬ pqbody (fun a b => before b a) op t0 now q (.spin d') from h d
  intro q
  obtain ⟨r, q', hg⟩ := get q
  cases op with
  | readT ms => exact hu.elim
  | write v => exact ⟨⟨_, rfl⟩, fun _ e => nomatch e⟩
  | read =>
    refine ⟨?_, fun d' e => ?_⟩
    · by_cases hq : q.length = 0
      · exact ⟨_, .inl ⟨hq, rfl⟩⟩
      · exact ⟨_, .inr ⟨hq, r, q', hg, rfl⟩⟩
    · rcases e with ⟨-, e⟩ | ⟨-, _, _, -, e⟩ <;> cases e
  | readNoBlock => exact ⟨⟨_, r, q', hg, rfl⟩, fun d' ⟨_, _, _, e⟩ => nomatch e⟩
  | peek =>
    refine ⟨?_, fun d' e => ?_⟩
    · by_cases hq : q = []
      · exact ⟨_, .inl ⟨hq, rfl⟩⟩
      · obtain ⟨x, hx⟩ := top q hq
        exact ⟨_, .inr ⟨x, hx, rfl⟩⟩
    · rcases e with ⟨-, e⟩ | ⟨_, -, e⟩ <;> cases e
  | size => exact ⟨⟨_, rfl⟩, fun _ e => nomatch e⟩
  | clear =>
    obtain ⟨l, hl⟩ := drain _ q rfl
    exact ⟨⟨_, l, hl, rfl⟩, fun _ ⟨_, _, e⟩ => nomatch e⟩

/-- What `std::priority_queue` requires of the comparison: a strict order. -/
def Kind.Ordered : Kind → Prop
  | .prio before => (∀ a, ¬ before a a) ∧ ∀ a b c, before a b → before b c → before a c
  | _ => True

theorem Kind.firm {k : Kind} (h : k.Ordered) : k.obj.Firm := by
  cases k with
  | queue => exact queue_firm
  | map => exact map_firm
  | prio before => exact prio_firm h.1 h.2
  | sem => exact sem_firm

/-- The most steps a call takes (C165), with `n` threads. -/
def Kind.cost (n : Nat) : Kind → Nat
  | .map => 2 * n + 5
  | _ => 7

theorem Kind.cheap (k : Kind) (n : Nat) : Cheap k.obj.M n (k.cost n - 4) := by
  cases k with
  | queue => exact queue_cheap n
  | map => exact imap_cheap n
  | prio before => exact pqueue_cheap _ n
  | sem => exact semaphore_cheap n

theorem Kind.four_le (k : Kind) (n : Nat) : k.cost n - 4 + 4 = k.cost n := by
  cases k <;> rfl

/-- C166: a program that makes a bounded number of steps outside of calls and of calls when calls are indivisible (for which there is a measure `m`) makes no more of them with the real objects, and
each call takes at most `K` steps inside the objects, each wakeup out of turn two: 7 for a call on a queue, priority queue or semaphore, `2n + 5` for one on a map. -/
theorem C166_bounded {I : Type} [DecidableEq I] [Fintype I] (kind : I → Kind) {n K : Nat} (hK : ∀ i, (kind i).cost n ≤ K) {L : Type} {P : Prog (fun i => (kind i).obj) n L}
    (hP : ∀ t l i op, P.call t l i op → (kind i).obj.ok op) {now : I → Clock} {l0 : Fin n → L} {m : GState (fun i => (kind i).obj) n L → Nat} (hm : Measure _ P l0 m)
    {c : CState (fun i => (kind i).obj) n L} {taus calls unasked own : Nat} (h : CRun _ P now l0 c taus calls unasked own) :
    taus + calls ≤ m (.start _ l0) ∧ own ≤ K * calls + 2 * unasked := by
  refine ⟨?_, own_bound (fun i => (kind i).cheap n) (fun i => ((kind i).four_le n).trans_le (hK i)) hP h⟩
  obtain ⟨-, a, -, -, h1⟩ := calls_bound (fun i => (kind i).good) hP hm h
  omega

/-- C166: such a program, if it uses no time limits, does not go on for ever from wherever it is, whichever of the threads that can go on do so; and when none can, it is where the program with
indivisible calls cannot go on either: every thread has finished, or sleeps in a call that could not be done. -/
theorem C166_comes_to_rest {I : Type} [DecidableEq I] [Fintype I] (kind : I → Kind) (hk : ∀ i, (kind i).Ordered) {n : Nat} {L : Type} {P : Prog (fun i => (kind i).obj) n L}
    (hP : ∀ t l i op, P.call t l i op → (kind i).obj.ok op ∧ (kind i).obj.untimed op) (hR : P.Ready) {now : I → Clock} {l0 : Fin n → L} {m : GState (fun i => (kind i).obj) n L → Nat}
    (hm : Measure _ P l0 m) {c : CState (fun i => (kind i).obj) n L} (h : CReach _ P now l0 c) :
    (∃ N, ∀ c' k, Goes _ P c c' k → k ≤ N) ∧ (∃ c' k, Goes _ P c c' k ∧ Rest P c') ∧
      ∀ c' k, Goes _ P c c' k → Rest P c' → Stuck P c' ∧
        ∃ a : (i : I) → (kind i).obj.A, GReach _ P l0 ⟨a, gpos c'⟩ ∧ (∀ i, (kind i).obj.abs (c'.obj i).data (a i)) ∧ ∀ g', ¬ GStep _ P ⟨a, gpos c'⟩ g' := by
  have hN := goes_bound (K := ∑ i, (kind i).cost n) (fun i => (kind i).good) (fun i => (kind i).cheap n)
    (fun i => ((kind i).four_le n).trans_le (Finset.single_le_sum (f := fun i => (kind i).cost n) (fun _ _ => Nat.zero_le _) (Finset.mem_univ i))) (fun t l i op h => (hP t l i op h).1) hm h
  refine ⟨hN, comes_to_rest hN.choose_spec, fun c' k hg hr => ?_⟩
  have hs := rest_stuck (fun i => (kind i).good) (fun i => (kind i).firm (hk i)) hP hR (hg.reach h) hr
  exact ⟨hs, C166_no_new_deadlock kind (fun t l i op h => (hP t l i op h).1) (hg.reach h) hs⟩

end Verif.Interthread
