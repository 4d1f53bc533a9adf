import Verif.Interthread.Semaphore

/-
Property C141: the end of a `Semaphore` (`Interthread.h:735-774`).

The class has no destructor of its own, so ending a semaphore ends its mutex and its condition variable at once.  This is allowed while no thread uses them; a mutex may be ended as soon as the call
that unlocks it has released it (POSIX), and `Mutex::unlock` uses no member after that (`Threads.cpp:183-189`).  The model of the calls is that of `C29`; whatever a thread does between the begin of a
call and the unlock uses the object, the return does not.
-/

namespace Verif.Interthread
open Verif Verif.Monitor

/-! ### Specification -/

/-- The calls of `post` that have begun. -/
def postsBegun {n : Nat} (tr : List (Ev n Bool SOp SRes)) : Nat := tr.countP fun
  | .call _ op _ => op = .post
  | _ => false

/-- The steps that use the object: all but the return from a call, the begin of one and the clock. -/
def usesObject {n : Nat} : Lbl n SOp → Prop
  | .start .. => False
  | .ret .. => False
  | .tick => False
  | _ => True

/-! ### Lemmas -/

/-- The posts that took effect. -/
def postsMade {n : Nat} (tr : List (Ev n Bool SOp SRes)) : Nat := tr.countP fun
  | .lin _ op _ _ _ _ => op = .post
  | _ => false

theorem postsMade_eq {n : Nat} (tr : List (Ev n Bool SOp SRes)) : posts (effects tr) = postsMade tr := by
  unfold posts postsMade
  induction tr with
  | nil => rfl
  | cons e tr ih => cases e <;> simp [effects, List.countP_cons, ih]

/-- 1 before the effect of a post. -/
def pend : TS Unit SOp SRes → Nat
  | .entering .post _ => 1
  | _ => 0

theorem seq_posts {n : Nat} {l : List (Ev n Bool SOp SRes)} {x : TS Unit SOp SRes} (h : Seq l x) :
    postsBegun l = postsMade l + pend x := by
  unfold postsBegun postsMade
  induction h with
  | nil => rfl
  | @call l t op t0 _ ih => cases op <;> simp [List.countP_append, pend] at ih ⊢ <;> omega
  | @lin l t op t0 now d r _ ih => cases op <;> simp [List.countP_append, pend] at ih ⊢ <;> omega
  | @ret l t op r _ ih => simp [List.countP_append, pend] at ih ⊢; omega

theorem count_threads {n : Nat} (p : Ev n Bool SOp SRes → Bool) (tr : List (Ev n Bool SOp SRes)) :
    tr.countP p = ∑ t : Fin n, (tr.filter fun e => e.thread = t).countP p := by
  induction tr with
  | nil => simp
  | cons e tr ih =>
    have : ∀ t : Fin n, ((e :: tr).filter fun e => e.thread = t).countP p = (tr.filter fun e => e.thread = t).countP p + if e.thread = t then (if p e then 1 else 0) else 0 := by
      intro t
      by_cases h : e.thread = t
      · simp [h, List.countP_cons]
      · simp [h]
    rw [List.countP_cons, ih, Finset.sum_congr rfl fun t _ => this t, Finset.sum_add_distrib, Finset.sum_ite_eq]
    simp

/-- If all posts begun have taken effect, no thread is inside a post that has not. -/
theorem none_pending {n : Nat} {s : St n Bool Unit SOp SRes} (hl : Lin s) (h : postsBegun s.tr ≤ postsMade s.tr) (t : Fin n) :
    ∀ t0, (s.th t).phase ≠ .entering .post t0 := by
  intro t0 e
  have hle : ∀ u ∈ (Finset.univ : Finset (Fin n)), postsMade (s.tr.filter fun e => e.thread = u) ≤ postsBegun (s.tr.filter fun e => e.thread = u) := fun u _ => by
    rw [seq_posts (hl u)]; omega
  have hlt : postsMade (s.tr.filter fun e => e.thread = t) < postsBegun (s.tr.filter fun e => e.thread = t) := by
    rw [seq_posts (hl t), e]; simp [pend]
  have hsum : postsMade s.tr < postsBegun s.tr := by
    unfold postsMade postsBegun at *
    rw [count_threads _ s.tr, count_threads _ s.tr]
    exact Finset.sum_lt_sum hle ⟨t, Finset.mem_univ t, hlt⟩
  omega

/-- Inside the lock after a post the semaphore is posted; nothing is left to do after the unlock. -/
def PostFlag {n : Nat} (s : St n Bool Unit SOp SRes) : Prop :=
  (∀ t r i o, s.th t = .inLock .post r i o → s.data = true) ∧ (∀ t op r i o, s.th t = .inLock op r i o → o = []) ∧ ∀ t op r o, s.th t = .after op r o → o = []

theorem wake_eq {c : Unit} {x : TS Unit SOp SRes} : (∀ op r i o, x.wake c = .inLock op r i o → x = .inLock op r i o) ∧ ∀ op r o, x.wake c = .after op r o → x = .after op r o := by
  constructor <;> intros <;> cases x <;> simp_all [TS.wake]

theorem postFlag {n : Nat} {now : Clock} {ok : Fin n → SOp → Prop} {s : St n Bool Unit SOp SRes} (h : Reach semaphore ok (init n now false) s) : PostFlag s := by
  refine Reach.induct PostFlag ⟨by simp [init], by simp [init], by simp [init]⟩ ?_ h
  rintro s l s' hr ⟨h1, h2, h3⟩ st -
  have hx := reach_excl hr
  have holds : ∀ {t u op r i o}, s.owner = some t → s.th u = .inLock op r i o → u = t := by
    intro t u op r i o ho hu
    have := (hx u).1 (by rw [hu]; rfl)
    rw [ho] at this
    cases this; rfl
  -- a step that leaves the data alone and changes the state of one thread
  have one : ∀ (t : Fin n) (x : TS Unit SOp SRes), (∀ op r i o, x = .inLock op r i o → o = [] ∧ (op = .post → s.data = true)) → (∀ op r o, x = .after op r o → o = []) →
      (∀ u r i o, Function.update s.th t x u = .inLock .post r i o → s.data = true) ∧ (∀ u op r i o, Function.update s.th t x u = .inLock op r i o → o = []) ∧
      ∀ u op r o, Function.update s.th t x u = .after op r o → o = [] := by
    intro t x ha hb
    refine ⟨fun u r i o e => ?_, fun u op r i o e => ?_, fun u op r o e => ?_⟩
    all_goals
      by_cases q : u = t
      · subst q; rw [upd_same] at e
        first | exact (ha _ _ _ _ e).2 rfl | exact (ha _ _ _ _ e).1 | exact hb _ _ _ e
      · rw [upd_ne _ _ _ _ q] at e
        first | exact h1 _ _ _ _ e | exact h2 _ _ _ _ _ e | exact h3 _ _ _ _ e
  cases st with
  | start t op e => exact one t _ nofun nofun
  | lock t op t0 e ho => exact one t _ nofun nofun
  | bodyDone t op t0 d r inner outer e ho hb =>
    have nobody : ∀ u op r i o, s.th u ≠ .inLock op r i o := fun u op' r' i o hu => by
      have := holds ho hu
      subst this
      rw [e] at hu; cases hu
    have hd := s_done hb
    refine ⟨fun u r' i o hu => ?_, fun u op' r' i o hu => ?_, fun u op' r' o hu => ?_⟩
    · by_cases q : u = t
      · subst q; simp only [upd_same] at hu; cases hu
        rcases hd with ⟨-, rfl, -⟩ | ⟨h, -⟩ | ⟨h, -⟩
        · rfl
        · cases h
        · cases h
      · simp only [upd_ne _ _ _ _ q] at hu; exact absurd hu (nobody _ _ _ _ _)
    · by_cases q : u = t
      · subst q; simp only [upd_same] at hu; cases hu
        rcases hd with ⟨-, -, -, -, rfl⟩ | ⟨-, -, -, -, -, rfl⟩ | ⟨-, -, -, -, rfl⟩ <;> rfl
      · simp only [upd_ne _ _ _ _ q] at hu; exact absurd hu (nobody _ _ _ _ _)
    · by_cases q : u = t
      · subst q; simp only [upd_same] at hu; cases hu
      · simp only [upd_ne _ _ _ _ q] at hu; exact h3 _ _ _ _ hu
  | bodyWait t op t0 d c e ho hb =>
    have nobody : ∀ u op r i o, s.th u ≠ .inLock op r i o := fun u op' r' i o hu => by
      have := holds ho hu
      subst this
      rw [e] at hu; cases hu
    refine ⟨fun u r' i o hu => ?_, fun u op' r' i o hu => ?_, fun u op' r' o hu => ?_⟩ <;> by_cases q : u = t
    all_goals first
      | (subst q; simp only [upd_same] at hu; cases hu)
      | (simp only [upd_ne _ _ _ _ q] at hu; first | exact absurd hu (nobody _ _ _ _ _) | exact h3 _ _ _ _ hu)
  | bodySpin t op t0 d e ho hb => exact (s_spin hb).elim
  | spurious t op t0 c e => exact one t _ nofun nofun
  | relock t op t0 e ho => exact one t _ nofun nofun
  | signalIn t op r c inner outer u op' t0 e eu =>
    have hut : u ≠ t := by rintro rfl; rw [e] at eu; cases eu
    have a := one t (.inLock op r inner outer) (fun op2 r2 i o q => by cases q; exact ⟨h2 _ _ _ _ _ e, fun h => by subst h; exact h1 _ _ _ _ e⟩) nofun
    refine ⟨fun v r' i o hv => ?_, fun v op2 r' i o hv => ?_, fun v op2 r' o hv => ?_⟩ <;> by_cases q : v = u
    all_goals first
      | (subst q; simp only [upd_same] at hv; cases hv)
      | (simp only [upd_ne _ _ _ _ q] at hv; first | exact a.1 _ _ _ _ hv | exact a.2.1 _ _ _ _ _ hv | exact a.2.2 _ _ _ _ hv)
  | signalInNone t op r c inner outer e eu =>
    exact one t (.inLock op r inner outer) (fun op2 r2 i o q => by cases q; exact ⟨h2 _ _ _ _ _ e, fun h => by subst h; exact h1 _ _ _ _ e⟩) nofun
  | bcastIn t op r c inner outer e =>
    refine ⟨fun v r' i o hv => ?_, fun v op2 r' i o hv => ?_, fun v op2 r' o hv => ?_⟩ <;> by_cases q : v = t
    · subst q; simp only [upd_same] at hv; cases hv; exact h1 _ _ _ _ e
    · simp only [upd_ne _ _ _ _ q] at hv; exact h1 _ _ _ _ (wake_eq.1 _ _ _ _ hv)
    · subst q; simp only [upd_same] at hv; cases hv; exact h2 _ _ _ _ _ e
    · simp only [upd_ne _ _ _ _ q] at hv; exact h2 _ _ _ _ _ (wake_eq.1 _ _ _ _ hv)
    · subst q; simp only [upd_same] at hv; cases hv
    · simp only [upd_ne _ _ _ _ q] at hv; exact h3 _ _ _ _ (wake_eq.2 _ _ _ hv)
  | unlock t op r outer e ho => exact one t _ nofun fun op2 r2 o q => by cases q; exact h2 _ _ _ _ _ e
  | signalOut t op r c outer u op' t0 e eu => cases h3 _ _ _ _ e
  | signalOutNone t op r c outer e eu => cases h3 _ _ _ _ e
  | bcastOut t op r c outer e => cases h3 _ _ _ _ e
  | ret t op r e => exact one t _ nofun nofun
  | tick now => exact ⟨h1, h2, h3⟩

/-! ### C141 -/

/-- C141 (posts): when as many gets and tries have succeeded as posts have begun, every thread inside a post has released the lock and only has to return. -/
theorem C141_posts_left {n : Nat} {now : Clock} {ok : Fin n → SOp → Prop} {s : St n Bool Unit SOp SRes} (h : Reach semaphore ok (init n now false) s)
    (hall : postsBegun s.tr = successes (effects s.tr)) (t : Fin n) (hp : (s.th t).op? = some .post) : ∃ r, s.th t = .after .post r [] := by
  have hb := C29_at_most_one_success_per_post h
  rw [postsMade_eq] at hb
  have hpend := none_pending (reach_lin h) (by omega) t
  obtain ⟨h1, h2, h3⟩ := postFlag h
  -- every post begun has been made
  have hmade : postsMade s.tr ≤ postsBegun s.tr := by
    unfold postsMade postsBegun
    rw [count_threads _ s.tr, count_threads _ s.tr]
    refine Finset.sum_le_sum fun u _ => ?_
    have := seq_posts (reach_lin h u)
    unfold postsMade postsBegun at this
    omega
  have hf : s.data = false := by
    cases hd : s.data with
    | false => rfl
    | true => rw [hd] at hb; simp at hb; omega
  cases e : s.th t with
  | idle => rw [e] at hp; cases hp
  | entering op t0 => rw [e] at hp hpend; cases hp; exact absurd rfl (hpend _)
  | holding op t0 => rw [e] at hp hpend; cases hp; exact absurd rfl (hpend _)
  | waiting op t0 c => rw [e] at hp hpend; cases hp; exact absurd rfl (hpend _)
  | waking op t0 => rw [e] at hp hpend; cases hp; exact absurd rfl (hpend _)
  | inLock op r i o =>
    rw [e] at hp; cases hp
    rw [h1 _ _ _ _ e] at hf; cases hf
  | after op r o =>
    rw [e] at hp; cases hp
    rw [h3 _ _ _ _ e]
    exact ⟨r, rfl⟩

/-- C141: a semaphore can be destroyed when as many gets and tries have succeeded as posts have begun and no thread is inside a get or try, in particular by the thread whose get took the only
post: as long as nobody begins another call, no thread uses the object any more, whatever the threads inside `post` still do. -/
theorem C141_destroy_partial {n : Nat} {now : Clock} {ok : Fin n → SOp → Prop} {s : St n Bool Unit SOp SRes} (h : Reach semaphore ok (init n now false) s)
    (hall : postsBegun s.tr = successes (effects s.tr)) (hget : ∀ t op, (s.th t).op? = some op → op = .post)
    {s' : St n Bool Unit SOp SRes} (h' : Reach semaphore (fun _ _ => False) s s') {l : Lbl n SOp} {s'' : St n Bool Unit SOp SRes} (st : Step semaphore s' l s'') : ¬ usesObject l := by
  have quiet : ∀ {s' : St n Bool Unit SOp SRes}, Reach semaphore (fun _ _ => False) s s' → ∀ t, s'.th t = .idle ∨ ∃ r, s'.th t = .after .post r [] := by
    intro s' h'
    induction h' with
    | refl =>
      intro t
      cases e : (s.th t).op? with
      | none => cases e' : s.th t <;> rw [e'] at e <;> first | exact .inl rfl | cases e
      | some op =>
        rw [hget t op e] at e
        exact .inr (C141_posts_left h hall t e)
    | step _ st hok ih =>
      intro t
      cases st with
      | start u op e => exact (hok u op rfl).elim
      | ret u op r e =>
        by_cases q : t = u
        · subst q; left; simp
        · simp only [upd_ne _ _ _ _ q]; exact ih t
      | tick now => exact ih t
      | lock u _ _ e | bodyDone u _ _ _ _ _ _ e | bodyWait u _ _ _ _ e | bodySpin u _ _ _ e | spurious u _ _ _ e | relock u _ _ e | signalIn u _ _ _ _ _ _ _ _ e | signalInNone u _ _ _ _ _ e
      | bcastIn u _ _ _ _ _ e | unlock u _ _ _ e | signalOut u _ _ _ _ _ _ _ e | signalOutNone u _ _ _ _ e | bcastOut u _ _ _ _ e =>
        rcases ih u with q | ⟨r, q⟩ <;> rw [e] at q <;> cases q
  have hq := quiet h'
  cases st with
  | start u op e => exact id
  | ret u op r e => exact id
  | tick now => exact id
  | lock u _ _ e | bodyDone u _ _ _ _ _ _ e | bodyWait u _ _ _ _ e | bodySpin u _ _ _ e | spurious u _ _ _ e | relock u _ _ e | signalIn u _ _ _ _ _ _ _ _ e | signalInNone u _ _ _ _ _ e
  | bcastIn u _ _ _ _ _ e | unlock u _ _ _ e | signalOut u _ _ _ _ _ _ _ e | signalOutNone u _ _ _ _ e | bcastOut u _ _ _ _ e =>
    rcases hq u with q | ⟨r, q⟩ <;> rw [e] at q <;> cases q

/-- C141 (single use): after the only post has begun and a get or try has succeeded, the conditions on the posts hold. -/
theorem C141_once {n : Nat} {now : Clock} {ok : Fin n → SOp → Prop} {s : St n Bool Unit SOp SRes} (h : Reach semaphore ok (init n now false) s)
    (hone : postsBegun s.tr ≤ 1) (hgot : 1 ≤ successes (effects s.tr)) : postsBegun s.tr = successes (effects s.tr) := by
  have hb := C29_at_most_one_success_per_post h
  rw [postsMade_eq] at hb
  have hmade : postsMade s.tr ≤ postsBegun s.tr := by
    unfold postsMade postsBegun
    rw [count_threads _ s.tr, count_threads _ s.tr]
    refine Finset.sum_le_sum fun u _ => ?_
    have := seq_posts (reach_lin h u)
    unfold postsMade postsBegun at this
    omega
  omega

/-- C141: an execution meeting the hypotheses: thread 1 sleeps in `get`, thread 0 posts, and has not returned when the get of thread 1 has. -/
example : ∃ s : St 2 Bool Unit SOp SRes, Reach semaphore (fun _ _ => True) (init 2 ⟨5, 0⟩ false) s ∧ postsBegun s.tr = 1 ∧ successes (effects s.tr) = 1 ∧
    s.th 0 = .after .post .unit [] ∧ s.th 1 = .idle := by
  have h : (match exec sbody (init 2 ⟨5, 0⟩ false) ([.start 1 .get, .lock 1, .body 1, .start 0 .post, .lock 0, .body 0, .notify 0 (some 1), .unlock 0, .relock 1, .body 1, .unlock 1, .ret 1]
      : List (Cmd 2 SOp)) with
    | some s => (match s.th 0, s.th 1 with
      | .after .post .unit [], .idle => decide (postsBegun s.tr = 1 ∧ successes (effects s.tr) = 1)
      | _, _ => false)
    | none => false) = true := by decide
  split at h
  · next s hs =>
    split at h
    · next e0 e1 =>
      obtain ⟨h1, h2⟩ := of_decide_eq_true h
      exact ⟨s, exec_reach hs .refl (fun _ _ _ => trivial), h1, h2, e0, e1⟩
    · cases h
  · cases h

/-- C141 is false with two posts and one get: the get has returned, and the second post is still about to lock the mutex. -/
theorem C141_two_posts_refuted : ∃ s : St 3 Bool Unit SOp SRes, Reach semaphore (fun _ _ => True) (init 3 ⟨5, 0⟩ false) s ∧ successes (effects s.tr) = 1 ∧ s.th 2 = .idle ∧
    (∀ t op, (s.th t).op? = some op → op = .post) ∧ ∃ s', Step semaphore s (.lock 1) s' ∧ usesObject (.lock 1 : Lbl 3 SOp) := by
  have h : (match exec sbody (init 3 ⟨5, 0⟩ false) ([.start 0 .post, .start 1 .post, .lock 0, .body 0, .notify 0 none, .unlock 0, .start 2 .get, .lock 2, .body 2, .unlock 2, .ret 2]
      : List (Cmd 3 SOp)) with
    | some s => (match s.th 0, s.th 1, s.th 2 with
      | .after .post .unit [], .entering .post _, .idle => decide (successes (effects s.tr) = 1 ∧ s.owner = none)
      | _, _, _ => false)
    | none => false) = true := by decide
  split at h
  · next s hs =>
    split at h
    · next t0 e0 e1 e2 =>
      obtain ⟨h1, h2⟩ := of_decide_eq_true h
      refine ⟨s, exec_reach hs .refl (fun _ _ _ => trivial), h1, e2, fun t op e => ?_, _, .lock s 1 _ _ e1 h2, trivial⟩
      have : t = 0 ∨ t = 1 ∨ t = 2 := by omega
      rcases this with rfl | rfl | rfl
      · rw [e0] at e; cases e; rfl
      · rw [e1] at e; cases e; rfl
      · rw [e2] at e; cases e
    · cases h
  · cases h

end Verif.Interthread
