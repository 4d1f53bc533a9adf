import Verif.Monitor.Wakeup
import Verif.Monitor.Exec

/-
Model of `Semaphore` (`/repo/Interthread.h:738-774`) and property C29.  Interleaving semantics: `Verif.Monitor`.
-/

namespace Verif.Interthread
open Verif Verif.Monitor

/-- Calls. -/
inductive SOp where
  | post
  | get
  | semtry
  deriving DecidableEq

/-- Results: `semtry` returns a flag. -/
inductive SRes where
  | unit
  | flag (b : Bool)
  deriving DecidableEq

/-- One pass through the critical section; the datum is `mFlag`. -/
def sbody : SOp → Stamp → Clock → Bool → Option (Act Bool Unit SRes)
  /- Interthread.h:752-757: signal inside the lock -/
  | .post, _, _, _ => some (.done true .unit [.one ()] [])
  /- Interthread.h:759-764 -/
  | .get, _, _, f => if f = false then some (.wait f ()) else some (.done false .unit [] [])
  /- Interthread.h:766-772 -/
  | .semtry, _, _, f => some (.done false (.flag f) [] [])

/-- The semaphore as a monitor; initially not posted (Interthread.h:748-750). -/
def semaphore : Mon Bool Unit SOp SRes := Mon.ofFun sbody

theorem s_done {op : SOp} {t0 : Stamp} {nw : Clock} {f f' : Bool} {r : SRes} {i o : List (Sig Unit)} (hb : semaphore.body op t0 nw f (.done f' r i o)) :
    (op = .post ∧ f' = true ∧ r = .unit ∧ i = [.one ()] ∧ o = []) ∨ (op = .get ∧ f = true ∧ f' = false ∧ r = .unit ∧ i = [] ∧ o = []) ∨
    (op = .semtry ∧ f' = false ∧ r = .flag f ∧ i = [] ∧ o = []) := by
  have hb : sbody op t0 nw f = some (.done f' r i o) := hb
  cases op with
  | post => cases hb; exact .inl ⟨rfl, rfl, rfl, rfl, rfl⟩
  | get =>
    simp only [sbody] at hb
    split at hb
    · cases hb
    · next h => cases hb; exact .inr (.inl ⟨rfl, by simpa using h, rfl, rfl, rfl, rfl⟩)
  | semtry => simp only [sbody] at hb; cases hb; exact .inr (.inr ⟨rfl, rfl, rfl, rfl, rfl⟩)

theorem s_wait {op : SOp} {t0 : Stamp} {nw : Clock} {f f' : Bool} {c : Unit} (hb : semaphore.body op t0 nw f (.wait f' c)) : op = .get ∧ f = false ∧ f' = false := by
  have hb : sbody op t0 nw f = some (.wait f' c) := hb
  cases op with
  | post => simp [sbody] at hb
  | get =>
    simp only [sbody] at hb
    split at hb
    · next h => cases hb; exact ⟨rfl, h, h⟩
    · cases hb
  | semtry => simp [sbody] at hb

theorem s_spin {op : SOp} {t0 : Stamp} {nw : Clock} {f f' : Bool} (hb : semaphore.body op t0 nw f (.spin f')) : False := by
  have hb : sbody op t0 nw f = some (.spin f') := hb
  cases op with
  | post => simp [sbody] at hb
  | get =>
    simp only [sbody] at hb
    split at hb <;> cases hb
  | semtry => simp [sbody] at hb

/-- Specification: an ideal binary semaphore; a successful get or try takes the flag away, a post sets it. -/
def semStep (f : Bool) : SOp × SRes → Option Bool
  | (.post, .unit) => some true
  | (.get, .unit) => if f then some false else none
  | (.semtry, .flag b) => if b = f then some false else none
  | _ => none

def semRun (f : Bool) : List (SOp × SRes) → Option Bool
  | [] => some f
  | e :: es => match semStep f e with
    | some f' => semRun f' es
    | none => none

theorem semRun_append (f f' : Bool) (es : List (SOp × SRes)) (e : SOp × SRes) (h : semRun f es = some f') : semRun f (es ++ [e]) = semStep f' e := by
  induction es generalizing f with
  | nil => cases h; simp only [semRun, List.nil_append]; split <;> simp_all
  | cons a es ih =>
    simp only [semRun, List.cons_append] at h ⊢
    cases h1 : semStep f a with
    | none => rw [h1] at h; cases h
    | some q1 => rw [h1] at h; exact ih q1 h

/-- C29: with any number of threads and any interleaving the calls take effect one after the other as on an ideal binary semaphore. -/
theorem C29_linearizable {n : Nat} {now : Clock} {ok : Fin n → SOp → Prop} {s : St n Bool Unit SOp SRes} (h : Reach semaphore ok (init n now false) s) :
    semRun false (effects s.tr) = some s.data := by
  refine data_invariant (fun d es => semRun false es = some d) rfl ?_ ?_ ?_ h
  · rintro t op t0 nw d d' r i o es hk hp hb
    rw [semRun_append _ _ _ _ hp]
    rcases s_done hb with ⟨rfl, rfl, rfl, -⟩ | ⟨rfl, rfl, rfl, rfl, -⟩ | ⟨rfl, rfl, rfl, -⟩
    · rfl
    · rfl
    · simp [semStep]
  · rintro t op t0 nw d d' c es hk hp hb
    obtain ⟨-, h1, h2⟩ := s_wait hb
    rw [hp, h1, h2]
  · rintro t op t0 nw d d' es hk hp hb
    exact (s_spin hb).elim

/-- C29: each call takes effect once, between call and return (per thread: call, effect, return, ...). -/
theorem C29_real_time {n : Nat} {now : Clock} {ok : Fin n → SOp → Prop} {s : St n Bool Unit SOp SRes} (h : Reach semaphore ok (init n now false) s) (t : Fin n) :
    Seq (s.tr.filter fun e => e.thread = t) (s.th t).phase := reach_lin h t

/-- Number of posts among the effects. -/
def posts (es : List (SOp × SRes)) : Nat := es.countP fun e => e.1 = .post

/-- Number of successful gets and tries. -/
def successes (es : List (SOp × SRes)) : Nat := es.countP fun e => e = (.get, .unit) ∨ e = (.semtry, .flag true)

theorem sem_balance (es : List (SOp × SRes)) (f f' : Bool) (h : semRun f es = some f') : successes es + f'.toNat ≤ posts es + f.toNat := by
  induction es generalizing f with
  | nil => cases h; simp [successes, posts]
  | cons e es ih =>
    simp only [semRun] at h
    cases h1 : semStep f e with
    | none => rw [h1] at h; cases h
    | some f1 =>
      rw [h1] at h
      have h2 := ih f1 h
      unfold successes posts at h2 ⊢
      rw [List.countP_cons, List.countP_cons]
      obtain ⟨op, r⟩ := e
      cases op <;> cases r <;> simp only [semStep] at h1 <;> try cases h1
      · simp at h2 ⊢; omega
      · split at h1
        · next hf => cases h1; simp [hf] at h2 ⊢; omega
        · cases h1
      · next b =>
        split at h1
        · next hb => cases h1; subst hb; cases b <;> simp at h2 ⊢ <;> omega
        · cases h1

/-- C29: at most one get or try succeeds per post; what is still posted counts as one that has not been used. -/
theorem C29_at_most_one_success_per_post {n : Nat} {now : Clock} {ok : Fin n → SOp → Prop} {s : St n Bool Unit SOp SRes}
    (h : Reach semaphore ok (init n now false) s) : successes (effects s.tr) + s.data.toNat ≤ posts (effects s.tr) := by
  have := sem_balance _ _ _ (C29_linearizable h)
  simpa using this

theorem semRun_split (es es' : List (SOp × SRes)) (f f' : Bool) (h : semRun f (es ++ es') = some f') : ∃ g, semRun f es = some g ∧ semRun g es' = some f' := by
  induction es generalizing f with
  | nil => exact ⟨f, rfl, h⟩
  | cons e es ih =>
    simp only [semRun, List.cons_append] at h ⊢
    cases h1 : semStep f e with
    | none => rw [h1] at h; cases h
    | some f1 => rw [h1] at h; exact ih f1 h

/-- C29: a post is remembered until it is used: as long as no get or try has taken effect after a post, the semaphore is posted. -/
theorem C29_remembered {n : Nat} {now : Clock} {ok : Fin n → SOp → Prop} {s : St n Bool Unit SOp SRes} (h : Reach semaphore ok (init n now false) s)
    {es es' : List (SOp × SRes)} {r : SRes} (he : effects s.tr = es ++ (.post, r) :: es') (hno : ∀ e ∈ es', e.1 = .post) : s.data = true := by
  have h1 := C29_linearizable h
  rw [he] at h1
  obtain ⟨g, -, h3⟩ := semRun_split _ _ _ _ h1
  have key : ∀ (es' : List (SOp × SRes)) (f : Bool), (∀ e ∈ es', e.1 = .post) → semRun true es' = some f → f = true := by
    intro es'
    induction es' with
    | nil => intro f _ h; cases h; rfl
    | cons e es' ih =>
      intro f hp h
      obtain ⟨op, r⟩ := e
      have : op = .post := hp (op, r) (by simp)
      subst this
      simp only [semRun] at h
      cases r with
      | unit => exact ih f (fun e he => hp e (List.mem_cons_of_mem _ he)) h
      | flag b => simp [semStep] at h
  simp only [semRun] at h3
  cases r with
  | unit => exact key _ _ hno h3
  | flag b => simp [semStep] at h3

/-- C29: no thread is left asleep in `get` while the semaphore is posted and nobody else is active. -/
theorem C29_no_lost_wakeup {n : Nat} {now : Clock} {ok : Fin n → SOp → Prop} {s : St n Bool Unit SOp SRes} (h : Reach semaphore ok (init n now false) s)
    (hs : Settled s) {t : Fin n} {op : SOp} {t0 : Stamp} (hw : s.th t = .waiting op t0 ()) : s.data = false := by
  have key : Covered () (fun op => op = .get) (fun f : Bool => f.toNat) s := by
    refine no_lost_wakeup () _ _ (fun _ => True) (fun _ _ => trivial) ?_ ?_ ?_ h
    · rintro t op t0 nw d d' r i o - - hb
      rcases s_done hb with ⟨rfl, rfl, rfl, rfl, rfl⟩ | ⟨rfl, rfl, rfl, rfl, rfl, rfl⟩ | ⟨rfl, rfl, rfl, rfl, rfl⟩
      · right; simp [ones]
      · right; simp
      · right; simp
    · rintro t op t0 nw d d' c - - hb
      obtain ⟨rfl, rfl, rfl⟩ := s_wait hb
      simp
    · rintro t op t0 nw d d' - - hb
      exact (s_spin hb).elim
  have := settled_covered key hs ⟨t, op, t0, hw⟩
  cases hd : s.data with
  | false => rfl
  | true => rw [hd] at this; cases this

/-- C29: an execution meeting the hypotheses: two posts in a row, one get uses them up (posts are remembered once), the next get sleeps. -/
example : ∃ s : St 2 Bool Unit SOp SRes, Reach semaphore (fun _ _ => True) (init 2 ⟨5, 0⟩ false) s ∧ Settled s ∧ s.th 0 = .waiting .get ⟨⟨5, 0⟩, ⟨5, 0⟩⟩ () ∧
    effects s.tr = [(.post, .unit), (.post, .unit), (.get, .unit)] := by
  have h : (match exec sbody (init 2 ⟨5, 0⟩ false) ([.start 1 .post, .lock 1, .body 1, .notify 1 none, .unlock 1, .ret 1,
      .start 1 .post, .lock 1, .body 1, .notify 1 none, .unlock 1, .ret 1, .start 0 .get, .lock 0, .body 0, .unlock 0, .ret 0, .start 0 .get, .lock 0, .body 0]
      : List (Cmd 2 SOp)) with
    | some s => (match s.th 0, s.th 1 with
      | .waiting .get t0 (), .idle => decide (t0 = ⟨⟨5, 0⟩, ⟨5, 0⟩⟩ ∧ effects s.tr = [(.post, .unit), (.post, .unit), (.get, .unit)])
      | _, _ => false)
    | none => false) = true := by decide
  split at h
  · next s hs =>
    split at h
    · next e0 e1 =>
      obtain ⟨rfl, hd⟩ := of_decide_eq_true h
      refine ⟨s, exec_reach hs .refl (fun _ _ _ => trivial), ?_, e0, hd⟩
      intro t
      have : t = 0 ∨ t = 1 := by omega
      rcases this with rfl | rfl
      · exact .inr ⟨_, _, _, e0⟩
      · exact .inl e1
    · cases h
  · cases h

end Verif.Interthread
