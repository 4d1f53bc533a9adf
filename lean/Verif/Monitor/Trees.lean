import Verif.Monitor.Sections

/-
Property C172, general part: code of sections under a lock as trees of calls on the data (a container of the standard library, a flag), each of which is a step
of its own; between two of them other threads go on (`Verif.Monitor.Sections`).
-/

namespace Verif.Monitor
open Verif

set_option linter.unusedSectionVars false

/-- What can be done with the data in one step: the kinds of accesses, what each answers, and what it may answer and leave on given data.  An access without any
answer on some data is undefined there. -/
structure Prims (σ : Type) where
  P : Type
  Ans : P → Type
  sem : (p : P) → σ → Ans p → σ → Prop

/-- Code: an access, a reading of the clock, a jump to the start of a loop, undefined behaviour, or the end of the pass. -/
inductive Tree {σ : Type} (A : Prims σ) (C R J : Type) where
  | ret (e : Ending C R)
  | acc (p : A.P) (k : A.Ans p → Tree A C R J)
  | time (k : Clock → Tree A C R J)
  | jump (j : J)
  | undef

namespace Tree

variable {n : Nat} {σ C Op R J : Type} {A : Prims σ}

/-- One step of the code; `code` are the loops. -/
def step (code : J → Tree A C R J) (k : Tree A C R J) (now : Clock) (d : σ) (k' : Tree A C R J) (d' : σ) : Prop :=
  match k with
  | .ret _ => False
  | .acc p f => ∃ a, A.sem p d a d' ∧ k' = f a
  | .time f => k' = f now ∧ d' = d
  | .jump j => k' = code j ∧ d' = d
  | .undef => False

/-- The sections of a class given by the code of its calls. -/
def sections (code : J → Tree A C R J) (pass : Op → Stamp → Tree A C R J) : Sections σ C Op R (Tree A C R J) where
  enter := pass
  step := step code
  ends k e := k = .ret e

variable {code : J → Tree A C R J} {pass : Op → Stamp → Tree A C R J}

/-- The code `k`, run in one go from data `d` while the clock shows `now`, ends with `e` and data `d'`. -/
inductive End (code : J → Tree A C R J) (now : Clock) : Tree A C R J → σ → Ending C R → σ → Prop where
  | ret {e d} : End code now (.ret e) d e d
  | acc {p f d a d1 e d'} : A.sem p d a d1 → End code now (f a) d1 e d' → End code now (.acc p f) d e d'
  | time {f d e d'} : End code now (f now) d e d' → End code now (.time f) d e d'
  | jump {j d e d'} : End code now (code j) d e d' → End code now (.jump j) d e d'

theorem end_ret {now : Clock} {e e' : Ending C R} {d d' : σ} : End code now (.ret e) d e' d' ↔ e' = e ∧ d' = d :=
  ⟨fun h => by cases h; exact ⟨rfl, rfl⟩, fun ⟨h1, h2⟩ => by subst h1 h2; exact .ret⟩

theorem end_acc {now : Clock} {p : A.P} {f : A.Ans p → Tree A C R J} {e : Ending C R} {d d' : σ} :
    End code now (.acc p f) d e d' ↔ ∃ a d1, A.sem p d a d1 ∧ End code now (f a) d1 e d' :=
  ⟨fun h => by cases h with | acc h1 h2 => exact ⟨_, _, h1, h2⟩, fun ⟨_, _, h1, h2⟩ => .acc h1 h2⟩

theorem end_time {now : Clock} {f : Clock → Tree A C R J} {e : Ending C R} {d d' : σ} : End code now (.time f) d e d' ↔ End code now (f now) d e d' :=
  ⟨fun h => by cases h with | time h => exact h, .time⟩

theorem end_jump {now : Clock} {j : J} {e : Ending C R} {d d' : σ} : End code now (.jump j) d e d' ↔ End code now (code j) d e d' :=
  ⟨fun h => by cases h with | jump h => exact h, .jump⟩

theorem end_undef {now : Clock} {e : Ending C R} {d d' : σ} : End code now .undef d e d' ↔ False := ⟨fun h => (nomatch h), False.elim⟩

private theorem run_cons {K : Type} {S : Sections σ C Op R K} {now : Clock} {k k1 k2 : K} {d d1 d2 : σ} (hs : S.step k now d k1 d1) (h : S.Run now k1 d1 k2 d2) :
    S.Run now k d k2 d2 := by
  induction h with
  | refl => exact .step .refl hs
  | step _ h ih => exact .step ih h

/-- A step before the end. -/
private theorem end_step {now : Clock} {k k1 : Tree A C R J} {d d1 d' : σ} {e : Ending C R} (hs : step code k now d k1 d1) (h : End code now k1 d1 e d') :
    End code now k d e d' := by
  cases k with
  | ret _ => exact hs.elim
  | acc p f =>
    obtain ⟨a, h1, rfl⟩ := hs
    exact .acc h1 h
  | time f =>
    obtain ⟨rfl, rfl⟩ := hs
    exact .time h
  | jump j =>
    obtain ⟨rfl, rfl⟩ := hs
    exact .jump h
  | undef => exact hs.elim

theorem run_end {now : Clock} {k : Tree A C R J} {d d' : σ} {e : Ending C R} : (sections code pass).Run now k d (.ret e) d' ↔ End code now k d e d' := by
  constructor
  · intro h
    have : ∀ {k' d1}, (sections code pass).Run now k d k' d1 → End code now k' d1 e d' → End code now k d e d' := by
      intro k' d1 h
      induction h with
      | refl => exact id
      | step _ hs ih => exact fun he => ih (end_step hs he)
    exact this h .ret
  · intro h
    induction h with
    | ret => exact .refl
    | acc h1 _ ih => exact run_cons (S := sections code pass) ⟨_, h1, rfl⟩ ih
    | time _ ih => exact run_cons (S := sections code pass) ⟨rfl, rfl⟩ ih
    | jump _ ih => exact run_cons (S := sections code pass) ⟨rfl, rfl⟩ ih

/-- A class whose code ends as `body` says is, with whole passes, the class given by `body`. -/
theorem whole_eq {body : Op → Stamp → Clock → σ → Act σ C R → Prop}
    (h : ∀ op t0 now d a, (∃ e d', End code now (pass op t0) d e d' ∧ a = e.act d') ↔ body op t0 now d a) : (sections code pass).whole = ⟨body⟩ := by
  have : (sections code pass).whole.body = body := by
    funext op t0 now d a
    refine propext (Iff.trans ?_ (h op t0 now d a))
    constructor
    · rintro ⟨k, d', e, hr, hk, rfl⟩
      cases (hk : k = .ret e)
      exact ⟨e, d', run_end.mp hr, rfl⟩
    · rintro ⟨e, d', he, rfl⟩
      exact ⟨_, d', e, run_end.mpr he, rfl, rfl⟩
  cases hw : (sections code pass).whole
  rw [hw] at this
  cases this
  rfl

/-! ### Reading the clock -/

/-- Code that does not read the clock, but for what comes after jumps. -/
def Late : Tree A C R J → Prop
  | .ret _ => True
  | .acc _ f => ∀ a, Late (f a)
  | .time _ => False
  | .jump _ => True
  | .undef => True

/-- Code that reads the clock at most once. -/
def Early : Tree A C R J → Prop
  | .ret _ => True
  | .acc _ f => ∀ a, Early (f a)
  | .time f => ∀ c, Late (f c)
  | .jump _ => True
  | .undef => True

theorem early_of_late : ∀ {k : Tree A C R J}, Late k → Early k
  | .ret _, _ => trivial
  | .acc _ _, h => fun a => early_of_late (h a)
  | .time _, h => h.elim
  | .jump _, _ => trivial
  | .undef, _ => trivial

theorem once (hc : ∀ j, Late (code j)) (hp : ∀ op t0, Early (pass op t0)) : (sections code pass).Once := by
  refine ⟨Early, Late, hp, ?_, ?_⟩
  · intro k now d k' d' he hs
    cases k with
    | ret _ => exact hs.elim
    | acc p f =>
      obtain ⟨a, h1, rfl⟩ := hs
      exact .inr ⟨he a, fun _ => ⟨a, h1, rfl⟩⟩
    | time f =>
      obtain ⟨rfl, rfl⟩ := hs
      exact .inl (he _)
    | jump j =>
      obtain ⟨rfl, rfl⟩ := hs
      exact .inl (hc j)
    | undef => exact hs.elim
  · intro k now d k' d' he hs
    cases k with
    | ret _ => exact hs.elim
    | acc p f =>
      obtain ⟨a, h1, rfl⟩ := hs
      exact ⟨he a, fun _ => ⟨a, h1, rfl⟩⟩
    | time f => exact he.elim
    | jump j =>
      obtain ⟨rfl, rfl⟩ := hs
      exact ⟨hc j, fun _ => ⟨rfl, rfl⟩⟩
    | undef => exact hs.elim

/-! ### Code that is defined and comes to an end -/

/-- However its accesses answer, the code makes only accesses that are defined and comes to its end after finitely many of them, unless `bad` holds. -/
inductive Safe (code : J → Tree A C R J) (bad : Prop) : Tree A C R J → σ → Prop where
  | ret {e d} : Safe code bad (.ret e) d
  | acc {p f d} : (∃ a d', A.sem p d a d') → (∀ a d', A.sem p d a d' → Safe code bad (f a) d') → Safe code bad (.acc p f) d
  | time {f d} : (∀ c, Safe code bad (f c) d) → Safe code bad (.time f) d
  | jump {j d} : Safe code bad (code j) d → Safe code bad (.jump j) d
  | undef {d} : bad → Safe code bad .undef d

theorem Safe.step {bad : Prop} {now : Clock} {k k' : Tree A C R J} {d d' : σ} (h : Safe code bad k d) (hs : Tree.step code k now d k' d') : Safe code bad k' d' := by
  cases h with
  | ret => exact hs.elim
  | acc _ h2 =>
    obtain ⟨a, h1, rfl⟩ := hs
    exact h2 _ _ h1
  | time h =>
    obtain ⟨rfl, rfl⟩ := hs
    exact h _
  | jump h =>
    obtain ⟨rfl, rfl⟩ := hs
    exact h
  | undef _ => exact hs.elim

theorem Safe.run {bad : Prop} {now : Clock} {k k' : Tree A C R J} {d d' : σ} (h : Safe code bad k d) (hr : (sections code pass).Run now k d k' d') :
    Safe code bad k' d' := by
  induction hr with
  | refl => exact h
  | step _ hs ih => exact ih.step hs

/-- It can go on, and comes to its end. -/
theorem Safe.ends {bad : Prop} {k : Tree A C R J} {d : σ} (h : Safe code bad k d) (hb : ¬ bad) (now : Clock) : ∃ e d', End code now k d e d' := by
  induction h with
  | ret => exact ⟨_, _, .ret⟩
  | acc h1 _ ih =>
    obtain ⟨a, d1, h1⟩ := h1
    obtain ⟨e, d', h2⟩ := ih a d1 h1
    exact ⟨e, d', .acc h1 h2⟩
  | time _ ih =>
    obtain ⟨e, d', h2⟩ := ih now
    exact ⟨e, d', .time h2⟩
  | jump _ ih =>
    obtain ⟨e, d', h2⟩ := ih
    exact ⟨e, d', .jump h2⟩
  | undef h => exact absurd h hb

theorem Safe.goes_on {bad : Prop} {k : Tree A C R J} {d : σ} (h : Safe code bad k d) (now : Clock) :
    (∃ e, k = .ret e) ∨ (∃ k' d', Tree.step code k now d k' d') ∨ bad := by
  cases h with
  | ret => exact .inl ⟨_, rfl⟩
  | acc h1 _ =>
    obtain ⟨a, d', h1⟩ := h1
    exact .inr (.inl ⟨_, d', a, h1, rfl⟩)
  | time _ => exact .inr (.inl ⟨_, _, rfl, rfl⟩)
  | jump _ => exact .inr (.inl ⟨_, _, rfl, rfl⟩)
  | undef h => exact .inr (.inr h)

variable [DecidableEq C]

/-- **C172** General part: in every reachable state in which a pass is under way, its code makes only defined accesses from there on and comes to its end, whatever
the other threads do. -/
theorem C172_safe (hc : ∀ j, Late (code j)) (hp : ∀ op t0, Early (pass op t0)) {bad : Op → Stamp → Prop} (hs : ∀ op t0 d, Safe code (bad op t0) (pass op t0) d)
    {ok : Fin n → Op → Prop} {now : Clock} {d : σ} {s : St n (σ × Option (Tree A C R J)) C Op R} (h : Reach (sections code pass).fine ok (init n now (d, none)) s)
    {k : Tree A C R J} (hk : s.data.2 = some k) : ∃ t op t0, s.owner = some t ∧ s.th t = .holding op t0 ∧ Safe code (bad op t0) k s.data.1 := by
  obtain ⟨s', _, m⟩ := C171_indivisible _ (once hc hp) h
  obtain ⟨t, op, t0, ho, he, c, hr⟩ := m.mid k hk
  exact ⟨t, op, t0, ho, he, (hs op t0 _).run hr⟩

end Tree
end Verif.Monitor
