import Verif.Interthread.ProgramSteps

/-
C168: a `Semaphore` (`/repo/Interthread.h:738-774`) used as a lock: one thread starts as its owner, `get` takes it and `post` gives it back. By C166 it is enough to look at indivisible calls.
-/

namespace Verif.Interthread.Lock
open Verif Verif.Monitor Verif.Interthread

/-! ### Programs that use a semaphore as a lock -/

/-- The semaphore (`none`), and any other objects. -/
abbrev kinds {J : Type} (kind : J → Kind) : Option J → Kind
  | none => .sem
  | some j => kind j

abbrev objs {J : Type} (kind : J → Kind) : Option J → Obj := fun i => (kinds kind i).obj

variable {J : Type} [DecidableEq J] {kind : J → Kind} {n : Nat} {L : Type}

/-- The semaphore is used as a lock, with `owns` telling where in its program a thread has it: `first` has it at the beginning (so that its first `post` sets it up); threads that have it may call
`post`, which gives it up; threads that do not may call `get`, which takes it, or `semtry`, which takes it if it says so; nothing else changes that. -/
structure AsLock (P : Prog (objs kind) n L) (l0 : Fin n → L) (owns : Fin n → L → Prop) (first : Fin n) : Prop where
  start : ∀ t, owns t (l0 t) ↔ t = first
  tau : ∀ t l l', P.tau t l l' → (owns t l' ↔ owns t l)
  other : ∀ t l j (op : (kind j).obj.Op) r l', P.call t l (some j) op → P.cont t l (some j) op r l' → (owns t l' ↔ owns t l)
  post : ∀ t l, P.call t l none SOp.post → owns t l ∧ ∀ r l', P.cont t l none SOp.post r l' → ¬ owns t l'
  get : ∀ t l, P.call t l none SOp.get → ¬ owns t l ∧ ∀ r l', P.cont t l none SOp.get r l' → owns t l'
  semtry : ∀ t l, P.call t l none SOp.semtry → ¬ owns t l ∧ ∀ b l', P.cont t l none SOp.semtry (SRes.flag b) l' → (owns t l' ↔ b = true)

/-- A thread has the lock: between calls, or inside a call on another object. -/
def Has (owns : Fin n → L → Prop) (c : CState (objs kind) n L) (t : Fin n) : Prop :=
  ∃ l, owns t l ∧ (c.pos t = .out l ∨ ∃ j op, c.pos t = .inside l (some j) op)

/-! ### With indivisible calls: where the lock is -/

def asF (f : (objs kind none).A) : Bool := f
def asOp (op : (objs kind none).Op) : SOp := op
def asR (r : (objs kind none).R) : SRes := r

def has (owns : L → Prop) : GPos (objs kind) L → Prop
  | .out l => owns l
  | .asked l _ _ => owns l
  | .got l (some _) _ _ => owns l
  | .got _ none op r => asOp op = .get ∨ (asOp op = .semtry ∧ asR r = .flag true)

/-- The lock is with one thread, or with nobody and the semaphore is posted. -/
def At (owns : Fin n → L → Prop) (g : GState (objs kind) n L) (w : Option (Fin n)) : Prop := asF (g.obj none) = w.isNone ∧ ∀ t, has (owns t) (g.pos t) ↔ w = some t

theorem sem_does' {f f' : Bool} {op : SOp} {r : SRes} (h : semStep f (op, r) = some f') :
    (op = .post ∧ r = .unit ∧ f' = true) ∨ (op = .get ∧ r = .unit ∧ f = true ∧ f' = false) ∨ (op = .semtry ∧ r = .flag f ∧ f' = false) := by
  cases op <;> cases r <;> simp only [semStep] at h
  · cases h; exact .inl ⟨rfl, rfl, rfl⟩
  · cases h
  · split at h
    · next e => cases h; exact .inr (.inl ⟨rfl, rfl, e, rfl⟩)
    · cases h
  · cases h
  · cases h
  · split at h
    · next e => cases h; subst e; exact .inr (.inr ⟨rfl, rfl, rfl⟩)
    · cases h

omit [DecidableEq J] in
theorem at_upd {owns : Fin n → L → Prop} {pos : Fin n → GPos (objs kind) L} {t : Fin n} {p : GPos (objs kind) L} {w : Option (Fin n)} (h : ∀ u, has (owns u) (pos u) ↔ w = some u)
    (hp : has (owns t) p ↔ has (owns t) (pos t)) (u : Fin n) : has (owns u) (Function.update pos t p u) ↔ w = some u := by
  by_cases e : u = t
  · subst e; rw [Function.update_self, hp]; exact h u
  · rw [Function.update_of_ne e]; exact h u

theorem at_some {P : Prog (objs kind) n L} {l0 : Fin n → L} {owns : Fin n → L → Prop} {first : Fin n} (hl : AsLock P l0 owns first) {g : GState (objs kind) n L} (h : GReach (objs kind) P l0 g) :
    ∃ w, At owns g w := by
  induction h with
  | refl => exact ⟨some first, rfl, fun t => (hl.start t).trans ⟨fun e => by rw [e], fun e => (Option.some.inj e).symm⟩⟩
  | @step g g' hg st ih =>
    obtain ⟨w, hf, hw⟩ := ih
    have hm := calls_made hg
    cases st with
    | tau t l l' h1 h2 => exact ⟨w, hf, at_upd hw (by rw [h1]; exact hl.tau t l l' h2)⟩
    | ask t l i op h1 h2 => exact ⟨w, hf, at_upd hw (by rw [h1]; exact Iff.rfl)⟩
    | does t l i op r a' h1 h2 =>
      have hc := (hm t).1 l i op h1
      have hwt : owns t l ↔ w = some t := by have := hw t; rw [h1] at this; exact this
      cases i with
      | some j =>
        refine ⟨w, ?_, at_upd hw (by rw [h1]; exact Iff.rfl)⟩
        dsimp only
        rw [Function.update_of_ne (show (none : Option J) ≠ some j from fun e => nomatch e)]
        exact hf
      | none =>
        have move : ∀ (w' : Option (Fin n)), asF a' = w'.isNone → (has (owns t) (.got l none op r) ↔ w' = some t) → (∀ u, u ≠ t → (w = some u ↔ w' = some u)) →
            At owns ({ obj := Function.update g.obj none a', pos := Function.update g.pos t (.got l none op r) } : GState (objs kind) n L) w' := by
          intro w' e1 e2 e3
          refine ⟨?_, fun u => ?_⟩
          · dsimp only; rw [Function.update_self]; exact e1
          · dsimp only
            by_cases e : u = t
            · subst e; rw [Function.update_self]; exact e2
            · rw [Function.update_of_ne e, hw u]; exact e3 u e
        rcases sem_does' (show semStep (asF (g.obj none)) (asOp op, asR r) = some (asF a') from h2) with ⟨eo, er, ef⟩ | ⟨eo, er, ea, ef⟩ | ⟨eo, er, ef⟩
        · cases (show op = SOp.post from eo)
          have ho := hwt.mp (hl.post t l hc).1
          refine ⟨none, move none ef ⟨fun e => ?_, fun e => nomatch e⟩ fun u hu => ⟨fun e => ?_, fun e => nomatch e⟩⟩
          · rcases e with e | ⟨e, -⟩ <;> cases e
          · rw [ho] at e; exact absurd (Option.some.inj e).symm hu
        · cases (show op = SOp.get from eo)
          have hn : w = none := by rw [ea] at hf; cases w with
            | none => rfl
            | some _ => cases hf
          refine ⟨some t, move (some t) ef ⟨fun _ => rfl, fun _ => .inl rfl⟩ fun u hu => ⟨fun e => ?_, fun e => absurd (Option.some.inj e).symm hu⟩⟩
          rw [hn] at e; cases e
        · cases (show op = SOp.semtry from eo)
          cases w with
          | none =>
            have ea : asF (g.obj none) = true := hf
            refine ⟨some t, move (some t) ef ⟨fun _ => rfl, fun _ => .inr ⟨rfl, ?_⟩⟩ fun u hu => ⟨(fun e => nomatch e), fun e => absurd (Option.some.inj e).symm hu⟩⟩
            rw [er, ea]
          | some v =>
            have ea : asF (g.obj none) = false := hf
            refine ⟨some v, move (some v) ef ⟨fun e => ?_, fun e => ?_⟩ fun u hu => Iff.rfl⟩
            · rcases e with e | ⟨-, e⟩
              · cases e
              · rw [er, ea] at e; cases e
            · exact absurd (hwt.mpr e) (hl.semtry t l hc).1
    | cont t l i op r l' h1 h2 =>
      obtain ⟨hc, a, a', hs⟩ := (hm t).2 l i op r h1
      refine ⟨w, hf, at_upd hw ?_⟩
      rw [h1]
      cases i with
      | some j => exact hl.other t l j op r l' hc h2
      | none =>
        rcases sem_does' (show semStep (asF a) (asOp op, asR r) = some (asF a') from hs) with ⟨eo, er, -⟩ | ⟨eo, er, -⟩ | ⟨eo, er, -⟩
        · cases (show op = SOp.post from eo)
          exact ⟨fun e => absurd e ((hl.post t l hc).2 r l' h2), fun e => by rcases e with e | ⟨e, -⟩ <;> cases e⟩
        · cases (show op = SOp.get from eo)
          exact ⟨fun _ => .inl rfl, fun _ => (hl.get t l hc).2 r l' h2⟩
        · cases (show op = SOp.semtry from eo)
          cases (show r = SRes.flag (asF a) from er)
          have := (hl.semtry t l hc).2 _ l' h2
          refine ⟨fun e => .inr ⟨rfl, ?_⟩, fun e => this.mpr ?_⟩
          · show SRes.flag (asF a) = _; rw [this.mp e]
          · rcases e with e | ⟨-, e⟩
            · cases e
            · exact SRes.flag.inj e

omit [DecidableEq J] in
theorem has_gpos {owns : Fin n → L → Prop} {c : CState (objs kind) n L} {t : Fin n} (h : Has owns c t) : has (owns t) (gpos c t) := by
  obtain ⟨l, ho, hp | ⟨j, op, hp⟩⟩ := h
  · simp only [gpos, hp]; exact ho
  · simp only [gpos, hp]; split <;> exact ho

/-! ### The properties -/

/-- C168: whatever the threads do besides and however they are scheduled, two threads never have the lock at the same time; and while the semaphore is posted, none has. -/
theorem C168_exclusive {P : Prog (objs kind) n L} (hP : ∀ t l i op, P.call t l i op → (kinds kind i).obj.ok op) {l0 : Fin n → L} {owns : Fin n → L → Prop} {first : Fin n}
    (hl : AsLock P l0 owns first) {now : Option J → Clock} {c : CState (objs kind) n L} (h : CReach (objs kind) P now l0 c) :
    (∀ t u, Has owns c t → Has owns c u → t = u) ∧ ((c.obj none).data = true → ∀ t, ¬ Has owns c t) := by
  obtain ⟨a, hg, ha⟩ := C166_indivisible (kinds kind) hP h
  obtain ⟨w, hf, hw⟩ := at_some hl hg
  refine ⟨fun t u ht hu => ?_, fun hd t ht => ?_⟩
  · have e1 := (hw t).mp (has_gpos ht)
    have e2 := (hw u).mp (has_gpos hu)
    exact Option.some.inj (e1.symm.trans e2)
  · have e1 := (hw t).mp (has_gpos ht)
    have e2 : (c.obj none).data = asF (a none) := ha none
    have hf : asF (a none) = w.isNone := hf
    rw [e1] at hf
    rw [hd, hf] at e2
    cases e2

/-- C168: the lock is not lost: if the threads come to a standstill with one of them asleep in `get`, another has the lock and has stopped with it, or sleeps in a call on another object. -/
theorem C168_not_lost {P : Prog (objs kind) n L} (hP : ∀ t l i op, P.call t l i op → (kinds kind i).obj.ok op) {l0 : Fin n → L} {owns : Fin n → L → Prop} {first : Fin n}
    (hl : AsLock P l0 owns first) {now : Option J → Clock} {c : CState (objs kind) n L} (h : CReach (objs kind) P now l0 c) (hs : Stuck P c) {t : Fin n} {l : L}
    (ht : c.pos t = .inside l none SOp.get) : ∃ u, u ≠ t ∧ Has owns c u := by
  obtain ⟨a, hg, ha, hst⟩ := C166_no_new_deadlock (kinds kind) hP h hs
  obtain ⟨w, hf, hw⟩ := at_some hl hg
  have hm := calls_made hg
  have hf : asF (a none) = w.isNone := hf
  have hw : ∀ t, has (owns t) (gpos c t) ↔ w = some t := hw
  have waits : ∀ u l i op, c.pos u = .inside l i op → gpos c u = .asked l i op := by
    intro u l i op hp
    rcases hs u with ⟨l1, h1, -⟩ | ⟨l1, i1, op1, t0, cv, h1, h2, -⟩
    · rw [hp] at h1; cases h1
    · rw [hp] at h1; cases h1
      exact gpos_asked hp (by rw [h2]; rfl)
  have hasked := waits t l none SOp.get ht
  have hnot : ¬ owns t l := (hl.get t l ((hm t).1 l none SOp.get hasked)).1
  cases w with
  | none =>
    exfalso
    have ea : a none = true := hf
    refine hst _ (GStep.does (P := P) ⟨a, gpos c⟩ t l none SOp.get SRes.unit false hasked ?_)
    show semStep (a none) (.get, .unit) = some false
    rw [ea]; rfl
  | some u =>
    have hu := (hw u).mpr rfl
    refine ⟨u, ?_, ?_⟩
    · rintro rfl
      rw [hasked] at hu
      exact hnot hu
    · cases hp : c.pos u with
      | out l1 => simp only [gpos, hp] at hu; exact ⟨l1, hu, .inl hp⟩
      | inside l1 i op =>
        have hq := waits u l1 i op hp
        rw [hq] at hu
        cases i with
        | some j => exact ⟨l1, hu, .inr ⟨j, op, hp⟩⟩
        | none =>
          exfalso
          have hc := (hm u).1 l1 none op hq
          cases e : asOp op with
          | post =>
            cases (show op = SOp.post from e)
            exact hst _ (GStep.does (P := P) ⟨a, gpos c⟩ u l1 none SOp.post SRes.unit true hq rfl)
          | get =>
            cases (show op = SOp.get from e)
            exact (hl.get u l1 hc).1 hu
          | semtry =>
            cases (show op = SOp.semtry from e)
            exact (hl.semtry u l1 hc).1 hu

/-! ### Threads that each go through the section a number of times -/

/-- Where a thread is: the one that sets the semaphore up, before that; before its next `get`, after `k` rounds; in the section. -/
inductive Loc where
  | first
  | want (k : Nat)
  | own (k : Nat)

abbrev none' : Empty → Kind := fun e => nomatch e

/-- `for (k = 0; k < R; k++) { sem.get(); sem.post(); }`, the first thread after `sem.post()`. -/
def prog (R n : Nat) : Prog (objs none') n Loc where
  tau := fun _ _ _ => False
  call := fun _ l i => match i with
    | some j => nomatch j
    | none => fun op => match l with
      | .first => asOp op = .post
      | .want k => k < R ∧ asOp op = .get
      | .own _ => asOp op = .post
  cont := fun _ l _ _ _ l' => match l with
    | .first => l' = .want 0
    | .want k => l' = .own k
    | .own k => l' = .want (k + 1)

/-- The first thread sets the semaphore up. -/
def begin (n : Nat) (t : Fin (n + 1)) : Loc := if t = 0 then .first else .want 0

def owns : Loc → Prop
  | .want _ => False
  | _ => True

theorem as_lock (R n : Nat) : AsLock (prog R (n + 1)) (begin n) (fun _ => owns) 0 where
  start := fun t => by
    by_cases e : t = 0
    · subst e; exact ⟨fun _ => rfl, fun _ => trivial⟩
    · have : begin n t = .want 0 := if_neg e
      rw [this]; exact ⟨fun h => h.elim, fun h => absurd h e⟩
  tau := fun _ _ _ h => h.elim
  other := fun _ _ j => nomatch j
  post := fun t l h => by
    cases l with
    | first => exact ⟨trivial, fun r l' e => by cases (show l' = .want 0 from e); exact id⟩
    | want k => cases h.2
    | own k => exact ⟨trivial, fun r l' e => by cases (show l' = .want (k + 1) from e); exact id⟩
  get := fun t l h => by
    cases l with
    | first => cases h
    | want k => exact ⟨id, fun r l' e => by cases (show l' = .own k from e); trivial⟩
    | own k => cases h
  semtry := fun t l h => by
    cases l with
    | first => cases h
    | want k => cases h.2
    | own k => cases h

abbrev GP := GPos (objs none') Loc

def loc : GP → Loc
  | .out l => l
  | .asked l _ _ => l
  | .got l _ _ _ => l

/-- Calls still to come. -/
def left (R : Nat) : GP → Nat
  | .out .first => 2 * R + 1
  | .out (.want k) => 2 * (R - k)
  | .out (.own k) => 2 * (R - k) - 1
  | .asked .first _ _ => 2 * R
  | .asked (.want k) _ _ => 2 * (R - k) - 1
  | .asked (.own k) _ _ => 2 * (R - k) - 2
  | .got .first _ _ _ => 2 * R
  | .got (.want k) _ _ _ => 2 * (R - k) - 1
  | .got (.own k) _ _ _ => 2 * (R - k) - 2

def Within (R : Nat) : GP → Prop
  | .out (.want k) => k ≤ R
  | .out (.own k) => k < R
  | .asked (.want k) _ _ => k < R
  | .asked (.own k) _ _ => k < R
  | .got (.want k) _ _ _ => k < R
  | .got (.own k) _ _ _ => k < R
  | _ => True

theorem within {R n : Nat} {g : GState (objs none') (n + 1) Loc} (h : GReach (objs none') (prog R (n + 1)) (begin n) g) (t : Fin (n + 1)) : Within R (g.pos t) := by
  induction h with
  | refl =>
    show Within R (.out (begin n t))
    simp only [begin]
    split
    · trivial
    · exact Nat.zero_le _
  | @step g g' _ st ih =>
    have keep : ∀ {u : Fin (n + 1)} {p : GP}, (Within R (g.pos u) → Within R p) → Within R (Function.update g.pos u p t) := by
      intro u p hp
      by_cases e : t = u
      · subst e; rw [Function.update_self]; exact hp ih
      · rw [Function.update_of_ne e]; exact ih
    cases st with
    | tau u l l' h1 h2 => exact h2.elim
    | ask u l i op h1 h2 =>
      refine keep fun hu => ?_
      rw [h1] at hu
      cases i with
      | some j => exact nomatch j
      | none => cases l with
        | first => trivial
        | want k => exact h2.1
        | own k => exact hu
    | does u l i op r a' h1 h2 =>
      refine keep fun hu => ?_
      rw [h1] at hu
      cases l <;> exact hu
    | cont u l i op r l' h1 h2 =>
      refine keep fun hu => ?_
      rw [h1] at hu
      cases l with
      | first => cases (show l' = .want 0 from h2); exact Nat.zero_le _
      | want k => cases (show l' = .own k from h2); exact hu
      | own k => cases (show l' = .want (k + 1) from h2); exact hu

theorem sum_upd {α : Type} {m : Nat} (w : α → Nat) (pos : Fin m → α) (t : Fin m) (p : α) : (∑ u, w (Function.update pos t p u)) + w (pos t) = (∑ u, w (pos u)) + w p := by
  have h1 : (∑ u, w (Function.update pos t p u)) = w p + ∑ u ∈ Finset.univ.erase t, w (pos u) := by
    rw [← Finset.add_sum_erase _ _ (Finset.mem_univ t), Function.update_self]
    congr 1
    refine Finset.sum_congr rfl fun u hu => ?_
    rw [Function.update_of_ne (Finset.ne_of_mem_erase hu)]
  have h2 : (∑ u, w (pos u)) = w (pos t) + ∑ u ∈ Finset.univ.erase t, w (pos u) := (Finset.add_sum_erase _ _ (Finset.mem_univ t)).symm
  omega

theorem rounds_measure (R n : Nat) : Measure (objs none') (prog R (n + 1)) (begin n) fun g => ∑ t, left R (g.pos t) := by
  have upd : ∀ (g : GState (objs none') (n + 1) Loc) (t : Fin (n + 1)) (p : GP), left R p ≤ left R (g.pos t) → (∑ u, left R (Function.update g.pos t p u)) ≤ ∑ u, left R (g.pos u) := by
    intro g t p h
    have := sum_upd (left R) g.pos t p
    omega
  have less : ∀ {S S' x y : Nat}, S' + x = S + y → y < x → S' < S := fun h1 h2 => by omega
  have ask : ∀ (g : GState (objs none') (n + 1) Loc) (t : Fin (n + 1)) (l : Loc) (i : Option Empty) (op : (objs none' i).Op), Within R (g.pos t) → g.pos t = .out l → (prog R (n + 1)).call t l i op →
      (∑ u, left R (Function.update g.pos t (.asked l i op) u)) < ∑ u, left R (g.pos u) := by
    intro g t l i op hw h1 h2
    have := sum_upd (left R) g.pos t (.asked l i op)
    rw [h1] at this hw
    cases i with
    | some j => exact nomatch j
    | none => cases l with
      | first => exact less this (Nat.lt_succ_self _)
      | want k => have := h2.1; exact less ‹_› (show 2 * (R - k) - 1 < 2 * (R - k) by omega)
      | own k => have : k < R := hw; exact less ‹_› (show 2 * (R - k) - 2 < 2 * (R - k) - 1 by omega)
  refine ⟨fun g g' hg st => ?_, fun _ _ _ _ _ _ h => h.elim, fun g t l i op hg h1 h2 => ask g t l i op (within hg t) h1 h2⟩
  cases st with
  | tau t l l' h1 h2 => exact h2.elim
  | ask t l i op h1 h2 => exact (ask g t l i op (within hg t) h1 h2).le
  | does t l i op r a' h1 h2 =>
    refine upd g t _ ?_
    rw [h1]
    cases l <;> exact Nat.le_refl _
  | cont t l i op r l' h1 h2 =>
    refine upd g t _ ?_
    rw [h1]
    cases l with
    | first => cases (show l' = .want 0 from h2); exact Nat.le_refl _
    | want k => cases (show l' = .own k from h2); exact Nat.le_refl _
    | own k => cases (show l' = .want (k + 1) from h2); simp only [left]; omega

theorem rounds_ok (R n : Nat) : ∀ t l i op, (prog R n).call t l i op → (kinds none' i).obj.ok op ∧ (kinds none' i).obj.untimed op := by
  intro t l i op _
  cases i with
  | some j => exact nomatch j
  | none => exact ⟨trivial, trivial⟩

/-- C168: any number of threads that each go through the section `R` times all do so, whichever of those that can go on do so: they do not go on for ever, and when none can go on each has made its
`R` rounds. -/
theorem C168_rounds (R n : Nat) {now : Option Empty → Clock} {c : CState (objs none') (n + 1) Loc} (h : CReach (objs none') (prog R (n + 1)) now (begin n) c) :
    (∃ N, ∀ c' k, Goes (objs none') (prog R (n + 1)) c c' k → k ≤ N) ∧ (∃ c' k, Goes (objs none') (prog R (n + 1)) c c' k ∧ Rest (prog R (n + 1)) c') ∧
      ∀ c' k, Goes (objs none') (prog R (n + 1)) c c' k → Rest (prog R (n + 1)) c' → ∀ t, c'.pos t = .out (.want R) := by
  have hP := rounds_ok R (n + 1)
  have hP1 : ∀ t l i op, (prog R (n + 1)).call t l i op → (kinds none' i).obj.ok op := fun t l i op h => (hP t l i op h).1
  have hR : (prog R (n + 1)).Ready := by
    intro t l i op r a a' _ _
    cases l <;> exact ⟨_, rfl⟩
  obtain ⟨h1, h2, h3⟩ := C166_comes_to_rest (kinds none') (fun i => match i with | none => trivial) hP hR (rounds_measure R n) h
  refine ⟨h1, h2, fun c' k hg hr t => ?_⟩
  obtain ⟨hs, a, hga, -, hst⟩ := h3 c' k hg hr
  have hreach := hg.reach h
  have out : ∀ u l, c'.pos u = .out l → l = .want R := by
    intro u l hp
    have hw : Within R (gpos c' u) := within hga u
    simp only [gpos, hp] at hw
    rcases hs u with ⟨l1, e1, -, e2⟩ | ⟨l1, i1, op1, t0, cv, e1, -⟩
    · rw [hp] at e1; cases e1
      cases l with
      | first => exact absurd rfl (e2 none SOp.post)
      | want k =>
        by_cases q : k < R
        · exact absurd ⟨q, rfl⟩ (e2 none SOp.get)
        · have : k ≤ R := hw
          rw [show k = R by omega]
      | own k => exact absurd rfl (e2 none SOp.post)
    · rw [hp] at e1; cases e1
  cases hp : c'.pos t with
  | out l => rw [out t l hp]
  | inside l i op =>
    exfalso
    cases i with
    | some j => exact nomatch j
    | none =>
      have hq : gpos c' t = .asked l none op := by
        rcases hs t with ⟨l1, e1, -⟩ | ⟨l1, i1, op1, t0, cv, e1, e2, -⟩
        · rw [hp] at e1; cases e1
        · rw [hp] at e1; cases e1; exact gpos_asked hp (by rw [e2]; rfl)
      cases e : asOp op with
      | post =>
        cases (show op = SOp.post from e)
        exact hst _ (GStep.does (P := prog R (n + 1)) ⟨a, gpos c'⟩ t l none SOp.post SRes.unit true hq rfl)
      | semtry =>
        cases (show op = SOp.semtry from e)
        exact hst _ (GStep.does (P := prog R (n + 1)) ⟨a, gpos c'⟩ t l none SOp.semtry (SRes.flag (asF (a none))) false hq (if_pos rfl))
      | get =>
        cases (show op = SOp.get from e)
        obtain ⟨u, -, l1, ho, hu | ⟨j, -⟩⟩ := C168_not_lost hP1 (as_lock R n) hreach hs hp
        · rw [out u l1 hu] at ho; exact ho
        · exact nomatch j

theorem out_of_gpos {n : Nat} {c : CState (objs none') n Loc} {t : Fin n} {l : Loc} (e : gpos c t = .out l) : c.pos t = .out l := by
  cases hp : c.pos t with
  | out l1 => simp only [gpos, hp] at e; cases e; rfl
  | inside l1 i op =>
    simp only [gpos, hp] at e
    split at e <;> cases e

theorem rounds_plain (R n : Nat) : ∀ t l i op, (prog R n).call t l i op → (kinds none' i).obj.ok op ∧ (kinds none' i).plain op := by
  intro t l i op _
  cases i with
  | some j => exact nomatch j
  | none => exact ⟨trivial, trivial⟩

/-- Of two threads the second gets the lock after the first has set it up. -/
example (now : Option Empty → Clock) : ∃ c, CReach (objs none') (prog 1 2) now (begin 1) c ∧ Has (fun _ => owns) c 1 := by
  have h0 : GReach (objs none') (prog 1 2) (begin 1) (.start _ (begin 1)) := .refl
  have h1 := h0.step (GStep.ask (P := prog 1 2) _ 0 Loc.first none SOp.post (by rfl) (by exact rfl))
  have h2 := h1.step (GStep.does (P := prog 1 2) _ 0 Loc.first none SOp.post SRes.unit true (by rfl) (by rfl))
  have h3 := h2.step (GStep.ask (P := prog 1 2) _ 1 (Loc.want 0) none SOp.get (by rfl) (by exact ⟨by decide, rfl⟩))
  have h4 := h3.step (GStep.does (P := prog 1 2) _ 1 (Loc.want 0) none SOp.get SRes.unit false (by rfl) (by rfl))
  have h5 := h4.step (GStep.cont (P := prog 1 2) _ 1 (Loc.want 0) none SOp.get SRes.unit (Loc.own 0) (by rfl) (by exact rfl))
  obtain ⟨c, hc, hp, -⟩ := C166_exact (kinds none') (rounds_plain 1 2) now h5
  exact ⟨c, hc, .own 0, trivial, .inl (out_of_gpos ((congrFun hp 1).trans rfl))⟩

/-- If two threads set it up, both can be in the section: the second `post` comes after the first has been taken. -/
example (now : Option Empty → Clock) : ∃ c, CReach (objs none') (prog 1 2) now (fun _ => .first) c ∧ ∀ t, Has (fun _ => owns) c t ∧ c.pos t = .out (.own 0) := by
  have h0 : GReach (objs none') (prog 1 2) (fun _ => .first) (.start _ fun _ => .first) := .refl
  have h1 := h0.step (GStep.ask (P := prog 1 2) _ 0 Loc.first none SOp.post (by rfl) (by exact rfl))
  have h2 := h1.step (GStep.does (P := prog 1 2) _ 0 Loc.first none SOp.post SRes.unit true (by rfl) (by rfl))
  have h3 := h2.step (GStep.cont (P := prog 1 2) _ 0 Loc.first none SOp.post SRes.unit (Loc.want 0) (by rfl) (by exact rfl))
  have h4 := h3.step (GStep.ask (P := prog 1 2) _ 0 (Loc.want 0) none SOp.get (by rfl) (by exact ⟨by decide, rfl⟩))
  have h5 := h4.step (GStep.does (P := prog 1 2) _ 0 (Loc.want 0) none SOp.get SRes.unit false (by rfl) (by rfl))
  have h6 := h5.step (GStep.cont (P := prog 1 2) _ 0 (Loc.want 0) none SOp.get SRes.unit (Loc.own 0) (by rfl) (by exact rfl))
  have h7 := h6.step (GStep.ask (P := prog 1 2) _ 1 Loc.first none SOp.post (by rfl) (by exact rfl))
  have h8 := h7.step (GStep.does (P := prog 1 2) _ 1 Loc.first none SOp.post SRes.unit true (by rfl) (by rfl))
  have h9 := h8.step (GStep.cont (P := prog 1 2) _ 1 Loc.first none SOp.post SRes.unit (Loc.want 0) (by rfl) (by exact rfl))
  have h10 := h9.step (GStep.ask (P := prog 1 2) _ 1 (Loc.want 0) none SOp.get (by rfl) (by exact ⟨by decide, rfl⟩))
  have h11 := h10.step (GStep.does (P := prog 1 2) _ 1 (Loc.want 0) none SOp.get SRes.unit false (by rfl) (by rfl))
  have h12 := h11.step (GStep.cont (P := prog 1 2) _ 1 (Loc.want 0) none SOp.get SRes.unit (Loc.own 0) (by rfl) (by exact rfl))
  obtain ⟨c, hc, hp, -⟩ := C166_exact (kinds none') (rounds_plain 1 2) now h12
  have e : ∀ t : Fin 2, c.pos t = .out (.own 0) := by
    intro t
    refine out_of_gpos ((congrFun hp t).trans ?_)
    fin_cases t <;> rfl
  exact ⟨c, hc, fun t => ⟨⟨.own 0, trivial, .inl (e t)⟩, e t⟩⟩

end Verif.Interthread.Lock
