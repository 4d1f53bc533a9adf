import Verif.Monitor.Exec

/-
Programs whose threads share several objects of the classes of `/repo/Interthread.h`, each a monitor (`Verif.Monitor.Model`), and the same programs with every call done in one indivisible step.
-/

namespace Verif.Monitor

/-- A shared object: the monitor with its data at the start, the calls that callers may make, and a description of what single calls do: `sp a op r a'` says that `op`, made on an object in the
(abstract) state `a`, may return `r` and leave `a'`. `abs` relates data and abstract states; `untimed` singles out calls without time limit. -/
structure Obj where
  σ : Type
  C : Type
  Op : Type
  R : Type
  A : Type
  dec : DecidableEq C
  M : Mon σ C Op R
  d0 : σ
  a0 : A
  ok : Op → Prop
  untimed : Op → Prop
  sp : A → Op → R → A → Prop
  abs : σ → A → Prop

attribute [instance] Obj.dec

/-- One pass through the critical section does what the description says. -/
structure Obj.Good (O : Obj) : Prop where
  start : O.abs O.d0 O.a0
  done : ∀ {op t0 now d d' r i o a}, O.ok op → O.abs d a → O.M.body op t0 now d (.done d' r i o) → ∃ a', O.sp a op r a' ∧ O.abs d' a'
  wait : ∀ {op t0 now d d' c a}, O.ok op → O.abs d a → O.M.body op t0 now d (.wait d' c) → O.abs d' a
  spin : ∀ {op t0 now d d' a}, O.ok op → O.abs d a → O.M.body op t0 now d (.spin d') → O.abs d' a

/-- When all threads sleep or are outside, those that sleep could not do their call. -/
def Obj.Wakes (O : Obj) (n : Nat) : Prop :=
  ∀ now (s : St n O.σ O.C O.Op O.R), Reach O.M (fun _ op => O.ok op) (init n now O.d0) s → Settled s → ∀ t op t0 c, s.th t = .waiting op t0 c → O.untimed op →
    ∀ a, O.abs s.data a → ∀ r a', ¬ O.sp a op r a'

variable {I : Type} [DecidableEq I] {n : Nat} {L : Type}

/-- What the threads do, where `L` is what a thread knows (its local variables and where it is in its program): steps of its own, the calls it may make next, and how it goes on with the result. -/
structure Prog (O : I → Obj) (n : Nat) (L : Type) where
  tau : Fin n → L → L → Prop
  call : Fin n → L → (i : I) → (O i).Op → Prop
  cont : Fin n → L → (i : I) → (O i).Op → (O i).R → L → Prop

/-! ### The program with the real objects -/

/-- Where a thread is: between calls, or inside a call on object `i`. -/
inductive Pos (O : I → Obj) (L : Type) where
  | out (l : L)
  | inside (l : L) (i : I) (op : (O i).Op)

structure CState (O : I → Obj) (n : Nat) (L : Type) where
  obj : (i : I) → St n (O i).σ (O i).C (O i).Op (O i).R
  pos : Fin n → Pos O L

/-- Steps: of a thread on its own; a call; any step inside an object; a return. Simplification: each object has its own reading of the clock. -/
inductive CStep (O : I → Obj) (P : Prog O n L) : CState O n L → CState O n L → Prop where
  | tau (c t l l') : c.pos t = .out l → P.tau t l l' → CStep O P c { c with pos := Function.update c.pos t (.out l') }
  | call (c t l i op s') : c.pos t = .out l → P.call t l i op → Step (O i).M (c.obj i) (.start t op) s' →
      CStep O P c { obj := Function.update c.obj i s', pos := Function.update c.pos t (.inside l i op) }
  | inner (c i lb s') : Step (O i).M (c.obj i) lb s' → (∀ t op, lb ≠ .start t op) → (∀ t, lb ≠ .ret t) → CStep O P c { c with obj := Function.update c.obj i s' }
  | ret (c t l i op r l' s') : c.pos t = .inside l i op → (c.obj i).th t = .after op r [] → Step (O i).M (c.obj i) (.ret t) s' → P.cont t l i op r l' →
      CStep O P c { obj := Function.update c.obj i s', pos := Function.update c.pos t (.out l') }

/-- The objects as constructed, the threads at the beginning of their programs. -/
def CState.start (O : I → Obj) (now : I → Clock) (l0 : Fin n → L) : CState O n L := ⟨fun i => init n (now i) (O i).d0, fun t => .out (l0 t)⟩

inductive CReach (O : I → Obj) (P : Prog O n L) (now : I → Clock) (l0 : Fin n → L) : CState O n L → Prop where
  | refl : CReach O P now l0 (.start O now l0)
  | step {c c'} : CReach O P now l0 c → CStep O P c c' → CReach O P now l0 c'

/-! ### The program with indivisible calls -/

/-- Where a thread is: between calls, decided on a call, or the call is done with result `r`. -/
inductive GPos (O : I → Obj) (L : Type) where
  | out (l : L)
  | asked (l : L) (i : I) (op : (O i).Op)
  | got (l : L) (i : I) (op : (O i).Op) (r : (O i).R)

structure GState (O : I → Obj) (n : Nat) (L : Type) where
  obj : (i : I) → (O i).A
  pos : Fin n → GPos O L

/-- Steps: a call is done in one step, `does`, when the description allows it. -/
inductive GStep (O : I → Obj) (P : Prog O n L) : GState O n L → GState O n L → Prop where
  | tau (g t l l') : g.pos t = .out l → P.tau t l l' → GStep O P g { g with pos := Function.update g.pos t (.out l') }
  | ask (g t l i op) : g.pos t = .out l → P.call t l i op → GStep O P g { g with pos := Function.update g.pos t (.asked l i op) }
  | does (g t l i op r a') : g.pos t = .asked l i op → (O i).sp (g.obj i) op r a' →
      GStep O P g { obj := Function.update g.obj i a', pos := Function.update g.pos t (.got l i op r) }
  | cont (g t l i op r l') : g.pos t = .got l i op r → P.cont t l i op r l' → GStep O P g { g with pos := Function.update g.pos t (.out l') }

def GState.start (O : I → Obj) (l0 : Fin n → L) : GState O n L := ⟨fun i => (O i).a0, fun t => .out (l0 t)⟩

inductive GReach (O : I → Obj) (P : Prog O n L) (l0 : Fin n → L) : GState O n L → Prop where
  | refl : GReach O P l0 (.start O l0)
  | step {g g'} : GReach O P l0 g → GStep O P g g' → GReach O P l0 g'

/-! ### What a step of an object looks like from outside -/

/-- The call a thread is inside of, and its result once it has taken effect. -/
def view {C Op R : Type} : TS C Op R → Option (Op × Option R)
  | .idle => none
  | .entering op _ => some (op, none)
  | .holding op _ => some (op, none)
  | .waiting op _ _ => some (op, none)
  | .waking op _ => some (op, none)
  | .inLock op r _ _ => some (op, some r)
  | .after op r _ => some (op, some r)

theorem view_wake {C Op R : Type} [DecidableEq C] (c : C) (x : TS C Op R) : view (x.wake c) = view x := by
  cases x with
  | waiting op t0 c' =>
    simp only [TS.wake]
    split <;> rfl
  | _ => rfl

theorem view_idle {C Op R : Type} {x : TS C Op R} (h : view x = none) : x = .idle := by
  cases x <;> first | rfl | cases h

section
variable {σ C Op R : Type} [DecidableEq C]

/-- What a step may change: nothing; one look that ends in waiting or looking again; a call begins; it takes effect; it returns. -/
theorem step_view {M : Mon σ C Op R} {s s' : St n σ C Op R} {l : Lbl n Op} (st : Step M s l s') :
    (s'.data = s.data ∧ (∀ u, view (s'.th u) = view (s.th u)) ∧ (∀ t op, l ≠ .start t op) ∧ ∀ t, l ≠ .ret t) ∨
    (∃ t op t0, l = .body t ∧ view (s.th t) = some (op, none) ∧ (∀ u, view (s'.th u) = view (s.th u)) ∧ ((∃ c, M.body op t0 s.now s.data (.wait s'.data c)) ∨ M.body op t0 s.now s.data (.spin s'.data))) ∨
    (∃ t op, l = .start t op ∧ s'.data = s.data ∧ view (s.th t) = none ∧ view (s'.th t) = some (op, none) ∧ ∀ u, u ≠ t → view (s'.th u) = view (s.th u)) ∨
    (∃ t op r, l = .body t ∧ view (s.th t) = some (op, none) ∧ view (s'.th t) = some (op, some r) ∧ (∀ u, u ≠ t → view (s'.th u) = view (s.th u)) ∧
      ∃ t0 i o, M.body op t0 s.now s.data (.done s'.data r i o)) ∨
    (∃ t op r, l = .ret t ∧ s'.data = s.data ∧ s.th t = .after op r [] ∧ view (s'.th t) = none ∧ ∀ u, u ≠ t → view (s'.th u) = view (s.th u)) := by
  have one : ∀ (t : Fin n) (x : TS C Op R), view x = view (s.th t) → ∀ u, view (Function.update s.th t x u) = view (s.th u) := by
    intro t x hx u
    by_cases q : u = t
    · subst q; rw [upd_same]; exact hx
    · rw [upd_ne _ _ _ _ q]
  have ne : ∀ (t : Fin n) (x : TS C Op R) (u : Fin n), u ≠ t → view (Function.update s.th t x u) = view (s.th u) := by
    intro t x u q
    rw [upd_ne _ _ _ _ q]
  have two : ∀ (t u : Fin n) (x y : TS C Op R), view x = view (s.th t) → view y = view (s.th u) →
      ∀ v, view (Function.update (Function.update s.th t x) u y v) = view (s.th v) := by
    intro t u x y hx hy v
    by_cases q : v = u
    · subst q; rw [upd_same]; exact hy
    · rw [upd_ne _ _ _ _ q]; exact one t x hx v
  cases st with
  | start t op e => exact .inr (.inr (.inl ⟨t, op, rfl, rfl, (by rw [e]; rfl), (by dsimp only; rw [upd_same]; rfl), ne t _⟩))
  | lock t op t0 e ho => exact .inl ⟨rfl, one t _ (by rw [e]; rfl), (by intro _ _ h; cases h), (by intro _ h; cases h)⟩
  | bodyDone t op t0 d r i o e ho hb => exact .inr (.inr (.inr (.inl ⟨t, op, r, rfl, (by rw [e]; rfl), (by dsimp only; rw [upd_same]; rfl), ne t _, t0, i, o, hb⟩)))
  | bodyWait t op t0 d c e ho hb => exact .inr (.inl ⟨t, op, t0, rfl, (by rw [e]; rfl), one t _ (by rw [e]; rfl), .inl ⟨c, hb⟩⟩)
  | bodySpin t op t0 d e ho hb => exact .inr (.inl ⟨t, op, t0, rfl, (by rw [e]; rfl), fun _ => rfl, .inr hb⟩)
  | spurious t op t0 c e => exact .inl ⟨rfl, one t _ (by rw [e]; rfl), (by intro _ _ h; cases h), (by intro _ h; cases h)⟩
  | relock t op t0 e ho => exact .inl ⟨rfl, one t _ (by rw [e]; rfl), (by intro _ _ h; cases h), (by intro _ h; cases h)⟩
  | signalIn t op r c i o u op' t0 e e' => exact .inl ⟨rfl, two t u _ _ (by rw [e]; rfl) (by rw [e']; rfl), (by intro _ _ h; cases h), (by intro _ h; cases h)⟩
  | signalInNone t op r c i o e hn => exact .inl ⟨rfl, one t _ (by rw [e]; rfl), (by intro _ _ h; cases h), (by intro _ h; cases h)⟩
  | bcastIn t op r c i o e =>
    refine .inl ⟨rfl, fun u => ?_, (by intro _ _ h; cases h), (by intro _ h; cases h)⟩
    dsimp only
    by_cases q : u = t
    · subst q; rw [upd_same, e]; rfl
    · rw [upd_ne _ _ _ _ q, view_wake]
  | unlock t op r o e ho => exact .inl ⟨rfl, one t _ (by rw [e]; rfl), (by intro _ _ h; cases h), (by intro _ h; cases h)⟩
  | signalOut t op r c o u op' t0 e e' => exact .inl ⟨rfl, two t u _ _ (by rw [e]; rfl) (by rw [e']; rfl), (by intro _ _ h; cases h), (by intro _ h; cases h)⟩
  | signalOutNone t op r c o e hn => exact .inl ⟨rfl, one t _ (by rw [e]; rfl), (by intro _ _ h; cases h), (by intro _ h; cases h)⟩
  | bcastOut t op r c o e =>
    refine .inl ⟨rfl, fun u => ?_, (by intro _ _ h; cases h), (by intro _ h; cases h)⟩
    dsimp only
    by_cases q : u = t
    · subst q; rw [upd_same, e]; rfl
    · rw [upd_ne _ _ _ _ q, view_wake]
  | ret t op r e => exact .inr (.inr (.inr (.inr ⟨t, op, r, rfl, rfl, e, (by dsimp only; rw [upd_same]; rfl), ne t _⟩)))
  | tick now => exact .inl ⟨rfl, fun _ => rfl, (by intro _ _ h; cases h), (by intro _ h; cases h)⟩

omit [DecidableEq C] in
theorem allOk_view {ok : Fin n → Op → Prop} {s : St n σ C Op R} (h : AllOk ok s.th) {t : Fin n} {op : Op} {r : Option R} (e : view (s.th t) = some (op, r)) : ok t op := by
  refine h t op ?_
  cases h1 : s.th t <;> rw [h1] at e <;> simp only [view] at e <;> cases e <;> rfl
end

/-! ### Where a thread is, with the real objects and with indivisible calls -/

/-- A thread with the real objects seen as one with indivisible calls: its call counts as done when it has taken effect. -/
def gpos {O : I → Obj} (c : CState O n L) (t : Fin n) : GPos O L :=
  match c.pos t with
  | .out l => .out l
  | .inside l i op => match view ((c.obj i).th t) with
    | some (_, some r) => .got l i op r
    | _ => .asked l i op

/-- A thread is inside one object at most, and in the call its program made. -/
def Inside {O : I → Obj} (c : CState O n L) : Prop :=
  ∀ t, (∀ l, c.pos t = .out l → ∀ i, view ((c.obj i).th t) = none) ∧
    ∀ l i op, c.pos t = .inside l i op → (∃ r, view ((c.obj i).th t) = some (op, r)) ∧ ∀ j, j ≠ i → view ((c.obj j).th t) = none

theorem each {O : I → Obj} {P : Prog O n L} (hP : ∀ t l i op, P.call t l i op → (O i).ok op) {now : I → Clock} {l0 : Fin n → L} {c : CState O n L} (h : CReach O P now l0 c) (i : I) :
    Reach (O i).M (fun _ op => (O i).ok op) (init n (now i) (O i).d0) (c.obj i) := by
  induction h with
  | refl => exact .refl
  | @step c c' h st ih =>
    have upd : ∀ (k : I) (lb : Lbl n (O k).Op) (s' : St n (O k).σ (O k).C (O k).Op (O k).R), Step (O k).M (c.obj k) lb s' → (∀ t op, lb = .start t op → (O k).ok op) →
        Reach (O i).M (fun _ op => (O i).ok op) (init n (now i) (O i).d0) (Function.update c.obj k s' i) := by
      intro k lb s' st hl
      by_cases e : i = k
      · subst e; rw [Function.update_self]; exact ih.step st hl
      · rw [Function.update_of_ne e]; exact ih
    cases st with
    | tau => exact ih
    | call t l k op s' h1 h2 h3 => exact upd k _ s' h3 (fun _ _ e => by cases e; exact hP _ _ _ _ h2)
    | inner k lb s' h1 h2 h3 => exact upd k _ s' h1 (fun t op e => absurd e (h2 t op))
    | ret t l k op r l' s' h1 h2 h3 h4 => exact upd k _ s' h3 (fun _ _ e => by cases e)

theorem upd_view {O : I → Obj} {c : CState O n L} {k : I} {s' : St n (O k).σ (O k).C (O k).Op (O k).R} {u : Fin n} (h : view (s'.th u) = view ((c.obj k).th u)) (i : I) :
    view ((Function.update c.obj k s' i).th u) = view ((c.obj i).th u) := by
  by_cases e : i = k
  · subst e; rw [Function.update_self]; exact h
  · rw [Function.update_of_ne e]

omit [DecidableEq I] in
/-- What happens to a thread when nothing changes about it. -/
theorem same_thread {O : I → Obj} {c c' : CState O n L} {u : Fin n} (hp : c'.pos u = c.pos u) (hv : ∀ i, view ((c'.obj i).th u) = view ((c.obj i).th u)) :
    gpos c' u = gpos c u ∧
      (((∀ l, c.pos u = .out l → ∀ i, view ((c.obj i).th u) = none) ∧
        ∀ l i op, c.pos u = .inside l i op → (∃ r, view ((c.obj i).th u) = some (op, r)) ∧ ∀ j, j ≠ i → view ((c.obj j).th u) = none) →
      (∀ l, c'.pos u = .out l → ∀ i, view ((c'.obj i).th u) = none) ∧
        ∀ l i op, c'.pos u = .inside l i op → (∃ r, view ((c'.obj i).th u) = some (op, r)) ∧ ∀ j, j ≠ i → view ((c'.obj j).th u) = none) := by
  refine ⟨?_, fun ⟨h1, h2⟩ => ⟨fun l e i => ?_, fun l i op e => ?_⟩⟩
  · simp only [gpos, hp, hv]
  · rw [hv]; exact h1 l (hp ▸ e) i
  · obtain ⟨⟨r, h3⟩, h4⟩ := h2 l i op (hp ▸ e)
    exact ⟨⟨r, by rw [hv]; exact h3⟩, fun j hj => by rw [hv]; exact h4 j hj⟩

omit [DecidableEq I] in
/-- What `gpos` is for a thread inside. -/
theorem gpos_asked {O : I → Obj} {c : CState O n L} {t : Fin n} {l : L} {i : I} {op : (O i).Op} (hp : c.pos t = .inside l i op) (hv : view ((c.obj i).th t) = some (op, none)) :
    gpos c t = .asked l i op := by
  simp only [gpos, hp, hv]

omit [DecidableEq I] in
theorem gpos_got {O : I → Obj} {c : CState O n L} {t : Fin n} {l : L} {i : I} {op : (O i).Op} {r : (O i).R} (hp : c.pos t = .inside l i op) (hv : view ((c.obj i).th t) = some (op, some r)) :
    gpos c t = .got l i op r := by
  simp only [gpos, hp, hv]

/-- A simulation: the step with the real objects is a step, or none, with indivisible calls. -/
theorem simulate {O : I → Obj} (hO : ∀ i, (O i).Good) {P : Prog O n L} (hP : ∀ t l i op, P.call t l i op → (O i).ok op) {now : I → Clock} {l0 : Fin n → L} {c c' : CState O n L}
    (hr : CReach O P now l0 c) (hin : Inside c) {a : (i : I) → (O i).A} (ha : ∀ i, (O i).abs (c.obj i).data (a i)) (st : CStep O P c c') :
    Inside c' ∧ ∃ a' : (i : I) → (O i).A, (∀ i, (O i).abs (c'.obj i).data (a' i)) ∧
      ((a' = a ∧ gpos c' = gpos c) ∨ GStep O P ⟨a, gpos c⟩ ⟨a', gpos c'⟩) := by
  have keep : ∀ (k : I) (s' : St n (O k).σ (O k).C (O k).Op (O k).R), s'.data = (c.obj k).data → ∀ i, (O i).abs (Function.update c.obj k s' i).data (a i) := by
    intro k s' h i
    by_cases e : i = k
    · subst e; rw [Function.update_self, h]; exact ha i
    · rw [Function.update_of_ne e]; exact ha i
  have all : ∀ c' : CState O n L, c'.pos = c.pos → (∀ i u, view ((c'.obj i).th u) = view ((c.obj i).th u)) → Inside c' ∧ gpos c' = gpos c := fun c' hp hv =>
    ⟨fun u => (same_thread (congrFun hp u) (fun i => hv i u)).2 (hin u), funext fun u => (same_thread (congrFun hp u) (fun i => hv i u)).1⟩
  -- a thread `t` goes to `p`, all others stay
  have oth : ∀ (c' : CState O n L) (t : Fin n), (∀ u, u ≠ t → c'.pos u = c.pos u) → (∀ i u, u ≠ t → view ((c'.obj i).th u) = view ((c.obj i).th u)) → ∀ p, gpos c' t = p →
      gpos c' = Function.update (gpos c) t p := by
    intro c' t hp hv p ht
    funext u
    by_cases e : u = t
    · subst e; rw [upd_same]; exact ht
    · rw [upd_ne _ _ _ _ e]; exact (same_thread (hp u e) (fun i => hv i u e)).1
  have ins : ∀ (c' : CState O n L) (t : Fin n), (∀ u, u ≠ t → c'.pos u = c.pos u) → (∀ i u, u ≠ t → view ((c'.obj i).th u) = view ((c.obj i).th u)) →
      ((∀ l, c'.pos t = .out l → ∀ i, view ((c'.obj i).th t) = none) ∧
        ∀ l i op, c'.pos t = .inside l i op → (∃ r, view ((c'.obj i).th t) = some (op, r)) ∧ ∀ j, j ≠ i → view ((c'.obj j).th t) = none) → Inside c' := by
    intro c' t hp hv ht u
    by_cases e : u = t
    · subst e; exact ht
    · exact (same_thread (hp u e) (fun i => hv i u e)).2 (hin u)
  cases st with
  | tau t l l' h1 h2 =>
    refine ⟨ins _ t (fun u hu => upd_ne _ _ _ _ hu) (fun _ _ _ => rfl) ⟨fun l1 e i => (hin t).1 l h1 i, fun l1 i op e => ?_⟩, a, ha, .inr ?_⟩
    · dsimp only at e; rw [upd_same] at e; cases e
    · rw [oth { c with pos := Function.update c.pos t (.out l') } t (fun u hu => upd_ne _ _ _ _ hu) (fun _ _ _ => rfl) (.out l') (by simp only [gpos, upd_same])]
      exact .tau _ t l l' (by simp only [gpos, h1]) h2
  | call t l k op s' h1 h2 h3 =>
    rcases step_view h3 with ⟨-, -, h, -⟩ | ⟨_, _, _, h, -⟩ | ⟨t', op', h, hd, hv0, hv1, hv2⟩ | ⟨_, _, _, h, -⟩ | ⟨_, _, _, h, -⟩
    · exact absurd rfl (h t op)
    · cases h
    · cases h
      have hv : ∀ i u, u ≠ t → view ((Function.update c.obj k s' i).th u) = view ((c.obj i).th u) := fun i u hu => upd_view (hv2 u hu) i
      refine ⟨ins _ t (fun u hu => upd_ne _ _ _ _ hu) hv ⟨fun l1 e => ?_, fun l1 i op1 e => ?_⟩, a, keep k s' hd, .inr ?_⟩
      · dsimp only at e; rw [upd_same] at e; cases e
      · dsimp only at e; rw [upd_same] at e; cases e
        refine ⟨⟨none, by dsimp only; rw [Function.update_self]; exact hv1⟩, fun j hj => ?_⟩
        dsimp only
        rw [Function.update_of_ne hj]
        exact (hin t).1 l h1 j
      · rw [oth { obj := Function.update c.obj k s', pos := Function.update c.pos t (.inside l k op) } t (fun u hu => upd_ne _ _ _ _ hu) hv (.asked l k op)
          (gpos_asked (upd_same _ _ _) (by dsimp only; rw [Function.update_self]; exact hv1))]
        exact .ask _ t l k op (by simp only [gpos, h1]) h2
    · cases h
    · cases h
  | inner k lb s' h1 h2 h3 =>
    have hk := each hP hr k
    rcases step_view h1 with ⟨hd, hv, -, -⟩ | ⟨t, op, t0, -, hv0, hv, hb⟩ | ⟨t', op', h, -⟩ | ⟨t, op, r, -, hv0, hv1, hv2, t0, i, o, hb⟩ | ⟨t', op', r, h, -⟩
    · obtain ⟨e1, e2⟩ := all { c with obj := Function.update c.obj k s' } rfl (fun i u => upd_view (hv u) i)
      exact ⟨e1, a, keep k s' hd, .inl ⟨rfl, e2⟩⟩
    · obtain ⟨e1, e2⟩ := all { c with obj := Function.update c.obj k s' } rfl (fun i u => upd_view (hv u) i)
      refine ⟨e1, a, fun i => ?_, .inl ⟨rfl, e2⟩⟩
      by_cases e : i = k
      · subst e
        dsimp only
        rw [Function.update_self]
        have hok : (O i).ok op := allOk_view (reach_ok hk) hv0
        rcases hb with ⟨cv, hb⟩ | hb
        · exact (hO i).wait hok (ha i) hb
        · exact (hO i).spin hok (ha i) hb
      · dsimp only; rw [Function.update_of_ne e]; exact ha i
    · exact absurd h (h2 t' op')
    · have hok : (O k).ok op := allOk_view (reach_ok hk) hv0
      obtain ⟨ak, hs, hak⟩ := (hO k).done hok (ha k) hb
      have hv : ∀ i u, u ≠ t → view ((Function.update c.obj k s' i).th u) = view ((c.obj i).th u) := fun i u hu => upd_view (hv2 u hu) i
      -- the thread is inside this object, in this call
      cases hp : c.pos t with
      | out l => have := (hin t).1 l hp k; rw [hv0] at this; cases this
      | inside l i' op' =>
        obtain ⟨⟨r', h5⟩, h6⟩ := (hin t).2 l i' op' hp
        by_cases e : k = i'
        · subst e
          rw [hv0] at h5
          cases h5
          refine ⟨ins _ t (fun _ _ => rfl) hv ⟨fun l1 e => ?_, fun l1 i op1 e => ?_⟩, Function.update a k ak, fun i => ?_, .inr ?_⟩
          · dsimp only at e; rw [hp] at e; cases e
          · dsimp only at e
            rw [hp] at e
            cases e
            refine ⟨⟨some r, by dsimp only; rw [Function.update_self]; exact hv1⟩, fun j hj => ?_⟩
            dsimp only
            rw [Function.update_of_ne hj]
            exact h6 j hj
          · by_cases e : i = k
            · subst e; dsimp only; rw [Function.update_self, Function.update_self]; exact hak
            · dsimp only; rw [Function.update_of_ne e, Function.update_of_ne e]; exact ha i
          · rw [oth { c with obj := Function.update c.obj k s' } t (fun _ _ => rfl) hv (.got l k op r) (gpos_got hp (by dsimp only; rw [Function.update_self]; exact hv1))]
            exact .does _ t l k op r ak (gpos_asked hp hv0) hs
        · have := h6 k e; rw [hv0] at this; cases this
    · exact absurd h (h3 t')
  | ret t l k op r l' s' h1 h2 h3 h4 =>
    rcases step_view h3 with ⟨-, -, -, h⟩ | ⟨_, _, _, h, -⟩ | ⟨_, _, h, -⟩ | ⟨_, _, _, h, -⟩ | ⟨t', op', r', h, hd, e, hv1, hv2⟩
    · exact absurd rfl (h t)
    · cases h
    · cases h
    · cases h
    · cases h
      have hv : ∀ i u, u ≠ t → view ((Function.update c.obj k s' i).th u) = view ((c.obj i).th u) := fun i u hu => upd_view (hv2 u hu) i
      refine ⟨ins _ t (fun u hu => upd_ne _ _ _ _ hu) hv ⟨fun l1 e i => ?_, fun l1 i op1 e => ?_⟩, a, keep k s' hd, .inr ?_⟩
      · dsimp only
        by_cases e : i = k
        · subst e; rw [Function.update_self]; exact hv1
        · rw [Function.update_of_ne e]; exact ((hin t).2 l k op h1).2 i e
      · dsimp only at e; rw [upd_same] at e; cases e
      · rw [oth { obj := Function.update c.obj k s', pos := Function.update c.pos t (.out l') } t (fun u hu => upd_ne _ _ _ _ hu) hv (.out l') (by simp only [gpos, upd_same])]
        exact .cont _ t l k op r l' (gpos_got h1 (by rw [h2]; rfl)) h4

theorem refines {O : I → Obj} (hO : ∀ i, (O i).Good) {P : Prog O n L} (hP : ∀ t l i op, P.call t l i op → (O i).ok op) {now : I → Clock} {l0 : Fin n → L} {c : CState O n L}
    (h : CReach O P now l0 c) :
    Inside c ∧ ∃ a : (i : I) → (O i).A, GReach O P l0 ⟨a, gpos c⟩ ∧ ∀ i, (O i).abs (c.obj i).data (a i) := by
  induction h with
  | refl => exact ⟨fun t => ⟨fun _ _ _ => rfl, fun _ _ _ e => nomatch e⟩, fun i => (O i).a0, .refl, fun i => (hO i).start⟩
  | @step c c' h st ih =>
    obtain ⟨hin, a, hg, ha⟩ := ih
    obtain ⟨hin', a', ha', ⟨rfl, e⟩ | st'⟩ := simulate hO hP h hin ha st
    · exact ⟨hin', a', by rw [e]; exact hg, ha'⟩
    · exact ⟨hin', a', hg.step st', ha'⟩

/-- Nobody can go on: every thread is outside of calls and its program has nothing to do next, or it sleeps in a call without time limit. -/
def Stuck {O : I → Obj} (P : Prog O n L) (c : CState O n L) : Prop :=
  ∀ t, (∃ l, c.pos t = .out l ∧ (∀ l', ¬ P.tau t l l') ∧ ∀ i op, ¬ P.call t l i op) ∨
    ∃ l i op t0 cv, c.pos t = .inside l i op ∧ (c.obj i).th t = .waiting op t0 cv ∧ (O i).untimed op

/-- Then nobody could go on with indivisible calls either. -/
theorem stuck {O : I → Obj} (hO : ∀ i, (O i).Good) (hW : ∀ i, (O i).Wakes n) {P : Prog O n L} (hP : ∀ t l i op, P.call t l i op → (O i).ok op) {now : I → Clock} {l0 : Fin n → L}
    {c : CState O n L} (h : CReach O P now l0 c) (hs : Stuck P c) :
    ∃ a : (i : I) → (O i).A, GReach O P l0 ⟨a, gpos c⟩ ∧ (∀ i, (O i).abs (c.obj i).data (a i)) ∧ ∀ g', ¬ GStep O P ⟨a, gpos c⟩ g' := by
  obtain ⟨hin, a, hg, ha⟩ := refines hO hP h
  refine ⟨a, hg, ha, fun g' st => ?_⟩
  have hset : ∀ i, Settled (c.obj i) := by
    intro i t
    rcases hs t with ⟨l, e, -⟩ | ⟨l, i', op, t0, cv, e, ew, -⟩
    · exact .inl (view_idle ((hin t).1 l e i))
    · by_cases q : i = i'
      · subst q; exact .inr ⟨op, t0, cv, ew⟩
      · exact .inl (view_idle (((hin t).2 l i' op e).2 i q))
  have pos : ∀ t, (∃ l, gpos c t = .out l ∧ (∀ l', ¬ P.tau t l l') ∧ ∀ i op, ¬ P.call t l i op) ∨
      ∃ l i op, gpos c t = .asked l i op ∧ ∀ r a', ¬ (O i).sp (a i) op r a' := by
    intro t
    rcases hs t with ⟨l, e, h1, h2⟩ | ⟨l, i, op, t0, cv, e, ew, hu⟩
    · exact .inl ⟨l, by simp only [gpos, e], h1, h2⟩
    · exact .inr ⟨l, i, op, gpos_asked e (by rw [ew]; rfl), hW i _ _ (each hP h i) (hset i) t op t0 cv ew hu (a i) (ha i)⟩
  cases st with
  | tau t l l' h1 h2 =>
    dsimp only at h1
    rcases pos t with ⟨l1, e, h3, h4⟩ | ⟨l1, i, op, e, h3⟩
    · rw [e] at h1; cases h1; exact h3 _ h2
    · rw [e] at h1; cases h1
  | ask t l i op h1 h2 =>
    dsimp only at h1
    rcases pos t with ⟨l1, e, h3, h4⟩ | ⟨l1, i, op, e, h3⟩
    · rw [e] at h1; cases h1; exact h4 _ _ h2
    · rw [e] at h1; cases h1
  | does t l i op r a' h1 h2 =>
    dsimp only at h1
    rcases pos t with ⟨l1, e, h3, h4⟩ | ⟨l1, i, op, e, h3⟩
    · rw [e] at h1; cases h1
    · rw [e] at h1; cases h1; exact h3 _ _ h2
  | cont t l i op r l' h1 h2 =>
    dsimp only at h1
    rcases pos t with ⟨l1, e, h3, h4⟩ | ⟨l1, i, op, e, h3⟩
    · rw [e] at h1; cases h1
    · rw [e] at h1; cases h1

/-! ### The other direction: everything the program can do with indivisible calls it can do with the real objects -/

/-- A call of the kind `K` that the description allows can be done in one pass, at any time. -/
def Obj.Can (O : Obj) (K : O.Op → Prop) : Prop :=
  ∀ op a r a' d t0 now, K op → O.sp a op r a' → O.abs d a → ∃ d' i o, O.M.body op t0 now d (.done d' r i o) ∧ O.abs d' a'

section
variable {σ C Op R : Type} [DecidableEq C]

/-- Steps that neither begin nor end a call. -/
inductive Inner (M : Mon σ C Op R) (s : St n σ C Op R) : St n σ C Op R → Prop where
  | refl : Inner M s s
  | step {s' s'' l} : Inner M s s' → Step M s' l s'' → (∀ t op, l ≠ .start t op) → (∀ t, l ≠ .ret t) → Inner M s s''

theorem notify_in {M : Mon σ C Op R} {s0 : St n σ C Op R} {t : Fin n} {op : Op} {r : R} {o : List (Sig C)} (i : List (Sig C)) (s : St n σ C Op R) (h : Inner M s0 s)
    (he : s.th t = .inLock op r i o) (hw : ∀ u op' t0 c, s.th u ≠ .waiting op' t0 c) :
    Inner M s0 { s with th := Function.update s.th t (.inLock op r [] o) } := by
  induction i generalizing s with
  | nil => rw [show Function.update s.th t (.inLock op r [] o) = s.th by rw [← he]; exact Function.update_eq_self _ _]; exact h
  | cons g i ih =>
    have hs : Inner M s0 { s with th := Function.update s.th t (.inLock op r i o) } := by
      cases g with
      | one c => exact h.step (.signalInNone s t op r c i o he (fun u op' t0 => hw u op' t0 c)) (by intro _ _ h; cases h) (by intro _ h; cases h)
      | all c =>
        have hk : (fun u => (s.th u).wake c) = s.th := by
          funext u
          cases e : s.th u with
          | waiting op' t0 c' => exact absurd e (hw u op' t0 c')
          | _ => rfl
        have := h.step (.bcastIn s t op r c i o he) (by intro _ _ h; cases h) (by intro _ h; cases h)
        rw [hk] at this
        exact this
    have := ih _ hs (by dsimp only; rw [upd_same]) (fun u op' t0 c => by
      dsimp only
      by_cases q : u = t
      · subst q; rw [upd_same]; exact fun h => nomatch h
      · rw [upd_ne _ _ _ _ q]; exact hw u op' t0 c)
    simpa only [Function.update_idem] using this

theorem notify_out {M : Mon σ C Op R} {s0 : St n σ C Op R} {t : Fin n} {op : Op} {r : R} (o : List (Sig C)) (s : St n σ C Op R) (h : Inner M s0 s)
    (he : s.th t = .after op r o) (hw : ∀ u op' t0 c, s.th u ≠ .waiting op' t0 c) :
    Inner M s0 { s with th := Function.update s.th t (.after op r []) } := by
  induction o generalizing s with
  | nil => rw [show Function.update s.th t (.after op r []) = s.th by rw [← he]; exact Function.update_eq_self _ _]; exact h
  | cons g o ih =>
    have hs : Inner M s0 { s with th := Function.update s.th t (.after op r o) } := by
      cases g with
      | one c => exact h.step (.signalOutNone s t op r c o he (fun u op' t0 => hw u op' t0 c)) (by intro _ _ h; cases h) (by intro _ h; cases h)
      | all c =>
        have hk : (fun u => (s.th u).wake c) = s.th := by
          funext u
          cases e : s.th u with
          | waiting op' t0 c' => exact absurd e (hw u op' t0 c')
          | _ => rfl
        have := h.step (.bcastOut s t op r c o he) (by intro _ _ h; cases h) (by intro _ h; cases h)
        rw [hk] at this
        exact this
    have := ih _ hs (by dsimp only; rw [upd_same]) (fun u op' t0 c => by
      dsimp only
      by_cases q : u = t
      · subst q; rw [upd_same]; exact fun h => nomatch h
      · rw [upd_ne _ _ _ _ q]; exact hw u op' t0 c)
    simpa only [Function.update_idem] using this

/-- A thread that finds the lock free, while nobody sleeps, can run through its call up to the return. -/
theorem run_through {M : Mon σ C Op R} {s : St n σ C Op R} {t : Fin n} {op : Op} {t0 : Stamp} (he : s.th t = .entering op t0) (ho : s.owner = none)
    (hw : ∀ u op' t0 c, s.th u ≠ .waiting op' t0 c) {d : σ} {r : R} {i o : List (Sig C)} (hb : M.body op ⟨t0.call, s.now⟩ s.now s.data (.done d r i o)) :
    ∃ s', Inner M s s' ∧ s'.data = d ∧ s'.owner = none ∧ s'.th = Function.update s.th t (.after op r []) := by
  have hw' : ∀ x : TS C Op R, (∀ op' t0 c, x ≠ .waiting op' t0 c) → ∀ u op' t0 c, Function.update s.th t x u ≠ .waiting op' t0 c := by
    intro x hx u op' t0 c
    by_cases q : u = t
    · subst q; rw [upd_same]; exact hx op' t0 c
    · rw [upd_ne _ _ _ _ q]; exact hw u op' t0 c
  have h1 : Inner M s _ := Inner.refl.step (.lock s t op t0 he ho) (by intro _ _ h; cases h) (by intro _ h; cases h)
  have h2 : Inner M s _ := h1.step (.bodyDone _ t op ⟨t0.call, s.now⟩ d r i o (by dsimp only; rw [upd_same]) rfl hb) (by intro _ _ h; cases h) (by intro _ h; cases h)
  dsimp only at h2
  rw [Function.update_idem] at h2
  have h3 := notify_in (t := t) (op := op) (r := r) (o := o) i _ h2 (by dsimp only; rw [upd_same]) (hw' _ (fun _ _ _ h => nomatch h))
  dsimp only at h3
  rw [Function.update_idem] at h3
  have h4 := h3.step (.unlock _ t op r o (by dsimp only; rw [upd_same]) rfl) (by intro _ _ h; cases h) (by intro _ h; cases h)
  dsimp only at h4
  rw [Function.update_idem] at h4
  have h5 := notify_out (t := t) (op := op) (r := r) o _ h4 (by dsimp only; rw [upd_same]) (hw' _ (fun _ _ _ h => nomatch h))
  dsimp only at h5
  rw [Function.update_idem] at h5
  exact ⟨_, h5, rfl, rfl, rfl⟩
end

theorem CReach.inner {O : I → Obj} {P : Prog O n L} {now : I → Clock} {l0 : Fin n → L} {c : CState O n L} (h : CReach O P now l0 c) (i : I) {s' : St n (O i).σ (O i).C (O i).Op (O i).R}
    (hi : Inner (O i).M (c.obj i) s') : CReach O P now l0 { c with obj := Function.update c.obj i s' } := by
  induction hi with
  | refl => rw [Function.update_eq_self]; exact h
  | @step s1 s2 lb _ st h1 h2 ih =>
    have := ih.step (.inner _ i lb s2 (by dsimp only; rw [Function.update_self]; exact st) h1 h2)
    dsimp only at this
    rw [Function.update_idem] at this
    exact this

/-- States in which nobody is in the middle of a call: each thread is outside, about to lock, or about to return. -/
def Calm {O : I → Obj} (c : CState O n L) : Prop :=
  ∀ i, (c.obj i).owner = none ∧ ∀ t, (c.obj i).th t = .idle ∨ (∃ op t0, (c.obj i).th t = .entering op t0) ∨ ∃ op r, (c.obj i).th t = .after op r []

theorem exact {O : I → Obj} (hO : ∀ i, (O i).Good) (K : (i : I) → (O i).Op → Prop) (hC : ∀ i, (O i).Can (K i)) {P : Prog O n L} (hP : ∀ t l i op, P.call t l i op → (O i).ok op ∧ K i op)
    (now : I → Clock) {l0 : Fin n → L} {g : GState O n L} (h : GReach O P l0 g) :
    ∃ c, CReach O P now l0 c ∧ gpos c = g.pos ∧ (∀ i, (O i).abs (c.obj i).data (g.obj i)) ∧ Calm c ∧ ∀ t l i op, g.pos t = .asked l i op → K i op := by
  induction h with
  | refl => exact ⟨_, .refl, rfl, fun i => (hO i).start, fun i => ⟨rfl, fun t => .inl rfl⟩, fun _ _ _ _ e => nomatch e⟩
  | @step g g' h st ih =>
    obtain ⟨c, hc, hg, ha, hcalm, hK⟩ := ih
    have hin := (refines hO (fun t l i op h => (hP t l i op h).1) hc).1
    -- a thread `t` goes to `p`, all others stay
    have oth : ∀ (c' : CState O n L) (t : Fin n), (∀ u, u ≠ t → c'.pos u = c.pos u) → (∀ i u, u ≠ t → view ((c'.obj i).th u) = view ((c.obj i).th u)) → ∀ p, gpos c' t = p →
        gpos c' = Function.update g.pos t p := by
      intro c' t hp hv p ht
      rw [← hg]
      funext u
      by_cases e : u = t
      · subst e; rw [upd_same]; exact ht
      · rw [upd_ne _ _ _ _ e]; exact (same_thread (hp u e) (fun i => hv i u e)).1
    have pos_out : ∀ t l, g.pos t = .out l → c.pos t = .out l := by
      intro t l e
      rw [← hg] at e
      cases hp : c.pos t with
      | out l1 => simp only [gpos, hp] at e; cases e; rfl
      | inside l1 i op =>
        simp only [gpos, hp] at e
        split at e <;> cases e
    have keepK : ∀ (t : Fin n) (p : GPos O L), (∀ l i op, p = .asked l i op → K i op) → ∀ u l i op, Function.update g.pos t p u = .asked l i op → K i op := by
      intro t p hp u l i op e
      by_cases q : u = t
      · subst q; rw [upd_same] at e; exact hp l i op e
      · rw [upd_ne _ _ _ _ q] at e; exact hK u l i op e
    cases st with
    | tau t l l' h1 h2 =>
      refine ⟨_, hc.step (.tau c t l l' (pos_out t l h1) h2), ?_, ha, hcalm, keepK t _ (fun _ _ _ e => nomatch e)⟩
      exact oth { c with pos := Function.update c.pos t (.out l') } t (fun u hu => upd_ne _ _ _ _ hu) (fun _ _ _ => rfl) _ (by simp only [gpos, upd_same])
    | ask t l k op h1 h2 =>
      have hp := pos_out t l h1
      have hidle := view_idle ((hin t).1 l hp k)
      refine ⟨_, hc.step (.call c t l k op _ hp h2 (.start _ t op hidle)), ?_, fun i => ?_, fun i => ?_, keepK t _ (fun _ _ _ e => by cases e; exact (hP _ _ _ _ h2).2)⟩
      · refine oth { obj := Function.update c.obj k _, pos := Function.update c.pos t (.inside l k op) } t (fun u hu => upd_ne _ _ _ _ hu) (fun i u hu => upd_view ?_ i) _
          (gpos_asked (upd_same _ _ _) ?_)
        · dsimp only; rw [upd_ne _ _ _ _ hu]
        · dsimp only; rw [Function.update_self]; dsimp only; rw [upd_same]; rfl
      · dsimp only
        by_cases e : i = k
        · subst e; rw [Function.update_self]; exact ha i
        · rw [Function.update_of_ne e]; exact ha i
      · dsimp only
        by_cases e : i = k
        · subst e
          rw [Function.update_self]
          refine ⟨(hcalm i).1, fun u => ?_⟩
          dsimp only
          by_cases q : u = t
          · subst q; rw [upd_same]; exact .inr (.inl ⟨_, _, rfl⟩)
          · rw [upd_ne _ _ _ _ q]; exact (hcalm i).2 u
        · rw [Function.update_of_ne e]; exact hcalm i
    | does t l k op r a' h1 h2 =>
      have hKop := hK t l k op h1
      have hp : c.pos t = .inside l k op ∧ view ((c.obj k).th t) = some (op, none) := by
        rw [← hg] at h1
        cases hp : c.pos t with
        | out l1 => simp only [gpos, hp] at h1; cases h1
        | inside l1 i1 op1 =>
          obtain ⟨⟨r1, hv⟩, -⟩ := (hin t).2 l1 i1 op1 hp
          cases r1 with
          | none => rw [gpos_asked hp hv] at h1; cases h1; exact ⟨rfl, hv⟩
          | some r1 => rw [gpos_got hp hv] at h1; cases h1
      obtain ⟨hp, hv⟩ := hp
      have hent : ∃ t0, (c.obj k).th t = .entering op t0 := by
        rcases (hcalm k).2 t with e | ⟨op1, t0, e⟩ | ⟨op1, r1, e⟩
        · rw [e] at hv; cases hv
        · rw [e] at hv; cases hv; exact ⟨t0, e⟩
        · rw [e] at hv; cases hv
      obtain ⟨t0, he⟩ := hent
      obtain ⟨d', _, _, hb, had⟩ := hC k op (g.obj k) r a' (c.obj k).data ⟨t0.call, (c.obj k).now⟩ (c.obj k).now hKop h2 (ha k)
      obtain ⟨s', hs, e1, e2, e3⟩ := run_through he (hcalm k).1 (fun u op' t0 cv e => by
        rcases (hcalm k).2 u with e' | ⟨_, _, e'⟩ | ⟨_, _, e'⟩ <;> rw [e'] at e <;> cases e) hb
      refine ⟨_, hc.inner k hs, ?_, fun i => ?_, fun i => ?_, keepK t _ (fun _ _ _ e => nomatch e)⟩
      · refine oth { c with obj := Function.update c.obj k s' } t (fun _ _ => rfl) (fun i u hu => upd_view ?_ i) _ (gpos_got hp ?_)
        · rw [e3, upd_ne _ _ _ _ hu]
        · dsimp only; rw [Function.update_self, e3, upd_same]; rfl
      · dsimp only
        by_cases e : i = k
        · subst e; rw [Function.update_self, Function.update_self, e1]; exact had
        · rw [Function.update_of_ne e, Function.update_of_ne e]; exact ha i
      · dsimp only
        by_cases e : i = k
        · subst e
          rw [Function.update_self]
          refine ⟨e2, fun u => ?_⟩
          rw [e3]
          by_cases q : u = t
          · subst q; rw [upd_same]; exact .inr (.inr ⟨_, _, rfl⟩)
          · rw [upd_ne _ _ _ _ q]; exact (hcalm i).2 u
        · rw [Function.update_of_ne e]; exact hcalm i
    | cont t l k op r l' h1 h2 =>
      have hp : c.pos t = .inside l k op ∧ view ((c.obj k).th t) = some (op, some r) := by
        rw [← hg] at h1
        cases hp : c.pos t with
        | out l1 => simp only [gpos, hp] at h1; cases h1
        | inside l1 i1 op1 =>
          obtain ⟨⟨r1, hv⟩, -⟩ := (hin t).2 l1 i1 op1 hp
          cases r1 with
          | none => rw [gpos_asked hp hv] at h1; cases h1
          | some r1 => rw [gpos_got hp hv] at h1; cases h1; exact ⟨rfl, hv⟩
      obtain ⟨hp, hv⟩ := hp
      have haft : (c.obj k).th t = .after op r [] := by
        rcases (hcalm k).2 t with e | ⟨op1, t0, e⟩ | ⟨op1, r1, e⟩
        · rw [e] at hv; cases hv
        · rw [e] at hv; cases hv
        · rw [e] at hv; cases hv; exact e
      refine ⟨_, hc.step (.ret c t l k op r l' _ hp haft (.ret _ t op r haft) h2), ?_, fun i => ?_, fun i => ?_, keepK t _ (fun _ _ _ e => nomatch e)⟩
      · refine oth { obj := Function.update c.obj k _, pos := Function.update c.pos t (.out l') } t (fun u hu => upd_ne _ _ _ _ hu) (fun i u hu => upd_view ?_ i) _ (by simp only [gpos, upd_same])
        dsimp only; rw [upd_ne _ _ _ _ hu]
      · dsimp only
        by_cases e : i = k
        · subst e; rw [Function.update_self]; exact ha i
        · rw [Function.update_of_ne e]; exact ha i
      · dsimp only
        by_cases e : i = k
        · subst e
          rw [Function.update_self]
          refine ⟨(hcalm i).1, fun u => ?_⟩
          dsimp only
          by_cases q : u = t
          · subst q; rw [upd_same]; exact .inl rfl
          · rw [upd_ne _ _ _ _ q]; exact (hcalm i).2 u
        · rw [Function.update_of_ne e]; exact hcalm i

end Verif.Monitor
