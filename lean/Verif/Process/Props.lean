import Verif.Process.Model
import Mathlib.Data.List.TakeWhile
import Mathlib.Data.List.Induction
import Mathlib.Tactic.IntervalCases
import Mathlib.Tactic.SplitIfs
import Mathlib.Tactic.ByContra
import Mathlib.Tactic.Tauto

/- Properties C86 (pid files), C70 (one instance), C71 (files removed at exit). -/

namespace Verif.Process

/-! ### C86 -/

/-- C86 specification: the pid file a user expects, `/var/run/<program>.pid`. -/
def expectedPidFile (argv0 : Str) : Str := lit "/var/run/" ++ base argv0 ++ lit ".pid"

theorem base_no_slash (a : Str) : chr '/' ∉ base a := by
  intro h
  have h' := List.mem_reverse.1 h
  have := List.mem_takeWhile_imp h'
  simp at this

theorem base_of_no_slash (a : Str) (h : chr '/' ∉ a) : base a = a := by
  unfold base
  rw [List.takeWhile_eq_self_iff.2, List.reverse_reverse]
  intro x hx
  simp only [ne_eq, decide_not, Bool.not_eq_eq_eq_not, Bool.not_true, decide_eq_false_iff_not]
  rintro rfl
  exact h (List.mem_reverse.1 hx)

theorem fileOf_no_slash (t : Str) (h : chr '/' ∉ t) : fileOf t = t := by
  induction t with
  | nil => rfl
  | cons c r ih =>
    have hc : c ≠ chr '/' := fun e => h (by simp [e])
    have : fileOf (c :: r) = if c = chr '/' ∧ (fileOf r).head? = some (chr '/') then fileOf r else c :: fileOf r := rfl
    rw [this, ih (fun e => h (List.mem_cons_of_mem _ e)), if_neg (fun e => hc e.1)]

theorem fileOf_cons (c : Byte) (r : Str) : fileOf (c :: r) = if c = chr '/' ∧ (fileOf r).head? = some (chr '/') then fileOf r else c :: fileOf r := rfl

theorem fileOf_expected (t : Str) (h : chr '/' ∉ t) (hne : t ≠ []) : fileOf (lit "/var/run/" ++ t) = lit "/var/run/" ++ t ∧ fileOf (lit "/var/run/" ++ chr '/' :: t) = lit "/var/run/" ++ t := by
  have ht := fileOf_no_slash t h
  have hh : t.head? ≠ some (chr '/') := by
    cases t with
    | nil => exact absurd rfl hne
    | cons c r =>
      intro e
      apply h
      simp only [List.head?_cons, Option.some.injEq] at e
      simp [e]
  have e : lit "/var/run/" = [chr '/', chr 'v', chr 'a', chr 'r', chr '/', chr 'r', chr 'u', chr 'n', chr '/'] := by decide
  have ne : ∀ c ∈ [chr 'v', chr 'a', chr 'r', chr 'u', chr 'n'], c ≠ chr '/' := by decide
  simp only [List.mem_cons, forall_eq_or_imp, List.not_mem_nil, false_implies, implies_true, and_true] at ne
  obtain ⟨nv, na, nr, nu, nn⟩ := ne
  rw [e]
  constructor
  · simp [fileOf_cons, ht, hh, nv, na, nr, nu, nn]
  · simp [fileOf_cons, ht, hh, nv, na, nr, nu, nn]

/-- C86, for names of at most 84 characters: the pid file is `/var/run/<program>.pid`, whatever directory the program was started from.  Missing for the full statement: longer names, see `C86_long_refuted`. -/
theorem C86_file_partial (argv0 : Str) (h : (base argv0).length ≤ 84) : fileOf (pidPath argv0) = expectedPidFile argv0 := by
  have hp : chr '/' ∉ base argv0 ++ lit ".pid" := by
    intro hm
    rcases List.mem_append.1 hm with h1 | h1
    · exact base_no_slash _ h1
    · revert h1; decide
  have hn : base argv0 ++ lit ".pid" ≠ [] := by
    intro e
    have := (List.append_eq_nil_iff.1 e).2
    revert this; decide
  have l1 : (lit "/var/run/").length = 9 := by decide
  have l2 : (lit ".pid").length = 4 := by decide
  have hf := fileOf_expected _ hp hn
  unfold pidPath tailName expectedPidFile
  split_ifs with hs
  · rw [List.take_of_length_le (by simp [l1, l2]; omega)]
    simpa using hf.2
  · rw [List.take_of_length_le (by rw [base_of_no_slash _ hs] at h; simp [l1, l2]; omega)]
    have := hf.1
    rw [base_of_no_slash _ hs] at this ⊢
    simpa using this

example : fileOf (pidPath (lit "./apps/OpenBTS")) = lit "/var/run/OpenBTS.pid" := by decide +kernel

/-- C86, for names of at most 84 characters: two programs share a pid file exactly when they have the same name.  Missing for the full statement: longer names. -/
theorem C86_own_partial (a b : Str) (ha : (base a).length ≤ 84) (hb : (base b).length ≤ 84) : fileOf (pidPath a) = fileOf (pidPath b) ↔ base a = base b := by
  rw [C86_file_partial a ha, C86_file_partial b hb]
  unfold expectedPidFile
  simp

example : (base (lit "/OpenBTS/OpenBTS")).length ≤ 84 ∧ base (lit "/OpenBTS/OpenBTS") = base (lit "./OpenBTS") ∧ base (lit "./OpenBTS") ≠ base (lit "./sipauthserve") := by decide

/-- C86 is false for long names: two different programs get the same file, which does not end in `.pid`. -/
theorem C86_long_refuted : ∃ a b, base a ≠ base b ∧ fileOf (pidPath a) = fileOf (pidPath b) ∧ ¬ (lit ".pid") <:+ fileOf (pidPath a) :=
  ⟨List.replicate 89 (chr 'a') ++ lit "1", List.replicate 89 (chr 'a') ++ lit "2", by decide +kernel, by decide +kernel, by decide +kernel⟩

/-! ### C70 -/

/-- The process is between the check for the pid file and its end. -/
def Proc.inside (x : Proc) : Prop := x.pc = .checked ∨ x.pc = .created ∨ x.pc = .hooked ∨ x.pc = .running

/-- The process has written its pid file and has not ended. -/
def Proc.holds (x : Proc) : Prop := x.pc = .created ∨ x.pc = .hooked ∨ x.pc = .running

/-- What an event must be for C70 to be true: nobody looks for a pid file while another process is between looking and creating; no pid file is registered for removal as an ordinary file; no signal is delivered
that runs the clean-up without ending the process. -/
def Orderly (s : Sys) : Ev → Prop
  | .stat _ _ => ∀ q, (s.procs q).pc ≠ .checked
  | .registerFile _ f => ∀ argv0, fileOf f ≠ fileOf (pidPath argv0)
  | .signal _ sig => defaultAction sig = .terminate ∨ cleansOn sig = false
  | _ => True

/-- Every event of the history is. -/
def AllOrderly : Sys → List Ev → Prop
  | _, [] => True
  | s, e :: es => Orderly s e ∧ AllOrderly (step s e) es

/-- The invariant. -/
structure Inv (s : Sys) : Prop where
  unique : ∀ p q, (s.procs p).inside → (s.procs q).inside → (s.procs p).path = (s.procs q).path → p = q
  exist : ∀ p, (s.procs p).holds → s.fs (s.procs p).path = true
  mfile : ∀ p f, (s.procs p).mFile = some f → f = (s.procs p).path ∧ ((s.procs p).pc = .running ∨ (s.procs p).pc = .ended)
  named : ∀ p, (s.procs p).inside → ∃ argv0, (s.procs p).path = fileOf (pidPath argv0)
  lists : ∀ p f, f ∈ (s.procs p).list → ∀ argv0, f ≠ fileOf (pidPath argv0)

theorem holds_inside {x : Proc} (h : x.holds) : x.inside := Or.inr h

@[simp] theorem set_procs (s : Sys) (p : Nat) (x : Proc) (q : Nat) : (s.set p x).procs q = if q = p then x else s.procs q := rfl
@[simp] theorem set_fs (s : Sys) (p : Nat) (x : Proc) : (s.set p x).fs = s.fs := rfl

/-- Replacing process `p` by one that is inside only if it was, with the same names, keeps the invariant. -/
theorem Inv.replace {s : Sys} (h : Inv s) (p : Nat) (x : Proc) (fs : Str → Bool)
    (hin : x.inside → (s.procs p).inside) (hpath : x.path = (s.procs p).path)
    (hm : ∀ f, x.mFile = some f → f = x.path ∧ (x.pc = .running ∨ x.pc = .ended)) (hl : ∀ f ∈ x.list, ∀ a, f ≠ fileOf (pidPath a))
    (hx : x.holds → fs x.path = true)
    (ho : ∀ q, q ≠ p → (s.procs q).holds → fs (s.procs q).path = true) :
    Inv { s.set p x with fs := fs } := by
  have hp : ∀ q, ({ s.set p x with fs := fs } : Sys).procs q = if q = p then x else s.procs q := fun _ => rfl
  constructor
  · intro a b ha hb e
    rw [hp] at ha hb
    rw [hp, hp] at e
    apply h.unique
    · split_ifs at ha with c
      · rw [c]; exact hin ha
      · exact ha
    · split_ifs at hb with c
      · rw [c]; exact hin hb
      · exact hb
    · split_ifs at e with c d d
      · rw [c, d]
      · rw [c, ← hpath]; exact e
      · rw [d, ← hpath]; exact e
      · exact e
  · intro q hq
    rw [hp] at hq
    show fs _ = true
    rw [hp]
    split_ifs at hq ⊢ with c
    · exact hx hq
    · exact ho q c hq
  · intro q f hf
    rw [hp] at hf ⊢
    split_ifs at hf ⊢
    · exact hm f hf
    · exact h.mfile q f hf
  · intro q hq
    rw [hp] at hq ⊢
    split_ifs at hq ⊢
    · rw [hpath]; exact h.named p (hin hq)
    · exact h.named q hq
  · intro q f hf
    rw [hp] at hf
    split_ifs at hf
    · exact hl f hf
    · exact h.lists q f hf

/-- Clean-up by `p` does not remove the pid file of another process. -/
theorem Inv.cleanup_other {s : Sys} (h : Inv s) (p q : Nat) (hq : q ≠ p) (ha : (s.procs p).armed = true) (hh : (s.procs q).holds) :
    cleanup s.fs (s.procs p) (s.procs q).path = true := by
  unfold cleanup
  rw [if_neg, h.exist q hh]
  rintro (e | e)
  · obtain ⟨e1, _⟩ := h.mfile _ _ e
    apply hq
    apply h.unique q p (holds_inside hh) _ e1
    simp only [Proc.armed, Bool.or_eq_true, decide_eq_true_eq] at ha
    unfold Proc.inside
    tauto
  · obtain ⟨a, ea⟩ := h.named q (holds_inside hh)
    exact h.lists p _ e a ea

theorem Inv.step {s : Sys} (h : Inv s) (e : Ev) (ho : Orderly s e) : Inv (step s e) := by
  cases e with
  | registerFile p f =>
    simp only [Process.step]
    split_ifs with c
    · exact h
    · refine h.replace p _ s.fs id rfl (h.mfile p) ?_ (h.exist p) (fun q _ => h.exist q)
      intro g hg
      rcases List.mem_append.1 hg with hg | hg
      · exact h.lists p g hg
      · rw [List.mem_singleton.1 hg]; exact ho
  | stat p argv0 =>
    simp only [Process.step]
    split_ifs with c d
    · refine h.replace p _ s.fs ?_ rfl (fun f hf => ⟨(h.mfile p f hf).1, Or.inr rfl⟩) (h.lists p) ?_ (fun q _ => h.exist q)
      · rintro (x | x | x | x) <;> cases x
      · rintro (x | x | x) <;> cases x
    · have hno : ∀ q, (s.procs q).inside → (s.procs q).path ≠ fileOf (pidPath argv0) := by
        intro q hq e
        rcases hq with hq | hq
        · exact ho q hq
        · exact d (e ▸ h.exist q hq)
      constructor
      · intro a b ha hb e
        simp only [set_procs] at ha hb e
        split_ifs at ha hb e with x y y
        · rw [x, y]
        · exact absurd e.symm (hno b hb)
        · exact absurd e (hno a ha)
        · exact h.unique a b ha hb e
      · intro q hq
        simp only [set_procs, set_fs] at hq ⊢
        split_ifs at hq ⊢ with x
        · rcases hq with y | y | y <;> cases y
        · exact h.exist q hq
      · intro q f hf
        simp only [set_procs] at hf ⊢
        split_ifs at hf ⊢ with x
        · have := (h.mfile p f hf).2
          rw [c] at this
          rcases this with y | y <;> cases y
        · exact h.mfile q f hf
      · intro q hq
        simp only [set_procs] at hq ⊢
        split_ifs at hq ⊢ with x
        · exact ⟨argv0, rfl⟩
        · exact h.named q hq
      · intro q f hf
        simp only [set_procs] at hf
        split_ifs at hf with x
        · exact h.lists p f hf
        · exact h.lists q f hf
    · exact h
  | create p works =>
    simp only [Process.step]
    split_ifs with c d
    · refine h.replace p { s.procs p with pc := .created } (fun f => if f = (s.procs p).path then true else s.fs f) (fun _ => Or.inl c) rfl ?_ (h.lists p) (fun _ => if_pos rfl) ?_
      · intro f hf
        have := (h.mfile p f hf).2
        rw [c] at this
        rcases this with y | y <;> cases y
      · intro q _ hq
        show (if _ then _ else _) = true
        split_ifs
        · rfl
        · exact h.exist q hq
    · refine h.replace p { s.procs p with pc := .ended } s.fs ?_ rfl (fun f hf => ⟨(h.mfile p f hf).1, Or.inr rfl⟩) (h.lists p) ?_ (fun q _ => h.exist q)
      · rintro (x | x | x | x) <;> cases x
      · rintro (x | x | x) <;> cases x
    · exact h
  | hook p =>
    simp only [Process.step]
    split_ifs with c
    · refine h.replace p { s.procs p with pc := .hooked } s.fs (fun _ => Or.inr (Or.inl c)) rfl ?_ (h.lists p) (fun _ => h.exist p (Or.inl c)) (fun q _ => h.exist q)
      intro f hf
      have := (h.mfile p f hf).2
      rw [c] at this
      rcases this with y | y <;> cases y
    · exact h
  | finish p =>
    simp only [Process.step]
    split_ifs with c
    · refine h.replace p { s.procs p with pc := .running, mFile := some (s.procs p).path } s.fs (fun _ => Or.inr (Or.inr (Or.inl c))) rfl ?_ (h.lists p) (fun _ => h.exist p (Or.inr (Or.inl c))) (fun q _ => h.exist q)
      intro f hf
      cases hf
      exact ⟨rfl, Or.inl rfl⟩
    · exact h
  | exit p =>
    simp only [Process.step]
    refine h.replace p { s.procs p with pc := .ended } _ ?_ rfl (fun f hf => ⟨(h.mfile p f hf).1, Or.inr rfl⟩) (h.lists p) ?_ ?_
    · rintro (x | x | x | x) <;> cases x
    · rintro (x | x | x) <;> cases x
    · intro q hq hh
      split_ifs with ha
      · exact h.cleanup_other p q hq ha hh
      · exact h.exist q hh
  | kill p =>
    simp only [Process.step]
    refine h.replace p { s.procs p with pc := .ended } s.fs ?_ rfl (fun f hf => ⟨(h.mfile p f hf).1, Or.inr rfl⟩) (h.lists p) ?_ (fun q _ => h.exist q)
    · rintro (x | x | x | x) <;> cases x
    · rintro (x | x | x) <;> cases x
  | signal p sig =>
    simp only [Process.step]
    rcases ho with ht | hc
    · rw [if_pos ht]
      refine h.replace p { s.procs p with pc := .ended, caught := sig :: (s.procs p).caught } _ ?_ rfl (fun f hf => ⟨(h.mfile p f hf).1, Or.inr rfl⟩) (h.lists p) ?_ ?_
      · rintro (x | x | x | x) <;> cases x
      · rintro (x | x | x) <;> cases x
      · intro q hq hh
        split_ifs with ha
        · exact h.cleanup_other p q hq ha.1 hh
        · exact h.exist q hh
    · rw [if_neg (fun e => by rw [hc] at e; simp at e)]
      refine h.replace p _ s.fs ?_ rfl ?_ (h.lists p) ?_ (fun q _ => h.exist q)
      · unfold Proc.inside
        split_ifs <;> simp
      · intro f hf
        obtain ⟨a, b⟩ := h.mfile p f hf
        refine ⟨a, ?_⟩
        dsimp only
        split_ifs
        · exact Or.inr rfl
        · exact b
      · intro hx
        apply h.exist p
        unfold Proc.holds at hx ⊢
        dsimp only at hx
        split_ifs at hx
        · rcases hx with y | y | y <;> cases y
        · exact hx

theorem Inv.run {s : Sys} (h : Inv s) (es : List Ev) (ho : AllOrderly s es) : Inv (run s es) := by
  induction es generalizing s with
  | nil => exact h
  | cons e es ih => exact ih (h.step e ho.1) ho.2

theorem Inv.start (fs : Str → Bool) : Inv (start fs) := by
  constructor
  · rintro p q (h | h | h | h) <;> cases h
  · rintro p (h | h | h) <;> cases h
  · intro p f h; cases h
  · rintro p (h | h | h | h) <;> cases h
  · intro p f h; cases h

/-- C70, for histories in which registrations do not overlap and clean-up happens only at the end of a process: any number of processes, any interleaving, crashes at any moment, any files left from before: two
processes that have registered the same program are the same process, and its pid file is there.  Missing for the full statement: overlapping registrations and signals that do not end the process, for which it
is false (`C70_race_refuted`, `C70_resize_refuted`). -/
theorem C70_one_instance_partial (fs : Str → Bool) (es : List Ev) (ho : AllOrderly (start fs) es) (p q : Nat)
    (hp : ((run (start fs) es).procs p).pc = .running) (hq : ((run (start fs) es).procs q).pc = .running) :
    (((run (start fs) es).procs p).path = ((run (start fs) es).procs q).path → p = q) ∧ (run (start fs) es).fs ((run (start fs) es).procs p).path = true :=
  have h := (Inv.start fs).run es ho
  ⟨h.unique p q (Or.inr (Or.inr (Or.inr hp))) (Or.inr (Or.inr (Or.inr hq))), h.exist p (Or.inr (Or.inr hp))⟩

/-- The registration of a program without interruption. -/
def registerAll (p : Nat) (argv0 : Str) : List Ev := [.stat p argv0, .create p true, .hook p, .finish p]

/-- The hypotheses can be met, with a process running at the end: one instance registers, a second one is turned away, the first one ends, a third one registers. -/
example : let es := registerAll 0 (lit "./a") ++ registerAll 1 (lit "/bin/a") ++ [.exit 0] ++ registerAll 2 (lit "a")
    AllOrderly (start fun _ => false) es ∧ ((run (start fun _ => false) es).procs 2).pc = .running ∧ ((run (start fun _ => false) es).procs 1).pc = .ended := by
  refine ⟨?_, by decide +kernel, by decide +kernel⟩
  refine ⟨?_, trivial, trivial, trivial, ?_, trivial, trivial, trivial, trivial, ?_, trivial, trivial, trivial, trivial⟩
  · intro q h; cases h
  · intro q
    show (if q = 0 then _ else if q = 0 then _ else if q = 0 then _ else if q = 0 then _ else _ : Proc).pc ≠ Pc.checked
    split_ifs
    · decide
    · exact fun h => by cases h
  · intro q
    by_cases h0 : q = 0
    · subst h0; decide +kernel
    · by_cases h1 : q = 1
      · subst h1; decide +kernel
      · have : (run (start fun _ => false) (registerAll 0 (lit "./a") ++ registerAll 1 (lit "/bin/a") ++ [.exit 0])).procs q = {} := by
          have e : ∀ (s : Sys) (es : List Ev), (∀ e ∈ es, match e with | .registerFile p _ => p ≠ q | .stat p _ => p ≠ q | .create p _ => p ≠ q | .hook p => p ≠ q | .finish p => p ≠ q | .exit p => p ≠ q | .kill p => p ≠ q | .signal p _ => p ≠ q) → (run s es).procs q = s.procs q := by
            intro s es
            induction es generalizing s with
            | nil => intro _; rfl
            | cons a es ih =>
              intro hh
              have h1 := ih (step s a) (fun e he => hh e (List.mem_cons_of_mem _ he))
              have h2 := hh a List.mem_cons_self
              show (run (step s a) es).procs q = _
              rw [h1]
              cases a <;> simp only [step] <;> (try split_ifs) <;> simp_all [Ne.symm]
          rw [e]
          · rfl
          · intro x hx
            simp only [registerAll, List.mem_append, List.mem_cons, List.not_mem_nil, or_false] at hx
            rcases hx with ((rfl | rfl | rfl | rfl) | (rfl | rfl | rfl | rfl)) | rfl <;> simp <;> omega
        show ((run (start fun _ => false) (registerAll 0 (lit "./a") ++ registerAll 1 (lit "/bin/a") ++ [.exit 0])).procs q).pc ≠ _
        rw [this]; decide

/-- C70 is false when two registrations overlap: both processes look for the file before either has created it, and both register. -/
theorem C70_race_refuted : ∃ es, let s := run (start fun _ => false) es
    (s.procs 0).pc = .running ∧ (s.procs 1).pc = .running ∧ (s.procs 0).path = (s.procs 1).path :=
  ⟨[.stat 0 (lit "a"), .stat 1 (lit "a"), .create 0 true, .create 1 true, .hook 0, .hook 1, .finish 0, .finish 1], by decide +kernel⟩

/-- C70 is false after a harmless signal, with no overlap: the terminal of the first instance is resized (signal 28), which removes its pid file while it goes on running; a second instance registers. -/
theorem C70_resize_refuted : let s := run (start fun _ => false) (registerAll 0 (lit "a") ++ [.signal 0 28] ++ registerAll 1 (lit "a"))
    (s.procs 0).pc = .running ∧ (s.procs 1).pc = .running ∧ (s.procs 0).path = (s.procs 1).path := by decide +kernel

/-! ### C71 -/

/-- The process an event belongs to. -/
def Ev.proc : Ev → Nat
  | .registerFile p _ => p | .stat p _ => p | .create p _ => p | .hook p => p | .finish p => p | .exit p => p | .kill p => p | .signal p _ => p

/-- C71 specification: files a process registered in a history. -/
def listed (p : Nat) : List Ev → List Str
  | [] => []
  | .registerFile q f :: es => if q = p then fileOf f :: listed p es else listed p es
  | _ :: es => listed p es

/-- C71 specification: the program a process registered as in a history. -/
def program (p : Nat) : List Ev → Option Str
  | [] => none
  | .stat q a :: es => if q = p then some a else program p es
  | _ :: es => program p es

/-- A process that has not ended keeps everything it registered. -/
theorem run_listed (s : Sys) (es : List Ev) (p : Nat) (h : ((run s es).procs p).pc ≠ .ended) :
    ((run s es).procs p).list = (s.procs p).list ++ listed p es ∧ (s.procs p).pc ≠ .ended := by
  induction es generalizing s with
  | nil => exact ⟨(List.append_nil _).symm, h⟩
  | cons e es ih =>
    obtain ⟨h1, h2⟩ := ih (step s e) h
    have hr : run s (e :: es) = run (step s e) es := rfl
    rw [hr, h1]
    by_cases hp : e.proc = p
    · subst hp
      cases e with
      | registerFile q f =>
        simp only [step, Ev.proc] at h2 ⊢
        split_ifs at h2 ⊢ with c
        · exact absurd c h2
        · exact ⟨by simp [listed], c⟩
      | _ => simp only [step, Ev.proc] at h2 ⊢ <;> (try split_ifs at h2 ⊢) <;> simp_all [listed, set_procs]
    · have e1 : (step s e).procs p = s.procs p := by
        cases e <;> simp only [step] <;> (try split_ifs) <;> simp_all [Ev.proc] <;> (intro x; exact absurd x.symm hp)
      rw [e1] at h2 ⊢
      refine ⟨?_, h2⟩
      cases e <;> simp only [listed]
      rw [if_neg (by simpa [Ev.proc] using hp)]

/-- What is true of every process in every history: `mFile` is set exactly while running or after, and names the program it registered as. -/
structure Named (x : Proc) (prog : Option Str) : Prop where
  inside : x.inside → ∃ a, prog = some a ∧ x.path = fileOf (pidPath a)
  before : x.pc = .before → prog = none
  running : x.pc = .running → x.mFile = some x.path
  other : x.pc ≠ .running → x.pc ≠ .ended → x.mFile = none

theorem program_append (p : Nat) (es fs : List Ev) : program p (es ++ fs) = (program p es).or (program p fs) := by
  induction es with
  | nil => simp [program]
  | cons e es ih => cases e <;> simp only [List.cons_append, program, ih] <;> split_ifs <;> simp

theorem step_other (s : Sys) (e : Ev) (p : Nat) (h : e.proc ≠ p) : (step s e).procs p = s.procs p := by
  cases e <;> simp only [step] <;> (try split_ifs) <;> simp_all [Ev.proc] <;> (intro x; exact absurd x.symm h)

theorem program_other (e : Ev) (p : Nat) (h : e.proc ≠ p) : program p [e] = none := by
  cases e <;> simp only [program] <;> (try rw [if_neg (by simpa [Ev.proc] using h)])

theorem Named.step {s : Sys} {p : Nat} {prog : Option Str} (h : Named (s.procs p) prog) (e : Ev) :
    Named ((step s e).procs p) (prog.or (program p [e])) := by
  by_cases hp : e.proc = p
  · subst hp
    obtain ⟨h1, h2, h3, h4⟩ := h
    cases e with
    | registerFile p f =>
      simp only [Process.step, Ev.proc, program, Option.or_none] at *
      split_ifs
      · exact ⟨h1, h2, h3, h4⟩
      · simp only [set_procs, if_pos]
        exact ⟨h1, h2, h3, h4⟩
    | stat p a =>
      simp only [Process.step, Ev.proc, program, if_pos] at *
      split_ifs with c d
      · simp only [set_procs, if_pos]
        constructor
        · rintro (x | x | x | x) <;> cases x
        · intro x; cases x
        · intro x; cases x
        · intro _ x; exact absurd rfl x
      · simp only [set_procs, if_pos]
        constructor
        · intro _; exact ⟨a, by rw [h2 c]; rfl, rfl⟩
        · intro x; cases x
        · intro x; cases x
        · intro _ _; exact h4 (by rw [c]; decide) (by rw [c]; decide)
      · constructor
        · intro x; obtain ⟨b, hb, hb'⟩ := h1 x; exact ⟨b, by rw [hb]; rfl, hb'⟩
        · intro x; exact absurd x c
        · exact h3
        · exact h4
    | create p w =>
      simp only [Process.step, Ev.proc, program, Option.or_none] at *
      split_ifs with c d
      · simp only [set_procs, if_pos]
        refine ⟨fun _ => h1 (Or.inl c), fun x => (by cases x), fun x => (by cases x), fun _ _ => h4 (by rw [c]; decide) (by rw [c]; decide)⟩
      · simp only [set_procs, if_pos]
        refine ⟨?_, fun x => (by cases x), fun x => (by cases x), fun _ x => absurd rfl x⟩
        rintro (x | x | x | x) <;> cases x
      · exact ⟨h1, h2, h3, h4⟩
    | hook p =>
      simp only [Process.step, Ev.proc, program, Option.or_none] at *
      split_ifs with c
      · simp only [set_procs, if_pos]
        refine ⟨fun _ => h1 (Or.inr (Or.inl c)), fun x => (by cases x), fun x => (by cases x), fun _ _ => h4 (by rw [c]; decide) (by rw [c]; decide)⟩
      · exact ⟨h1, h2, h3, h4⟩
    | finish p =>
      simp only [Process.step, Ev.proc, program, Option.or_none] at *
      split_ifs with c
      · simp only [set_procs, if_pos]
        refine ⟨fun _ => h1 (Or.inr (Or.inr (Or.inl c))), fun x => (by cases x), fun _ => rfl, fun x => absurd rfl x⟩
      · exact ⟨h1, h2, h3, h4⟩
    | exit p =>
      simp only [Process.step, Ev.proc, program, Option.or_none, set_procs, if_pos] at *
      refine ⟨?_, fun x => (by cases x), fun x => (by cases x), fun _ x => absurd rfl x⟩
      rintro (x | x | x | x) <;> cases x
    | kill p =>
      simp only [Process.step, Ev.proc, program, Option.or_none, set_procs, if_pos] at *
      refine ⟨?_, fun x => (by cases x), fun x => (by cases x), fun _ x => absurd rfl x⟩
      rintro (x | x | x | x) <;> cases x
    | signal p sig =>
      simp only [Process.step, Ev.proc, program, Option.or_none, set_procs, if_pos] at *
      by_cases c : defaultAction sig = .terminate
      · rw [if_pos c]
        refine ⟨?_, fun x => (by cases x), fun x => (by cases x), fun _ x => absurd rfl x⟩
        rintro (x | x | x | x) <;> cases x
      · rw [if_neg c]
        exact ⟨h1, h2, h3, h4⟩
  · rw [step_other s e p hp, program_other e p hp, Option.or_none]
    exact h

theorem run_append (s : Sys) (es fs : List Ev) : run s (es ++ fs) = run (run s es) fs := List.foldl_append

theorem run_named (fs : Str → Bool) (es : List Ev) (p : Nat) : Named ((run (start fs) es).procs p) (program p es) := by
  induction es using List.reverseRecOn with
  | nil => exact ⟨(by rintro (x | x | x | x) <;> cases x), fun _ => rfl, fun x => (by cases x), fun _ _ => rfl⟩
  | append_singleton es e ih =>
    rw [run_append, program_append]
    exact ih.step e

/-- C71: after any history, when a registered process calls `exit`, or a signal with a handler is delivered to it for the first time, then the pid file of the program it registered as and every file it
registered are gone, and every other file is as before. -/
theorem C71_exit (fs : Str → Bool) (es : List Ev) (p : Nat) (hr : ((run (start fs) es).procs p).pc = .running) (e : Ev)
    (he : e = .exit p ∨ ∃ sig, e = .signal p sig ∧ cleansOn sig = true ∧ sig ∉ ((run (start fs) es).procs p).caught) :
    ∃ argv0, program p es = some argv0 ∧ ∀ f, (run (start fs) (es ++ [e])).fs f = if f = fileOf (pidPath argv0) ∨ f ∈ listed p es then false else (run (start fs) es).fs f := by
  obtain ⟨h1, h2, h3, h4⟩ := run_named fs es p
  obtain ⟨a, ha, hpa⟩ := h1 (Or.inr (Or.inr (Or.inr hr)))
  obtain ⟨hl, _⟩ := run_listed (start fs) es p (by rw [hr]; decide)
  have hl' : ((run (start fs) es).procs p).list = listed p es := by rw [hl]; rfl
  have harm : ((run (start fs) es).procs p).armed = true := by simp [Proc.armed, hr]
  refine ⟨a, ha, fun f => ?_⟩
  have key : (run (start fs) (es ++ [e])).fs = cleanup (run (start fs) es).fs ((run (start fs) es).procs p) := by
    rw [run_append]
    rcases he with rfl | ⟨sig, rfl, hc, hn⟩
    · show (if _ then _ else _) = _
      rw [if_pos harm]
    · show (if _ then _ else _) = _
      rw [if_pos ⟨harm, hc, hn⟩]
  rw [key, cleanup, h3 hr, hl', hpa]
  simp only [Option.some.injEq, eq_comm]

example : let es := registerAll 0 (lit "./a") ++ [.registerFile 0 (lit "/tmp/x")]
    ((run (start fun _ => false) es).procs 0).pc = .running ∧ cleansOn 15 = true ∧ 15 ∉ ((run (start fun _ => false) es).procs 0).caught ∧ (run (start fun _ => false) es).fs (lit "/var/run/a.pid") = true := by
  decide +kernel

/-- C71: a process that ends, or gets a signal, inside of `RegisterProgram`, before it or without it: its registered files are removed only if the handlers are already in place, and its pid file, if it has written it, never. -/
theorem C71_registering (fs : Str → Bool) (es : List Ev) (p : Nat) (hr : ((run (start fs) es).procs p).pc ∈ [Pc.before, .checked, .created, .hooked]) (e : Ev)
    (he : e = .exit p ∨ ∃ sig, e = .signal p sig ∧ cleansOn sig = true ∧ sig ∉ ((run (start fs) es).procs p).caught) (f : Str) :
    (run (start fs) (es ++ [e])).fs f = if ((run (start fs) es).procs p).pc = .hooked ∧ f ∈ listed p es then false else (run (start fs) es).fs f := by
  have hne : ((run (start fs) es).procs p).pc ≠ .running ∧ ((run (start fs) es).procs p).pc ≠ .ended := by
    constructor <;> intro q <;> rw [q] at hr <;> revert hr <;> decide
  have h4 := (run_named fs es p).other hne.1 hne.2
  obtain ⟨hl, _⟩ := run_listed (start fs) es p hne.2
  have hl' : ((run (start fs) es).procs p).list = listed p es := by rw [hl]; rfl
  have key : (run (start fs) (es ++ [e])).fs = if ((run (start fs) es).procs p).pc = .hooked then cleanup (run (start fs) es).fs ((run (start fs) es).procs p) else (run (start fs) es).fs := by
    rw [run_append]
    have harm : ((run (start fs) es).procs p).armed = decide (((run (start fs) es).procs p).pc = .hooked) := by simp [Proc.armed, hne.1]
    rcases he with rfl | ⟨sig, rfl, hc, hn⟩
    · show (if _ then _ else _) = _
      rw [harm]
      simp only [decide_eq_true_eq]
    · show (if _ then _ else _) = _
      rw [harm]
      simp only [decide_eq_true_eq, hc, hn, not_false_eq_true, and_self, and_true]
  rw [key]
  by_cases hh : ((run (start fs) es).procs p).pc = .hooked
  · rw [if_pos hh, cleanup, h4, hl']
    simp [hh]
  · rw [if_neg hh, if_neg (fun q => hh q.1)]

/-- The registered file goes, the pid file stays. -/
example : let es := [.registerFile 0 (lit "/tmp/x"), .stat 0 (lit "a"), .create 0 true, .hook 0]
    ((run (start (· == lit "/tmp/x")) es).procs 0).pc = .hooked ∧ (run (start (· == lit "/tmp/x")) (es ++ [.exit 0])).fs (lit "/tmp/x") = false ∧ (run (start (· == lit "/tmp/x")) (es ++ [.exit 0])).fs (lit "/var/run/a.pid") = true := by
  decide +kernel

/-- A process that has ended changes no file. -/
theorem run_ended (s : Sys) (es : List Ev) (p : Nat) (he : ∀ e ∈ es, e.proc = p) (hr : (s.procs p).pc = .ended) : (run s es).fs = s.fs ∧ ((run s es).procs p).pc = .ended := by
  induction es generalizing s with
  | nil => exact ⟨rfl, hr⟩
  | cons e es ih =>
    have hp := he e List.mem_cons_self
    subst hp
    have hh : (step s e).fs = s.fs ∧ ((step s e).procs e.proc).pc = .ended := by
      cases e <;> simp only [step, Ev.proc] at hr ⊢ <;> simp [hr, Proc.armed]
    obtain ⟨i1, i2⟩ := ih _ (fun x hx => he x (List.mem_cons_of_mem _ hx)) hh.2
    exact ⟨i1.trans hh.1, i2⟩

/-- C71: a process that finds the pid file of another one ends and changes no file, whatever it would do next. -/
theorem C71_turned_away (s : Sys) (p : Nat) (argv0 : Str) (hb : (s.procs p).pc = .before) (hx : s.fs (fileOf (pidPath argv0)) = true) (es : List Ev) (he : ∀ e ∈ es, e.proc = p) :
    (run s (.stat p argv0 :: es)).fs = s.fs ∧ ((run s (.stat p argv0 :: es)).procs p).pc = .ended := by
  have h0 : (step s (.stat p argv0)).fs = s.fs ∧ ((step s (.stat p argv0)).procs p).pc = .ended := by
    simp [step, hb, hx]
  have := run_ended (step s (.stat p argv0)) es p he h0.2
  rw [h0.1] at this
  exact this

example : let s := run (start fun _ => false) (registerAll 0 (lit "a"))
    (s.procs 1).pc = .before ∧ s.fs (fileOf (pidPath (lit "/usr/bin/a"))) = true := by decide +kernel

/-- C71: a process that cannot create its pid file ends and changes no file, also if another process has created the file in the meantime. -/
theorem C71_not_created (s : Sys) (p : Nat) (hb : (s.procs p).pc = .checked) (es : List Ev) (he : ∀ e ∈ es, e.proc = p) :
    (run s (.create p false :: es)).fs = s.fs ∧ ((run s (.create p false :: es)).procs p).pc = .ended := by
  have h0 : (step s (.create p false)).fs = s.fs ∧ ((step s (.create p false)).procs p).pc = .ended := by
    simp [step, hb]
  have := run_ended (step s (.create p false)) es p he h0.2
  rw [h0.1] at this
  exact this

example : ((run (start fun _ => false) [.stat 1 (lit "a")]).procs 1).pc = .checked := by decide +kernel

/-- C71 is false just before `RegisterProgram` returns: the handlers are in place but `mFile` is not yet set, so a process that ends there leaves its pid file behind, and no instance can be started again. -/
theorem C71_early_refuted : let s := run (start fun _ => false) ([.stat 0 (lit "a"), .create 0 true, .hook 0, .signal 0 15] ++ registerAll 1 (lit "a"))
    s.fs (lit "/var/run/a.pid") = true ∧ (s.procs 0).pc = .ended ∧ (s.procs 1).pc = .ended := by decide +kernel

/-- C71 is false for signal 64, which `RegisterProgram` leaves out: it ends the process, and the pid file stays. -/
theorem C71_last_signal_refuted : let s := run (start fun _ => false) (registerAll 0 (lit "a") ++ [.signal 0 64])
    s.fs (lit "/var/run/a.pid") = true ∧ (s.procs 0).pc = .ended := by decide +kernel

/-- C71 is false for a process that has not registered its program: files it registered stay when it exits. -/
theorem C71_unregistered_refuted : (run (start fun f => f == lit "/tmp/x") [.registerFile 0 (lit "/tmp/x"), .exit 0]).fs (lit "/tmp/x") = true := by decide +kernel

/-- C71: the signals that remove the pid file of a process that goes on running are exactly 20 to 23 and 28: stopping it from the terminal, urgent data on a socket, resizing the terminal. -/
theorem C71_alive_refuted (sig : Nat) : (cleansOn sig = true ∧ defaultAction sig ≠ .terminate) ↔ sig ∈ [20, 21, 22, 23, 28] := by
  unfold cleansOn defaultAction catchable
  by_cases h : sig < 64
  · interval_cases sig <;> decide
  · have : sig ∉ [20, 21, 22, 23, 28] := by simp; omega
    simp only [this, iff_false]
    rintro ⟨h1, -⟩
    rw [Bool.and_eq_true, decide_eq_true_eq] at h1
    omega

/-- C71: the signals that end the process without clean-up are exactly 9, 32 and 33, which cannot be caught, and those outside 1 to 63. -/
theorem C71_signals (sig : Nat) : (cleansOn sig = false ∧ defaultAction sig = .terminate) ↔ sig = 9 ∨ sig = 32 ∨ sig = 33 ∨ sig = 0 ∨ 64 ≤ sig := by
  unfold cleansOn defaultAction catchable
  by_cases h : sig < 64
  · interval_cases sig <;> decide
  · have h1 : sig ∉ [17, 23, 28] := by simp; omega
    have h2 : sig ∉ [19, 20, 21, 22] := by simp; omega
    have h3 : sig ≠ 18 := by omega
    have h4 : ¬ (1 ≤ sig ∧ sig < 64 ∧ sig ≠ 18 ∧ sig ≠ 17) := by omega
    rw [if_neg h1, if_neg h2, if_neg h3, decide_eq_false h4, Bool.false_and]
    exact ⟨fun _ => by omega, fun _ => ⟨rfl, rfl⟩⟩

end Verif.Process
