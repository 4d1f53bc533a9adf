import Verif.Process.Props

/-
Property C183: a program can be started again after it has ended (`/repo/SelfDetect.cpp:55-136`, model `Verif.Process.step`).
-/

namespace Verif.Process
open Verif

/-- A process that has written its pid file ends only after `RegisterProgram` returned, with `exit` or by a signal that `RegisterProgram` has a handler for (`SelfDetect.cpp:86-106`). -/
def Gentle (s : Sys) : Ev → Prop
  | .kill p => ¬ (s.procs p).holds
  | .exit p => (s.procs p).holds → (s.procs p).pc = .running
  | .signal p sig => defaultAction sig = .terminate → (s.procs p).holds → (s.procs p).pc = .running ∧ cleansOn sig = true
  | _ => True

def AllGentle : Sys → List Ev → Prop
  | _, [] => True
  | s, e :: es => Gentle s e ∧ AllGentle (step s e) es

/-- What holds of single processes in all histories. -/
structure Own (s : Sys) : Prop where
  file : ∀ p, (s.procs p).pc = .running → (s.procs p).mFile = some (s.procs p).path
  caught : ∀ p, ∀ sig ∈ (s.procs p).caught, defaultAction sig = .terminate → (s.procs p).pc = .ended

theorem Own.start (fs : Str → Bool) : Own (start fs) := ⟨fun p h => (by cases h), fun p sig h => (by cases h)⟩

theorem Own.step {s : Sys} (h : Own s) (e : Ev) : Own (step s e) := by
  have other : ∀ q, e.proc ≠ q → ((Process.step s e).procs q).pc = .running → ((Process.step s e).procs q).mFile = some ((Process.step s e).procs q).path := by
    intro q hq; rw [step_other s e q hq]; exact h.file q
  have other' : ∀ q, e.proc ≠ q → ∀ sig ∈ ((Process.step s e).procs q).caught, defaultAction sig = .terminate → ((Process.step s e).procs q).pc = .ended := by
    intro q hq; rw [step_other s e q hq]; exact h.caught q
  constructor
  · intro q
    by_cases hq : e.proc = q
    · subst hq
      have hf := h.file e.proc
      cases e <;> simp only [Process.step, Sys.set, Ev.proc] at hf ⊢ <;> (try split_ifs) <;> simp_all
    · exact other q hq
  · intro q
    by_cases hq : e.proc = q
    · subst hq
      have hf := h.caught e.proc
      cases e with
      | signal p sig =>
        simp only [Process.step, Sys.set, Ev.proc] at hf ⊢
        intro sig' hm ht
        simp only [if_true, List.mem_cons] at hm ⊢
        rcases hm with rfl | hm
        · simp [ht]
        · have := hf sig' hm ht
          split
          · rfl
          · exact this
      | _ =>
        simp only [Process.step, Sys.set, Ev.proc] at hf ⊢
        (try split_ifs) <;> (first | exact hf | simp_all)
    · exact other' q hq

theorem Own.run {s : Sys} (h : Own s) (es : List Ev) : Own (run s es) := by
  induction es generalizing s with
  | nil => exact h
  | cons e es ih => exact ih (h.step e)

/-- Pid files that were not there before belong to processes that have not ended. -/
def Backed (fs0 : Str → Bool) (s : Sys) : Prop := ∀ f, s.fs f = true → fs0 f = true ∨ ∃ p, (s.procs p).holds ∧ (s.procs p).path = f

theorem cleanup_sub {fs : Str → Bool} {x : Proc} {f : Str} (h : cleanup fs x f = true) : fs f = true ∧ x.mFile ≠ some f ∧ f ∉ x.list := by
  simp only [cleanup] at h
  split at h
  · cases h
  · rename_i hn
    exact ⟨h, fun e => hn (.inl e), fun e => hn (.inr e)⟩

theorem Backed.step {fs0 : Str → Bool} {s : Sys} (ho : Own s) (h : Backed fs0 s) (e : Ev) (hg : Gentle s e) : Backed fs0 (step s e) := by
  -- enough: a file that is there was there, and its process still has it or does not own it any more
  have key : ∀ f, (Process.step s e).fs f = true → s.fs f = true → ((s.procs e.proc).holds → (s.procs e.proc).path = f → ((Process.step s e).procs e.proc).holds ∧ ((Process.step s e).procs e.proc).path = f) →
      fs0 f = true ∨ ∃ p, ((Process.step s e).procs p).holds ∧ ((Process.step s e).procs p).path = f := by
    intro f hf hs hk
    rcases h f hs with h0 | ⟨p, hp, hpf⟩
    · exact .inl h0
    · refine .inr ⟨p, ?_⟩
      by_cases q : e.proc = p
      · subst q; exact hk hp hpf
      · rw [step_other s e p q]; exact ⟨hp, hpf⟩
  intro f hf
  cases e with
  | registerFile p g =>
    refine key f hf (by simp only [Process.step] at hf; split at hf <;> exact hf) ?_
    simp only [Process.step, Ev.proc, Proc.holds, Sys.set]
    split <;> simp_all
  | stat p argv0 =>
    refine key f hf (by simp only [Process.step] at hf; split_ifs at hf <;> exact hf) ?_
    simp only [Process.step, Ev.proc, Proc.holds, Sys.set]
    intro h1 h2
    have : (s.procs p).pc ≠ .before := by rcases h1 with h1 | h1 | h1 <;> rw [h1] <;> decide
    rw [if_neg this]
    exact ⟨h1, h2⟩
  | create p works =>
    by_cases hc : (s.procs p).pc = .checked
    · cases works with
      | true =>
        simp only [Process.step, hc, if_true, Sys.set] at hf ⊢
        by_cases q : f = (s.procs p).path
        · exact .inr ⟨p, by simp [Proc.holds], by simp [q]⟩
        · rw [if_neg q] at hf
          refine key f (by simpa [Process.step, hc, Sys.set, q] using hf) hf ?_ |>.imp_right ?_
          · intro h1; rcases h1 with h1 | h1 | h1 <;> (simp only [Ev.proc] at h1; rw [hc] at h1; cases h1)
          · rintro ⟨q, hq⟩; exact ⟨q, by simpa [Process.step, hc, Sys.set] using hq⟩
      | false =>
        refine key f hf (by simpa [Process.step, hc, Sys.set] using hf) ?_
        intro h1; rcases h1 with h1 | h1 | h1 <;> (simp only [Ev.proc] at h1; rw [hc] at h1; cases h1)
    · have e : Process.step s (.create p works) = s := by simp [Process.step, hc]
      rw [e] at hf ⊢
      exact h f hf
  | hook p =>
    refine key f hf (by simp only [Process.step] at hf; split at hf <;> exact hf) ?_
    simp only [Process.step, Ev.proc, Proc.holds, Sys.set]
    split <;> simp_all
  | finish p =>
    refine key f hf (by simp only [Process.step] at hf; split at hf <;> exact hf) ?_
    simp only [Process.step, Ev.proc, Proc.holds, Sys.set]
    split <;> simp_all
  | exit p =>
    have hs : s.fs f = true := by
      simp only [Process.step] at hf
      split at hf
      · exact (cleanup_sub hf).1
      · exact hf
    refine key f hf hs fun h1 h2 => ?_
    have hr := hg h1
    have : (s.procs p).armed = true := by simp [Proc.armed, hr]
    simp only [Process.step, this, if_true] at hf
    exact absurd (by rw [ho.file p hr]; exact congrArg some h2) (cleanup_sub hf).2.1
  | kill p =>
    refine key f hf hf fun h1 _ => absurd h1 hg
  | signal p sig =>
    have hs : s.fs f = true := by
      simp only [Process.step] at hf
      split at hf
      · exact (cleanup_sub hf).1
      · exact hf
    refine key f hf hs fun h1 h2 => ?_
    by_cases ht : defaultAction sig = .terminate
    · obtain ⟨hr, hcl⟩ := hg ht h1
      have ha : (s.procs p).armed = true := by simp [Proc.armed, hr]
      have hn : sig ∉ (s.procs p).caught := fun hm => by
        have := ho.caught p sig hm ht
        rw [hr] at this; cases this
      simp only [Process.step, ha, hcl, hn, not_false_eq_true, and_self, if_true] at hf
      exact absurd (by rw [ho.file p hr]; exact congrArg some h2) (cleanup_sub hf).2.1
    · simpa [Process.step, Sys.set, Ev.proc, ht, Proc.holds] using And.intro h1 h2

theorem Backed.run {fs0 : Str → Bool} {s : Sys} (ho : Own s) (h : Backed fs0 s) (es : List Ev) (hg : AllGentle s es) : Backed fs0 (run s es) := by
  induction es generalizing s with
  | nil => exact h
  | cons e es ih => exact ih (ho.step e) (h.step ho e hg.1) hg.2

theorem register_works {s : Sys} {p : Nat} {argv0 : Str} (hb : (s.procs p).pc = .before) (hf : s.fs (fileOf (pidPath argv0)) = false) :
    ((run s (registerAll p argv0)).procs p).pc = .running ∧ (run s (registerAll p argv0)).fs (fileOf (pidPath argv0)) = true := by
  simp [run, registerAll, step, Sys.set, hb, hf]

/-- C183, for histories in which every process that has written its pid file ends, when it ends, after `RegisterProgram` returned and with `exit` or by a signal with a handler: whatever has happened - any number of processes, programs and
registrations, overlapping or not - a program whose pid file was not there at the beginning and of which no process is left can be started.  Missing for the full statement: processes that are killed, or end
inside of `RegisterProgram`, for which it is false. -/
theorem C183_again_partial (fs : Str → Bool) (es : List Ev) (hg : AllGentle (start fs) es) (argv0 : Str) (h0 : fs (fileOf (pidPath argv0)) = false)
    (hl : ∀ q, ((run (start fs) es).procs q).pc ∈ [Pc.created, .hooked, .running] → ∀ a, program q es = some a → fileOf (pidPath a) ≠ fileOf (pidPath argv0))
    (p : Nat) (hb : ((run (start fs) es).procs p).pc = .before) :
    ((run (start fs) (es ++ registerAll p argv0)).procs p).pc = .running := by
  rw [run_append]
  refine (register_works hb ?_).1
  by_contra hf
  have hf : (run (start fs) es).fs (fileOf (pidPath argv0)) = true := by simpa using hf
  rcases (Backed.run (Own.start fs) (fun f h => .inl h) es hg) _ hf with h | ⟨q, hq, hp⟩
  · have h : fs (fileOf (pidPath argv0)) = true := h
    rw [h0] at h; cases h
  · obtain ⟨a, ha, hpa⟩ := (run_named fs es q).1 (holds_inside hq)
    exact hl q (by simpa [Proc.holds] using hq) a ha (hpa.symm.trans hp)

/-- The hypotheses can be met: two processes of the program register at the same time, both end, one by signal 15, and another program is killed before it has written its file; then the program is started again. -/
example : let es := [.stat 0 (lit "./a"), .stat 1 (lit "a"), .create 0 true, .create 1 true, .hook 0, .finish 0, .hook 1, .finish 1, .signal 0 15, .stat 3 (lit "b"), .kill 3, .exit 1]
    AllGentle (start fun _ => false) es ∧ ((run (start fun _ => false) (es ++ registerAll 2 (lit "/usr/bin/a"))).procs 2).pc = .running := by
  refine ⟨?_, by decide +kernel⟩
  simp only [AllGentle, Gentle, true_and, and_true]
  refine ⟨fun _ _ => ⟨by decide +kernel, by decide +kernel⟩, ?_, fun _ => by decide +kernel⟩
  rintro (h | h | h) <;> revert h <;> decide +kernel

/-- C183: when a registered process ends, its pid file is gone exactly if it called `exit` or a signal with a handler ended it. -/
theorem C183_ends (fs : Str → Bool) (es : List Ev) (p : Nat) (e : Ev) (argv0 : Str) (ha : program p es = some argv0) (hr : ((run (start fs) es).procs p).pc = .running)
    (hf : (run (start fs) es).fs (fileOf (pidPath argv0)) = true) (he : e.proc = p) (hend : ((run (start fs) (es ++ [e])).procs p).pc = .ended) :
    (run (start fs) (es ++ [e])).fs (fileOf (pidPath argv0)) = false ↔ e = .exit p ∨ ∃ sig, e = .signal p sig ∧ cleansOn sig = true := by
  have ho := (Own.start fs).run es
  obtain ⟨a, ha', hpa⟩ := (run_named fs es p).1 (.inr (.inr (.inr hr)))
  obtain rfl : argv0 = a := Option.some.inj (ha.symm.trans ha')
  rw [run_append] at hend ⊢
  revert hend
  rw [← hpa] at hf ⊢
  have hm := ho.file p hr
  have hcaught := ho.caught p
  generalize run (start fs) es = s at hr hf hm hcaught ⊢
  have harm : (s.procs p).armed = true := by simp [Proc.armed, hr]
  show ((step s e).procs p).pc = .ended → ((step s e).fs (s.procs p).path = false ↔ _)
  intro hend
  subst he
  cases e with
  | exit p => simp only [Ev.proc] at *; simp [step, harm, cleanup, hm]
  | kill p => simp only [Ev.proc] at *; simp [step, Sys.set, hf]
  | signal p sig =>
    simp only [Ev.proc] at *
    have ht : defaultAction sig = .terminate := by
      by_contra hn
      simp [step, Sys.set, hn, hr] at hend
    have hn : sig ∉ (s.procs p).caught := fun hm' => by
      have := hcaught sig hm' ht
      rw [hr] at this; cases this
    cases hcl : cleansOn sig with
    | true => simp [step, harm, hcl, hn, cleanup, hm]
    | false => simp [step, harm, hcl, hf]
  | registerFile p f => simp only [Ev.proc] at *; simp [step, Sys.set, hr] at hend
  | stat p a => simp only [Ev.proc] at *; simp [step, hr] at hend
  | create p w => simp only [Ev.proc] at *; simp [step, hr] at hend
  | hook p => simp only [Ev.proc] at *; simp [step, hr] at hend
  | finish p => simp only [Ev.proc] at *; simp [step, hr] at hend

/-- No process that has not ended would remove the file. -/
def Left (F : Str) (s : Sys) : Prop := s.fs F = true ∧ ∀ p, (s.procs p).pc ≠ .ended → (s.procs p).mFile ≠ some F ∧ F ∉ (s.procs p).list ∧ ((s.procs p).inside → (s.procs p).path ≠ F)

theorem Left.step {F : Str} {s : Sys} (h : Left F s) (e : Ev) (he : ∀ p f, e = .registerFile p f → fileOf f ≠ F) : Left F (step s e) := by
  obtain ⟨hf, hp⟩ := h
  have keep : ∀ x : Proc, x.pc ≠ .ended → (∃ p, x = s.procs p) → cleanup s.fs x F = true := by
    rintro x hx ⟨p, rfl⟩
    have := hp p hx
    simp [cleanup, this.1, this.2.1, hf]
  constructor
  · cases e with
    | registerFile p f => simp only [Process.step]; split <;> exact hf
    | stat p a => simp only [Process.step]; split_ifs <;> exact hf
    | create p w =>
      simp only [Process.step]
      split_ifs
      · simp [hf]
      · exact hf
      · exact hf
    | hook p => simp only [Process.step]; split <;> exact hf
    | finish p => simp only [Process.step]; split <;> exact hf
    | exit p =>
      simp only [Process.step]
      split
      · rename_i ha
        exact keep _ (by intro e; simp [Proc.armed, e] at ha) ⟨p, rfl⟩
      · exact hf
    | kill p => exact hf
    | signal p sig =>
      simp only [Process.step]
      split
      · rename_i ha
        exact keep _ (by intro e; simp [Proc.armed, e] at ha) ⟨p, rfl⟩
      · exact hf
  · intro q hq
    by_cases hqe : e.proc = q
    · subst hqe
      have hpp := hp e.proc
      cases e with
      | registerFile p f =>
        have hfF := he p f rfl
        simp only [Process.step, Ev.proc, Sys.set] at hq hpp ⊢
        split at hq
        · rename_i h1; exact absurd h1 hq
        · rename_i h1
          rw [if_neg h1]
          have := hpp h1
          simp only [if_true, Proc.inside] at this ⊢
          refine ⟨this.1, ?_, this.2.2⟩
          simp only [List.mem_append, List.mem_singleton, not_or]
          exact ⟨this.2.1, fun e => hfF e.symm⟩
      | stat p a =>
        simp only [Process.step, Ev.proc, Sys.set] at hq hpp ⊢
        split_ifs at hq ⊢ with h1 h2
        · simp at hq
        · have := hpp (by rw [h1]; decide)
          simp only [if_true]
          refine ⟨this.1, this.2.1, fun _ e => ?_⟩
          rw [e] at h2; exact h2 hf
        · exact hpp hq
      | create p w =>
        simp only [Process.step, Ev.proc, Sys.set] at hq hpp ⊢
        split_ifs at hq ⊢ with h1 h2
        · have := hpp (by rw [h1]; decide)
          simp only [if_true]
          exact ⟨this.1, this.2.1, fun _ => this.2.2 (.inl h1)⟩
        · simp at hq
        · exact hpp hq
      | hook p =>
        simp only [Process.step, Ev.proc, Sys.set] at hq hpp ⊢
        split_ifs at hq ⊢ with h1
        · have := hpp (by rw [h1]; decide)
          simp only [if_true]
          exact ⟨this.1, this.2.1, fun _ => this.2.2 (.inr (.inl h1))⟩
        · exact hpp hq
      | finish p =>
        simp only [Process.step, Ev.proc, Sys.set] at hq hpp ⊢
        split_ifs at hq ⊢ with h1
        · have := hpp (by rw [h1]; decide)
          have hn := this.2.2 (.inr (.inr (.inl h1)))
          simp only [if_true]
          exact ⟨fun e => hn (Option.some.inj e), this.2.1, fun _ => hn⟩
        · exact hpp hq
      | exit p => simp [Process.step, Ev.proc, Sys.set] at hq
      | kill p => simp [Process.step, Ev.proc, Sys.set] at hq
      | signal p sig =>
        simp only [Process.step, Ev.proc, Sys.set, if_true] at hq hpp ⊢
        split at hq
        · exact absurd rfl hq
        · rename_i h1
          rw [if_neg h1]
          have := hpp hq
          exact ⟨this.1, this.2.1, fun h => this.2.2 h⟩
    · rw [step_other s e q hqe] at hq ⊢
      exact hp q hq

/-- C183 fails for ever: once the pid file is there and no process that would remove it is left, no start of the program succeeds, whatever processes do (unless one registers the file for removal). -/
theorem C183_stale (F : Str) (s : Sys) (h : Left F s) (es : List Ev) (he : ∀ p f, .registerFile p f ∈ es → fileOf f ≠ F) (p : Nat) (argv0 : Str) (ha : fileOf (pidPath argv0) = F)
    (hb : ((run s es).procs p).pc = .before) : (run s es).fs F = true ∧ ((run s (es ++ registerAll p argv0)).procs p).pc = .ended := by
  have hl : Left F (run s es) := by
    clear hb
    induction es generalizing s with
    | nil => exact h
    | cons e es ih =>
      exact ih (step s e) (h.step e fun p f h' => he p f (by rw [h']; exact List.mem_cons_self)) fun p f h' => he p f (List.mem_cons_of_mem _ h')
  refine ⟨hl.1, ?_⟩
  rw [run_append]
  have hx : (run s es).fs (fileOf (pidPath argv0)) = true := by rw [ha]; exact hl.1
  simp [run, registerAll, step, Sys.set] at hb hx ⊢
  simp [hb, hx]

/-- C183 is false after the process was killed (signal 9, or in the model at any point): no later start of the program succeeds. -/
theorem C183_killed_refuted (e : Ev) (he : e = .kill 0 ∨ e = .signal 0 9) (es : List Ev) (hn : ∀ p f, .registerFile p f ∈ es → fileOf f ≠ lit "/var/run/a.pid") (p : Nat)
    (hb : ((run (start fun _ => false) (registerAll 0 (lit "a") ++ [e] ++ es)).procs p).pc = .before) :
    ((run (start fun _ => false) (registerAll 0 (lit "a") ++ [e] ++ es ++ registerAll p (lit "./a"))).procs p).pc = .ended := by
  have hl : Left (lit "/var/run/a.pid") (run (start fun _ => false) (registerAll 0 (lit "a") ++ [e])) := by
    refine ⟨by rcases he with rfl | rfl <;> decide +kernel, fun q hq => ?_⟩
    have h0 : q ≠ 0 := by
      rintro rfl
      exact hq (by rcases he with rfl | rfl <;> decide +kernel)
    have : (run (start fun _ => false) (registerAll 0 (lit "a") ++ [e])).procs q = {} := by
      have hst : ∀ s : Sys, ∀ e : Ev, e.proc = 0 → (step s e).procs q = s.procs q := fun s e h => step_other s e q (by rw [h]; exact fun e => h0 e.symm)
      show (step (step (step (step (step (start fun _ => false) (.stat 0 (lit "a"))) (.create 0 true)) (.hook 0)) (.finish 0)) e).procs q = {}
      rw [hst _ _ (by rcases he with rfl | rfl <;> rfl), hst _ _ rfl, hst _ _ rfl, hst _ _ rfl, hst _ _ rfl]
      rfl
    rw [this]
    exact ⟨fun e => (by cases e), List.not_mem_nil, fun h => (by rcases h with h | h | h | h <;> cases h)⟩
  rw [run_append] at hb
  rw [List.append_assoc, run_append]
  exact (C183_stale _ _ hl es hn p (lit "./a") (by decide +kernel) hb).2

/-- The hypothesis can be met: the program was killed, other programs come and go. -/
example : ((run (start fun _ => false) (registerAll 0 (lit "a") ++ [.signal 0 9] ++ (registerAll 1 (lit "b") ++ [.exit 1]))).procs 2).pc = .before := by decide +kernel

/-- C183 is false when the process ends while it registers, whatever the reason: `exit` right after the handlers are in place leaves the file. -/
theorem C183_early_refuted : ((run (start fun _ => false) ([.stat 0 (lit "a"), .create 0 true, .hook 0, .exit 0] ++ registerAll 1 (lit "a"))).procs 1).pc = .ended := by decide +kernel

/-- Someone deletes a file, as the message of `RegisterProgram` advises (`SelfDetect.cpp:69`). -/
def Sys.delete (s : Sys) (path : Str) : Sys := { s with fs := fun f => if f = fileOf path then false else s.fs f }

/-- C183: deleting the file named in the message lets the program start, whatever has happened before, and lets no program start that has another file. -/
theorem C183_delete (fs : Str → Bool) (es : List Ev) (argv0 b : Str) (p : Nat) (hb : ((run (start fs) es).procs p).pc = .before) :
    ((run ((run (start fs) es).delete (pidPath argv0)) (registerAll p argv0)).procs p).pc = .running ∧
      (fileOf (pidPath b) ≠ fileOf (pidPath argv0) →
        (((run ((run (start fs) es).delete (pidPath argv0)) (registerAll p b)).procs p).pc = .running ↔ ((run (start fs) (es ++ registerAll p b)).procs p).pc = .running)) := by
  rw [run_append]
  generalize run (start fs) es = s at hb ⊢
  refine ⟨(register_works (s := s.delete (pidPath argv0)) hb (if_pos rfl)).1, fun hne => ?_⟩
  cases hf : s.fs (fileOf (pidPath b)) <;> simp [run, registerAll, step, Sys.set, Sys.delete, hb, hf, hne]

/-- The advice is for programs that are not running: otherwise two run, and when the first ends, the file of the second is gone and a third can start. -/
example : let s := run (start fun _ => false) (registerAll 0 (lit "a"))
    let s := run (s.delete (pidPath (lit "a"))) (registerAll 1 (lit "a") ++ [.exit 0] ++ registerAll 2 (lit "a"))
    (s.procs 1).pc = .running ∧ (s.procs 2).pc = .running := by decide +kernel

/-- The program was killed; with its file deleted it starts again. -/
example : ((run (start fun _ => false) (registerAll 0 (lit "a") ++ [.kill 0] ++ registerAll 1 (lit "a"))).procs 1).pc = .ended ∧
    ((run ((run (start fun _ => false) (registerAll 0 (lit "a") ++ [.kill 0])).delete (pidPath (lit "a"))) (registerAll 1 (lit "a"))).procs 1).pc = .running := by decide +kernel

end Verif.Process
