import Verif.Process.Model
import Mathlib.Data.List.Induction
import Mathlib.Tactic.SplitIfs
import Mathlib.Tactic.IntervalCases

/- Properties C72 (signal handlers) and C87 (settings of the crash handler). -/

namespace Verif.Process

variable {H : Type}

/-- What happens to an object of class `UnixSignal`. -/
inductive SEv (H : Type)
  | reg (h : H) (sig : Int)
  | tar (saveFiles : Bool)
  | del (sig : Nat)

/-- One event. -/
def sstep (s : Sigs H) : SEv H → Outcome (Sigs H)
  | .reg h sig => .ok (register s h sig)
  | .tar b => .ok (tarName s b)
  | .del sig => (deliver s sig).bind fun r => .ok r.2.2

/-- A history. -/
def srun (s : Sigs H) : List (SEv H) → Outcome (Sigs H)
  | [] => .ok s
  | e :: es => (sstep s e).bind fun s' => srun s' es

/-! Specification of C72, on histories only. -/

/-- The handlers registered for a signal in a history, in order. -/
def registered (sig : Nat) : List (SEv H) → List H
  | [] => []
  | .reg h n :: es => if n = sig then h :: registered sig es else registered sig es
  | _ :: es => registered sig es

/-- A registration for the signal has happened since it was last delivered. -/
def freshReg (sig : Nat) : List (SEv H) → Bool → Bool
  | [], b => b
  | .reg _ n :: es, b => freshReg sig es (b || decide (n = (sig : Int)))
  | .tar _ :: es, b => freshReg sig es b
  | .del n :: es, b => freshReg sig es (b && decide (n ≠ sig))

theorem bind_ok_iff {α β : Type} (x : Outcome α) (f : α → Outcome β) (b : β) : x.bind f = .ok b ↔ ∃ a, x = .ok a ∧ f a = .ok b := by
  cases x <;> simp [Outcome.bind]

/-- The state after a history. -/
theorem srun_state (sig : Nat) (h1 : 1 ≤ sig) (h2 : sig < 64) (hc : catchable sig = true) (es : List (SEv H)) (s s' : Sigs H) (b : Bool)
    (hb : s.disp sig = if b then .ours else .dfl) (hr : srun s es = .ok s') :
    s'.handlers sig = s.handlers sig ++ registered sig es ∧ s'.disp sig = (if freshReg sig es b then .ours else .dfl) ∧ (s.saveFiles.isSome → s'.saveFiles.isSome) := by
  induction es generalizing s b with
  | nil =>
    cases hr
    exact ⟨(List.append_nil _).symm, hb, id⟩
  | cons e es ih =>
    obtain ⟨t, ht, hr'⟩ := (bind_ok_iff _ _ _).1 hr
    cases e with
    | reg h n =>
      cases ht
      have hd : (register s h n).disp sig = if (b || decide (n = (sig : Int))) then .ours else .dfl := by
        unfold register C_NSIG
        split_ifs with c d d
        · simp only [Bool.or_eq_true, decide_eq_true_eq] at d
          rcases d with d | d
          · rw [hb, if_pos d]
          · omega
        · simp only [Bool.or_eq_true, decide_eq_true_eq, not_or, Bool.not_eq_true] at d
          rw [hb, d.1]; rfl
        · simp only [Bool.or_eq_true, decide_eq_true_eq] at d
          dsimp only
          split_ifs with e
          · rfl
          · rcases d with d | d
            · rw [hb, if_pos d]
            · exact absurd ⟨by omega, hc⟩ e
        · simp only [Bool.or_eq_true, decide_eq_true_eq, not_or, Bool.not_eq_true] at d
          dsimp only
          rw [if_neg (by rintro ⟨e, -⟩; apply d.2; omega), hb, d.1]; rfl
      have hh : (register s h n).handlers sig = s.handlers sig ++ registered sig [.reg h n] := by
        unfold register C_NSIG
        simp only [registered]
        split_ifs with c d d
        · omega
        · simp
        · dsimp only; rw [if_pos (by omega)]
        · dsimp only; rw [if_neg (by omega)]; simp
      have hs : (register s h n).saveFiles = s.saveFiles := by unfold register; split_ifs <;> rfl
      obtain ⟨i1, i2, i3⟩ := ih _ _ hd hr'
      refine ⟨?_, i2, ?_⟩
      · rw [i1, hh]
        simp only [registered]
        split_ifs <;> simp
      · rw [hs] at i3; exact i3
    | tar c =>
      cases ht
      obtain ⟨i1, i2, i3⟩ := ih (tarName s c) b hb hr'
      exact ⟨i1, i2, fun _ => i3 rfl⟩
    | del n =>
      obtain ⟨⟨hs, a, u⟩, hu, he⟩ := (bind_ok_iff _ _ _).1 ht
      cases he
      have key : u.handlers = s.handlers ∧ u.saveFiles = s.saveFiles ∧ u.disp sig = if (b && decide (n ≠ sig)) then .ours else .dfl := by
        unfold deliver at hu
        cases hd : s.disp n with
        | dfl =>
          rw [hd] at hu; cases hu
          refine ⟨rfl, rfl, ?_⟩
          by_cases e : n = sig
          · rw [← e, hd]; simp [e]
          · simp [e, hb]
        | ign =>
          rw [hd] at hu; cases hu
          refine ⟨rfl, rfl, ?_⟩
          by_cases e : n = sig
          · subst e; rw [hb] at hd; split_ifs at hd
          · simp [e, hb]
        | ours =>
          rw [hd] at hu
          obtain ⟨x, _, hx⟩ := (bind_ok_iff _ _ _).1 hu
          cases hx
          refine ⟨rfl, rfl, ?_⟩
          by_cases e : n = sig
          · simp [e]
          · dsimp only
            rw [if_neg (fun h => e h.symm), hb]
            simp [e]
      obtain ⟨i1, i2, i3⟩ := ih _ _ key.2.2 hr'
      refine ⟨?_, i2, ?_⟩
      · rw [i1, key.1]; rfl
      · rw [key.2.1] at i3; exact i3

/-- C72, exactly what happens: after any history of registrations, settings and deliveries, a signal that can be caught calls every handler registered for it so far, each once, in
the order of registration, if something was registered for it since it was last delivered, and nothing otherwise; the default action follows. -/
theorem C72_history (es : List (SEv H)) (s : Sigs H) (hr : srun {} es = .ok s) (sig : Nat) (h1 : 1 ≤ sig) (h2 : sig < 64) (hc : catchable sig = true) :
    ∃ s', deliver s sig = .ok (if freshReg sig es false then registered sig es else [], defaultAction sig, s') := by
  obtain ⟨i1, i2, i3⟩ := srun_state sig h1 h2 hc es {} s false rfl hr
  have hsf := i3 rfl
  cases hf : freshReg sig es false with
  | false =>
    rw [hf] at i2
    refine ⟨s, ?_⟩
    unfold deliver
    rw [i2]; rfl
  | true =>
    rw [hf] at i2
    unfold deliver
    rw [i2]
    have : handler s (sig : Int) = .ok (registered sig es) := by
      unfold handler C_NSIG
      rw [if_neg (by omega), if_neg, Int.toNat_natCast, i1]
      · rfl
      · rintro ⟨-, e⟩; rw [e] at hsf; cases hsf
    show ∃ s', (handler s (sig : Int)).bind _ = _
    rw [this]
    exact ⟨_, rfl⟩

/-- C72, for the first delivery of a signal: every handler registered for it is called once, in order; registrations for numbers out of range change nothing.  Missing for the full statement: later deliveries
(`C72_second_refuted`) and signals that cannot be caught (`C72_kill_refuted`). -/
theorem C72_first_partial (es : List (SEv H)) (s : Sigs H) (hr : srun {} es = .ok s) (sig : Nat) (h1 : 1 ≤ sig) (h2 : sig < 64) (hc : catchable sig = true)
    (hf : ∀ e ∈ es, ∀ n, e = SEv.del n → n ≠ sig) : ∃ s', deliver s sig = .ok (registered sig es, defaultAction sig, s') := by
  obtain ⟨s', h⟩ := C72_history es s hr sig h1 h2 hc
  refine ⟨s', ?_⟩
  rw [h]
  have key : ∀ (es : List (SEv H)) b, (∀ e ∈ es, ∀ n, e = SEv.del n → n ≠ sig) → freshReg sig es b = false → registered sig es = [] := by
    intro es
    induction es with
    | nil => intros; rfl
    | cons e es ih =>
      intro b hf' hfr
      have hrest := fun x hx => hf' x (List.mem_cons_of_mem e hx)
      cases e with
      | reg h n =>
        simp only [freshReg] at hfr
        simp only [registered]
        by_cases hn : n = (sig : Int)
        · rw [decide_eq_true hn, Bool.or_true] at hfr
          have hmono : ∀ (es : List (SEv H)), (∀ e ∈ es, ∀ n, e = SEv.del n → n ≠ sig) → freshReg sig es true = true := by
            intro es
            induction es with
            | nil => intro _; rfl
            | cons e es ih2 =>
              intro hf2
              have hr2 := fun x hx => hf2 x (List.mem_cons_of_mem e hx)
              cases e with
              | reg h n => simpa [freshReg] using ih2 hr2
              | tar c => simpa [freshReg] using ih2 hr2
              | del n =>
                have := hf2 _ List.mem_cons_self n rfl
                simpa [freshReg, this] using ih2 hr2
          rw [hmono es hrest] at hfr
          cases hfr
        · rw [if_neg hn]
          exact ih _ hrest hfr
      | tar c => exact ih b hrest hfr
      | del n => exact ih _ hrest hfr
  cases hfr : freshReg sig es false with
  | true => rfl
  | false => rw [key es false hf hfr]; rfl

/-- The hypotheses can be met: two handlers, in order; numbers out of range ignored. -/
example : ∃ s : Sigs Nat, srun {} [.tar true, .reg 7 2, .reg 5 2, .reg 9 100, .reg 9 (-1), .reg 8 15] = .ok s ∧ registered 2 [.tar true, .reg 7 2, .reg 5 2, .reg 9 100, .reg 9 (-1), .reg 8 15] = [7, 5] ∧ catchable 2 = true :=
  ⟨_, rfl, by decide, by decide⟩

/-- C72: registrations for numbers out of range change nothing at all. -/
theorem C72_out_of_range (s : Sigs H) (h : H) (sig : Int) (ho : sig < 1 ∨ 63 < sig) : register s h sig = s := by
  unfold register C_NSIG
  rw [if_pos (by omega)]

example : (0 : Int) < 1 ∨ (63 : Int) < 0 := by decide

/-- C72 is false for the second delivery of a signal that does not end the process (28, resizing the terminal): the handler is not called, though it was registered and never removed. -/
theorem C72_second_refuted : ∃ s s' : Sigs Nat, srun {} [.reg 7 28] = .ok s ∧ deliver s 28 = .ok ([7], .ignore, s') ∧ ∃ s'', deliver s' 28 = .ok ([], .ignore, s'') :=
  ⟨_, _, rfl, rfl, _, rfl⟩

/-- C72 is false for signals 9 and 19: the registration is accepted, the handler is never called. -/
theorem C72_kill_refuted : ∃ s : Sigs Nat, srun {} [.reg 7 9] = .ok s ∧ s.handlers 9 = [7] ∧ deliver s 9 = .ok ([], .terminate, s) :=
  ⟨_, rfl, rfl, rfl⟩

/-- C72 is false for signal 64, a signal of the system that is out of range for the class: the handler is not registered. -/
theorem C72_last_refuted : ∃ s : Sigs Nat, srun {} [.reg 7 64] = .ok s ∧ deliver s 64 = .ok ([], .terminate, s) :=
  ⟨_, rfl, rfl⟩

/-- `RegisterProgram` registering its handler (`SelfDetect.cpp:86-106`). -/
def registerSignals (s : Sigs H) (h : H) : Sigs H := ((List.range' 1 63).filter (fun i => i ≠ 18 ∧ i ≠ 17)).foldl (fun s (i : Nat) => register s h (i : Int)) s

theorem foldl_register_disp (l : List Nat) (hl : ∀ i ∈ l, 1 ≤ i ∧ i < 64) (s : Sigs H) (h : H) (sig : Nat) :
    (l.foldl (fun s (i : Nat) => register s h (i : Int)) s).disp sig = if sig ∈ l ∧ catchable sig then .ours else s.disp sig := by
  induction l generalizing s with
  | nil => simp
  | cons a l ih =>
    have ha := hl a List.mem_cons_self
    rw [List.foldl_cons, ih (fun i hi => hl i (List.mem_cons_of_mem _ hi))]
    have : (register s h (a : Int)).disp sig = if sig = a ∧ catchable sig then .ours else s.disp sig := by
      unfold register C_NSIG
      rw [if_neg (by omega)]
      simp
    rw [this]
    by_cases h1 : sig ∈ l <;> cases h2 : catchable sig <;> by_cases h3 : sig = a <;> simp [h1, h3]

/-- C72: the handler that removes the files is installed by `RegisterProgram` for exactly the signals in `cleansOn`, used in C70 and C71. -/
theorem C72_program (h : H) (sig : Nat) : (registerSignals {} h).disp sig = .ours ↔ cleansOn sig = true := by
  unfold registerSignals
  rw [foldl_register_disp]
  · unfold cleansOn
    have : sig ∈ (List.range' 1 63).filter (fun i => i ≠ 18 ∧ i ≠ 17) ↔ (1 ≤ sig ∧ sig < 64 ∧ sig ≠ 18 ∧ sig ≠ 17) := by
      simp only [List.mem_filter, List.mem_range'_1, decide_eq_true_eq]
      omega
    rw [Bool.and_eq_true, decide_eq_true_eq, ← this]
    split_ifs with c
    · exact ⟨fun _ => c, fun _ => rfl⟩
    · exact ⟨fun e => (by cases e), fun e => absurd e c⟩
  · intro i hi
    have := (List.mem_filter.1 hi).1
    rw [List.mem_range'_1] at this
    omega

/-! ### C87 -/

/-- C87 is false for an object of one's own, on the stack or from `new`: `Handler` called for a crash signal without a call of `TarName` before reads `mSaveFiles`, which nothing has written. -/
theorem C87_settings_refuted : handler (register ({ saveFiles := none } : Sigs Nat) 7 11) 11 = .ub := rfl

/-- C87 is false for a direct call with a number out of range, which `Register` checks and `Handler` does not. -/
theorem C87_range_refuted : handler ({ saveFiles := some true } : Sigs Nat) 64 = .ub := rfl

theorem srun_safe (es : List (SEv H)) (s : Sigs H) (hs : s.saveFiles.isSome) (hd : ∀ n, 64 ≤ n → s.disp n ≠ .ours) : ∃ s', srun s es = .ok s' ∧ s'.saveFiles.isSome := by
  induction es generalizing s with
  | nil => exact ⟨s, rfl, hs⟩
  | cons e es ih =>
    have key : ∃ t, sstep s e = .ok t ∧ t.saveFiles.isSome ∧ ∀ n, 64 ≤ n → t.disp n ≠ .ours := by
      cases e with
      | reg h n =>
        refine ⟨_, rfl, ?_, ?_⟩
        · unfold register; split_ifs <;> exact hs
        · intro m hm
          unfold register C_NSIG
          split_ifs with c
          · exact hd m hm
          · dsimp only
            rw [if_neg (by rintro ⟨e, -⟩; omega)]
            exact hd m hm
      | tar b => exact ⟨_, rfl, rfl, hd⟩
      | del n =>
        simp only [sstep, deliver]
        cases hn : s.disp n with
        | dfl => exact ⟨s, rfl, hs, hd⟩
        | ign => exact ⟨s, rfl, hs, hd⟩
        | ours =>
          have hn' : n < 64 := by
            by_contra hc
            exact hd n (by omega) hn
          have : handler s (n : Int) = .ok (s.handlers n) := by
            unfold handler C_NSIG
            rw [if_neg (by omega), if_neg, Int.toNat_natCast]
            rintro ⟨-, e⟩; rw [e] at hs; cases hs
          dsimp only
          rw [this]
          refine ⟨_, rfl, hs, ?_⟩
          intro m hm
          dsimp only
          split_ifs
          · decide
          · exact hd m hm
    obtain ⟨t, ht, h1, h2⟩ := key
    obtain ⟨s', h3, h4⟩ := ih t h1 h2
    exact ⟨s', by show (sstep s e).bind _ = _; rw [ht]; exact h3, h4⟩

/-- C87 for the signals the kernel delivers: no history of registrations, settings and deliveries reads anything not written or out of range, and neither does a signal that follows it.  Missing for the full
statement: `Handler` called by the program (`C87_settings_refuted`, `C87_range_refuted`). -/
theorem C87_delivered_partial (es : List (SEv H)) : ∃ s, srun {} es = .ok s ∧ ∀ sig : Nat, deliver s sig ≠ .ub := by
  obtain ⟨s, hs, _⟩ := srun_safe es {} rfl (fun _ _ h => by cases h)
  refine ⟨s, hs, fun sig hu => ?_⟩
  obtain ⟨s', hs', _⟩ := srun_safe (es ++ [.del sig]) {} rfl (fun _ _ h => by cases h)
  have : ∀ (t : Sigs H), srun t es = .ok s → srun t (es ++ [.del sig]) = .ub := by
    clear hs hs'
    induction es with
    | nil => intro t ht; cases ht; show (sstep s (.del sig)).bind _ = _; simp only [sstep, hu]; rfl
    | cons e es ih =>
      intro t ht
      obtain ⟨u, hu1, hu2⟩ := (bind_ok_iff _ _ _).1 ht
      show (sstep t e).bind _ = _
      rw [hu1]
      exact ih u hu2
  rw [this _ hs] at hs'
  cases hs'

/-- A crash signal with a handler, before any setting: the handler is called. -/
example : ∃ s s' : Sigs Nat, srun {} [.reg 7 11] = .ok s ∧ deliver s 11 = .ok ([7], .terminate, s') := ⟨_, _, rfl, rfl⟩

end Verif.Process
