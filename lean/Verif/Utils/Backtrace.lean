import Verif.Core.Str
import Mathlib.Data.List.Basic

/-
Property C186: the list of callers that `Mutex::lock` reports (`/repo/Utils.cpp:586-606`, used in `/repo/Threads.cpp:166`), and `stringcat` (`/repo/Utils.cpp:501-532`).

Not part of /repo: `backtrace` finds the callers, innermost first, and stores at most as many as it is told; `backtrace_symbols` returns NULL or one block from `malloc` with a text for each.
-/

namespace Verif.Utils.Backtrace
open Verif

/-! ### stringcat -/

/-- `stringcat` with seven texts (`Utils.cpp:502-514`). -/
def stringcat7 (a b c d e f g : Str) : Str :=
  let result : Str := []
  let result := result ++ a
  let result := result ++ b
  let result := result ++ c
  let result := result ++ d
  let result := result ++ e
  let result := result ++ f
  result ++ g

/-- `emptystring` (`Utils.cpp:516`). -/
def emptystring : Str := lit ""

/-- The other forms of `stringcat` (`Utils.cpp:518-532`), by the list of their arguments. -/
def stringcat : List Str → Option Str
  | [a, b] => some (stringcat7 a b emptystring emptystring emptystring emptystring emptystring)
  | [a, b, c] => some (stringcat7 a b c emptystring emptystring emptystring emptystring)
  | [a, b, c, d] => some (stringcat7 a b c d emptystring emptystring emptystring)
  | [a, b, c, d, e] => some (stringcat7 a b c d e emptystring emptystring)
  | [a, b, c, d, e, f] => some (stringcat7 a b c d e f emptystring)
  | [a, b, c, d, e, f, g] => some (stringcat7 a b c d e f g)
  | _ => none

/-- C186: `stringcat` joins its arguments, in order; there are forms for two to seven. -/
theorem C186_stringcat (l : List Str) : stringcat l = if 2 ≤ l.length ∧ l.length ≤ 7 then some l.flatten else none := by
  match l with
  | [] => rfl
  | [_] => rfl
  | [a, b] => simp [stringcat, stringcat7, emptystring, lit]
  | [a, b, c] => simp [stringcat, stringcat7, emptystring, lit]
  | [a, b, c, d] => simp [stringcat, stringcat7, emptystring, lit]
  | [a, b, c, d, e] => simp [stringcat, stringcat7, emptystring, lit]
  | [a, b, c, d, e, f] => simp [stringcat, stringcat7, emptystring, lit]
  | [a, b, c, d, e, f, g] => simp [stringcat, stringcat7]
  | a :: b :: c :: d :: e :: f :: g :: h :: t =>
    rw [if_neg (by simp only [List.length_cons]; omega)]
    rfl

example : stringcat [lit "Log", lit ".", lit "Level"] = some (lit "Log.Level") := by decide

/-! ### rn_backtrace -/

/-- What a call leaves: a text or an exception, and whether the block from `backtrace_symbols` is still allocated. -/
structure Ret where
  text : Option Str
  kept : Bool
deriving DecidableEq, Repr

/-- The system: the callers (innermost first); whether `backtrace_symbols` gets its block, with `sym` the text for each; whether the assignment (0), the `j`-th concatenation (`j + 1`), and the copy of `backtrace_failed` get memory. -/
structure World where
  callers : List Nat
  block : Bool
  sym : Nat → Str
  mem : Nat → Bool
  memFailed : Bool

/-- `backtrace(buffer,30)` (`Utils.cpp:590-591`). -/
def frames (w : World) : List Nat := w.callers.take 30

/-- `return backtrace_failed` (`Utils.cpp:586, 592, 594, 602`): the text is copied. -/
def failed (w : World) (kept : Bool) : Ret := ⟨if w.memFailed then some (lit "backtrace failed") else none, kept⟩

/-- The loop (`Utils.cpp:598-600`) from index `j` on; `none` if memory runs out. -/
def loop (w : World) : Nat → List Nat → Str → Option Str
  | _, [], result => some result
  | j, p :: ps, result => if w.mem (j + 1) then loop w (j + 1) ps (result ++ lit " " ++ w.sym p) else none

/-- `rn_backtrace` (`Utils.cpp:588-606`).  The block is freed only after the loop (`Utils.cpp:604`).  Simplification: each of the statements in the `try` block has memory or not as a whole. -/
def rnBacktrace (w : World) : Ret :=
  if frames w = [] then failed w false
  else if w.block = false then failed w false
  else match (if w.mem 0 then loop w 0 (frames w) (lit "backtrace:") else none) with
    | some result => ⟨some result, false⟩
    | none => failed w true

/-! ### Specification -/

/-- The report for the given texts. -/
def Report (l : List Str) (r : Str) : Prop := r = lit "backtrace:" ++ (l.map fun s => chr ' ' :: s).flatten

theorem loop_all {w : World} (hm : ∀ k, w.mem k = true) (j : Nat) (ps : List Nat) (r : Str) : loop w j ps r = some (r ++ (ps.map fun p => chr ' ' :: w.sym p).flatten) := by
  induction ps generalizing j r with
  | nil => simp [loop]
  | cons p ps ih =>
    rw [loop, if_pos (hm _), ih]
    have : lit " " = [chr ' '] := by decide
    simp [this, List.append_assoc]

/-- C186, with enough memory: the report has the texts of the innermost 30 callers, or of all if there are fewer, in order, and nothing stays allocated.  Missing for the full statement: running out of memory, where the function keeps
the block (`C186_kept_refuted`) or leaves with an exception (`C186_throws_refuted`). -/
theorem C186_report_partial (w : World) (hm : ∀ k, w.mem k = true) (hb : w.block = true) (hc : w.callers ≠ []) :
    ∃ r, rnBacktrace w = ⟨some r, false⟩ ∧ Report ((w.callers.take 30).map w.sym) r := by
  have hf : frames w ≠ [] := by
    simp only [frames, ne_eq, List.take_eq_nil_iff]
    rintro (h | h)
    · cases h
    · exact hc h
  refine ⟨_, ?_, rfl⟩
  simp only [rnBacktrace, if_neg hf, hb, hm, if_true, loop_all hm, Bool.true_eq_false, if_false]
  simp [frames, Function.comp_def]

/-- A text with a fixed number of blanks is followed by a blank or nothing: where it ends is determined. -/
theorem cut {k : Nat} {a b x y : Str} (ha : a.count (chr ' ') = k) (hb : b.count (chr ' ') = k) (hx : x = [] ∨ ∃ x', x = chr ' ' :: x') (hy : y = [] ∨ ∃ y', y = chr ' ' :: y') (h : a ++ x = b ++ y) : a = b ∧ x = y := by
  have key : ∀ {a b x y : Str}, a.count (chr ' ') = k → b.count (chr ' ') = k → (x = [] ∨ ∃ x', x = chr ' ' :: x') → ∀ c, b = a ++ c → x = c ++ y → c = [] := by
    intro a b x y ha hb hx c h1 h2
    cases c with
    | nil => rfl
    | cons u c =>
      rcases hx with rfl | ⟨x', rfl⟩
      · cases h2
      · obtain rfl : chr ' ' = u := (List.cons.inj h2).1
        rw [h1, List.count_append, List.count_cons_self, ha] at hb
        omega
  rcases List.append_eq_append_iff.mp h with ⟨c, h1, h2⟩ | ⟨c, h1, h2⟩
  · obtain rfl := key ha hb hx c h1 h2
    exact ⟨by simpa using h1.symm, by simpa using h2⟩
  · obtain rfl := key hb ha hy c h1 h2
    exact ⟨by simpa using h1, by simpa using h2.symm⟩

theorem tail_form (l : List Str) : (l.map fun s => chr ' ' :: s).flatten = [] ∨ ∃ x', (l.map fun s => chr ' ' :: s).flatten = chr ' ' :: x' := by
  cases l with
  | nil => exact .inl rfl
  | cons a l => exact .inr ⟨a ++ (l.map fun s => chr ' ' :: s).flatten, by simp⟩

/-- C186: the callers can be read from the report, if all texts have the same number of blanks - as those of `backtrace_symbols` have, which are name and address with one blank between, unless the name of the program has blanks. -/
theorem C186_readable (k : Nat) (l m : List Str) (hl : ∀ s ∈ l, s.count (chr ' ') = k) (hm : ∀ s ∈ m, s.count (chr ' ') = k) (r : Str) (h1 : Report l r) (h2 : Report m r) : l = m := by
  have h : (l.map fun s => chr ' ' :: s).flatten = (m.map fun s => chr ' ' :: s).flatten := List.append_cancel_left (h1.symm.trans h2)
  clear h1 h2
  induction l generalizing m with
  | nil =>
    cases m with
    | nil => rfl
    | cons b m => simp at h
  | cons a l ih =>
    cases m with
    | nil => simp at h
    | cons b m =>
      simp only [List.map_cons, List.flatten_cons, List.cons_append, List.cons.injEq, true_and] at h
      obtain ⟨rfl, h'⟩ := cut (hl a (by simp)) (hm b (by simp)) (tail_form l) (tail_form m) h
      rw [ih m (fun s hs => hl s (by simp [hs])) (fun s hs => hm s (by simp [hs])) h']

/-- Two callers, in a report as it comes. -/
example : rnBacktrace ⟨[7, 9], true, fun p => if p = 7 then lit "./a(f+0x2) [0x7]" else lit "./a() [0x9]", fun _ => true, true⟩ = ⟨some (lit "backtrace: ./a(f+0x2) [0x7] ./a() [0x9]"), false⟩ := by decide +kernel

/-- More than 30 callers: the outer ones are left out. -/
example : ((rnBacktrace ⟨List.replicate 50 7, true, fun _ => lit "x", fun _ => true, true⟩).text.map List.length) = some 70 := by decide +kernel

/-- C186: whatever happens with memory, the function returns the full report, or the text "backtrace failed", or leaves with an exception; never a part of a report. -/
theorem C186_whole (w : World) (r : Str) (h : (rnBacktrace w).text = some r) : Report ((w.callers.take 30).map w.sym) r ∨ r = lit "backtrace failed" := by
  have hfail : ∀ k, (failed w k).text = some r → r = lit "backtrace failed" := by
    intro k e
    simp only [failed] at e
    split at e
    · exact (Option.some.inj e).symm
    · cases e
  have hloop : ∀ ps j acc x, loop w j ps acc = some x → x = acc ++ (ps.map fun p => chr ' ' :: w.sym p).flatten := by
    intro ps
    induction ps with
    | nil => intro j acc x e; simp only [loop] at e; simpa using (Option.some.inj e).symm
    | cons p ps ih =>
      intro j acc x e
      simp only [loop] at e
      split at e
      · have := ih _ _ _ e
        have hb : lit " " = [chr ' '] := by decide
        simpa [hb, List.append_assoc] using this
      · cases e
  simp only [rnBacktrace] at h
  split at h
  · exact .inr (hfail _ h)
  · split at h
    · exact .inr (hfail _ h)
    · split at h
      · rename_i x e
        obtain rfl := Option.some.inj h
        split at e
        · left
          have := hloop _ _ _ _ e
          simpa [Report, frames, Function.comp_def] using this
        · cases e
      · exact .inr (hfail _ h)

/-- C186: the block stays allocated exactly if memory runs out while the report is put together. -/
theorem C186_kept (w : World) : (rnBacktrace w).kept = true ↔ w.callers ≠ [] ∧ w.block = true ∧ ∃ k, k ≤ (w.callers.take 30).length ∧ w.mem k = false := by
  have hloop : ∀ ps j acc, loop w j ps acc = none ↔ ∃ k, j < k ∧ k ≤ j + ps.length ∧ w.mem k = false := by
    intro ps
    induction ps with
    | nil =>
      intro j acc
      simp only [loop, reduceCtorEq, false_iff, List.length_nil]
      rintro ⟨k, h1, h2, _⟩
      omega
    | cons p ps ih =>
      intro j acc
      simp only [loop, List.length_cons]
      by_cases hm : w.mem (j + 1) = true
      · rw [if_pos hm, ih]
        constructor
        · rintro ⟨k, h1, h2, h3⟩; exact ⟨k, by omega, by omega, h3⟩
        · rintro ⟨k, h1, h2, h3⟩
          refine ⟨k, ?_, by omega, h3⟩
          have : k ≠ j + 1 := by rintro rfl; rw [hm] at h3; cases h3
          omega
      · rw [if_neg hm]
        exact ⟨fun _ => ⟨j + 1, by omega, by omega, by simpa using hm⟩, fun _ => rfl⟩
  have hnil : frames w = [] ↔ w.callers = [] := by simp [frames, List.take_eq_nil_iff]
  simp only [rnBacktrace]
  by_cases hc : w.callers = []
  · rw [if_pos (hnil.mpr hc)]; simp [failed, hc]
  · rw [if_neg (fun h => hc (hnil.mp h))]
    by_cases hb : w.block = false
    · rw [if_pos hb]; simp [failed, hb]
    · rw [if_neg hb]
      have hb : w.block = true := by simpa using hb
      have hx : (if w.mem 0 then loop w 0 (frames w) (lit "backtrace:") else none) = none ↔ ∃ k, k ≤ (w.callers.take 30).length ∧ w.mem k = false := by
        by_cases h0 : w.mem 0 = true
        · rw [if_pos h0, hloop]
          constructor
          · rintro ⟨k, _, h2, h3⟩; exact ⟨k, by simpa [frames] using h2, h3⟩
          · rintro ⟨k, h2, h3⟩
            refine ⟨k, ?_, by simpa [frames] using h2, h3⟩
            have : k ≠ 0 := by rintro rfl; rw [h0] at h3; cases h3
            omega
        · rw [if_neg h0]
          exact ⟨fun _ => ⟨0, Nat.zero_le _, by simpa using h0⟩, fun _ => rfl⟩
      rw [← hx]
      split
      · rename_i e; simp [e]
      · rename_i e; simp [e, failed, hc, hb]

/-- C186 (negation): out of memory, the block of `backtrace_symbols` is kept for ever, though the function returns normally. -/
theorem C186_kept_refuted : ∃ w : World, (rnBacktrace w).text = some (lit "backtrace failed") ∧ (rnBacktrace w).kept = true :=
  ⟨⟨[7], true, fun _ => lit "./a() [0x7]", fun k => k = 0, true⟩, by decide +kernel, by decide +kernel⟩

/-- C186 (negation): though the function catches every exception, it can leave with one, since the text "backtrace failed" is copied outside of the `try` block and is too long (16 characters) to be kept without memory. -/
theorem C186_throws_refuted : ∃ w : World, (rnBacktrace w).text = none ∧ (lit "backtrace failed").length = 16 := ⟨⟨[7], true, fun _ => [], fun _ => false, false⟩, by decide +kernel, by decide +kernel⟩

end Verif.Utils.Backtrace
