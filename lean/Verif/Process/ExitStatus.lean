import Verif.Core.Number

/-
Property C120: exit codes (`Exit.h:29-58`).
-/

namespace Verif.Process.ExitStatus

open Verif

/-- `Exit::SUCCESS` (`Exit.h:34`). -/
def success : Int := 0

/-- `Exit::LIMIT` (`Exit.h:43`). -/
def limit : Int := 256

/-- What `::exit(status)` lets the parent process see: the lowest eight bits (`Exit.h:55`; `exit(3)`, `wait(2)`). -/
def seen (status : Int) : Nat := (status % 256).toNat

/-- `Exit::exit` (`Exit.h:49-57`): the text printed and what the parent sees. -/
def exit (status : Int) : Str × Nat :=
  ((if status < success ∨ status ≥ limit then lit "INFO: Unsupported exit status of " ++ intText status ++ lit "\n" else []), seen status)

/-- C120, partial: a supported code is what the parent sees, nothing is printed, and it is taken for success exactly if it is `SUCCESS`; an unsupported one is printed.
Missing: unsupported codes can be taken for success and for supported ones, see `C120_success_refuted`. -/
theorem C120_codes_partial (status : Int) :
    (0 ≤ status ∧ status < 256 → exit status = ([], status.toNat)) ∧
    (0 ≤ status ∧ status < 256 → ((exit status).2 = 0 ↔ status = 0)) ∧
    (¬ (0 ≤ status ∧ status < 256) → (exit status).1 = lit "INFO: Unsupported exit status of " ++ intText status ++ lit "\n") := by
  unfold exit seen success limit
  refine ⟨fun h => ?_, fun h => ?_, fun h => if_pos (by omega)⟩
  · rw [if_neg (by omega), Int.emod_eq_of_lt h.1 h.2]
  · show (status % 256).toNat = 0 ↔ _
    omega

/-- C120, partial: two supported codes are told apart by the parent. -/
theorem C120_distinct_partial (a b : Int) (ha : 0 ≤ a ∧ a < 256) (hb : 0 ≤ b ∧ b < 256) (h : (exit a).2 = (exit b).2) : a = b := by
  rw [(C120_codes_partial a).1 ha, (C120_codes_partial b).1 hb] at h
  simp only at h
  omega

/-- C120 is false for unsupported codes: the parent takes every multiple of 256 for success, and `-1` for 255. -/
theorem C120_success_refuted : (∀ k : Int, (exit (256 * k)).2 = 0) ∧ (exit 256).2 = (exit success).2 ∧ (exit 256).1 ≠ [] ∧ (exit (-1)).2 = (exit 255).2 := by
  refine ⟨fun k => ?_, by decide, by decide +kernel, by decide⟩
  unfold exit seen
  simp

/-- Some codes. -/
example : exit 0 = ([], 0) ∧ exit 2 = ([], 2) ∧ exit 300 = (lit "INFO: Unsupported exit status of 300\n", 44) := by decide +kernel

end Verif.Process.ExitStatus
