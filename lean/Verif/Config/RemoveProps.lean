import Verif.Config.TableProps

/-
C79: what `remove` reports (Configuration.h documents "true if anything was actually removed").
-/

namespace Verif.Config

/-- C79 (partial: missing are names with quotes and names that are not stored, see C79_nothing_refuted): removing a stored key reports success and the key is gone, all others stay. -/
theorem C79_removed_partial (s : Table) (k : Str) (hk : CleanDesc k) (_h : ∃ r ∈ s.db, r.1 = k) : (remove s k).2 = true ∧ (∀ r ∈ (remove s k).1.db, r.1 ≠ k) ∧
    ∀ r, r.1 ≠ k → (r ∈ (remove s k).1.db ↔ r ∈ s.db) := by
  have e := C61_remove_partial s.db k hk
  unfold remove
  rw [e]
  simp only [List.mem_filter, decide_eq_true_eq, true_and]
  exact ⟨fun r hr => hr.2, fun r hr => ⟨fun h => h.1, fun h => ⟨h, hr⟩⟩⟩

/-- C79 (negation): success is reported although nothing is removed. -/
theorem C79_nothing_refuted (s : Table) (k : Str) (hk : CleanDesc k) (h : ∀ r ∈ s.db, r.1 ≠ k) : (remove s k).2 = true ∧ (remove s k).1.db = s.db := by
  have e := C61_remove_partial s.db k hk
  unfold remove
  rw [e]
  refine ⟨rfl, ?_⟩
  simp only
  rw [List.filter_eq_self]
  exact fun r hr => decide_eq_true (h r hr)

/-- C79: an empty database and a clean key; a database with the key. -/
example : (remove (fresh [] (fun _ => none) 0 0) (lit "A.B")).2 = true ∧ (remove (fresh [(lit "A.B", some (lit "1"))] (fun _ => none) 0 0) (lit "A.B")).1.db = [] := by decide +kernel

end Verif.Config
