import Verif.Props.Simplex

/-!
# C18: queries of simplices
-/

namespace Aleph

variable {α : Type}

/-- C18. A simplex contains exactly the vertices of the range it is created from. -/
theorem C18_contains (vs : List ℕ) (d : α) (v : ℕ) : (Simplex.ofRange vs d).hasVertex v = true ↔ v ∈ vs := by
  unfold Simplex.hasVertex
  rw [List.contains_iff_mem]
  exact mem_ofRange

/-- A range with repetitions. -/
example : (Simplex.ofRange [3, 1, 3] 'x').hasVertex 1 = true ∧ (Simplex.ofRange [3, 1, 3] 'x').hasVertex 2 = false := by
  decide

end Aleph
