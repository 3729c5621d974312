import Verif.Spec.Grid

/-!
# Bipartite graphs of matrices
-/

namespace Aleph.Spec

variable {α : Type}

/-- The weighted bipartite graph of a matrix with `w` columns: rows and columns are vertices, rows first, and entries are edges. -/
inductive BipartiteData (vertexWeight : ℕ → α) (w : ℕ) (rows : List (List α)) : Finset ℕ → α → Prop
  | row (y : ℕ) : y < rows.length → BipartiteData vertexWeight w rows {y} (vertexWeight y)
  | column (x : ℕ) : x < w → BipartiteData vertexWeight w rows {rows.length + x} (vertexWeight (rows.length + x))
  | edge (y x : ℕ) (a : α) : entry rows y x = some a → BipartiteData vertexWeight w rows {y, rows.length + x} a

/-- The weights of the edges of a row or of a column. -/
def incidentWeights (rows : List (List α)) (i : ℕ) : Set α := {a | ∃ y x, entry rows y x = some a ∧ (i = y ∨ i = rows.length + x)}

end Aleph.Spec
