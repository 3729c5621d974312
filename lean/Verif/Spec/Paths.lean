import Verif.Spec.Rips
import Mathlib.Algebra.Group.Defs

/-!
# Specification: paths in the 1-skeleton and their lengths
-/

namespace Aleph.Spec

variable {α : Type}

/-- `PathLength K w u v l`: there is a path of edges of `K` from the vertex `u` to the vertex `v` of total length
`l`.  An edge counts with its data, or with `w` if its data is zero. -/
inductive PathLength [AddMonoid α] [DecidableEq α] (K : Complex α) (w : α) : ℕ → ℕ → α → Prop
  | nil (v : ℕ) : Has K {v} → PathLength K w v v 0
  | cons {u m v : ℕ} {x l : α} : u ≠ m → HasData K {u, m} x → PathLength K w m v l →
      PathLength K w u v ((if x ≠ 0 then x else w) + l)

/-- The list of the vertices of a complex in the order in which they are stored. -/
def IsVertexOrder (K : Complex α) (vs : List ℕ) : Prop :=
  (List.filter (fun s => s.vset.card = 1) K).map Simplex.vset = vs.map fun v => {v}

end Aleph.Spec
