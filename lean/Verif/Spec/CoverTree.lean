import Verif.Model.CoverTree

/-!
# Invariants of cover trees
-/

namespace Aleph.Spec

open CoverTree

variable {P α : Type}

/-- A tree is a cover tree if at every node of level `l`

- the children have the level `l - 1` (level invariant),
- the distance to every child is at most `2 ^ l` (covering invariant),
- the distance between two children is larger than `2 ^ (l - 1)` (separating invariant). -/
inductive IsCoverTree [Field α] [LinearOrder α] (d : P → P → α) : Node P → Prop
  | mk (p : P) (l : ℤ) (children : List (Node P))
      (level : ∀ c ∈ children, c.level = l - 1)
      (covering : ∀ c ∈ children, d p c.point ≤ 2 ^ l)
      (separating : children.Pairwise fun c c' => 2 ^ (l - 1) < d c.point c'.point)
      (below : ∀ c ∈ children, IsCoverTree d c) : IsCoverTree d (.mk p l children)

end Aleph.Spec
