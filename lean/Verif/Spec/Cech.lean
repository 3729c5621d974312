import Mathlib.Order.Bounds.Defs
import Mathlib.Topology.MetricSpace.ProperSpace

/-!
# Smallest enclosing balls
-/

namespace Aleph.Spec

variable {α P : Type}

/-- The contract of the external library `Miniball`: `ball c` is the smallest squared radius of a ball that contains the
points `c`, if there are any; `sq` is the squared distance. -/
def IsMiniball [LE α] (sq : P → P → α) (ball : List P → α) : Prop :=
  ∀ c : List P, c ≠ [] → IsLeast {s | ∃ z, ∀ p ∈ c, sq p z ≤ s} (ball c)

end Aleph.Spec
