import Verif.Spec.SpanningTree
import Mathlib.Algebra.Order.Field.Basic

/-!
# Normalised values
-/

namespace Aleph.Spec.Strata

/-- The linear function that maps an interval to the unit interval (or does nothing if the interval is a single point). -/
def rescale {α : Type} [Field α] [DecidableEq α] (lo hi x : α) : α := if lo = hi then x else (x - lo) / (hi - lo)

/-- A spanning tree of the lowest weight, or of the highest weight in the reverse direction. -/
def ExtremeSpanningTree {α : Type} [AddCommMonoid α] [LE α] (reverse : Bool) (n : ℕ) (G : ℕ → ℕ → Prop) (w : ℕ → ℕ → α) (T : List (ℕ × ℕ)) : Prop :=
  if reverse then MaximumSpanningTree n G w T else MinimumSpanningTree n G w T

end Aleph.Spec.Strata
