import Verif.Spec.PiecewiseLinear
import Mathlib.Order.Bounds.Defs

/-!
# Envelopes of persistence diagrams
-/

namespace Aleph.Spec

variable {α : Type} [LinearOrder α]

/-- The points of a diagram that are considered: on demand, unpaired points are ignored. -/
def considered (inf : α) (removeUnpaired : Bool) (points : List (α × α)) : List (α × α) :=
  if removeUnpaired then points.filter (fun p => p.2 ≠ inf) else points

/-- In the coordinate system with axes `x + y` and `y - x`, the list `l` contains the highest point for each first coordinate, in ascending
order. -/
def Peaks [Field α] (points l : List (α × α)) : Prop :=
  Ascending l ∧ ∀ x y, (x, y) ∈ l ↔ IsGreatest {v | ∃ p ∈ points, p.1 + p.2 = x ∧ p.2 - p.1 = v} y

end Aleph.Spec
