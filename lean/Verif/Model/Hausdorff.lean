import Verif.Model.Diagram
import Verif.Model.Kahan
import Mathlib.Algebra.Order.Group.Defs

/-!
# Distances of persistence diagrams that compare point sets

Models
* `include/aleph/geometry/distances/Infinity.hh`
* `include/aleph/persistenceDiagrams/distances/Hausdorff.hh`
* `include/aleph/persistenceDiagrams/distances/NearestNeighbour.hh`
* `include/aleph/persistenceDiagrams/distances/PointSet.hh`

Values are elements of a linearly ordered group or field; `maxv` and `lo` stand for `numeric_limits::max()` and
`lowest()`, `inf` for `numeric_limits::infinity()` (or `max()` for types without infinity).
-/

namespace Aleph

variable {α : Type}

/-- `InfinityDistance::operator()`, `Infinity.hh:21-33`, with the absolute value of both differences. -/
def infinityDistance [Sub α] [LinearOrder α] (p q : α × α) : α :=
  let dx := if p.1 ≥ q.1 then p.1 - q.1 else q.1 - p.1
  let dy := if p.2 ≥ q.2 then p.2 - q.2 else q.2 - p.2
  max dx dy

/-- The inner loop looking for the nearest point, `Hausdorff.hh:54-64`, `NearestNeighbour.hh:52-54`,
`PointSet.hh:82-85`. -/
def infimumDistance [LinearOrder α] (maxv : α) (d : α × α → α × α → α) (p : α × α) (D : Diagram α) : α :=
  D.points.foldl (fun m q => min m (d p q)) maxv

/-- The loops computing a supremum, `Hausdorff.hh:66-69` and `71-74`. -/
def supremumDistance [LinearOrder α] (maxv lo : α) (d : α × α → α × α → α) (D E : Diagram α) : α :=
  D.points.foldl (fun m p => max m (infimumDistance maxv d p E)) lo

/-- `hausdorffDistance`, `Hausdorff.hh:34-77`. -/
def hausdorffDistance [Zero α] [LinearOrder α] (maxv lo inf : α) (d : α × α → α × α → α) (D E : Diagram α) : α :=
  if D.points.isEmpty && E.points.isEmpty then 0
  else if D.points.isEmpty || E.points.isEmpty then inf
  else max (supremumDistance maxv lo d D E) (supremumDistance maxv lo d E D)

/-- `nearestNeighbourDistance`, `NearestNeighbour.hh:37-71`. -/
def nearestNeighbourDistance [Field α] [LinearOrder α] (maxv : α) (d : α × α → α × α → α) (D E : Diagram α) : α :=
  (Kahan.accumulateSorted (D.points.map fun p => infimumDistance maxv d p E) 0
    + Kahan.accumulateSorted (E.points.map fun p => infimumDistance maxv d p D) 0) / 2

/-- `sumOfMinimumDistances`, `PointSet.hh:57-109`.  The second loop (`95-103`) calls the distance with the arguments in
the order of the diagrams.  (For an integral data type `DataType(0.5)` is zero; only fields are modelled.) -/
def sumOfMinimumDistances [Field α] [LinearOrder α] (maxv inf : α) (d : α × α → α × α → α) (D E : Diagram α) : α :=
  if D.points.isEmpty && E.points.isEmpty then 0
  else if D.points.isEmpty || E.points.isEmpty then inf
  else (1 / 2) * (Kahan.accumulateSorted (D.points.map fun x => infimumDistance maxv d x E) 0
    + Kahan.accumulateSorted (E.points.map fun y => infimumDistance maxv (fun y x => d x y) y D) 0)

end Aleph
