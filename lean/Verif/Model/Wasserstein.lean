import Verif.Model.Hausdorff
import Verif.Model.Munkres
import Mathlib.Algebra.Field.Defs

/-!
# The Wasserstein distance

Models `include/aleph/persistenceDiagrams/distances/Wasserstein.hh` and `detail/Orthogonal.hh`.

The function `std::pow` is a parameter: `pw x` is `pow(x, power)`, `rt x` is `pow(x, 1 / power)`.
-/

namespace Aleph

variable {α : Type}

/-- `orthogonalDistance`, `Orthogonal.hh:13-24`. -/
def orthogonalDistance [Field α] (d : α × α → α × α → α) (p : α × α) : α :=
  let u := (p.1 + p.2) / 2
  d p (u, u)

/-- The entries for the projections of the points of a diagram, `Wasserstein.hh:79-86` and `105-112`. -/
def projectionCost [Field α] [DecidableEq α] (pw : α → α) (top : α) (d : α × α → α × α → α) (p1 p2 : α × α) : α :=
  if p1 = p2 then pw (orthogonalDistance d p1) else top

/-- The matrix of costs, `Wasserstein.hh:34-118`.  Every entry is assigned at most once; the others (zero block of
line 60 and the initial value, `Matrix.hh:32`) are zero. -/
def wassersteinCosts [Field α] [DecidableEq α] (pw : α → α) (top : α) (d : α × α → α × α → α)
    (D1 D2 : Diagram α) : ℕ → ℕ → α := fun row col =>
  let n1 := D1.points.length
  let n2 := D2.points.length
  if row < n1 then
    if col < n2 then
      -- lines 48-66
      match D1.points[row]?, D2.points[col]? with
      | some p1, some p2 => pw (d p1 p2)
      | _, _ => 0
    else
      -- lines 70-92
      match D1.points[col - n2]?, D1.points[row]? with
      | some p1, some p2 => projectionCost pw top d p1 p2
      | _, _ => 0
  else
    if col < n2 then
      -- lines 96-118
      match D2.points[row - n1]?, D2.points[col]? with
      | some p1, some p2 => projectionCost pw top d p1 p2
      | _, _ => 0
    else 0

/-- The loop that adds up the costs of marked entries, `Wasserstein.hh:125-134`. -/
def totalCosts [Field α] [DecidableEq α] (n : ℕ) (M costs : ℕ → ℕ → α) : α :=
  (List.range n).foldl (fun total row =>
    (List.range n).foldl (fun total col => if M row col = 0 then total + costs row col else total) total) 0

/-- `wassersteinDistance`, `Wasserstein.hh:22-137`.  `none`: the solver has not finished within the given number of rounds;
an error stands for the exception of line 30. -/
def wassersteinDistance [Field α] [LinearOrder α] (pw rt : α → α) (top : α) (d : α × α → α × α → α)
    (D1 D2 : Diagram α) (rounds : ℕ) : Option (Except Unit α) :=
  if D1.dimension ≠ D2.dimension then some (.error ())
  else
    let size := D1.points.length + D2.points.length
    let costs := wassersteinCosts pw top d D1 D2
    (Munkres.solve top size costs rounds).map fun M => .ok (rt (totalCosts size M costs))

end Aleph
