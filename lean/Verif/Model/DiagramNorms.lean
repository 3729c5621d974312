import Verif.Model.Diagram
import Verif.Model.Kahan
import Mathlib.Analysis.SpecialFunctions.Pow.Real

/-!
# Norms and persistence values of diagrams

Models `include/aleph/persistenceDiagrams/Norms.hh` and `include/aleph/persistenceDiagrams/Extraction.hh`.

Data are real numbers (simplification: exact arithmetic, no infinite or undefined values, so that diagrams with unpaired points
are excluded); `std::pow` with a non-negative base is `Real.rpow`.  The two differ for base zero and a negative exponent.
-/

namespace Aleph.DiagramNorms

/-- `Point::persistence`, `PersistenceDiagram.hh:45-48`. -/
def persistence {α : Type} [Sub α] (p : α × α) : α := p.2 - p.1

/-- `std::unique_copy`, `Extraction.hh:56-58`: drops each element equal to its predecessor (with equality of points,
`PersistenceDiagram.hh:50-53`). -/
def uniqueCopy {α : Type} [DecidableEq α] : List (α × α) → List (α × α)
  | [] => []
  | [p] => [p]
  | p :: q :: l => if p = q then uniqueCopy (q :: l) else p :: uniqueCopy (q :: l)

/-- The comparison `Extraction.hh:47-53`. -/
def pointBefore {α : Type} [LinearOrder α] (p q : α × α) : Bool :=
  if p.1 = q.1 then decide (p.2 < q.2) else decide (p.1 < q.1)

/-- `weightedPersistence(D, result)`, `Extraction.hh:35-67`: the values written to the output iterator. -/
def weightedPersistence {α : Type} [Field α] [LinearOrder α] (D : Diagram α) : List α :=
  let points := D.points.insertionSort fun p q => pointBefore q p = false
  (uniqueCopy points).map fun p =>
    ((points.count p : ℕ) : α) / ((points.length : ℕ) : α) * persistence p

noncomputable section

/-- `totalPersistence(D, k, weighted)`, `Norms.hh:28-46`. -/
def totalPersistence (D : Diagram ℝ) (k : ℝ) (weighted : Bool) : ℝ :=
  if !weighted then
    (D.points.foldl (fun r p => r.add (|persistence p| ^ k)) (Kahan.init 0)).sum
  else
    (D.points.foldl (fun r p => r.add (|p.1| * |persistence p| ^ k)) (Kahan.init 0)).sum

/-- `pNorm(D, p, weighted)`, `Norms.hh:49-57`; `none` is the exception. -/
def pNorm (D : Diagram ℝ) (p : ℝ) (weighted : Bool) : Option ℝ :=
  if p = 0 then none else some (totalPersistence D p weighted ^ (1 / p))

/-- `std::max_element` as called in `Norms.hh:76`: the value of the first largest element after the first one. -/
def maxElement : ℝ → List ℝ → ℝ
  | m, [] => m
  | m, x :: l => if m < x then maxElement x l else maxElement m l

/-- `infinityNorm(D)`, `Norms.hh:66-77`. -/
def infinityNorm (D : Diagram ℝ) : ℝ :=
  match D.points.map fun p => |persistence p| with
  | [] => 0
  | x :: l => maxElement x l

/-- `persistence(D, result, useAbsoluteValue)`, `Extraction.hh:20-27`: the values written to the output iterator. -/
def persistenceValues (D : Diagram ℝ) (useAbsoluteValue : Bool) : List ℝ :=
  D.points.map fun p => if useAbsoluteValue then |persistence p| else persistence p

end

end Aleph.DiagramNorms
