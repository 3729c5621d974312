import Verif.Model.Diagram
import Verif.Model.DiagramNorms
import Verif.Model.Kahan
import Verif.Model.NearestNeighbours
import Verif.Model.Distances
import Mathlib.Analysis.SpecialFunctions.Log.Base
import Mathlib.Analysis.SpecialFunctions.Sqrt

/-!
# Entropies of persistence diagrams

Models `include/aleph/persistenceDiagrams/Entropy.hh` over exact real arithmetic; diagrams have finite coordinates.
-/

namespace Aleph.Entropy

noncomputable section

/-- The product `p * std::log2( p )`: `none` if it is not a number (`std::log2` of zero is negative infinity, of a negative number
NaN). -/
def stdTerm (p : ℝ) : Option ℝ := if 0 < p then some (p * Real.logb 2 p) else none

/-- The product `p * detail::log2( p )`, with `Entropy.hh:67-73`. -/
def term (p : ℝ) : Option ℝ := if p = 0 then some (p * 0) else stdTerm p

/-- A quotient; `none` if the divisor is zero (infinite or NaN). -/
def quotient (x y : ℝ) : Option ℝ := if y = 0 then none else some (x / y)

/-- `persistentEntropy(D)`, `Entropy.hh:153-186`; `none` means NaN.  (If the total persistence is zero, at least one quotient is
NaN or negative infinity, or there are no points.) -/
def persistentEntropy (D : Diagram ℝ) : Option ℝ :=
  let persistenceValues := D.points.map DiagramNorms.persistence
  let totalPersistence := Kahan.accumulateSorted persistenceValues 0
  let probabilities := persistenceValues.mapM fun persistence => (quotient persistence totalPersistence).bind stdTerm
  probabilities.map fun l => -Kahan.accumulateSorted l 0

/-- The distance of two points of a point cloud as used by `BruteForce`: `Euclidean` for vectors, followed by the square root of its
traits class (`Euclidean.hh:159-162`).  Points have two coordinates, so that `none` does not occur. -/
def distance (P : List (List ℝ)) (i j : ℕ) : ℝ :=
  √((Distances.euclidean (-1) (P[i]?.getD []) (P[j]?.getD [])).getD 0)

/-- `makePointCloud(diagram, transform)`, `Entropy.hh:38-56`. -/
def makePointCloud (D : Diagram ℝ) (transform : Bool) : List (List ℝ) :=
  D.points.map fun p => if transform then [p.1 + p.2, p.2 - p.1] else [p.1, p.2]

/-- `nearestNeighbourAreaEntropy(diagram)`, `Entropy.hh:199-257`, with `BruteForce`.  The outer `none` is undefined behaviour or an exception,
the inner one NaN. -/
def nearestNeighbourAreaEntropy (sort : (ℕ → ℕ → Bool) → List ℕ → List ℕ) (D : Diagram ℝ) : Option (Option ℝ) := do
  let pc := makePointCloud D false
  let result ← NearestNeighbours.neighbourSearch sort pc.length (distance pc) 2
  let nearestNeigbourDistances ← result.mapM fun r => r.2[1]?
  let areas := nearestNeigbourDistances.map fun radius => radius * radius * 2 * Real.pi
  let totalArea := Kahan.accumulateSorted areas 0
  let entropies := areas.mapM fun area => (quotient area totalArea).bind term
  some (entropies.map fun l => -Kahan.accumulateSorted l 0)

/-- `std::minmax_element` for a range with first element `a`. -/
def minmax (a : ℝ) (l : List ℝ) : ℝ × ℝ := l.foldl (fun m b => (min m.1 b, max m.2 b)) (a, a)

/-- The index `unsigned( (x - x0) / offset )` in `RegularGrid`, `Entropy.hh:87-88, 107-114`, for `n` cells.  For one cell the offset is infinite
(and the quotient zero).  `none` is undefined behaviour: the quotient is NaN as the range consists of one value. -/
def index (n : ℕ) (x0 x1 x : ℝ) : Option ℕ :=
  if x1 - x0 = 0 then none
  else if n = 1 then some 0
  else some ⌊(x - x0) / ((x1 - x0) / ((n - 1 : ℕ) : ℝ))⌋₊

/-- `grid( x, y ) += 1`, `Entropy.hh:108-122, 304`: `none` for an access beyond the end. -/
def increment (n : ℕ) (cells : List ℕ) (i j : ℕ) : Option (List ℕ) :=
  if j * n + i < cells.length then some (cells.modify (j * n + i) (· + 1)) else none

/-- `gridEntropy(diagram, n)`, `Entropy.hh:270-324`.  The outer `none` is undefined behaviour (also for `n = 0`, where the grid has no
cells), the inner one NaN. -/
def gridEntropy (D : Diagram ℝ) (n : ℕ) : Option (Option ℝ) :=
  let pc := makePointCloud D true
  let X := pc.map fun p => 0.5 * √2 * p.head?.getD 0 + 0.5 * √2 * p.getLast?.getD 0
  let Y := pc.map fun p => -0.5 * √2 * p.head?.getD 0 + 0.5 * √2 * p.getLast?.getD 0
  match X, Y with
  | x :: xs, y :: ys => do
    let (x0, x1) := minmax x xs
    let (y0, y1) := minmax y ys
    let cells ← ((x :: xs).zip (y :: ys)).foldlM (fun cells p => do
      let i ← index n x0 x1 p.1
      let j ← index n y0 y1 p.2
      increment n cells i j) (List.replicate (n * n) 0)
    let entropies := cells.mapM fun c : ℕ =>
      if c ≠ 0 then (quotient c (pc.length : ℕ)).bind term else some 0
    some (entropies.map fun l => -Kahan.accumulateSorted l 0)
  | _, _ => some (some 0)

end

end Aleph.Entropy
