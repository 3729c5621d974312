import Verif.Model.Kahan
import Verif.Model.NearestNeighbours
import Mathlib.Analysis.SpecialFunctions.Log.Basic
import Mathlib.Analysis.SpecialFunctions.Sqrt

/-!
# Estimators of the intrinsic dimension, principal component analysis

Models `include/aleph/containers/DimensionalityEstimators.hh` and `include/aleph/math/PrincipalComponentAnalysis.hh`, with the search of nearest
neighbours in `BruteForce.hh`.  A point cloud is given by its number of points and the distances between them; values are real numbers
(simplification: no rounding).
-/

namespace Aleph.Dimensionality

noncomputable section

/-- A division; `none` is a value that is infinite or undefined. -/
def quotient (a b : ℝ) : Option ℝ := if b = 0 then none else some (a / b)

/-- The estimate for one point, `DimensionalityEstimators.hh:61-65`. -/
def nearestNeighboursOf (k : ℕ) (nnDistances : List ℝ) : Option ℝ := do
  let r1 ← quotient (Kahan.accumulate (nnDistances.take k) 0) (k : ℝ)
  let r2 ← quotient (Kahan.accumulate (nnDistances.take (k + 1)) 0) ((k : ℝ) + 1)
  quotient r1 ((r2 - r1) * (k : ℝ))

/-- `estimateLocalDimensionalityNearestNeighbours( container, k )`, `DimensionalityEstimators.hh:37-69`; the outer `none` is undefined behaviour. -/
def nearestNeighbours (sort : (ℕ → ℕ → Bool) → List ℕ → List ℕ) (n : ℕ) (dist : ℕ → ℕ → ℝ) (k : ℕ) : Option (List (Option ℝ)) := do
  let neighbours ← NearestNeighbours.neighbourSearch sort n dist (k + 1)
  (List.range n).mapM fun i => do
    let (_, distances) ← neighbours[i]?
    some (nearestNeighboursOf k distances)

/-- The estimate for one point, `DimensionalityEstimators.hh:132-165`; the outer `none` is an exception. -/
def regressionOf (kMin kMax : ℕ) (nnDistances : List ℝ) : Option (Option ℝ) := do
  let localEstimates := (List.range' kMin (kMax - kMin)).map fun k => Kahan.accumulate (nnDistances.take k) 0 / (k : ℝ)
  let terms ← (List.range' kMin (kMax - 1 - kMin)).mapM fun k => do
    let r1 ← localEstimates[k - kMin]?
    let r2 ← localEstimates[k - kMin + 1]?
    some ((r2 - r1) * r1 / (k : ℝ), (r2 - r1) * (r2 - r1))
  let s := Kahan.accumulate (terms.map (·.1)) 0
  let t := Kahan.accumulate (terms.map (·.2)) 0
  some (quotient s t)

/-- `estimateLocalDimensionalityNearestNeighbours( container, kMin, kMax )`, `DimensionalityEstimators.hh:100-170`; the outer `none` is an exception or
undefined behaviour. -/
def regression (sort : (ℕ → ℕ → Bool) → List ℕ → List ℕ) (n : ℕ) (dist : ℕ → ℕ → ℝ) (kMin kMax : ℕ) : Option (List (Option ℝ)) := do
  let (kMin, kMax) := if kMin > kMax then (kMax, kMin) else (kMin, kMax)
  if kMax = 0 ∨ kMin = 0 then none
  else do
    let neighbours ← NearestNeighbours.neighbourSearch sort n dist kMax
    (List.range n).mapM fun i => do
      let (_, distances) ← neighbours[i]?
      regressionOf kMin kMax distances

/-- The logarithm for one distance, `DimensionalityEstimators.hh:250-256`. -/
def logEstimate (d e : ℝ) : ℝ := if e > 0 ∧ d > 0 then Real.log (d / e) else 0

/-- The estimate for one point and `k` neighbours, `DimensionalityEstimators.hh:245-267`; `none` is the exception of `at`. -/
def likelihoodAt (nnDistances : List ℝ) (k : ℕ) : Option ℝ := do
  let logEstimates ← (nnDistances.take k).mapM fun e => nnDistances[k]?.map fun d => logEstimate d e
  let mk := if k > 1 then 1 / ((k : ℝ) - 1) * Kahan.accumulate logEstimates 0 else 0
  some (if mk > 0 then 1 / mk else 0)

/-- The estimate for one point, `DimensionalityEstimators.hh:232-270`. -/
def likelihoodOf (kMin kMax : ℕ) (nnDistances : List ℝ) : Option ℝ := do
  let localEstimates ← ((List.range' (kMin - 1) (kMax - (kMin - 1))).filter fun k => k ≠ 0).mapM (likelihoodAt nnDistances)
  some (Kahan.accumulate localEstimates 0 / ((kMax - kMin + 1 : ℕ) : ℝ))

/-- `estimateLocalDimensionalityNearestNeighboursMLE`, `DimensionalityEstimators.hh:201-274`; `none` is an exception or undefined behaviour. -/
def likelihood (sort : (ℕ → ℕ → Bool) → List ℕ → List ℕ) (n : ℕ) (dist : ℕ → ℕ → ℝ) (kMin kMax : ℕ) : Option (List ℝ) := do
  let (kMin, kMax) := if kMin > kMax then (kMax, kMin) else (kMin, kMax)
  if kMax = 0 ∨ kMin = 0 then none
  else do
    let neighbours ← NearestNeighbours.neighbourSearch sort n dist kMax
    (List.range n).mapM fun i => do
      let (_, distances) ← neighbours[i]?
      likelihoodOf kMin kMax distances

/-- `estimateLocalDimensionalityNearestNeighbours( container )` by means of the minimum spanning tree, `DimensionalityEstimators.hh:287-343`: the tree is
built and then discarded. -/
def spanningTree (_n : ℕ) (_dist : ℕ → ℕ → ℝ) : List ℝ := []

/-- One step of the search for the largest gap, `DimensionalityEstimators.hh:409-425`: `best` is the largest gap with its index; at first the gap is
smaller than every number. -/
def gapStep (values : List ℝ) (best : Option (ℝ × ℕ)) (j : ℕ) : Option (ℝ × ℕ) :=
  let gap := |values.getD j 0 - values.getD (j + 1) 0|
  match best with
  | none => some (gap, j + 1)
  | some (g, i) => if gap > g then some (gap, j + 1) else some (g, i)

/-- The estimate for one point, `DimensionalityEstimators.hh:397-428`; `none` if nothing is added to the result. -/
def spectralIndex (singularValues : List ℝ) : Option ℕ :=
  if singularValues.length ≥ 2 then ((List.range (singularValues.length - 1)).foldl (gapStep singularValues) none).map (·.2) else none

/-- The mean of a column, `PrincipalComponentAnalysis.hh:62`. -/
def columnMean (data : List (List ℝ)) (j : ℕ) : ℝ := (data.map fun row => row.getD j 0).sum / (data.length : ℝ)

/-- The matrix whose singular values are computed, `PrincipalComponentAnalysis.hh:57-63`; the number of columns is `m`. -/
def centred (data : List (List ℝ)) (m : ℕ) : List (List ℝ) :=
  data.map fun row => (List.range m).map fun j => (row.getD j 0 - columnMean data j) / Real.sqrt (m : ℝ)

/-- `PrincipalComponentAnalysis::operator()`, `PrincipalComponentAnalysis.hh:39-100`.  `svd` is `Eigen::JacobiSVD` of a matrix with `m` columns: singular
values and right singular vectors.  `none` is an access behind the end of a row. -/
def analyse (svd : ℕ → List (List ℝ) → List ℝ × List (List ℝ)) (data : List (List ℝ)) : Option (List (List ℝ) × List ℝ) :=
  match data with
  | [] => some ([], [])
  | first :: _ =>
    let m := first.length
    if data.all fun row => m ≤ row.length then
      let (values, vectors) := svd m (centred data m)
      some (vectors.take (min data.length m), values)
    else none

/-- `estimateLocalDimensionalityPCA`, `DimensionalityEstimators.hh:358-432`; the points are given by their coordinates. -/
def principal (svd : ℕ → List (List ℝ) → List ℝ × List (List ℝ)) (sort : (ℕ → ℕ → Bool) → List ℕ → List ℕ) (points : List (List ℝ)) (dist : ℕ → ℕ → ℝ)
    (k : ℕ) : Option (List ℕ) := do
  let neighbours ← NearestNeighbours.neighbourSearch sort points.length dist (k + 1)
  let estimates ← neighbours.mapM fun e => do
    let data ← e.1.mapM fun index => points[index]?
    let (_, values) ← analyse svd data
    some (spectralIndex values)
  some (estimates.filterMap id)

end

end Aleph.Dimensionality
