import Verif.Model.Kahan
import Verif.Model.NearestNeighbours
import Mathlib.Analysis.SpecialFunctions.Pow.Real

/-!
# Descriptors of point clouds

Models `include/aleph/containers/DataDescriptors.hh` and `include/aleph/containers/MeanShift.hh`.  A point cloud is given by its number of points
and the distances between them; values are real numbers (simplification: no rounding).
-/

namespace Aleph.DataDescriptors

noncomputable section

/-- `*std::max_element( … )`, `DataDescriptors.hh:81`; `none` is the access to the end of an empty range. -/
def maxElement : List ℝ → Option ℝ
  | [] => none
  | x :: l => some (l.foldl max x)

/-- The distances collected for point `i`, `DataDescriptors.hh:52-73`; `dist i j` is the converted distance. -/
def distances (n : ℕ) (dist : ℕ → ℕ → ℝ) (order i : ℕ) : List ℝ :=
  (List.range n).filterMap fun j =>
    if i ≠ j then some (if order > 0 then dist i j ^ (order : ℝ) / (n : ℝ) else dist i j) else none

/-- The eccentricity of point `i`, `DataDescriptors.hh:75-81`. -/
def eccentricity (n : ℕ) (dist : ℕ → ℕ → ℝ) (order i : ℕ) : Option ℝ :=
  if order > 0 then some (Kahan.accumulate (distances n dist order i) 0 ^ (1 / (order : ℝ)))
  else maxElement (distances n dist order i)

/-- `eccentricities`, `DataDescriptors.hh:31-87`. -/
def eccentricities (n : ℕ) (dist : ℕ → ℕ → ℝ) (order : ℕ) : Option (List ℝ) :=
  if n = 0 then some [] else (List.range n).mapM fun i => eccentricity n dist order i

/-- The density at point `i`, `DataDescriptors.hh:109-122`; `dist2 i j` is the squared Euclidean distance (`Euclidean.hh:77-128`).  `none` is an undefined
value (division by zero). -/
def truncatedGaussian (n : ℕ) (dist2 : ℕ → ℕ → ℝ) (bandwidth : ℝ) (i : ℕ) : Option ℝ := do
  let density ← (List.range n).foldlM (fun (density : Kahan ℝ) j =>
    if dist2 i j ≤ bandwidth * bandwidth then
      if bandwidth = 0 then none else some (density.add (Real.exp (-1 * dist2 i j / (2 * bandwidth))))
    else some density) (Kahan.init 0)
  some (density.sum / (n : ℝ))

/-- `estimateDensityTruncatedGaussian`, `DataDescriptors.hh:95-126`. -/
def estimateDensityTruncatedGaussian (n : ℕ) (dist2 : ℕ → ℕ → ℝ) (bandwidth : ℝ) : Option (List ℝ) :=
  (List.range n).mapM fun i => truncatedGaussian n dist2 bandwidth i

/-- `estimateDensityDistanceToMeasure`, `DataDescriptors.hh:138-169`, with the default search of nearest neighbours; `sort` is `std::sort`. -/
def estimateDensityDistanceToMeasure (sort : (ℕ → ℕ → Bool) → List ℕ → List ℕ) (n : ℕ) (dist : ℕ → ℕ → ℝ) (k : ℕ) : Option (List ℝ) := do
  let neighbours ← NearestNeighbours.neighbourSearch sort n dist k
  (List.range n).mapM fun i => do
    let (_, distances) ← neighbours[i]?
    some (-Kahan.accumulate distances 0 / (n : ℝ))

/-- The loops over pairs `i < j`, `DataDescriptors.hh:185-193` and `DataDescriptors.hh:197-218`. -/
def pairs (n : ℕ) : List (ℕ × ℕ) := (List.range n).flatMap fun i => (List.range' (i + 1) (n - (i + 1))).map fun j => (i, j)

/-- The entry of the symmetric matrix of distances, `DataDescriptors.hh:183-193`, of different indices: only pairs `i < j` are evaluated (for
the class, see `Verif/Model/SymmetricMatrix.lean`). -/
def entry (dist : ℕ → ℕ → ℝ) (i j : ℕ) : ℝ := dist (min i j) (max i j)

/-- The innermost loop of `estimateLensDataDepth`, `DataDescriptors.hh:203-216`. -/
def lensLoop (n : ℕ) (dist : ℕ → ℕ → ℝ) (counts : List ℕ) (q : ℕ × ℕ) : List ℕ :=
  (List.range n).foldl (fun counts k =>
    if k = q.1 ∨ k = q.2 then counts
    else if max (entry dist q.1 k) (entry dist q.2 k) ≤ entry dist q.1 q.2 then counts.modify k (· + 1)
    else counts) counts

/-- `estimateLensDataDepth`, `DataDescriptors.hh:171-221`. -/
def estimateLensDataDepth (n : ℕ) (dist : ℕ → ℕ → ℝ) : List ℕ :=
  (pairs n).foldl (lensLoop n dist) (List.replicate n 0)

/-- The weight of a neighbour, `MeanShift.hh:74`. -/
def weight (distance : ℝ) : ℝ := if distance > 0 then 1 / (distance * distance) else 1

/-- The new value of point `i`, `MeanShift.hh:65-81`; `none` is an access outside the data, or an undefined value (division by zero). -/
def smoothValue (data : List ℝ) (neighbours : List ℕ × List ℝ) : Option ℝ := do
  let (value, sumOfWeights) ← (neighbours.1.zip neighbours.2).foldlM (fun (s : Kahan ℝ × Kahan ℝ) e => do
    let x ← data[e.1]?
    let w := weight e.2
    some (s.1.add (x * w), s.2.add w)) (Kahan.init 0, Kahan.init 0)
  if sumOfWeights.sum = 0 then none else some (value.div sumOfWeights.sum).sum

/-- One step of the smoothing, `MeanShift.hh:61-84`.  `data_` has the size of `data`, and its first `N` elements are assigned; `none` is an access
outside. -/
def smoothStep (neighbours : List (List ℕ × List ℝ)) (data : List ℝ) : Option (List ℝ) := do
  let values ← neighbours.mapM (smoothValue data)
  if data.length < neighbours.length then none else some (values ++ List.replicate (data.length - neighbours.length) 0)

/-- The loop over all steps, `MeanShift.hh:59-85`. -/
def smoothLoop (neighbours : List (List ℕ × List ℝ)) : ℕ → List ℝ → Option (List ℝ)
  | 0, data => some data
  | steps + 1, data => (smoothStep neighbours data).bind (smoothLoop neighbours steps)

/-- `meanShiftSmoothing`, `MeanShift.hh:29-88`, with the search of nearest neighbours in `BruteForce.hh`. -/
def meanShiftSmoothing (sort : (ℕ → ℕ → Bool) → List ℕ → List ℕ) (n : ℕ) (dist : ℕ → ℕ → ℝ) (data : List ℝ) (k steps : ℕ) : Option (List ℝ) :=
  (NearestNeighbours.neighbourSearch sort n dist (k + 1)).bind fun neighbours => smoothLoop neighbours steps data

end

end Aleph.DataDescriptors
