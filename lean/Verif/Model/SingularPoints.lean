import Verif.Model.PhiPersistence
import Verif.Model.Statistics

/-!
# Intersection homology with singular points

Models the part of `src/tools/persistent_intersection_homology.cc` that uses the values of a file with curvatures.
-/

namespace Aleph.SingularPoints

open PhiPersistence

noncomputable section

/-- `standardizeValues`, `persistent_intersection_homology.cc:74-89`, for real numbers (simplification: no rounding); `none` if the results are not numbers. -/
def standardize (data : List ℝ) : Option (List ℝ) :=
  match Statistics.sampleMean data, Statistics.sampleStandardDeviation data with
  | some mean, some sdev => if sdev = 0 then none else some (data.map fun x => (x - mean) / sdev)
  | _, _ => none

end

variable {α : Type} [LinearOrder α]

/-- The predicate for vertices, `persistent_intersection_homology.cc:216-230`; `none` is the exception of `at`, which ends the program as the filter must not throw. -/
def vertexPredicate (invert : Bool) (threshold : α) (values : List α) (s : Simplex α) : Option Bool :=
  match s.vertices with
  | [v] =>
    match values[v]? with
    | none => none
    | some x => if invert then some (decide (x > threshold)) else some (decide (x < threshold))
  | _ => some false

/-- The predicate for vertices and edges, `persistent_intersection_homology.cc:237-264`. -/
def edgePredicate (invert : Bool) (threshold : α) (values : List α) (s : Simplex α) : Option Bool :=
  match s.vertices with
  | [v] =>
    match values[v]? with
    | none => none
    | some x => if invert then some (decide (x > threshold)) else some (decide (x < threshold))
  | [u, v] =>
    match values[u]?, values[v]? with
    | some x, some y => if invert then some (decide (max x y > threshold)) else some (decide (max x y < threshold))
    | _, _ => none
  | _ => some false

/-- `Filter::operator()`, `topology/Filter.hh:34-45`, with a predicate that may throw; it is the same loop as that of `partitionStep`. -/
def filterWith (f : Simplex α → Option Bool) (K : Complex α) : Option (Complex α) := K.foldlM (partitionStep f true) []

/-- The strata, `persistent_intersection_homology.cc:211-277` and the arguments in lines 289-294. -/
def strata (invert : Bool) (threshold : α) (values : List α) (K : Complex α) : Option (List (Complex α)) := do
  let K0 ← filterWith (vertexPredicate invert threshold values) K
  let K1 ← filterWith (edgePredicate invert threshold values) K
  let d ← K.dimension
  if d = 2 then some [K0, K0, K] else some [K0, K1, K1, K]

/-- The diagrams of intersection homology, `persistent_intersection_homology.cc:289-294`; `none` if the program ends by an exception. -/
def diagrams (inf : α) (invert : Bool) (threshold : α) (values : List α) (K : Complex α) : Option (List (Diagram α)) := do
  let X ← strata invert threshold values K
  let d ← K.dimension
  calculateIntersectionHomology .twist .vector inf K X (.gm (perversityGM (if d = 2 then [0] else [0, 1])))

end Aleph.SingularPoints
