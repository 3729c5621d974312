import Verif.Model.Complex
import Verif.Model.Kahan
import Mathlib.Analysis.SpecialFunctions.Trigonometric.Inverse
import Mathlib.Analysis.SpecialFunctions.Sqrt

/-!
# Degrees and combinatorial curvature

Models `include/aleph/topology/filtrations/Degree.hh` and `include/aleph/topology/CombinatorialCurvature.hh`.  Results that are written to
an output iterator are lists.  The order in which simplices of one dimension are visited depends on the history of the complex; here it is the
order of the complex.
-/

namespace Aleph.Curvature

variable {α β : Type}

/-- `degrees[vertex] += 1` for a `std::map`, `Degree.hh:47`: the map is a list of pairs with ascending keys. -/
def increment (v : ℕ) : List (ℕ × ℕ) → List (ℕ × ℕ)
  | [] => [(v, 1)]
  | (u, d) :: l => if v < u then (v, 1) :: (u, d) :: l else if v = u then (u, d + 1) :: l else (u, d) :: increment v l

/-- `degrees( K, result )`, `Degree.hh:34-53`.  The `unsigned` counters do not overflow here. -/
def degrees (K : Complex α) : List ℕ :=
  (K.foldl (fun degrees s =>
    if Complex.dim s ≠ 0 then s.vertices.foldl (fun degrees v => increment v degrees) degrees else degrees) []).map (·.2)

/-- `std::set_intersection` for two sorted ranges, with comparison `lt`. -/
def setIntersection (lt : β → β → Bool) : List β → List β → List β
  | [], _ => []
  | _ :: _, [] => []
  | x :: xs, y :: ys =>
    if lt x y then setIntersection lt xs (y :: ys)
    else if lt y x then setIntersection lt (x :: xs) ys
    else x :: setIntersection lt xs ys
termination_by l m => l.length + m.length

/-- `std::set<VertexType>( s.begin(), s.end() )`, `Degree.hh:82, 86`. -/
def vertexSet (s : Simplex α) : List ℕ := (s.vertices.dedup).insertionSort (· ≤ ·)

/-- `n_degree( K, s )`, `Degree.hh:72-98`; `none` is the exception for empty complexes. -/
def nDegree (K : Complex α) (s : Simplex α) : Option ℕ :=
  K.dimension.map fun n =>
    (K.range n).countP fun t =>
      (setIntersection (fun a b => decide (a < b)) (vertexSet s) (vertexSet t)).length == (vertexSet s).length

/-- `angleDefectCurvature( K, result )`, `CombinatorialCurvature.hh:35-49`.  The unsigned difference `n-2` wraps around for `n < 2`, and there
are no simplices of the resulting dimension. -/
noncomputable def angleDefectCurvature (K : Complex α) : Option (List ℝ) :=
  match K.dimension with
  | none => none
  | some n =>
    if n < 2 then some []
    else (K.range (n - 2)).mapM fun s =>
      let theta := Real.arccos (1 / (n : ℝ))
      (nDegree K s).map fun d => 2 * Real.pi - theta * (d : ℝ)

/-- `hasFace( s, f )`, `CombinatorialCurvature.hh:51-54`. -/
def hasFace (s f : Simplex α) : Bool := s.faces.contains f.vertices

/-- `commonBoundary` in `parallelNeighbours` and `commonFaces`, `CombinatorialCurvature.hh:65-70, 152-157`: lists of vertices. -/
def commonBoundary (s t : Simplex α) : List (List ℕ) := setIntersection Simplex.lexLt s.faces t.faces

/-- `parallelNeighbours( K, s, t )`, `CombinatorialCurvature.hh:56-89`, for simplices of a complex (which are not empty). -/
def parallelNeighbours (K : Complex α) (s t : Simplex α) : Bool :=
  if Complex.dim s ≠ Complex.dim t then false
  else
    let condition1 := !(commonBoundary s t).isEmpty
    let condition2 := (K.range (Complex.dim s + 1)).any fun u => hasFace u s && hasFace u t
    condition1 != condition2

/-- `curvature( K, result, p )`, `CombinatorialCurvature.hh:91-113`.  `VertexType` is an unsigned type with `w` bits. -/
def curvature (w : ℕ) (K : Complex α) (p : ℕ) : List (BitVec w) :=
  (K.range p).map fun s =>
    let numCofaces := (K.range (Complex.dim s + 1)).countP fun t => hasFace t s
    let numParallelNeighbours := (K.range (Complex.dim s)).countP fun t => parallelNeighbours K s t
    BitVec.ofNat w numCofaces + BitVec.ofNat w s.size - BitVec.ofNat w numParallelNeighbours

/-- `commonCofaces( K, s, t )`, `CombinatorialCurvature.hh:115-139`. -/
def commonCofaces (K : Complex α) (s t : Simplex α) : List (Simplex α) :=
  if Complex.dim s ≠ Complex.dim t then []
  else (K.range (Complex.dim s + 1)).filter fun u => u.faces.contains s.vertices && u.faces.contains t.vertices

/-- `commonFaces( K, s, t )`, `CombinatorialCurvature.hh:141-165`; `none` is the dereferenced past-the-end iterator if a common face is not
part of the complex. -/
def commonFaces (K : Complex α) (s t : Simplex α) : Option (List (Simplex α)) :=
  if Complex.dim s ≠ Complex.dim t then some []
  else (commonBoundary s t).mapM fun f => K.find f

/-- The weights of common cofaces and common faces for the neighbours of `s` of the same dimension, the loop
`CombinatorialCurvature.hh:209-223`. -/
noncomputable def neighbourWeights (K : Complex ℝ) (s : Simplex ℝ) : Option (List (List ℝ × List ℝ)) :=
  ((K.range (Complex.dim s)).filter fun t => !t.eq s).mapM fun t => do
    let cofaces := commonCofaces K t s
    let faces ← commonFaces K t s
    let weight := √(s.data * t.data)
    some (cofaces.map fun u => weight / u.data, faces.map fun f => f.data / weight)

/-- `weightedCurvature( K, result, p )`, `CombinatorialCurvature.hh:167-233`.  Weights are positive real numbers; there is no rounding. -/
noncomputable def weightedCurvature (K : Complex ℝ) (p : ℕ) : Option (List ℝ) :=
  (K.range p).mapM fun s => do
    let weightsCofaces := ((K.range (Complex.dim s + 1)).filter fun u => u.faces.contains s.vertices).map fun u => s.data / u.data
    let weightsFaces := (s.faces.filterMap fun f => K.find f).map fun f => f.data / s.data
    let neighbours ← neighbourWeights K s
    let s11 := Kahan.accumulateSorted weightsCofaces 0
    let s12 := Kahan.accumulateSorted weightsFaces 0
    let s21 := Kahan.accumulateSorted (neighbours.flatMap (·.1)) 0
    let s22 := Kahan.accumulateSorted (neighbours.flatMap (·.2)) 0
    some (s.data * ((s11 + s12) - |s21 - s22|))

end Aleph.Curvature
