import Verif.Model.Complex
import Verif.Model.Bootstrap
import Mathlib.Analysis.SpecialFunctions.Pow.Real

/-!
# Laplacian matrices, heat kernels and bisection of complexes

Models `include/aleph/geometry/HeatKernel.hh` and `include/aleph/topology/Partitions.hh`, both with Eigen.  Values are real numbers
(simplification: no rounding).  The solver of eigenvalue problems and the inversion of matrices belong to Eigen and are parameters.
-/

namespace Aleph.HeatKernel

noncomputable section

/-- A square matrix of Eigen: number of rows and entries (entries outside are never read). -/
structure Mat where
  n : ℕ
  entry : ℕ → ℕ → ℝ

/-- `vertex_to_index.at( v )`, `HeatKernel.hh:68-81` and `HeatKernel.hh:94-95`: the map assigns consecutive indices to the vertices.  `none` is the
exception. -/
def indexOf (vertices : List ℕ) (v : ℕ) : Option ℕ := if v ∈ vertices then some (vertices.idxOf v) else none

/-- Assignment to an entry of a matrix. -/
def assign (W : ℕ → ℕ → ℝ) (i j : ℕ) (x : ℝ) : ℕ → ℕ → ℝ := fun k l => if k = i ∧ l = j then x else W k l

/-- The body of the loop of `weightedAdjacencyMatrix`, `HeatKernel.hh:87-99`. -/
def setEdge (vertices : List ℕ) (W : ℕ → ℕ → ℝ) (s : Simplex ℝ) : Option (ℕ → ℕ → ℝ) :=
  if Complex.dim s ≠ 1 then some W
  else do
    let u ← s.vertices[0]?
    let v ← s.vertices[1]?
    let i ← indexOf vertices u
    let j ← indexOf vertices v
    let W := assign W i j s.data
    some (assign W j i (W i j))

/-- `weightedAdjacencyMatrix`, `HeatKernel.hh:53-102`. -/
def weightedAdjacencyMatrix (K : Complex ℝ) : Option Mat := do
  let vertices := K.vertices
  let W ← K.foldlM (setEdge vertices) fun _ _ => 0
  some ⟨vertices.length, W⟩

/-- `weightedLaplacianMatrix`, `HeatKernel.hh:114-131`. -/
def weightedLaplacianMatrix (K : Complex ℝ) : Option Mat := do
  let W ← weightedAdjacencyMatrix K
  let V := fun i => ((List.range W.n).map (W.entry i)).sum
  some ⟨W.n, fun i j => (if i = j then V i else 0) - W.entry i j⟩

/-- `pinvWeightedLaplacianMatrix`, `HeatKernel.hh:143-155`.  The constant `1/ n` is a division of integers.  `none` stands for the division by
zero and for matrices without inverse. -/
def pinvWeightedLaplacianMatrix (inverse : Mat → Option Mat) (K : Complex ℝ) : Option Mat := do
  let L ← weightedLaplacianMatrix K
  if L.n = 0 then none
  else do
    let c : ℝ := ((1 / L.n : ℕ) : ℝ)
    let R ← inverse ⟨L.n, fun i j => c + L.entry i j⟩
    some ⟨L.n, fun i j => R.entry i j - c⟩

/-- The class `HeatKernel`, `HeatKernel.hh:169-419`: the members that are used. -/
structure Kernel where
  skip : Bool
  eigenvalues : List ℝ
  eigenvectors : List (ℕ → ℝ)

/-- The constructor, `HeatKernel.hh:198-229`; `_skip` is still false at this point.  `solver` is `Eigen::SelfAdjointEigenSolver`. -/
def construct (solver : Mat → List ℝ × List (ℕ → ℝ)) (K : Complex ℝ) : Option Kernel := do
  let L ← weightedLaplacianMatrix K
  let skip := false
  let first := if skip then 1 else 0
  some ⟨skip, (solver L).1.drop first, (solver L).2.drop first⟩

/-- `operator()( T t )`, `HeatKernel.hh:237-258`.  `uk * uk.transpose()` is a matrix with one entry, which is added to an empty vector; `none` is the
failed assertion of Eigen. -/
def evaluateAll (H : Kernel) (_t : ℝ) : Option (List ℝ) := if H.eigenvalues = [] then some [] else none

/-- `operator()( i, j, t )`, `HeatKernel.hh:265-289`. -/
def evaluate (H : Kernel) (i j : ℕ) (t : ℝ) : ℝ :=
  Kahan.accumulate ((H.eigenvalues.zip H.eigenvectors).map fun p => Real.exp (-t * p.1) * p.2 i * p.2 j) 0

/-- `operator()( i, t )`, `HeatKernel.hh:296-322`. -/
def autoDiffusion (H : Kernel) (i : ℕ) (t : ℝ) : ℝ :=
  Kahan.accumulate ((H.eigenvalues.zip H.eigenvectors).map fun p => Real.exp (-t * p.1) * p.2 i * p.2 i) 0

/-- `trace`, `HeatKernel.hh:329-337`. -/
def trace (H : Kernel) (t : ℝ) : ℝ := Kahan.accumulate (H.eigenvalues.map fun l => Real.exp (-t * l)) 0

/-- `determinant`, `HeatKernel.hh:344-352`. -/
def determinant (H : Kernel) (t : ℝ) : ℝ := H.eigenvalues.foldl (fun result l => result * Real.exp (-t * l)) 0

/-- `4 * std::log( 10 ) / eigenvalue`, `HeatKernel.hh:368-369`; `none` stands for values whose logarithm is infinite or undefined. -/
def scale (l : ℝ) : Option ℝ := if 0 < l then some (4 * Real.log 10 / l) else none

/-- `logarithmicSamplingInterval`, `HeatKernel.hh:366-386`.  `none` stands for accesses outside the vector of eigenvalues, and for samples that are
infinite or undefined. -/
def logarithmicSamplingInterval (H : Kernel) (n : ℕ) : Option (List ℝ) := do
  let back ← H.eigenvalues.getLast?
  let front ← if H.skip then H.eigenvalues.head? else H.eigenvalues[1]?
  (List.range n).mapM fun i : ℕ => do
    let tMin ← scale back
    let tMax ← scale front
    let offset ← if n = 1 then none else some ((Real.log tMax - Real.log tMin) / ((n : ℝ) - 1))
    some (Real.exp 1 ^ (Real.log tMin + (i : ℝ) * offset))

/-- `setSkip`, `HeatKernel.hh:390`. -/
def setSkip (H : Kernel) (value : Bool) : Kernel := { H with skip := value }

/-- `bisect`, `Partitions.hh:25-123`.  `nth` is `std::nth_element`; `none` stands for exceptions. -/
def bisect (nth : ℕ → List ℝ → List ℝ) (solver : Mat → List ℝ × List (ℕ → ℝ)) (K : Complex ℝ) : Option (Complex ℝ × Complex ℝ) := do
  let L ← weightedLaplacianMatrix K
  if L.n * L.n < 2 then none
  else do
    let column ← (solver L).2[1]?
    let fiedlerVector := (List.range L.n).map column
    let median ← Bootstrap.median nth fiedlerVector
    let vertices := K.vertices
    let partition := fun v => decide (fiedlerVector.getD (vertices.idxOf v) 0 < median)
    if K.all fun s => s.vertices.all fun v => vertices.contains v then
      let left := List.filter (fun s => s.vertices.length == s.vertices.countP partition) K
      let rest := List.filter (fun s => !(s.vertices.length == s.vertices.countP partition)) K
      let right := rest.filter fun s => s.vertices.length == s.vertices.countP fun v => !partition v
      some ((Complex.insertRange [] left).1, (Complex.insertRange [] right).1)
    else none

end

end Aleph.HeatKernel
