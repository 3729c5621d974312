import Verif.Model.AlgebraicSphere
import Verif.Model.NearestNeighbours
import Mathlib.Data.Matrix.Mul
import Mathlib.Data.Matrix.Diagonal
import Mathlib.Data.Fin.Tuple.Basic
import Mathlib.Algebra.BigOperators.Fin

/-!
# Estimation of curvatures

Models `include/aleph/geometry/TangentSpace.hh`, with the brute force search for nearest neighbours.  Numbers are real numbers; `none` is undefined behaviour.  The singular value decomposition and the
generalised eigenvalue solver of Eigen are parameters.  `fitSpheres` (lines 212-362) is never called and not modelled.
-/

namespace Aleph.TangentSpace

variable {d : ℕ}

open Classical in
/-- `detail::phi`, `TangentSpace.hh:41-44`; the argument is `none` if it is infinite or not a number, for which the comparison fails. -/
noncomputable def phi : Option ℝ → ℝ
  | some x => if x < 1 then (1 - x * x) ^ 4 else 0
  | none => 0

/-- `Vector::norm`. -/
noncomputable def norm (x : Fin d → ℝ) : ℝ := Real.sqrt (∑ i, x i * x i)

/-- `LocalTangentSpace`, `TangentSpace.hh:75-83`.  The tangents are a list of columns. -/
structure Local (d : ℕ) where
  tangents : List (Fin d → ℝ)
  normal : Fin d → ℝ
  position : Fin d → ℝ
  localFeatureSize : ℝ
  indices : List ℕ

/-- The centroid, `TangentSpace.hh:150-161`; it is divided by the number of points. -/
noncomputable def centroid (n : ℕ) (position : ℕ → Fin d → ℝ) (indices : List ℕ) : Fin d → ℝ :=
  fun l => (indices.map fun j => position j l).sum / n

/-- The rows of the matrix, `TangentSpace.hh:146-165`. -/
noncomputable def centred (n : ℕ) (position : ℕ → Fin d → ℝ) (indices : List ℕ) : List (Fin d → ℝ) :=
  indices.map fun j => position j - centroid n position indices

open Classical in
/-- `normalized`, of Eigen. -/
noncomputable def normalised (x : Fin d → ℝ) : Fin d → ℝ := if norm x > 0 then fun i => x i / norm x else x

/-- `dEffective`, `TangentSpace.hh:180`; `k - 1` is a large number if `k` is zero. -/
def effective (d k : ℕ) : ℕ := if k = 0 then d - 1 else min (d - 1) (k - 1)

open Classical in
/-- The body of the loop, `TangentSpace.hh:141-206`. -/
noncomputable def localTangentSpace (svd : List (Fin d → ℝ) → List (Fin d → ℝ)) (n : ℕ) (position : ℕ → Fin d → ℝ) (k i : ℕ) (neighbours : List ℕ × List ℝ) : Option (Local d) :=
  let V := svd (centred n position neighbours.1)
  match V[effective d k]? with
  | none => none
  | some v => some {
      tangents := V.take (effective d k)
      normal := normalised v
      position := position i
      localFeatureSize := neighbours.2.foldl max (neighbours.2.headD 0)
      indices := neighbours.1 }

/-- The pairs of `propagateOrientation`, `TangentSpace.hh:434-446`. -/
def edges (spaces : List (Local d)) : List (ℕ × ℕ) :=
  (((List.range spaces.length).flatMap fun i => ((spaces[i]?.elim [] fun s => s.indices)).map fun j => if i < j then (i, j) else (j, i)).dedup).insertionSort
    fun a b => a.1 < b.1 ∨ a.1 = b.1 ∧ a.2 ≤ b.2

open Classical in
/-- `propagateOrientation`, `TangentSpace.hh:432-458`. -/
noncomputable def propagateOrientation (spaces : List (Local d)) : List (Local d) :=
  (edges spaces).foldl (fun l e =>
    match l[e.1]?, l[e.2]? with
    | some a, some b => if ∑ i, a.normal i * b.normal i < 0 then l.set e.2 { b with normal := -b.normal } else l
    | _, _ => l) spaces

/-- `localTangentSpaces`, `TangentSpace.hh:115-210`. -/
noncomputable def localTangentSpaces (sort : (ℕ → ℕ → Bool) → List ℕ → List ℕ) (svd : List (Fin d → ℝ) → List (Fin d → ℝ)) (n : ℕ) (position : ℕ → Fin d → ℝ) (k : ℕ) : Option (List (Local d)) :=
  match NearestNeighbours.neighbourSearch sort n (fun i j => norm (position i - position j)) k with
  | none => none
  | some r =>
    match (r.zipIdx).mapM fun e => localTangentSpace svd n position k e.2 e.1 with
    | none => none
    | some l => some (propagateOrientation l)

/-- The rows of the matrix `D`, `TangentSpace.hh:394-398`. -/
noncomputable def row (x : Fin d → ℝ) : Fin (d + 2) → ℝ := Fin.cons 1 (Fin.snoc x (∑ i, x i * x i))

/-- The matrix `D`, `TangentSpace.hh:380-402`. -/
noncomputable def design (position : ℕ → Fin d → ℝ) (indices : List ℕ) : Matrix (Fin indices.length) (Fin (d + 2)) ℝ := fun i => row (position indices[i])

/-- The matrix `W`, `TangentSpace.hh:379-393`. -/
noncomputable def weights (position : ℕ → Fin d → ℝ) (s : Local d) : Matrix (Fin s.indices.length) (Fin s.indices.length) ℝ :=
  Matrix.diagonal fun i => phi (AlgebraicSphere.quotient (norm (s.position - position s.indices[i])) s.localFeatureSize)

/-- The matrix `C`, `TangentSpace.hh:381-386`. -/
def constraint (d : ℕ) : Matrix (Fin (d + 2)) (Fin (d + 2)) ℝ := fun i j =>
  if i = 0 ∧ j = 0 then 0 else
  if i = 0 ∧ j = Fin.last (d + 1) then -2 else
  if i = Fin.last (d + 1) ∧ j = 0 then -2 else
  if i = Fin.last (d + 1) ∧ j = Fin.last (d + 1) then 0 else
  if i = j then 1 else 0

/-- An eigenvalue, with its real and imaginary part, and the real part of an eigenvector. -/
structure Eigen (d : ℕ) where
  re : ℝ
  im : ℝ
  vector : Fin (d + 2) → ℝ

open Classical in
/-- The choice of a solution, `TangentSpace.hh:413-423`. -/
noncomputable def choose (l : List (Eigen d)) : Fin (d + 2) → ℝ :=
  match l.find? fun e => decide (e.re > 0 ∧ e.im = 0) with
  | some e => e.vector
  | none => 0

/-- The coefficients of the sphere of a point, `TangentSpace.hh:373-425`. -/
noncomputable def coefficients (solver : Matrix (Fin (d + 2)) (Fin (d + 2)) ℝ → Matrix (Fin (d + 2)) (Fin (d + 2)) ℝ → List (Eigen d)) (position : ℕ → Fin d → ℝ) (s : Local d) : Fin (d + 2) → ℝ :=
  choose (solver ((design position s.indices).transpose * weights position s * design position s.indices) (constraint d))

/-- `operator()`, `TangentSpace.hh:85-101`, and `fitSpheresWithoutNormals`, `TangentSpace.hh:364-429`.  The constructor of the spheres throws an exception for fewer than three coefficients, that is, if
the dimension is zero; this is `none` as well. -/
noncomputable def curvatures (sort : (ℕ → ℕ → Bool) → List ℕ → List ℕ) (svd : List (Fin d → ℝ) → List (Fin d → ℝ))
    (solver : Matrix (Fin (d + 2)) (Fin (d + 2)) ℝ → Matrix (Fin (d + 2)) (Fin (d + 2)) ℝ → List (Eigen d)) (n : ℕ) (position : ℕ → Fin d → ℝ) (k : ℕ) : Option (List ℝ) :=
  match localTangentSpaces sort svd n position k with
  | none => none
  | some l => l.mapM fun s => (AlgebraicSphere.make (List.ofFn (coefficients solver position s))).map fun a => a.meanCurvature.1

end Aleph.TangentSpace
