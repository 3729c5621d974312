import Verif.Model.PointCloud
import Verif.Model.TangentSpace
import Verif.Model.VietorisRipsExample

/-!
# The tool `mean_curvature`

Models `src/tools/mean_curvature.cc`, compiled with Eigen 3.3 or later, and without FLANN.

Simplifications: arithmetic is exact.  Messages on standard error are not modelled.
-/

namespace Aleph.MeanCurvature

open VietorisRipsExample (Failure)

noncomputable section

/-- `utilities::convert` for files, `std::stoul` for arguments (`none` is an exception), the output of numbers, `std::sort` for indices (`BruteForce.hh:106-109`), the singular value decomposition and the solver
for generalised eigenvalues of Eigen (`TangentSpace.hh:167, 409-411`). -/
structure Context where
  convert : List Char → ℝ
  stoul : List Char → Option ℕ
  print : ℝ → List Char
  sort : (ℕ → ℕ → Bool) → List ℕ → List ℕ
  svd : (d : ℕ) → List (Fin d → ℝ) → List (Fin d → ℝ)
  solver : (d : ℕ) → Matrix (Fin (d + 2)) (Fin (d + 2)) ℝ → Matrix (Fin (d + 2)) (Fin (d + 2)) ℝ → List (TangentSpace.Eigen d)

/-- Reading of the points, `mean_curvature.cc:28`.  A file that cannot be opened yields an empty point cloud (`PointCloud.hh:233-234`). -/
def loadPoints (c : Context) : Option (List Char) → Except Failure (PointCloud ℝ)
  | none => .ok PointCloud.empty
  | some text =>
    match PointCloud.load c.convert text with
    | none => .error .exception
    | some pc => .ok pc

/-- The position of a point, `TangentSpace.hh:465-475`. -/
def position (pc : PointCloud ℝ) (i : ℕ) : Fin pc.d → ℝ := fun l => ((pc.get i).getD []).getD l 0

/-- The line of a point, `mean_curvature.cc:43-49`. -/
def line (c : Context) (point : List ℝ) (curvature : ℝ) : List Char := (point.flatMap fun x => c.print x ++ " ".toList) ++ c.print curvature ++ "\n".toList

/-- The output, `mean_curvature.cc:41-50`; `none` is an access outside of the vector of curvatures. -/
def output (c : Context) (pc : PointCloud ℝ) (curvature : List ℝ) : Option (List Char) := do
  let lines ← (List.range pc.n).mapM fun i => do
    let p ← pc.get i
    let x ← curvature[i]?
    some (line c p x)
  some lines.flatten

/-- `main`, `mean_curvature.cc:17-58`: the result and the output. -/
def main (c : Context) (files : List Char → Option (List Char)) (args : List (List Char)) : Except Failure (ℤ × List Char) :=
  match args with
  | [] => .ok (-1, [])
  | [_] => .ok (-1, [])
  | filename :: word :: _ =>
    match c.stoul word with
    | none => .error .exception
    | some x =>
      let k := x % 4294967296
      match loadPoints c (files filename) with
      | .error e => .error e
      | .ok pc =>
        match TangentSpace.curvatures c.sort (c.svd pc.d) (c.solver pc.d) pc.n (position pc) k with
        | none => .error .undefined
        | some curvature =>
          match output c pc curvature with
          | none => .error .undefined
          | some text => .ok (0, text)

end

end Aleph.MeanCurvature
