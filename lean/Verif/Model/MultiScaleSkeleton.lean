import Verif.Model.BetaSkeleton
import Verif.Model.HeatKernel
import Verif.Model.VietorisRipsExample
import Verif.Model.Utilities

/-!
# The tool `multi_scale_skeleton`

Models `src/tools/multi_scale_skeleton.cc`, compiled with Eigen.

Simplifications: arithmetic is exact; a number that is infinite or undefined is `none`.  The file `/tmp/HKS.txt` can be created.  Messages on standard error are not modelled.
-/

namespace Aleph.MultiScaleSkeleton

open VietorisRipsExample (Failure squared)

noncomputable section

/-- `utilities::convert` for files, the output of numbers, and `Eigen::SelfAdjointEigenSolver` (`HeatKernel.hh:203-208`). -/
structure Context where
  convert : List Char → ℝ
  print : Option ℝ → List Char
  solver : HeatKernel.Mat → List ℝ × List (ℕ → ℝ)

/-- Reading of the points, `multi_scale_skeleton.cc:72`.  A file that cannot be opened yields an empty point cloud (`PointCloud.hh:233-234`). -/
def loadPoints (c : Context) : Option (List Char) → Except Failure (PointCloud ℝ)
  | none => .ok PointCloud.empty
  | some text =>
    match PointCloud.load c.convert text with
    | none => .error .exception
    | some pc => .ok pc

/-- The skeleton, `multi_scale_skeleton.cc:79-86`; the distance is converted by `traits.from` (`BetaSkeleton.hh:130-160`). -/
def skeleton (pc : PointCloud ℝ) : Option (Complex ℝ) :=
  BetaSkeleton.build 0 pc.n (fun i => (pc.get i).getD []) (fun i j => Real.sqrt (squared pc i j)) 1

/-- `x[i] += value`. -/
def increase (x : ℕ → ℝ) (i : ℕ) (value : ℝ) : ℕ → ℝ := fun k => if k = i then x k + value else x k

/-- The body of the loop over all simplices, `multi_scale_skeleton.cc:40-56`, for the vectors `degree` and `sumOfWeights`.  `none` is an exception. -/
def addEdge (vertices : List ℕ) (acc : (ℕ → ℝ) × (ℕ → ℝ)) (s : Simplex ℝ) : Option ((ℕ → ℝ) × (ℕ → ℝ)) :=
  if Complex.dim s ≠ 1 then some acc
  else do
    let u ← s.vertices[0]?
    let v ← s.vertices[1]?
    let i ← HeatKernel.indexOf vertices u
    let j ← HeatKernel.indexOf vertices v
    some (increase (increase acc.1 i 1) j 1, increase (increase acc.2 i s.data) j s.data)

/-- `ScaleEstimationFunctor`, `multi_scale_skeleton.cc:19-65`.  The division of zero by zero is not a number. -/
def scales (K : Complex ℝ) : Option (List (Option ℝ)) := do
  let vertices := K.vertices
  let (degree, sumOfWeights) ← K.foldlM (addEdge vertices) (fun _ => 0, fun _ => 0)
  some ((List.range vertices.length).map fun i => if degree i = 0 then none else some (sumOfWeights i / degree i))

/-- The times, `multi_scale_skeleton.cc:105-111`. -/
def times : List ℝ := [0, 1 / 1000, 1 / 100, 1 / 10, 1 / 2, 1, 9]

/-- The value of a point, `multi_scale_skeleton.cc:118, 137`. -/
def value (H : HeatKernel.Kernel) (l : List (Option ℝ)) (i : ℕ) (t : ℝ) : Option ℝ := (l.getD i none).map fun x => x * HeatKernel.autoDiffusion H i t

/-- The standard output, `multi_scale_skeleton.cc:115-121`. -/
def output (c : Context) (H : HeatKernel.Kernel) (l : List (Option ℝ)) : List Char :=
  times.flatMap fun t =>
    ((List.range l.length).flatMap fun i => Utilities.decimal i ++ "\t".toList ++ c.print (value H l i t) ++ "\n".toList) ++ "\n\n".toList

/-- The first two coordinates of a point, `multi_scale_skeleton.cc:133-135`; `none` is an access outside of the point. -/
def plane (pc : PointCloud ℝ) (i : ℕ) : Option (ℝ × ℝ) := do
  let p ← pc.get i
  let x ← p[0]?
  let y ← p[1]?
  some (x, y)

/-- The file `/tmp/HKS.txt`, `multi_scale_skeleton.cc:126-142`. -/
def gnuplot (c : Context) (H : HeatKernel.Kernel) (l : List (Option ℝ)) (points : List (ℝ × ℝ)) : List Char :=
  times.flatMap fun t =>
    ((List.range l.length).flatMap fun i =>
      let p := points.getD i (0, 0)
      c.print (some p.1) ++ "\t".toList ++ c.print (some p.2) ++ "\t".toList ++ c.print (value H l i t) ++ "\n".toList) ++ "\n\n".toList

/-- `main`, `multi_scale_skeleton.cc:67-144`: the result, the standard output, and the file that is written.  Without points, the solver refers to the largest entry of a matrix
without entries, which is a failed assertion of Eigen. -/
def main (c : Context) (files : List Char → Option (List Char)) (args : List (List Char)) : Except Failure (ℤ × List Char × Option (List Char)) :=
  match args with
  | [] => .ok (-1, [], none)
  | input :: _ =>
    match loadPoints c (files input) with
    | .error e => .error e
    | .ok pc =>
      match skeleton pc with
      | none => .error .exception
      | some K =>
        match scales K with
        | none => .error .exception
        | some l =>
          if K.vertices = [] then .error .undefined
          else
            match HeatKernel.construct c.solver K with
            | none => .error .exception
            | some H =>
              match (List.range l.length).mapM (plane pc) with
              | none => .error .undefined
              | some points => .ok (0, output c H l, some (gnuplot c H l points))

end

end Aleph.MultiScaleSkeleton
