import Verif.Model.DataDescriptors
import Verif.Model.Dimensionality
import Verif.Model.VietorisRipsExample

/-!
# The tool `local_dimensionality`

Models `src/tools/local_dimensionality.cc`, compiled without FLANN.

Simplifications: arithmetic is exact; a number that is infinite or undefined is `none`.  The number of neighbours is smaller than the largest value of its type, so that
the next number exists.  Messages on standard error are not modelled.
-/

namespace Aleph.LocalDimensionality

open VietorisRipsExample (Failure squared)

noncomputable section

/-- `utilities::convert` for files, `std::stoull` for options (`none` is an exception), the output of numbers, `std::sort` for indices (`BruteForce.hh:106-109`), and
`Eigen::JacobiSVD` (`PrincipalComponentAnalysis.hh:65`). -/
structure Context where
  convert : List Char → ℝ
  stoull : List Char → Option ℕ
  print : Option ℝ → List Char
  sort : (ℕ → ℕ → Bool) → List ℕ → List ℕ
  svd : ℕ → List (List ℝ) → List ℝ × List (List ℝ)

/-- The options, `local_dimensionality.cc:48-56`; any other option is skipped. -/
inductive Opt
  | neighbours (word : List Char)
  | maximum (word : List Char)
  | method (word : List Char)
  | steps (word : List Char)
  | smooth
  | unknown
  deriving DecidableEq

/-- The variables that are set by options, `local_dimensionality.cc:41-45`. -/
structure Settings where
  method : List Char := "pca".toList
  k : ℕ := 8
  K : ℕ := 0
  n : ℕ := 1
  smooth : Bool := false

/-- The cases of the `switch`, `local_dimensionality.cc:61-78`; `none` is an exception. -/
def setOption (c : Context) (s : Settings) : Opt → Option Settings
  | .neighbours w => (c.stoull w).map fun x => { s with k := x % 4294967296 }
  | .maximum w => (c.stoull w).map fun x => { s with K := x % 4294967296 }
  | .method w => some { s with method := w }
  | .steps w => (c.stoull w).map fun x => { s with n := x % 4294967296 }
  | .smooth => some { s with smooth := true }
  | .unknown => some s

/-- The loop over all options, `local_dimensionality.cc:58-79`. -/
def settings (c : Context) (opts : List Opt) : Option Settings := opts.foldlM (setOption c) {}

/-- Reading of the points, `local_dimensionality.cc:89`.  A file that cannot be opened yields an empty point cloud (`PointCloud.hh:233-234`). -/
def loadPoints (c : Context) : Option (List Char) → Except Failure (PointCloud ℝ)
  | none => .ok PointCloud.empty
  | some text =>
    match PointCloud.load c.convert text with
    | none => .error .exception
    | some pc => .ok pc

/-- The distance of two points of the cloud, `BruteForce.hh:60-64` with `Euclidean.hh:161-164`. -/
def distance (pc : PointCloud ℝ) (i j : ℕ) : ℝ := Real.sqrt (squared pc i j)

/-- The coordinates of all points, `DimensionalityEstimators.hh:387`. -/
def coordinates (pc : PointCloud ℝ) : List (List ℝ) := (List.range pc.n).map fun i => (pc.get i).getD []

/-- Undefined behaviour of a calculation. -/
def orUndefined {β : Type} : Option β → Except Failure β
  | none => .error .undefined
  | some x => .ok x

/-- The selection of the method, `local_dimensionality.cc:94-144`.  The estimators with two numbers raise an exception if one of them is zero
(`DimensionalityEstimators.hh:112-113, 213-214`). -/
def estimates (c : Context) (s : Settings) (pc : PointCloud ℝ) : Except Failure (List (Option ℝ)) :=
  if s.method = "pca".toList then
    (orUndefined (Dimensionality.principal c.svd c.sort (coordinates pc) (distance pc) s.k)).map fun l => l.map fun d : ℕ => some (d : ℝ)
  else if s.method = "nn".toList then
    if s.K = 0 then orUndefined (Dimensionality.nearestNeighbours c.sort pc.n (distance pc) s.k)
    else if s.k ≤ s.K then
      if s.k = 0 then .error .exception else orUndefined (Dimensionality.regression c.sort pc.n (distance pc) s.k s.K)
    else .ok []
  else if s.method = "mle".toList then
    if s.k > s.K then .error .exception
    else if s.k = 0 then .error .exception
    else (orUndefined (Dimensionality.likelihood c.sort pc.n (distance pc) s.k s.K)).map fun l => l.map some
  else if s.method = "mst".toList then .ok ((Dimensionality.spanningTree pc.n (distance pc)).map some)
  else .ok []

/-- The new value of a point, `MeanShift.hh:65-81`.  If one of the values of the neighbours is infinite or undefined, then this holds for their weighted sum as well.
The outer `none` is an access outside the data. -/
def smoothValue (data : List (Option ℝ)) (neighbours : List ℕ × List ℝ) : Option (Option ℝ) := do
  let values ← neighbours.1.mapM fun index => data[index]?
  some (if values.all Option.isSome then DataDescriptors.smoothValue (data.map fun x => x.getD 0) neighbours else none)

/-- One step of the smoothing, `MeanShift.hh:61-84`; `none` is an access outside the data. -/
def smoothStep (neighbours : List (List ℕ × List ℝ)) (data : List (Option ℝ)) : Option (List (Option ℝ)) := do
  let values ← neighbours.mapM (smoothValue data)
  if data.length < neighbours.length then none else some (values ++ List.replicate (data.length - neighbours.length) (some 0))

/-- The loop over all steps, `MeanShift.hh:59-85`. -/
def smoothLoop (neighbours : List (List ℕ × List ℝ)) : ℕ → List (Option ℝ) → Option (List (Option ℝ))
  | 0, data => some data
  | steps + 1, data => (smoothStep neighbours data).bind (smoothLoop neighbours steps)

/-- The smoothing, `local_dimensionality.cc:150-166` with `MeanShift.hh:29-88`. -/
def smoothed (c : Context) (s : Settings) (pc : PointCloud ℝ) (data : List (Option ℝ)) : Option (List (Option ℝ)) :=
  (NearestNeighbours.neighbourSearch c.sort pc.n (distance pc) (s.k + 1)).bind fun neighbours => smoothLoop neighbours s.n data

/-- The values that are written, `local_dimensionality.cc:94-166`. -/
def values (c : Context) (s : Settings) (pc : PointCloud ℝ) : Except Failure (List (Option ℝ)) :=
  match estimates c s pc with
  | .error e => .error e
  | .ok l => if s.smooth then orUndefined (smoothed c s pc l) else .ok l

/-- The output, `local_dimensionality.cc:168-169`. -/
def output (c : Context) (l : List (Option ℝ)) : List Char := l.flatMap fun d => c.print d ++ "\n".toList

/-- `main`, `local_dimensionality.cc:39-170`: the result and the output. -/
def main (c : Context) (files : List Char → Option (List Char)) (opts : List Opt) (args : List (List Char)) : Except Failure (ℤ × List Char) :=
  match settings c opts with
  | none => .error .exception
  | some s =>
    match args with
    | [] => .ok (-1, [])
    | input :: _ =>
      match loadPoints c (files input) with
      | .error e => .error e
      | .ok pc =>
        match values c s pc with
        | .error e => .error e
        | .ok l => .ok (0, output c l)

end

end Aleph.LocalDimensionality
