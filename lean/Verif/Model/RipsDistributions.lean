import Verif.Model.Distances
import Verif.Model.Kahan
import Verif.Model.PointCloud
import Verif.Model.Rips
import Verif.Model.Utilities
import Mathlib.Analysis.SpecialFunctions.Pow.NNReal

/-!
# The tool `rips_distributions`

Models `src/tools/rips_distributions.cc`, compiled without FLANN.

Simplifications: numbers are real; the number of points fits into `unsigned`.  Messages on standard error are not modelled.
-/

namespace Aleph.RipsDistributions

noncomputable section

/-- Conversions of words: `utilities::convert` for files, `std::stod` for options (`none` is an exception), and the output of numbers. -/
structure Context where
  convert : List Char → ℝ
  stod : List Char → Option ℝ
  print : ℝ → List Char

/-- The options, `rips_distributions.cc:124-129`; any other option is skipped. -/
inductive Opt
  | distance (word : List Char)
  | epsilon (word : List Char)
  | unknown

/-- The variables that are set by options, `rips_distributions.cc:131-132`. -/
structure Settings where
  functor : List Char
  epsilon : ℝ

/-- The cases of the `switch`, `rips_distributions.cc:138-146`; `none` is an exception. -/
def setOption (c : Context) (s : Settings) : Opt → Option Settings
  | .distance word => some { s with functor := word }
  | .epsilon word => (c.stod word).map fun x => { s with epsilon := x }
  | .unknown => some s

/-- The loop over all options, `rips_distributions.cc:131-148`. -/
def settings (c : Context) (opts : List Opt) : Option Settings := opts.foldlM (setOption c) ⟨"euclidean".toList, 0⟩

/-- A distance functor: its value for two lists of coordinates, and the conversion `from` of its traits. -/
structure Metric where
  value : List ℝ → List ℝ → Option ℝ
  convert : ℝ → ℝ

/-- `EuclideanDistance`, `rips_distributions.cc:24`, with `Euclidean.hh:161-164`. -/
def euclidean : Metric := ⟨Distances.euclidean (-1), Real.sqrt⟩

/-- `ManhattanDistance`, `rips_distributions.cc:25`, with `Traits.hh:28-31`. -/
def manhattan : Metric := ⟨Distances.manhattan (-1), id⟩

/-- The distance of two points of the cloud after its conversion; all points have the dimension of the cloud, so that no coordinates are missing. -/
def converted (M : Metric) (pc : PointCloud ℝ) (i j : ℕ) : ℝ := M.convert ((M.value ((pc.get i).getD []) ((pc.get j).getD [])).getD 0)

/-- `pairwiseDistances`, `rips_distributions.cc:27-58`. -/
def pairwiseDistances (M : Metric) (pc : PointCloud ℝ) : List ℝ :=
  if pc.n = 0 then []
  else
    (List.range pc.n).flatMap fun i => (List.range' (i + 1) (pc.n - (i + 1))).map fun j =>
      let dist := converted M pc i j
      dist * dist

/-- `calculateDegrees`, `rips_distributions.cc:60-101`. -/
def calculateDegrees (M : Metric) (pc : PointCloud ℝ) (epsilon : ℝ) : List ℕ × List ℝ :=
  if epsilon = 0 then ([], [])
  else
    let neighbours := Rips.radiusSearch pc.n (converted M pc) epsilon
    (neighbours.map fun l => l.length, neighbours.map fun l => Kahan.accumulateSorted (l.map (·.2)) 0)

/-- The loop of `containerAsJSON`, `rips_distributions.cc:111-117`. -/
def elements : List (List Char) → List Char
  | [] => []
  | w :: ws => w ++ ws.flatMap fun v => ',' :: v

/-- `containerAsJSON`, `rips_distributions.cc:103-120`, with an indentation of two. -/
def containerAsJSON (words : List (List Char)) (name : List Char) : List Char :=
  if words.isEmpty then [] else "  \"".toList ++ name ++ "\": ".toList ++ "[".toList ++ elements words ++ "]\n".toList

/-- Distances and degrees, `rips_distributions.cc:158-174`. -/
def calculate (functor : List Char) (pc : PointCloud ℝ) (epsilon : ℝ) : List ℝ × List ℕ × List ℝ :=
  if functor = "euclidean".toList then (pairwiseDistances euclidean pc, calculateDegrees euclidean pc epsilon)
  else if functor = "manhattan".toList then (pairwiseDistances manhattan pc, calculateDegrees manhattan pc epsilon)
  else ([], [], [])

/-- The output, `rips_distributions.cc:176-191`. -/
def output (c : Context) (x : List ℝ × List ℕ × List ℝ) : List Char :=
  "{\n".toList ++ containerAsJSON (x.1.map c.print) "distances".toList ++
    (if x.2.1.isEmpty then [] else ",\n".toList ++ containerAsJSON (x.2.1.map Utilities.decimal) "unweighted_degrees".toList) ++
    (if x.2.2.isEmpty then [] else ",\n".toList ++ containerAsJSON (x.2.2.map c.print) "weighted_degrees".toList) ++ "}\n".toList

/-- `main`, `rips_distributions.cc:122-192`: the result and the output; `none` is an exception.  A file that cannot be opened yields an empty point cloud (`PointCloud.hh:233-234`). -/
def main (c : Context) (files : List Char → Option (List Char)) (opts : List Opt) (args : List (List Char)) : Option (ℤ × List Char) :=
  match settings c opts with
  | none => none
  | some s =>
    match args with
    | [] => some (-1, [])
    | filename :: _ =>
      match files filename with
      | none => some (0, output c (calculate s.functor PointCloud.empty s.epsilon))
      | some text =>
        match PointCloud.load c.convert text with
        | none => none
        | some pc => some (0, output c (calculate s.functor pc s.epsilon))

end

end Aleph.RipsDistributions
