import Verif.Model.DataDescriptors
import Verif.Model.DiagramJson
import Verif.Model.VietorisRipsExample

/-!
# The tool `point_cloud_data_descriptors`

Models `src/tools/point_cloud_data_descriptors.cc`, compiled without FLANN.

Simplifications: arithmetic is exact.  Messages on standard error are not modelled.
-/

namespace Aleph.DescriptorTool

open VietorisRipsExample (Failure squared)

noncomputable section

/-- The infinite value and the lowest value of the data type, `utilities::convert` for files, `std::stod` and `std::stoul` for options (`none` is an exception), the output of numbers,
and `std::sort` for indices (`BruteForce.hh:106-109`). -/
structure Context where
  inf : ℝ
  lo : ℝ
  convert : List Char → ℝ
  stod : List Char → Option ℝ
  stoul : List Char → Option ℕ
  print : ℝ → List Char
  sort : (ℕ → ℕ → Bool) → List ℕ → List ℕ

/-- The options, `point_cloud_data_descriptors.cc:160-171`; any other option is skipped. -/
inductive Opt
  | bandwidth (word : List Char)
  | dimension (word : List Char)
  | descriptor (word : List Char)
  | epsilon (word : List Char)
  | neighbours (word : List Char)
  | invert
  | normalize
  | power (word : List Char)
  | removeUnpaired
  | unknown
  deriving DecidableEq

/-- The variables that are set by options, `point_cloud_data_descriptors.cc:173-182`. -/
structure Settings where
  dimension : ℕ := 0
  h : ℝ := 1 / 100
  k : ℕ := 10
  p : ℕ := 2
  epsilon : ℝ := 0
  descriptor : List Char := "density".toList
  normalize : Bool := false
  invert : Bool := false
  removeUnpaired : Bool := false

/-- The cases of the `switch`, `point_cloud_data_descriptors.cc:188-217`; `none` is an exception. -/
def setOption (c : Context) (s : Settings) : Opt → Option Settings
  | .bandwidth w => (c.stod w).map fun x => { s with h := x }
  | .dimension w => (c.stoul w).map fun n => { s with dimension := n }
  | .descriptor w => some { s with descriptor := w }
  | .epsilon w => (c.stod w).map fun x => { s with epsilon := x }
  | .neighbours w => (c.stoul w).map fun n => { s with k := n }
  | .invert => some { s with invert := true }
  | .normalize => some { s with normalize := true }
  | .power w => (c.stoul w).map fun n => { s with p := n }
  | .removeUnpaired => some { s with removeUnpaired := true }
  | .unknown => some s

/-- The loop over all options, `point_cloud_data_descriptors.cc:184-219`. -/
def settings (c : Context) (opts : List Opt) : Option Settings := opts.foldlM (setOption c) {}

/-- Reading of the points, `point_cloud_data_descriptors.cc:228`.  A file that cannot be opened yields an empty point cloud (`PointCloud.hh:233-234`). -/
def loadPoints (c : Context) : Option (List Char) → Except Failure (PointCloud ℝ)
  | none => .ok PointCloud.empty
  | some text =>
    match PointCloud.load c.convert text with
    | none => .error .exception
    | some pc => .ok pc

/-- The distance of two points of the cloud, `point_cloud_data_descriptors.cc:50` with `Euclidean.hh:161-164`. -/
def distance (pc : PointCloud ℝ) (i j : ℕ) : ℝ := Real.sqrt (squared pc i j)

/-- `normalizeValues`, `point_cloud_data_descriptors.cc:56-71`. -/
def normalizeValues : List ℝ → List ℝ
  | [] => []
  | x :: l =>
    let least := l.foldl min x
    let largest := l.foldl max x
    if least = largest then x :: l else (x :: l).map fun v => (v - least) / (largest - least)

/-- `invertValues`, `point_cloud_data_descriptors.cc:73-81`. -/
def invertValues : List ℝ → List ℝ
  | [] => []
  | x :: l =>
    let largest := l.foldl max x
    (x :: l).map fun v => largest - v

/-- `calculateDataDescriptor`, `point_cloud_data_descriptors.cc:83-101`.  The result `none` is that no value is a number: for the bandwidth zero, each density contains
the exponential of zero divided by zero. -/
def calculateDataDescriptor (c : Context) (s : Settings) (pc : PointCloud ℝ) : Except Failure (Option (List ℝ)) :=
  if s.descriptor = "density".toList then
    match DataDescriptors.estimateDensityDistanceToMeasure c.sort pc.n (distance pc) s.k with
    | none => .error .undefined
    | some l => .ok (some l)
  else if s.descriptor = "eccentricity".toList then
    match DataDescriptors.eccentricities pc.n (distance pc) s.p with
    | none => .error .undefined
    | some l => .ok (some l)
  else if s.descriptor = "gaussian".toList then .ok (DataDescriptors.estimateDensityTruncatedGaussian pc.n (squared pc) s.h)
  else .ok (some [])

/-- The values after their transformations, `point_cloud_data_descriptors.cc:242-246`. -/
def transformed (s : Settings) (values : List ℝ) : List ℝ :=
  let values := if s.invert then invertValues values else values
  if s.normalize then normalizeValues values else values

/-- The values that determine the data of simplices, `point_cloud_data_descriptors.cc:235-257`.  If the values are not numbers, then this holds after their transformations as well.
As comparisons with them are false, `std::max` keeps the lowest number as the value of all simplices (`RipsExpander.hh:135-139, 186-191`). -/
def finalValues (c : Context) (s : Settings) (n : ℕ) : Option (List ℝ) → List ℝ
  | none => List.replicate n c.lo
  | some values => transformed s values

/-- The diagrams, `point_cloud_data_descriptors.cc:228-265`.  Missing values are reads past the end of an array (`RipsExpander.hh:190`). -/
def diagrams (c : Context) (o : Orders ℝ) (s : Settings) (text : Option (List Char)) : Except Failure (List (Diagram ℝ)) := do
  let pc ← loadPoints c text
  let values ← calculateDataDescriptor c s pc
  match Rips.buildVietorisRipsWithValues o 0 c.lo pc.n (distance pc) s.epsilon (if s.dimension = 0 then pc.d + 1 else s.dimension) (finalValues c s pc.n values) with
  | none => .error .undefined
  | some K =>
    match calculatePersistenceDiagrams .twist .vector c.inf K with
    | none => .error .exception
    | some Ds => .ok Ds

/-- The text for a diagram, `point_cloud_data_descriptors.cc:279-286`. -/
def diagramText (c : Context) (s : Settings) (input : List Char) (D : Diagram ℝ) : List Char :=
  let D := D.removeDiagonal
  let D := if s.removeUnpaired then D.removeUnpaired c.inf else D
  DiagramJson.write c.inf (Nat.toDigits 10) c.print input [] D

/-- The loop over all diagrams, `point_cloud_data_descriptors.cc:274-287`. -/
def joined : List (List Char) → List Char
  | [] => []
  | t :: ts => t ++ ts.flatMap fun u => ",\n".toList ++ u

/-- The output, `point_cloud_data_descriptors.cc:271-291`. -/
def output (texts : List (List Char)) : List Char := "{\n".toList ++ "\"diagrams\": ".toList ++ "[\n".toList ++ joined texts ++ "\n".toList ++ "  ]\n".toList ++ "}\n".toList

/-- `main`, `point_cloud_data_descriptors.cc:158-292`: the result and the output. -/
def main (c : Context) (o : Orders ℝ) (files : List Char → Option (List Char)) (opts : List Opt) (args : List (List Char)) : Except Failure (ℤ × List Char) :=
  match settings c opts with
  | none => .error .exception
  | some s =>
    match args with
    | [] => .ok (-1, [])
    | input :: _ =>
      match diagrams c o s (files input) with
      | .error e => .error e
      | .ok Ds => .ok (0, output (Ds.map (diagramText c s input)))

end

end Aleph.DescriptorTool
