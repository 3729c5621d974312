import Verif.Model.DataDescriptors
import Verif.Model.FunctionAnalysis
import Verif.Model.Strings
import Verif.Model.VietorisRipsExample

/-!
# The example `vietoris_rips_eccentricity`

Models `examples/vietoris_rips_eccentricity.cc`, compiled without FLANN.

Simplifications: arithmetic is exact; `inf` is the infinite value of points that are never destroyed, `lo` and `hi` are the lowest and the largest finite number.
Messages on standard error are not modelled.
-/

namespace Aleph.EccentricityExample

open VietorisRipsExample (Context Failure distance)

/-- The variable `starFiltration`, `vietoris_rips_eccentricity.cc:117-120`. -/
inductive Star
  | unused
  | upper
  | lower
  deriving DecidableEq

/-- The last argument, `vietoris_rips_eccentricity.cc:121-129`. -/
def star : Option (List Char) → Star
  | none => .unused
  | some argument =>
    let argument := Strings.trim argument
    if argument = ['u'] ∨ argument = ['U'] then .upper
    else if argument = ['l'] ∨ argument = ['L'] then .lower
    else .unused

/-- The variables that are set by arguments, `vietoris_rips_eccentricity.cc:101-120`. -/
structure Arguments where
  epsilon : ℝ
  dimension : ℕ
  order : ℕ
  star : Star

/-- The number at some position, or its default value, `vietoris_rips_eccentricity.cc:110-115`. -/
def numberOr (c : Context ℝ) (default : ℕ) : Option (List Char) → Except Failure ℕ
  | none => .ok default
  | some word =>
    match c.stoul word with
    | none => .error .exception
    | some n => .ok n

/-- The arguments behind the name of the file, `vietoris_rips_eccentricity.cc:101-129`; `d` is the dimension of the point cloud. -/
def arguments (c : Context ℝ) (d : ℕ) (epsilon : List Char) (rest : List (List Char)) : Except Failure Arguments := do
  let dimension ← numberOr c (d + 1) rest[0]?
  let order ← numberOr c 1 rest[1]?
  .ok ⟨c.convert epsilon, dimension, order, star rest[2]?⟩

/-- Reading of the points, `vietoris_rips_eccentricity.cc:100`.  A file that cannot be opened yields an empty point cloud (`PointCloud.hh:233-234`). -/
def loadPoints (c : Context ℝ) : Option (List Char) → Except Failure (PointCloud ℝ)
  | none => .ok PointCloud.empty
  | some text =>
    match PointCloud.load c.convert text with
    | none => .error .exception
    | some pc => .ok pc

/-- The transformation of the eccentricities, `vietoris_rips_eccentricity.cc:141-165`.  Without values, the ends of the range are dereferenced.  If all values are equal, then zero is
divided by zero; the results are not numbers.  As comparisons with them are false, `std::max` keeps the lowest number as the value of all simplices
(`RipsExpander.hh:135-139, 186-191`), and all simplices are equal for the comparators of star filtrations (`LowerStar.hh:96-104`, `UpperStar.hh:84-92`); the
same happens if all values are the lowest number. -/
noncomputable def transform (lo : ℝ) : List ℝ → Except Failure (List ℝ)
  | [] => .error .undefined
  | x :: l =>
    let least := l.foldl min x
    let largest := l.foldl max x
    if largest - least = 0 then .ok ((x :: l).map fun _ => lo)
    else .ok ((x :: l).map fun v => (largest - v) / (largest - least))

/-- The order of the simplices, `vietoris_rips_eccentricity.cc:220-272`. -/
noncomputable def filtered (lo hi : ℝ) (values : List ℝ) (K : Complex ℝ) : Star → Complex ℝ
  | .unused => K
  | .upper => (Complex.recalculateWeights lo hi false false K).sort (asLt (Filtration.upperStar hi values))
  | .lower => (Complex.recalculateWeights lo hi true false K).sort (asLt (Filtration.lowerStar lo values))

/-- The output for a diagram, `vietoris_rips_eccentricity.cc:288-305`. -/
noncomputable def diagramBlock (c : Context ℝ) (input : List Char) (D : Diagram ℝ) : List Char :=
  let D := D.removeDiagonal
  "# Persistence diagram <".toList ++ input ++ ">\n#\n# Dimension: ".toList ++ Utilities.decimal D.dimension ++ "\n# Entries  : ".toList ++
    Utilities.decimal D.points.length ++ "\n".toList ++ FunctionAnalysis.diagramText (fun x => c.print (some x)) D ++ "\n\n".toList

/-- The eccentricities, `vietoris_rips_eccentricity.cc:138-139`. -/
noncomputable def eccentricities (c : Context ℝ) (pc : PointCloud ℝ) (order : ℕ) : Except Failure (List ℝ) :=
  match DataDescriptors.eccentricities pc.n (distance c pc) order with
  | none => .error .undefined
  | some e => .ok e

/-- The diagrams, `vietoris_rips_eccentricity.cc:100-283`. -/
noncomputable def diagrams (c : Context ℝ) (lo hi : ℝ) (o : Orders ℝ) (text : Option (List Char)) (epsilon : List Char) (rest : List (List Char)) :
    Except Failure (List (Diagram ℝ)) := do
  let pc ← loadPoints c text
  let a ← arguments c pc.d epsilon rest
  let e ← eccentricities c pc a.order
  let values ← transform lo e
  match Rips.buildVietorisRipsWithValues o 0 lo pc.n (distance c pc) a.epsilon a.dimension values with
  | none => .error .exception
  | some K =>
    match calculatePersistenceDiagrams .twist .vector c.inf (filtered lo hi values K a.star) with
    | none => .error .exception
    | some Ds => .ok Ds

/-- `main`, `vietoris_rips_eccentricity.cc:75-306`: the result and the output. -/
noncomputable def main (c : Context ℝ) (lo hi : ℝ) (o : Orders ℝ) (files : List Char → Option (List Char)) : List (List Char) → Except Failure (ℤ × List Char)
  | input :: epsilon :: rest =>
    match diagrams c lo hi o (files input) epsilon rest with
    | .error e => .error e
    | .ok Ds => .ok (0, Ds.flatMap (diagramBlock c input))
  | _ => .ok (-1, [])

end Aleph.EccentricityExample
