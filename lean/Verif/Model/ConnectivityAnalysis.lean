import Verif.Model.AdjacencyMatrixReader
import Verif.Model.Conversions
import Verif.Model.DiagramJson
import Verif.Model.Filesystem

/-!
# The tool `connectivity_matrix_analysis`

Models `src/tools/connectivity_matrix_analysis.cc`.

Numbers are elements of an ordered group, without rounding; `inf` is infinity.  Vertices are natural numbers (the tool uses `unsigned short`, so that
indices above 65535 are reduced).  `stod` and `stoul` are the conversions of arguments, `none` being an exception; `total` and `entropy` are the texts of the total
persistence and of the persistent entropy.  Messages on standard error are not modelled.
-/

namespace Aleph.ConnectivityAnalysis

variable {α : Type}

/-- The options, `connectivity_matrix_analysis.cc:55-62, 72`; `unknown` is what `getopt_long` reports as `?`. -/
inductive Opt
  | dimension (argument : List Char)
  | infinity (argument : List Char)
  | keepUnpaired
  | verbose
  | unknown
  deriving DecidableEq

/-- The variables set by options, `connectivity_matrix_analysis.cc:64-65`; infinity is `none`. -/
structure Settings (α : Type) where
  dimension : ℕ := 0
  infinity : Option α := none
  keepUnpaired : Bool := false

/-- The cases of the `switch`, `connectivity_matrix_analysis.cc:74-85`; `none` is an exception.  There is no case for `verbose`. -/
def setOption (stod : List Char → Option α) (stoul : List Char → Option ℕ) (s : Settings α) : Opt → Option (Settings α)
  | .dimension a => (stoul a).map fun d => { s with dimension := d }
  | .infinity a => (stod a).map fun x => { s with infinity := some x }
  | .keepUnpaired => some { s with keepUnpaired := true }
  | .verbose => some s
  | .unknown => some s

/-- The functor for weights, `connectivity_matrix_analysis.cc:127-132`. -/
def distance [Sub α] (hi _lo w : α) : α := hi - w

/-- The diagrams of a complex, `connectivity_matrix_analysis.cc:135-143`. -/
def diagramsOf (inf : α) (keep : Bool) (K : Complex α) : Option (List (Diagram α)) :=
  calculatePersistenceDiagrams .twist .vector inf (K.sort Simplex.lt) true keep

/-- The diagrams of a file, `connectivity_matrix_analysis.cc:107-115, 125-143`; there is an exception if the file cannot be opened. -/
def diagramsOfFile [LinearOrder α] [Zero α] [Sub α] (inf : α) (number : List Char → Option α) (keep : Bool) (file : Option (List Char)) : Option (List (Diagram α)) :=
  match file with
  | none => none
  | some text =>
    match AdjacencyMatrixReader.read true .zero distance number text 0 [] with
    | none => none
    | some (_, K) => diagramsOf inf keep K

/-- Replacing infinity, `connectivity_matrix_analysis.cc:153-164`. -/
def replace [DecidableEq α] (inf : α) (infinity : Option α) (D : Diagram α) : Diagram α :=
  match infinity with
  | none => D
  | some x => if x = inf then D else { D with points := D.points.map fun p => if p.2 = inf then (p.1, x) else (p.1, p.2) }

/-- The text for a diagram, `connectivity_matrix_analysis.cc:168-175`. -/
def diagramText [DecidableEq α] (inf : α) (printNat : ℕ → List Char) (print : α → List Char) (total : ℕ → Diagram α → List Char) (entropy : Diagram α → List Char)
    (infinity : Option α) (filename : List Char) (D : Diagram α) : List Char :=
  let D := replace inf infinity D
  DiagramJson.write inf printNat print (Filesystem.basename filename)
    [("persistent_entropy".toList, entropy D), ("total_persistence_1".toList, total 1 D), ("total_persistence_2".toList, total 2 D)] D

/-- The output, `connectivity_matrix_analysis.cc:117-118, 175, 179-181`. -/
def output (texts : List (List Char)) : List Char := "{\n\"diagrams\": [\n".toList ++ texts.flatten ++ "\n]\n}\n".toList

/-- `main`, `connectivity_matrix_analysis.cc:53-182`: the status and the output; `none` is an exception. -/
def main [LinearOrder α] [Zero α] [Sub α] (inf : α) (stod : List Char → Option α) (stoul : List Char → Option ℕ) (number : List Char → Option α)
    (printNat : ℕ → List Char) (print : α → List Char) (total : ℕ → Diagram α → List Char) (entropy : Diagram α → List Char)
    (files : List Char → Option (List Char)) (opts : List Opt) (filenames : List (List Char)) : Option (ℤ × List Char) :=
  match opts.foldlM (setOption stod stoul) {} with
  | none => none
  | some s =>
    if filenames.length < 1 then some (-1, [])
    else
      match filenames.mapM fun filename => (diagramsOfFile inf number s.keepUnpaired (files filename)).map
          fun Ds => Ds.map (diagramText inf printNat print total entropy s.infinity filename) with
      | none => none
      | some texts => some (0, output texts.flatten)

end Aleph.ConnectivityAnalysis
