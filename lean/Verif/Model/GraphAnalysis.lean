import Verif.Model.Conversions
import Verif.Model.Curvature
import Verif.Model.EdgeListReader
import Verif.Model.Filesystem
import Verif.Model.Rips
import Verif.Model.Utilities

/-!
# The tool `graph_analysis`

Models `src/tools/graph_analysis.cc`.  Values have the type `unsigned`, see `graph_analysis.cc:33`, with 32 bits.

Simplifications: messages on standard error are not modelled, neither is the output of a program that is ended by an exception.  Every output file can be opened.
-/

namespace Aleph.GraphAnalysis

/-- What may happen instead of an ordinary end of the program. -/
inductive Failure
  | exception
  | undefined
  deriving DecidableEq

/-- `std::numeric_limits<unsigned>::max()`: this is the second coordinate of points that are never destroyed, as the type has no infinite value. -/
def unsignedMax : ℕ := 4294967295

/-- `utilities::convert` for numbers of type `unsigned`, and `std::stoul` followed by a conversion to `unsigned` (`none` is an exception). -/
structure Context where
  convert : List Char → ℕ
  stoul : List Char → Option ℕ

/-- The options, `graph_analysis.cc:40-47`; any other option is skipped. -/
inductive Opt
  | infinity (factor : List Char)
  | output (directory : List Char)
  | loops
  | zero
  | unknown

/-- The variables that are set by options, `graph_analysis.cc:49-52`. -/
structure Settings where
  infinity : ℕ
  outputDirectory : List Char
  calculateLoops : Bool
  zeroWeights : Bool

/-- The cases of the `switch`, `graph_analysis.cc:58-72`. -/
def setOption (c : Context) (s : Settings) : Opt → Settings
  | .infinity factor => { s with infinity := c.convert factor }
  | .output directory => { s with outputDirectory := directory }
  | .loops => { s with calculateLoops := true }
  | .zero => { s with zeroWeights := true }
  | .unknown => s

/-- The initial values and the loop over all options, `graph_analysis.cc:49-74`. -/
def settings (c : Context) (opts : List Opt) : Settings := opts.foldl (setOption c) ⟨2, "/tmp".toList, false, false⟩

/-- Reading of the graph, `graph_analysis.cc:81-89`; the reader throws an exception if the file cannot be opened. -/
def readGraph (c : Context) (files : List Char → Option (List Char)) (filename : List Char) : Except Failure (Complex ℕ) :=
  match files filename with
  | none => .error .exception
  | some text =>
    match EdgeListReader.read { readWeights := true, trimLines := true } c.convert c.convert [] text with
    | none => .error .exception
    | some (_, K) => .ok K

/-- `std::max_element`, or zero, `graph_analysis.cc:101-108`. -/
def maxDegree (degrees : List ℕ) : ℕ :=
  match degrees with
  | [] => 0
  | d :: ds => ds.foldl (fun m x => if m < x then x else m) d

/-- The optional expansion, `graph_analysis.cc:110-116`. -/
def expandGraph (c : Context) (o : Orders ℕ) (K : Complex ℕ) : List (List Char) → Except Failure (Complex ℕ)
  | [] => .ok K
  | word :: _ =>
    match c.stoul word with
    | none => .error .exception
    | some k =>
      match Rips.expand o 0 K k with
      | none => .error .exception
      | some L => .ok L

/-- The loop that sets the weights of vertices to zero, `graph_analysis.cc:129-140`. -/
def zeroVertices (K : Complex ℕ) : Except Failure (Complex ℕ) :=
  (List.range K.length).foldlM (fun K i =>
    match K[i]? with
    | none => .error .undefined
    | some s =>
      if Complex.dim s = 0 then
        match K.replace i (s.withData 0) with
        | none => .error .exception
        | some (L, success) => if success then .ok L else .error .exception
      else .ok K) K

/-- The option for the weights of vertices, `graph_analysis.cc:125-143`. -/
def zeroIf (zero : Bool) (K : Complex ℕ) : Except Failure (Complex ℕ) := if zero then zeroVertices K else .ok K

/-- The directory with a slash at its end, `graph_analysis.cc:149-150`; `back` is not defined for an empty string. -/
def withSlash (directory : List Char) : Except Failure (List Char) :=
  match directory.getLast? with
  | none => .error .undefined
  | some last => if last ≠ '/' then .ok (directory ++ ['/']) else .ok directory

/-- The loop over the points, `graph_analysis.cc:180-186`: products are reduced modulo `2 ^ 32`. -/
def content (infinity maxDegree : ℕ) (D : Diagram ℕ) : List Char :=
  D.points.flatMap fun p =>
    if Diagram.isUnpaired unsignedMax p ∧ 0 < infinity then
      Utilities.decimal p.1 ++ "\t".toList ++ Utilities.decimal (infinity * maxDegree % 4294967296) ++ "\n".toList
    else Utilities.decimal p.1 ++ "\t".toList ++ Utilities.decimal p.2 ++ "\n".toList

/-- The loop over the diagrams, `graph_analysis.cc:165-189`: names and contents of files. -/
def outputs (infinity maxDegree : ℕ) (directory filename : List Char) (Ds : List (Diagram ℕ)) : List (List Char × List Char) :=
  Ds.map fun D =>
    let D := if D.dimension = 0 then D.removeDiagonal else D
    (directory ++ Filesystem.stem filename ++ "_d".toList ++ Utilities.decimal D.dimension ++ ".txt".toList, content infinity maxDegree D)

/-- The calculation of the filtration and of the diagrams, `graph_analysis.cc:81-164`: the largest degree, the directory, and the diagrams. -/
def diagrams (c : Context) (o : Orders ℕ) (files : List Char → Option (List Char)) (s : Settings) (filename : List Char) (rest : List (List Char)) :
    Except Failure (ℕ × List Char × List (Diagram ℕ)) := do
  let K ← readGraph c files filename
  let degrees := Curvature.degrees K
  let K ← expandGraph c o K rest
  match Rips.assignMaximumData 0 K degrees with
  | none => .error .undefined
  | some K =>
    let K ← zeroIf s.zeroWeights K
    let directory ← withSlash s.outputDirectory
    match calculatePersistenceDiagrams .twist .vector unsignedMax (K.sort (asLt (Filtration.data fun a b => decide (a < b)))) true s.calculateLoops with
    | none => .error .exception
    | some Ds => .ok (maxDegree degrees, directory, Ds)

/-- `main`, `graph_analysis.cc:38-191`: the result and the files that are written; `names` are the arguments that are not options. -/
def main (c : Context) (o : Orders ℕ) (files : List Char → Option (List Char)) (opts : List Opt) (names : List (List Char)) :
    Except Failure (ℤ × List (List Char × List Char)) :=
  let s := settings c opts
  match names with
  | [] => .ok (-1, [])
  | filename :: rest =>
    match diagrams c o files s filename rest with
    | .error e => .error e
    | .ok (m, directory, Ds) => .ok (0, outputs s.infinity m directory filename Ds)

end Aleph.GraphAnalysis
