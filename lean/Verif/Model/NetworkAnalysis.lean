import Verif.Model.EdgeListReader
import Verif.Model.Filesystem
import Verif.Model.FunctionAnalysis
import Verif.Model.GmlReader
import Verif.Model.PajekReader
import Verif.Model.Rips
import Verif.Model.Utilities

/-!
# The example `network_analysis`

Models `examples/network_analysis.cc`.

Simplifications: arithmetic is exact, weights are neither infinite nor undefined; `inf` is the infinite value of points that are never destroyed, and the
only value that is not finite.  Messages on standard error are not modelled, neither is the output of a program that is ended by an exception.
-/

namespace Aleph.NetworkAnalysis

variable {α : Type}

/-- What may happen instead of an ordinary end of the program. -/
inductive Failure
  | exception
  | undefined
  deriving DecidableEq

/-- The data type (`network_analysis.cc:108-109`): its infinite value, its lowest and its highest finite one; `std::stod`, and `std::stoul` followed by a conversion to
`unsigned` (`none` is an exception); the conversions of the readers, see their models; the numbers that are extracted from a stream
(`network_analysis.cc:223`), and the output of numbers. -/
structure Context (α : Type) where
  inf : α
  lo : α
  hi : α
  stod : List Char → Option α
  stoul : List Char → Option ℕ
  stoll : List Char → GmlReader.Parsed
  convert : List Char → α
  convertVertex : List Char → ℕ
  values : List Char → List α
  print : α → List Char

/-- The options, `network_analysis.cc:111-119`; any other option is skipped, `network_analysis.cc:153-154`. -/
inductive Opt
  | infinity (factor : List Char)
  | invert
  | nodeWeights (name : List Char)
  | normalize
  | output (path : List Char)
  | unknown

/-- The variables that are set by options, `network_analysis.cc:121-125`. -/
structure Settings (α : Type) where
  invert : Bool
  normalize : Bool
  infinity : α
  basePath : List Char
  nodeWeights : List Char

/-- The cases of the `switch`, `network_analysis.cc:131-155`. -/
def setOption (c : Context α) (s : Settings α) : Opt → Except Failure (Settings α)
  | .infinity factor =>
    match c.stod factor with
    | none => .error .exception
    | some x => .ok { s with infinity := x }
  | .invert => .ok { s with invert := true }
  | .normalize => .ok { s with normalize := true }
  | .output path => .ok { s with basePath := path }
  | .nodeWeights name => .ok { s with nodeWeights := name }
  | .unknown => .ok s

/-- The initial values and the loop over all options, `network_analysis.cc:121-157`. -/
def settings (c : Context α) (opts : List Opt) : Except Failure (Settings α) := opts.foldlM (setOption c) ⟨false, false, c.inf, [], []⟩

/-- Failures of the reader for GML files. -/
def ofGml : GmlReader.Failure → Failure
  | .exception => .exception
  | .undefined => .undefined

variable [LinearOrder α]

/-- Reading of the graph, `network_analysis.cc:189-206`.  All readers throw an exception if the file cannot be opened. -/
def readGraph [Zero α] (c : Context α) (files : List Char → Option (List Char)) (filename : List Char) : Except Failure (Complex α) :=
  match files filename with
  | none => .error .exception
  | some text =>
    let extension := Filesystem.extension filename
    if extension = ".gml".toList then
      match GmlReader.read c.stoll c.convert max text with
      | .error e => .error (ofGml e)
      | .ok (_, K) => .ok K
    else if extension = ".net".toList then
      match PajekReader.read c.stoul c.convert [] text with
      | none => .error .exception
      | some (_, K) => .ok K
    else
      match EdgeListReader.read {} c.convertVertex c.convert [] text with
      | none => .error .exception
      | some (_, K) => .ok K

/-- Weights of nodes, `network_analysis.cc:214-224`.  Nothing is read from a file that cannot be opened. -/
def assignNodes (c : Context α) (files : List Char → Option (List Char)) (s : Settings α) (K : Complex α) : Except Failure (Complex α) :=
  if s.nodeWeights.isEmpty then .ok K
  else
    match Rips.assignMaximumData c.lo K (c.values ((files s.nodeWeights).getD [])) with
    | none => .error .undefined
    | some L => .ok L

/-- The maximum and the minimum weight, `network_analysis.cc:231-237`. -/
def extremes (c : Context α) (K : Complex α) : α × α := K.foldl (fun m s => (max m.1 s.data, min m.2 s.data)) (c.lo, c.hi)

omit [LinearOrder α] in
/-- The loops that replace weights, `network_analysis.cc:245-254, 266-275`: vertices are skipped. -/
def reweigh (f : α → α) (K : Complex α) : Complex α :=
  (List.range K.length).foldl (fun K i =>
    match K[i]? with
    | none => K
    | some s =>
      if Complex.dim s = 0 then K
      else
        match K.replace i (s.withData (f s.data)) with
        | none => K
        | some (L, _) => L) K

/-- Normalization and inversion, `network_analysis.cc:231-278`: the new weights, and the value of `maxWeight`. -/
def preprocess [Field α] (c : Context α) (s : Settings α) (K : Complex α) : Complex α × α :=
  let m := extremes c K
  let (K, maxWeight) := if s.normalize ∧ m.1 ≠ m.2 then (reweigh (fun w => (w - m.2) / (m.1 - m.2)) K, 1) else (K, m.1)
  (if s.invert then reweigh (fun w => maxWeight - w) K else K, maxWeight)

/-- Expansion, assignment of weights, and sorting, `network_analysis.cc:306-330`.  The dimension that is part of a message throws an exception if the complex is empty. -/
def expandGraph [Zero α] (o : Orders α) (k : ℕ) (K : Complex α) : Except Failure (Complex α) :=
  match Rips.expand o 0 K k with
  | none => .error .exception
  | some K =>
    match Rips.assignMaximumWeight o 1 K with
    | none => .error .exception
    | some K =>
      match K.dimension with
      | none => .error .exception
      | some _ => .ok (K.sort (asLt (Filtration.data fun a b => decide (a < b))))

/-- What is done with each diagram, `network_analysis.cc:351-367`. -/
def close [Mul α] (c : Context α) (s : Settings α) (maxWeight : α) (D : Diagram α) : Diagram α :=
  let D := D.removeDiagonal
  if s.infinity ≠ c.inf ∧ s.infinity ≠ c.hi then
    { D with points := D.points.map fun p => if p.2 = c.inf then (p.1, s.infinity * maxWeight) else p }
  else D

/-- The text for a diagram, `network_analysis.cc:380-385`. -/
def diagramBlock (c : Context α) (filename : List Char) (D : Diagram α) : List Char :=
  "# Persistence diagram <".toList ++ filename ++ ">\n#\n# Dimension   : ".toList ++ Utilities.decimal D.dimension ++ "\n# Entries     : ".toList ++
    Utilities.decimal D.points.length ++ "\n# Betti number: ".toList ++ Utilities.decimal (D.betti c.inf) ++ "\n".toList ++ FunctionAnalysis.diagramText c.print D

/-- The loop over all diagrams, `network_analysis.cc:347-390`.  The last diagram is still unchanged when it is compared with the others. -/
def blocks [Mul α] (c : Context α) (s : Settings α) (filename : List Char) (maxWeight : α) : List (Diagram α) → List (Diagram α × List Char)
  | [] => []
  | D :: Ds =>
    let D := close c s maxWeight D
    let separator :=
      match Ds.getLast? with
      | none => []
      | some back => if !D.eq back then "\n\n".toList else []
    (D, diagramBlock c filename D ++ separator) :: blocks c s filename maxWeight Ds

/-- What is written: to standard output, and to files. -/
structure Output where
  stdout : List Char
  files : List (List Char × List Char)

/-- The name of an output file, `network_analysis.cc:402-405`; `none` if it is not defined. -/
noncomputable def outputName (s : Settings α) (filename : List Char) (K : Complex α) (k : ℕ) (D : Diagram α) : Option (List Char) :=
  (Utilities.format D.dimension (max ((K.dimension).getD 0) k) '0').map fun number =>
    s.basePath ++ "/".toList ++ Filesystem.stem (Filesystem.basename filename) ++ "_d".toList ++ number ++ ".txt".toList

/-- The output of the texts, `network_analysis.cc:392-411`. -/
noncomputable def emit (s : Settings α) (filename : List Char) (K : Complex α) (k : ℕ) (texts : List (Diagram α × List Char)) : Except Failure Output :=
  if s.basePath.isEmpty then .ok ⟨texts.flatMap Prod.snd, []⟩
  else
    match texts.mapM fun t => (outputName s filename K k t.1).map fun name => (name, t.2) with
    | none => .error .undefined
    | some files => .ok ⟨[], files⟩

/-- The dimension of the expansion, `network_analysis.cc:301-304`. -/
def expansion (c : Context α) : List (List Char) → Except Failure ℕ
  | [] => .ok 1
  | word :: _ =>
    match c.stoul word with
    | none => .error .exception
    | some k => .ok k

/-- The part of `main` up to the diagrams, `network_analysis.cc:189-343`: the expanded complex, the value of `maxWeight`, and the diagrams. -/
def diagrams [Field α] (c : Context α) (o : Orders α) (files : List Char → Option (List Char)) (s : Settings α) (filename : List Char) (rest : List (List Char)) :
    Except Failure (Complex α × ℕ × α × List (Diagram α)) := do
  let K ← readGraph c files filename
  let K ← assignNodes c files s K
  let (K, maxWeight) := preprocess c s K
  let k ← expansion c rest
  let K ← expandGraph o k K
  match calculatePersistenceDiagrams .twist .vector c.inf K with
  | none => .error .exception
  | some Ds => .ok (K, k, maxWeight, Ds)

/-- `main`, `network_analysis.cc:100-413`: the result and the output; `names` are the arguments that are not options.  Every output file can be opened. -/
noncomputable def main [Field α] (c : Context α) (o : Orders α) (files : List Char → Option (List Char)) (opts : List Opt) (names : List (List Char)) :
    Except Failure (ℤ × Output) :=
  match settings c opts with
  | .error e => .error e
  | .ok s =>
    match names with
    | [] => .ok (-1, ⟨[], []⟩)
    | filename :: rest =>
      match diagrams c o files s filename rest with
      | .error e => .error e
      | .ok (K, k, maxWeight, Ds) =>
        match emit s filename K k (blocks c s filename maxWeight Ds) with
        | .error e => .error e
        | .ok out => .ok (0, out)

end Aleph.NetworkAnalysis
