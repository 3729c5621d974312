import Verif.Model.AdjacencyMatrixReader
import Verif.Model.Conversions
import Verif.Model.Filesystem
import Verif.Model.Rips
import Verif.Model.Utilities

/-!
# The tool `ephemeral`

Models `src/tools/ephemeral.cc`.

Numbers are elements of an ordered field, without rounding; `inf` is infinity.  Vertices are natural numbers (the tool uses `unsigned short`, so that
indices above 65535 are reduced).  Messages on standard error are not modelled, and neither are the files written by a program that is ended by an exception.  Assertions are
active.
-/

namespace Aleph.Ephemeral

variable {α : Type}

/-- What may happen instead of an ordinary end of the program. -/
inductive Failure
  | exception
  | assertion
  deriving DecidableEq

/-- Infinity, the numbers in files, `std::stod`, `std::stoul` followed by a conversion to `unsigned` (`none` is an exception, or the end of the input), and the output of numbers. -/
structure Context (α : Type) where
  inf : α
  number : List Char → Option α
  stod : List Char → Option α
  stoul : List Char → Option ℕ
  print : α → List Char

/-- The options, `ephemeral.cc:222-230`; `unknown` is what `getopt_long` reports as `?`. -/
inductive Opt
  | dimension (argument : List Char)
  | infinity (argument : List Char)
  | keepUnpaired
  | verbose
  | distance
  | unknown
  deriving DecidableEq

/-- The variables set by options, `ephemeral.cc:232-236`; the variable `verbose` is never changed. -/
structure Settings (α : Type) where
  dimension : ℕ
  infinity : α
  keepUnpaired : Bool
  distance : Bool

/-- The cases of the `switch`, `ephemeral.cc:243-257`; there is none for `verbose`. -/
def setOption (c : Context α) (s : Settings α) : Opt → Option (Settings α)
  | .dimension a => (c.stoul a).map fun d => { s with dimension := d }
  | .infinity a => (c.stod a).map fun x => { s with infinity := x }
  | .keepUnpaired => some { s with keepUnpaired := true }
  | .verbose => some s
  | .distance => some { s with distance := true }
  | .unknown => some s

/-- The initial values and the loop over all options, `ephemeral.cc:232-259`. -/
def settings (c : Context α) (opts : List Opt) : Option (Settings α) := opts.foldlM (setOption c) ⟨0, c.inf, false, false⟩

/-- The number of diagrams, `ephemeral.cc:275`, of type `unsigned`. -/
def numDiagrams (s : Settings α) : ℕ := ((if s.keepUnpaired then 1 else 0) + s.dimension + 1) % 4294967296

/-- `std::isfinite`, `ephemeral.cc:195, 200`. -/
def isFinite [DecidableEq α] [Neg α] (c : Context α) (x : α) : Bool := !decide (x = c.inf) && !decide (x = -c.inf)

/-- The functor for the weights, `ephemeral.cc:130-136`; the reader uses the identity by default, `AdjacencyMatrix.hh`. -/
def functor [Sub α] [One α] (distance : Bool) (_hi _lo w : α) : α := if distance then 1 - w else w

/-- Reading of a file, `ephemeral.cc:126-140`: an exception is thrown if it cannot be opened.  Zeros are ignored, `ephemeral.cc:285`. -/
def readMatrix [LinearOrder α] [Zero α] [Sub α] [One α] (c : Context α) (strategy : AdjacencyMatrixReader.Strategy) (distance : Bool) (file : Option (List Char)) :
    Except Failure (Complex α) :=
  match file with
  | none => .error .exception
  | some text =>
    match AdjacencyMatrixReader.read true strategy (functor distance) c.number text 0 [] with
    | none => .error .exception
    | some (_, K) => .ok K

/-- The optional expansion, `ephemeral.cc:146-152`. -/
def expand [LinearOrder α] [Zero α] (o : Orders α) (k : ℕ) (K : Complex α) : Except Failure (Complex α) :=
  if k ≠ 0 then
    match Rips.expand o 0 K k with
    | none => .error .exception
    | some L =>
      match Rips.assignMaximumWeight o 1 L with
      | none => .error .exception
      | some M => .ok M
  else .ok K

/-- `resize`, `ephemeral.cc:175`. -/
def resize (n : ℕ) (Ds : List (Diagram α)) : List (Diagram α) := (Ds ++ List.replicate n (⟨0, []⟩ : Diagram α)).take n

/-- The assertion in the loop, `ephemeral.cc:181-187`. -/
def dimensionsFit (Ds : List (Diagram α)) : Bool := Ds.zipIdx.all fun Di => Di.1.points.isEmpty || Di.1.dimension == Di.2

/-- Replacing infinity, `ephemeral.cc:195-213`. -/
def replaceInfinity [DecidableEq α] [Neg α] (c : Context α) (reverse : Bool) (infinity : α) (D : Diagram α) : Diagram α :=
  let infinity := if reverse && isFinite c infinity then -infinity else infinity
  if isFinite c infinity then { D with points := D.points.map fun p => if Diagram.isUnpaired c.inf p then (p.1, infinity) else (p.1, p.2) } else D

/-- The diagrams of a complex, `ephemeral.cc:157-213`.  For the variable `reverse`, both cases use the order `std::less`, `ephemeral.cc:160-165`. -/
def diagramsOf [LinearOrder α] [Neg α] (c : Context α) (s : Settings α) (reverse : Bool) (K : Complex α) : Except Failure (List (Diagram α)) :=
  let L := if reverse then K.sort (asLt (Filtration.data fun a b => decide (a < b))) else K.sort (asLt (Filtration.data fun a b => decide (a < b)))
  match calculatePersistenceDiagrams .twist .vector c.inf L true s.keepUnpaired with
  | none => .error .exception
  | some Ds =>
    let Ds := resize (numDiagrams s) Ds
    if dimensionsFit Ds then .ok (Ds.map (replaceInfinity c reverse s.infinity)) else .error .assertion

/-- `processFilename`, `ephemeral.cc:111-218`. -/
def processFile [LinearOrder α] [Zero α] [Sub α] [One α] [Neg α] (c : Context α) (o : Orders α) (s : Settings α) (strategy : AdjacencyMatrixReader.Strategy) (reverse : Bool)
    (file : Option (List Char)) : Except Failure (List (Diagram α)) := do
  let K ← readMatrix c strategy s.distance file
  let K ← expand o s.dimension K
  diagramsOf c s reverse K

/-- `DiagramCollection`, `ephemeral.cc:57-95`: a map whose keys are the names of files; names that do not occur are never used. -/
abbrev Collection (α : Type) := List Char → List (Diagram α)

/-- `update`, `ephemeral.cc:74-86`; both lists have the same length. -/
def update (m : Collection α) (key : List Char) (Ds : List (Diagram α)) : Collection α :=
  fun name => if name = key then List.zipWith Diagram.merge (m key) Ds else m name

/-- The loops over all files, `ephemeral.cc:305-319, 334-348, 359-373`. -/
def pass [LinearOrder α] [Zero α] [Sub α] [One α] [Neg α] (c : Context α) (o : Orders α) (files : List Char → Option (List Char)) (s : Settings α)
    (strategy : AdjacencyMatrixReader.Strategy) (reverse : Bool) (m : Collection α) (names : List (List Char)) : Except Failure (Collection α) :=
  names.foldlM (fun m name =>
    match processFile c o s strategy reverse (files name) with
    | .error e => .error e
    | .ok Ds => .ok (update m name Ds)) m

/-- All calculations, `ephemeral.cc:277-382`. -/
def collect [LinearOrder α] [Zero α] [Sub α] [One α] [Neg α] (c : Context α) (o : Orders α) (files : List Char → Option (List Char)) (s : Settings α) (names : List (List Char)) :
    Except Failure (Collection α) :=
  let m : Collection α := fun _ => List.replicate (numDiagrams s) ⟨0, []⟩
  if !s.distance then
    match pass c o files s .globalMinimum false m names with
    | .error e => .error e
    | .ok m => pass c o files s .globalMaximum true m names
  else pass c o files s .zero false m names

/-- The output of a diagram, `PersistenceDiagram.hh:248-254`. -/
def diagramText (c : Context α) (D : Diagram α) : List Char := D.points.flatMap fun p => c.print p.1 ++ "\t".toList ++ c.print p.2 ++ "\n".toList

/-- The files that are written for a name, `ephemeral.cc:392-404`. -/
def outputs (c : Context α) (m : Collection α) (name : List Char) : List (List Char × List Char) :=
  (m name).zipIdx.map fun Di =>
    ("/tmp/".toList ++ Filesystem.stem (Filesystem.basename name) ++ "_d".toList ++ Utilities.decimal Di.2 ++ ".txt".toList, diagramText c Di.1)

/-- `main`, `ephemeral.cc:220-406`: the status, and the names and contents of all files in the order in which they are written. -/
def main [LinearOrder α] [Zero α] [Sub α] [One α] [Neg α] (c : Context α) (o : Orders α) (files : List Char → Option (List Char)) (opts : List Opt) (names : List (List Char)) :
    Except Failure (ℤ × List (List Char × List Char)) :=
  match settings c opts with
  | none => .error .exception
  | some s =>
    if names.length < 1 then .ok (-1, [])
    else
      match collect c o files s names with
      | .error e => .error e
      | .ok m => .ok (0, names.flatMap (outputs c m))

end Aleph.Ephemeral
