import Verif.Model.DiagramNorms
import Verif.Model.Filesystem
import Verif.Model.TextReaders

/-!
# The tool `persistence_diagram_statistics`

Models `src/tools/persistence_diagram_statistics.cc`.

Data are real numbers; simplification: arithmetic is exact, and diagrams with unpaired points are excluded.  Quotients of zeros, which are not a number,
are `none`.  `convert` is the conversion of words to numbers; messages on standard error are not modelled.
-/

namespace Aleph.DiagramStatistics

noncomputable section

/-- What may happen instead of an ordinary end of the program. -/
inductive Failure
  | exception
  | undefined
  deriving DecidableEq

/-- The options, `persistence_diagram_statistics.cc:97-102`; any other option is handled like `power`, without an argument. -/
inductive Opt
  | invalid (x : ℝ)
  | power (x : ℝ)
  | unknown

/-- The cases of the `switch`, `persistence_diagram_statistics.cc:111-120`; `std::stod` of a null pointer is undefined.  The value for invalid points is `none` as long as
it is not a number. -/
def setOption : Option ℝ × ℝ → Opt → Except Failure (Option ℝ × ℝ)
  | (_, p), .invalid x => .ok (some x, p)
  | (i, _), .power x => .ok (i, x)
  | _, .unknown => .error .undefined

/-- The initial values and the loop over all options, `persistence_diagram_statistics.cc:104-122`. -/
def settings (opts : List Opt) : Except Failure (Option ℝ × ℝ) := opts.foldlM setOption (none, 2)

/-- The characters that `.` does not match in a regular expression. -/
def isLineEnd (c : Char) : Bool := c == '\n' || c == '\r'

/-- The match of the regular expression `(.*)_[dk]([[:digit:]]+)`, `persistence_diagram_statistics.cc:75-84`, from the end of the text. -/
def matchStem (stem : List Char) : Option (List Char × List Char) :=
  let rest := stem.reverse
  let digits := rest.takeWhile Char.isDigit
  match digits, rest.dropWhile Char.isDigit with
  | [], _ => none
  | _, letter :: '_' :: name =>
    if (letter == 'd' || letter == 'k') && !name.any isLineEnd then some (name.reverse, digits.reverse) else none
  | _, _ => none

/-- The value of decimal digits, as calculated by `std::stoul`. -/
def value (digits : List Char) : ℕ := digits.foldl (fun v d => 10 * v + (d.toNat - '0'.toNat)) 0

/-- `parseFilename`, `persistence_diagram_statistics.cc:67-93`; `ulongMax` and `unsignedMax` are the largest values of these types. -/
def parseFilename (ulongMax unsignedMax : ℕ) (filename : List Char) : Except Failure (List Char × ℕ) :=
  if Filesystem.extension filename = ['.', 't', 'x', 't'] then
    let filename := Filesystem.stem filename
    match matchStem filename with
    | some (name, digits) => if value digits > ulongMax then .error .exception else .ok (name, value digits % (unsignedMax + 1))
    | none => .ok (Filesystem.stem filename, 0)
  else .ok (Filesystem.stem filename, 0)

/-- `struct Input`, `persistence_diagram_statistics.cc:34-41`. -/
structure Input where
  filename : List Char
  diagram : Diagram ℝ
  name : List Char
  dimension : ℕ

/-- The loop that loads the files, `persistence_diagram_statistics.cc:145-166`. -/
def loadAll (ulongMax unsignedMax : ℕ) (convert : List Char → ℝ) (files : List Char → Option (List Char)) (filenames : List (List Char)) : Except Failure (List Input) :=
  filenames.mapM fun filename =>
    match parseFilename ulongMax unsignedMax filename with
    | .error e => .error e
    | .ok (name, dimension) =>
      match TextReaders.loadDiagram convert (files filename) with
      | none => .error .exception
      | some D => .ok ⟨filename, D, name, dimension⟩

/-- The removal of invalid points, `persistence_diagram_statistics.cc:183-202`; `maxv` is the largest number. -/
def clean (maxv : ℝ) (invalid : Option ℝ) (D : Diagram ℝ) : Diagram ℝ :=
  match invalid with
  | none => D
  | some x =>
    if x ≠ maxv then
      Diagram.removeDiagonal { D with points := D.points.map fun p => if p.1 = x ∨ p.2 = x then (0, 0) else p }
    else D

/-- A quotient; `none` is not a number. -/
def quotient (x : ℝ) (n : ℕ) : Option ℝ := if n = 0 then none else some (x / n)

/-- The values of a line of the output. -/
structure Row where
  filename : List Char
  name : List Char
  dimension : ℕ
  features : ℕ
  power : ℝ
  total : ℝ
  normalized : Option ℝ
  infinity : ℝ
  average : Option ℝ

/-- The statistics of a diagram, `persistence_diagram_statistics.cc:204-211`. -/
def statistics (maxv : ℝ) (invalid : Option ℝ) (p : ℝ) (input : Input) : Row :=
  let D := clean maxv invalid input.diagram
  let total := DiagramNorms.totalPersistence D p false
  { filename := input.filename
    name := input.name
    dimension := input.dimension
    features := D.points.length
    power := p
    total := total
    normalized := quotient total D.points.length
    infinity := DiagramNorms.infinityNorm D
    average := quotient ((DiagramNorms.persistenceValues D false).foldl (· + ·) 0) D.points.length }

/-- The names of the columns, `persistence_diagram_statistics.cc:133-143`. -/
def columns : List (List Char) :=
  ["file".toList, "name".toList, "dimension".toList, "n_features".toList, "power".toList, "total_persistence".toList, "total_persistence_normalized".toList,
   "infinity_norm".toList, "average_persistence".toList]

/-- The header, `persistence_diagram_statistics.cc:170-179`: a comma precedes each name that differs from the first one. -/
def header : List Char :=
  (columns.flatMap fun column => (if column ≠ columns.headD [] then [','] else []) ++ column) ++ ['\n']

/-- A line, `persistence_diagram_statistics.cc:213-221`; `print` is the output of numbers, `nan` the one of quotients that are not a number. -/
def line (print : ℝ → List Char) (nan : List Char) (r : Row) : List Char :=
  ['\''] ++ r.filename ++ ['\''] ++ [','] ++ r.name ++ [','] ++ Nat.toDigits 10 r.dimension ++ [','] ++ Nat.toDigits 10 r.features ++ [','] ++ print r.power ++ [','] ++
    print r.total ++ [','] ++ (r.normalized.map print).getD nan ++ [','] ++ print r.infinity ++ [','] ++ (r.average.map print).getD nan ++ ['\n']

/-- `main`, `persistence_diagram_statistics.cc:95-223`: the result and the output. -/
def main (ulongMax unsignedMax : ℕ) (maxv : ℝ) (convert : List Char → ℝ) (print : ℝ → List Char) (nan : List Char) (files : List Char → Option (List Char)) (opts : List Opt)
    (filenames : List (List Char)) : Except Failure (ℤ × List Char) :=
  match settings opts with
  | .error e => .error e
  | .ok (invalid, p) =>
    if filenames.isEmpty then .ok (-1, [])
    else
      match loadAll ulongMax unsignedMax convert files filenames with
      | .error e => .error e
      | .ok inputs => .ok (0, header ++ inputs.flatMap fun input => line print nan (statistics maxv invalid p input))

end

end Aleph.DiagramStatistics
