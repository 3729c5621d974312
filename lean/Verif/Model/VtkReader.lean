import Verif.Model.Complex
import Verif.Model.PajekReader

/-!
# Structured grids in VTK files

Models `include/aleph/topology/io/VTK.hh`.  `number` is `std::stoull` for a sequence of digits, `none` is its exception; `convert` is `utilities::convert` for the data type.  The regular
expressions are sequences of words that are separated by `[[:space:]]+`; such an expression matches a text if and only if the text neither starts nor ends with whitespace and its fields
match the words.
-/

namespace Aleph.VtkReader

open PajekReader (isDigit isAlpha)

variable {α : Type}

/-- Members of the reader, `VTK.hh:429-436`; `none` as a size is the value of an uninitialised variable. -/
structure Reader where
  dataTypeSize : Option ℕ := some 0
  scalarsName : List Char := []
  scalarsType : List Char := []
  deriving DecidableEq

/-- The groups of `word[[:space:]]+word[[:space:]]+…`, if there is a match. -/
def matchFields (s : List Char) : Option (List (List Char)) :=
  if s.getLast?.any Strings.isSpace then none else some (Strings.split Strings.isSpace s)

/-- `[[:digit:]]+`. -/
def digits (s : List Char) : Bool := !s.isEmpty && s.all isDigit

/-- `[[:alpha:]]+`. -/
def letters (s : List Char) : Bool := !s.isEmpty && s.all isAlpha

/-- `[[:alnum:]]+`. -/
def alnum (s : List Char) : Bool := !s.isEmpty && s.all fun c => isAlpha c || isDigit c

/-- `([[:digit:]]+)\.([[:digit:]]+)`. -/
def version (s : List Char) : Bool := digits (s.takeWhile (· ≠ '.')) && (s.dropWhile (· ≠ '.')).head? == some '.' && digits (s.dropWhile (· ≠ '.')).tail

/-- `reIdentifier`, `VTK.hh:357`. -/
def isIdentifier (s : List Char) : Bool :=
  match matchFields s with
  | some [a, b, c, d, v] => a == ['#'] && b == "vtk".toList && c == "DataFile".toList && d == "Version".toList && version v
  | _ => false

/-- `reStructure`, `VTK.hh:376`. -/
def isStructure (s : List Char) : Bool :=
  match matchFields s with
  | some [a, b] => a == "DATASET".toList && b == "STRUCTURED_GRID".toList
  | _ => false

/-- `reDimensions`, `VTK.hh:380`. -/
def matchDimensions (s : List Char) : Option (List Char × List Char × List Char) :=
  match matchFields s with
  | some [a, x, y, z] => if a == "DIMENSIONS".toList && digits x && digits y && digits z then some (x, y, z) else none
  | _ => none

/-- `rePoints`, `VTK.hh:394`. -/
def matchPoints (s : List Char) : Option (List Char × List Char) :=
  match matchFields s with
  | some [a, n, t] => if a == "POINTS".toList && digits n && letters t then some (n, t) else none
  | _ => none

/-- The size of a data type, `VTK.hh:403-424`, for the usual sizes on 64-bit systems.  Names that contain underscores or spaces are omitted as they are not matched by `rePoints`. -/
def typeSize (t : List Char) : Option ℕ :=
  if t = "double".toList then some 8
  else if t = "float".toList then some 4
  else if t = "long".toList then some 8
  else if t = "int".toList then some 4
  else if t = "short".toList then some 2
  else if t = "char".toList then some 1
  else if t = "bit".toList then some 1
  else none

/-- What the header contains. -/
structure Header where
  nx : ℕ
  ny : ℕ
  nz : ℕ
  n : ℕ
  size : Option ℕ

/-- `std::stoull`; an exception is passed on. -/
def toNumber (number : List Char → Option ℕ) (s : List Char) : Except Unit ℕ :=
  match number s with
  | some n => .ok n
  | none => .error ()

/-- The last two lines of the header, `VTK.hh:376-426`. -/
def parseSizes (number : List Char → Option ℕ) (dimensions points : List Char) : Except Unit (Option Header) :=
  match matchDimensions dimensions with
  | none => .ok none
  | some (sx, sy, sz) => do
    let x ← toNumber number sx
    let y ← toNumber number sy
    let z ← toNumber number sz
    match matchPoints points with
    | none => .ok none
    | some (sn, st) => do
      let n ← toNumber number sn
      .ok (some ⟨x, y, z, n, typeSize st⟩)

/-- `parseHeader`, `VTK.hh:330-427`: the header and the remaining lines.  `.ok none` is the result `false`. -/
def parseHeader (number : List Char → Option ℕ) (lines : List (List Char)) : Except Unit (Option (Header × List (List Char))) :=
  match lines with
  | identifier :: _ :: format :: rest =>
    if !isIdentifier (Strings.trim identifier) then .ok none
    else if Strings.trim format ≠ "ASCII".toList then .error ()
    else
      match rest with
      | structure_ :: dimensions :: points :: rest =>
        if !isStructure (Strings.trim structure_) then .ok none
        else (parseSizes number (Strings.trim dimensions) (Strings.trim points)).map fun h => h.map fun h => (h, rest)
      | _ => .ok none
  | _ => .ok none

/-- The first loop, `VTK.hh:137-147`: lines are skipped until the number of coordinates, of which `count` have been read, is `total`.  Coordinates are not used. -/
def skipCoordinates (total count : ℕ) : List (List Char) → List (List Char)
  | [] => []
  | l :: ls =>
    let count := count + (Strings.split Strings.isSpace (Strings.trim l)).length
    if count = total then ls else skipCoordinates total count ls

/-- `rePointData`, `VTK.hh:130`. -/
def matchPointData (s : List Char) : Option (List Char) :=
  match matchFields s with
  | some [a, n] => if a == "POINT_DATA".toList && digits n then some n else none
  | _ => none

/-- `reScalars`, `VTK.hh:131`: the components are optional, but may be preceded by whitespace. -/
def matchScalars (s : List Char) : Option (List Char × List Char × List Char) :=
  match Strings.split Strings.isSpace s with
  | [a, name, type] => if a == "SCALARS".toList && alnum name && alnum type then some (name, type, []) else none
  | [a, name, type, components] =>
    if a == "SCALARS".toList && alnum name && alnum type && digits components && !s.getLast?.any Strings.isSpace then some (name, type, components) else none
  | _ => none

/-- `reLookupTable`, `VTK.hh:132`. -/
def matchLookupTable (s : List Char) : Option (List Char) :=
  match matchFields s with
  | some [a, name] => if a == "LOOKUP_TABLE".toList && alnum name then some name else none
  | _ => none

/-- `SCALARS`, `VTK.hh:163-174`. -/
def setScalars (number : List Char → Option ℕ) (r : Reader) (name type components : List Char) : Except Unit Reader :=
  if components.isEmpty then .ok { r with scalarsName := name, scalarsType := type }
  else
    match number components with
    | none => .error ()
    | some k => if k ≠ 1 then .error () else .ok { r with scalarsName := name, scalarsType := type }

/-- `POINT_DATA`, `VTK.hh:157-162`. -/
def checkNumber (number : List Char → Option ℕ) (n : ℕ) (s : List Char) : Except Unit Unit :=
  match number s with
  | none => .error ()
  | some k => if k ≠ n then .error () else .ok ()

/-- The body of the second loop, `VTK.hh:155-189`. -/
def readLine (number : List Char → Option ℕ) (convert : List Char → α) (n : ℕ) (st : Reader × List α) (line : List Char) : Except Unit (Reader × List α) :=
  match matchPointData line with
  | some s => (checkNumber number n s).map fun _ => st
  | none =>
    match matchScalars line with
    | some (name, type, components) => (setScalars number st.1 name type components).map fun r => (r, st.2)
    | none =>
      match matchLookupTable line with
      | some name => if name ≠ "default".toList then .error () else .ok st
      | none => .ok (st.1, st.2 ++ (Strings.split Strings.isSpace (Strings.trim line)).map convert)

/-- `coordinatesToIndex`, `VTK.hh:274-278`. -/
def coordinatesToIndex (nx ny x y z : ℕ) : ℕ := z * nx * ny + x % nx + y * nx

/-- `indexToCoordinates`, `VTK.hh:258-267`. -/
def indexToCoordinates (nx ny i : ℕ) : ℕ × ℕ × ℕ := (i % nx, i / nx % ny, i / (nx * ny))

/-- `neighbours`, `VTK.hh:287-315`. -/
def neighbours (nx ny nz x y z : ℕ) : List ℕ :=
  (if 0 < x then [coordinatesToIndex nx ny (x - 1) y z] else []) ++
  (if x + 1 < nx then [coordinatesToIndex nx ny (x + 1) y z] else []) ++
  (if 0 < y then [coordinatesToIndex nx ny x (y - 1) z] else []) ++
  (if y + 1 < ny then [coordinatesToIndex nx ny x (y + 1) z] else []) ++
  (if 0 < z then [coordinatesToIndex nx ny x y (z - 1)] else []) ++
  (if z + 1 < nz then [coordinatesToIndex nx ny x y (z + 1)] else [])

/-- The order in which the loops in `VTK.hh:212-237` visit the pairs of indices. -/
def pairs (nx ny nz : ℕ) : List (ℕ × ℕ) :=
  (List.range nz).flatMap fun z => (List.range ny).flatMap fun y => (List.range nx).flatMap fun x =>
    (neighbours nx ny nz x y z).map fun j => (coordinatesToIndex nx ny x y z, j)

/-- The innermost loop, `VTK.hh:221-234`; `at` throws an exception if there are not enough simplices. -/
def addEdge (f : α → α → α) (simplices : List (Simplex α)) (p : ℕ × ℕ) : Except Unit (List (Simplex α)) :=
  if p.2 > p.1 then .ok simplices
  else
    match simplices[p.1]?, simplices[p.2]? with
    | some a, some b => .ok (simplices ++ [Simplex.ofRange [p.1, p.2] (f a.data b.data)])
    | _, _ => .error ()

/-- Vertices, `VTK.hh:203-208`. -/
def vertices (values : List α) : List (Simplex α) := values.mapIdx fun v a => Simplex.ofVertex v a

/-- Creation of the complex, `VTK.hh:199-239`. -/
def topology (f : α → α → α) (nx ny nz : ℕ) (values : List α) : Except Unit (Complex α) :=
  ((pairs nx ny nz).foldlM (addEdge f) (vertices values)).map fun simplices => (Complex.insertRange [] simplices).1

/-- `operator()( in, K, f )`, `VTK.hh:99-240`; all exceptions are `.error ()`. -/
def read (number : List Char → Option ℕ) (convert : List Char → α) (f : α → α → α) (r : Reader) (K : Complex α) (text : List Char) : Except Unit (Reader × Complex α) := do
  let header ← parseHeader number (Strings.getlines [] text)
  match header with
  | none => .ok (r, K)
  | some (h, lines) => do
    let st ← (skipCoordinates (h.n * 3) 0 lines).foldlM (readLine number convert h.n) ({ r with dataTypeSize := h.size }, [])
    let K' ← topology f h.nx h.ny h.nz st.2
    .ok (st.1, K')

/-- `operator()( filename, K, f )`, `VTK.hh:80-87`; `none` as argument is a file that cannot be opened. -/
def readFile (number : List Char → Option ℕ) (convert : List Char → α) (f : α → α → α) (r : Reader) (K : Complex α) : Option (List Char) → Except Unit (Reader × Complex α)
  | none => .error ()
  | some text => read number convert f r K text

end Aleph.VtkReader
