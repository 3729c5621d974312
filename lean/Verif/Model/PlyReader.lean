import Verif.Model.Complex
import Verif.Model.Strings

/-!
# PLY files

Models `include/aleph/topology/io/PLY.hh`.  `number` is the extraction of an unsigned number from a stream, for a word that consists of nothing else; `real` tells whether `std::stod` returns a
value for a token; `convert` is `utilities::convert` for the data type.  Sizes and offsets of properties, which are uninitialised for lists, are omitted, as they have an effect only on the values
that are read from binary files, which are not used.
-/

namespace Aleph.PlyReader

variable {α : Type}

/-- What a call may do instead of returning. -/
inductive Failure
  | exception
  | assertion
  | undefined
  deriving DecidableEq

/-- The keys of `TypeSizeMap`, `PLY.hh:39-51`. -/
def knownTypes : List (List Char) :=
  ["double".toList, "float".toList, "int".toList, "int32".toList, "uint".toList, "uint32".toList, "short".toList, "ushort".toList, "char".toList, "uchar".toList, "uint8".toList]

/-- The variables of the loop over the lines of the header, `PLY.hh:163-217`; properties are given by their name and index. -/
structure Header where
  numVertices : ℕ := 0
  numFaces : ℕ := 0
  properties : List (List Char × ℕ) := []
  propertyIndex : ℕ := 0
  deriving DecidableEq

/-- `element`, `PLY.hh:232-257`; `text` is the remainder of the line. -/
def parseElement (number : List Char → Option ℕ) (h : Header) (text : List Char) : Except Failure Header :=
  match Strings.extract [] (Strings.trim text) with
  | name :: count :: _ =>
    match number count with
    | none => .error .exception
    | some n =>
      if name = "vertex".toList then .ok { h with numVertices := n }
      else if name = "face".toList then .ok { h with numFaces := n }
      else .ok h
  | _ => .error .exception

/-- The name of a property, `PLY.hh:261-305`; `none` is an exception. -/
def propertyName (text : List Char) : Option (List Char) :=
  match Strings.extract [] (Strings.trim text) with
  | dataType :: rest =>
    if dataType = "list".toList then
      match rest with
      | sizeType :: entryType :: name :: _ => if sizeType ∈ knownTypes ∧ entryType ∈ knownTypes then some name else none
      | _ => none
    else
      match rest with
      | name :: _ => if dataType ∈ knownTypes then some name else none
      | [] => none
  | [] => none

/-- `property`, `PLY.hh:261-315`. -/
def parseProperty (h : Header) (text : List Char) : Except Failure Header :=
  match propertyName text with
  | none => .error .exception
  | some name => .ok { h with properties := h.properties ++ [(name, h.propertyIndex)], propertyIndex := h.propertyIndex + 1 }

/-- The body of the loop for a line that is trimmed already, `PLY.hh:228-322`. -/
def headerLine (number : List Char → Option ℕ) (h : Header) (line : List Char) : Except Failure Header :=
  if line.take 7 = "comment".toList then .ok h
  else if line.take 7 = "element".toList then parseElement number h (line.drop 7)
  else if line.take 8 = "property".toList then parseProperty h (line.drop 8)
  else .ok h

/-- The loop, `PLY.hh:220-324`: the header and the remaining lines. -/
def parseHeader (number : List Char → Option ℕ) (h : Header) : List (List Char) → Except Failure (Header × List (List Char))
  | [] => .ok (h, [])
  | l :: ls =>
    match headerLine number h (Strings.trim l) with
    | .error e => .error e
    | .ok h => if Strings.trim l = "end_header".toList then .ok (h, ls) else parseHeader number h ls

/-- The format, `PLY.hh:185-206`: whether the file is a binary file; `none` is an exception. -/
def parseFormat (line : List Char) : Option Bool :=
  if line.take 6 ≠ "format".toList then none
  else
    let format := Strings.trim (line.drop 6)
    if format = "ascii 1.0".toList then some false
    else if format = "binary_little_endian 1.0".toList then some true
    else if format = "binary_big_endian 1.0".toList then some true
    else none

/-- `std::getline( in, line )`: the new value of the variable and the remaining lines.  At the end of the text, the variable becomes empty if the text is terminated by a line feed; otherwise the
end has been noticed before, and the variable keeps its value. -/
def nextLine (terminated : Bool) (line : List Char) : List (List Char) → List Char × List (List Char)
  | [] => (if terminated then [] else line, [])
  | l :: ls => (l, ls)

/-- `getPropertyIndex`, `PLY.hh:436-448`; `none` is the maximum of the type. -/
def getPropertyIndex (properties : List (List Char × ℕ)) (name : List Char) : Option ℕ := (properties.find? fun p => p.1 == name).map (·.2)

/-- `std::stod( tokens.at( i ) )` returns a value. -/
def coordinate (real : List Char → Bool) (properties : List (List Char × ℕ)) (tokens : List (List Char)) (name : List Char) : Bool :=
  match (getPropertyIndex properties name).bind fun i => tokens[i]? with
  | none => false
  | some t => real t

/-- The data of a vertex, `PLY.hh:475-481`; `none` is an exception. -/
def weight [Zero α] (convert : List Char → α) (property : List Char) (properties : List (List Char × ℕ)) (tokens : List (List Char)) : Option α :=
  if property.isEmpty then some 0
  else
    match getPropertyIndex properties property with
    | none => some 0
    | some i => (tokens[i]?).map convert

/-- The body of the loop over vertices, `PLY.hh:458-481`; coordinates are only checked, as they cannot be accessed. -/
def vertexOf [Zero α] (real : List Char → Bool) (convert : List Char → α) (property : List Char) (properties : List (List Char × ℕ)) (i : ℕ) (tokens : List (List Char)) : Except Failure (Simplex α) :=
  if coordinate real properties tokens ['x'] && coordinate real properties tokens ['y'] && coordinate real properties tokens ['z'] then
    match weight convert property properties tokens with
    | none => .error .exception
    | some w => .ok (Simplex.ofVertex i w)
  else .error .exception

/-- The loop over vertices, `PLY.hh:452-482`, from the vertex `i` on: the vertices, the variable `line` and the remaining lines. -/
def readVertices [Zero α] (real : List Char → Bool) (convert : List Char → α) (property : List Char) (properties : List (List Char × ℕ)) (terminated : Bool) :
    ℕ → ℕ → List Char → List (List Char) → Except Failure (List (Simplex α) × List Char × List (List Char))
  | 0, _, line, ls => .ok ([], line, ls)
  | n + 1, i, line, ls =>
    let next := nextLine terminated line ls
    let line := Strings.trim next.1
    match vertexOf real convert property properties i (Strings.split Strings.isSpace line) with
    | .error e => .error e
    | .ok s =>
      match readVertices real convert property properties terminated n (i + 1) line next.2 with
      | .error e => .error e
      | .ok (simplices, line, ls) => .ok (s :: simplices, line, ls)

/-- The body of the loop over the boundary of a triangle, `PLY.hh:531-542`: the known edges and the simplices.  The second vertex of a face of dimension zero does not exist. -/
def addEdge [Zero α] (st : List (ℕ × ℕ) × List (Simplex α)) (face : List ℕ) : Except Failure (List (ℕ × ℕ) × List (Simplex α)) :=
  match face with
  | u :: v :: _ =>
    let pair := if u < v then (v, u) else (u, v)
    if pair ∈ st.1 then .ok st else .ok (pair :: st.1, st.2 ++ [Simplex.ofRange face 0])
  | _ => .error .undefined

/-- A triangle, `PLY.hh:514-545`. -/
def addTriangle [Zero α] (st : List (ℕ × ℕ) × List (Simplex α)) (i j k : ℕ) : Except Failure (List (ℕ × ℕ) × List (Simplex α)) :=
  let triangle : Simplex α := Simplex.ofRange [i, j, k] 0
  (triangle.faces.foldlM addEdge st).map fun st => (st.1, st.2 ++ [triangle])

/-- The body of the loop over faces, `PLY.hh:493-548`. -/
def addFace [Zero α] (number : List Char → Option ℕ) (st : List (ℕ × ℕ) × List (Simplex α)) (line : List Char) : Except Failure (List (ℕ × ℕ) × List (Simplex α)) :=
  match Strings.extract [] line with
  | [] => .error .exception
  | count :: rest =>
    match number count with
    | some 3 =>
      match rest with
      | a :: b :: c :: _ =>
        match number a, number b, number c with
        | some i, some j, some k => addTriangle st i j k
        | _, _, _ => .error .exception
      | _ => .error .exception
    | _ => .error .exception

/-- The loop over faces, `PLY.hh:491-549`. -/
def readFaces [Zero α] (number : List Char → Option ℕ) (terminated : Bool) : ℕ → List (ℕ × ℕ) × List (Simplex α) → List Char → List (List Char) → Except Failure (List (Simplex α))
  | 0, st, _, _ => .ok st.2
  | n + 1, st, line, ls =>
    let next := nextLine terminated line ls
    match addFace number st next.1 with
    | .error e => .error e
    | .ok st => readFaces number terminated n st next.1 next.2

/-- `parseASCII`, `PLY.hh:426-552`. -/
def parseASCII [Zero α] (number : List Char → Option ℕ) (real : List Char → Bool) (convert : List Char → α) (property : List Char) (terminated : Bool) (h : Header) (ls : List (List Char)) :
    Except Failure (List (Simplex α)) :=
  match readVertices real convert property h.properties terminated h.numVertices 0 [] ls with
  | .error e => .error e
  | .ok (simplices, line, ls) => readFaces number terminated h.numFaces ([], simplices) line ls

/-- `parseBinary`, `PLY.hh:364-423`: values are read, but not used. -/
def parseBinary : List (Simplex α) := []

/-- The last lines of `operator()`, `PLY.hh:351-353`; `lo` and `hi` are the limits of the data type. -/
def finish [LinearOrder α] (lo hi : α) (simplices : List (Simplex α)) : Complex α :=
  (Complex.recalculateWeights lo hi true false (Complex.insertRange [] simplices).1).sort (asLt (Filtration.data fun a b => decide (a < b)))

/-- `operator()( in, K )`, `PLY.hh:156-354`; assertions are enabled. -/
def read [Zero α] [LinearOrder α] (lo hi : α) (number : List Char → Option ℕ) (real : List Char → Bool) (convert : List Char → α) (property text : List Char) : Except Failure (Complex α) :=
  match Strings.getlines [] text with
  | first :: second :: ls =>
    if Strings.trim first ≠ "ply".toList then .error .exception
    else
      match parseFormat (Strings.trim second) with
      | none => .error .exception
      | some binary =>
        match parseHeader number {} ls with
        | .error e => .error e
        | .ok (h, ls) =>
          if h.numVertices = 0 ∨ h.numFaces = 0 then .error .assertion
          else if binary then .ok (finish lo hi parseBinary)
          else (parseASCII number real convert property (text.getLast? == some '\n') h ls).map (finish lo hi)
  | _ => .error .exception

/-- `operator()( filename, K )`, `PLY.hh:147-154`; `none` as argument is a file that cannot be opened. -/
def readFile [Zero α] [LinearOrder α] (lo hi : α) (number : List Char → Option ℕ) (real : List Char → Bool) (convert : List Char → α) (property : List Char) :
    Option (List Char) → Except Failure (Complex α)
  | none => .error .exception
  | some text => read lo hi number real convert property text

/-- The default of `_property`, `PLY.hh:555`. -/
def defaultProperty : List Char := ['z']

end Aleph.PlyReader
