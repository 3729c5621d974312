import Verif.Model.Complex
import Verif.Model.Strings

/-!
# Pajek files

Models `include/aleph/topology/io/Pajek.hh`.  `number` is `std::stoul`, followed by the conversion to the vertex type (or to a size), `none` is its exception; `convert` is
`utilities::convert` for the data type.  The regular expressions in lines 54-57 are modelled by functions that return the groups of a match.
-/

namespace Aleph.PajekReader

variable {α : Type}

/-- The class `[[:digit:]]`. -/
def isDigit (c : Char) : Bool := '0' ≤ c && c ≤ '9'

/-- The class `[[:alpha:]]` in the default locale. -/
def isAlpha (c : Char) : Bool := ('a' ≤ c && c ≤ 'z') || ('A' ≤ c && c ≤ 'Z')

/-- `::tolower` in the default locale. -/
def toLower (c : Char) : Char := if 'A' ≤ c && c ≤ 'Z' then Char.ofNat (c.toNat + 32) else c

/-- The pattern `.` of a regular expression: anything except for line terminators. -/
def isAny (c : Char) : Bool := c != '\n' && c != '\r'

/-- `reKeyword`, `Pajek.hh:56`: a star, letters (as many as possible), and anything.  The result is the first group. -/
def matchKeyword : List Char → Option (List Char)
  | '*' :: s =>
    let name := s.takeWhile isAlpha
    let rest := s.dropWhile isAlpha
    if !name.isEmpty && rest.all isAny then some name else none
  | _ => none

/-- `reKeyValue`, `Pajek.hh:57`: a star, letters, whitespace and digits.  The result is the second group. -/
def matchKeyValue : List Char → Option (List Char)
  | '*' :: s =>
    let name := s.takeWhile isAlpha
    let rest := s.dropWhile isAlpha
    let blanks := rest.takeWhile Strings.isSpace
    let value := rest.dropWhile Strings.isSpace
    if !name.isEmpty && !blanks.isEmpty && !value.isEmpty && value.all isDigit then some value else none
  | _ => none

/-- `reVertex`, `Pajek.hh:58`: digits, whitespace, and anything in quotation marks.  The results are both groups. -/
def matchVertex (s : List Char) : Option (List Char × List Char) :=
  let id := s.takeWhile isDigit
  let rest := s.dropWhile isDigit
  let blanks := rest.takeWhile Strings.isSpace
  let quoted := rest.dropWhile Strings.isSpace
  match quoted with
  | '"' :: label =>
    if !id.isEmpty && !blanks.isEmpty && label.getLast? == some '"' && label.dropLast.all isAny then some (id, label.dropLast) else none
  | _ => none

/-- `reEdge`, `Pajek.hh:59`: digits, whitespace, digits (as many as possible), and optionally whitespace and a sequence of digits and dots.  The results are the three groups; the third is
`none` if it does not take part in the match. -/
def matchEdge (s : List Char) : Option (List Char × List Char × Option (List Char)) :=
  let source := s.takeWhile isDigit
  let rest := s.dropWhile isDigit
  let blanks := rest.takeWhile Strings.isSpace
  let rest := rest.dropWhile Strings.isSpace
  let target := rest.takeWhile isDigit
  let rest := rest.dropWhile isDigit
  let weight := rest.dropWhile Strings.isSpace
  if !source.isEmpty && !blanks.isEmpty && !target.isEmpty && weight.all (fun c => isDigit c || c == '.') then
    some (source, target, if weight.isEmpty then none else some weight)
  else none

/-- `Mode`, `Pajek.hh:173-178`. -/
inductive Mode
  | vertices
  | edges
  | unspecified
  deriving DecidableEq

/-- The variables of the loop and the member `_labels`. -/
structure State (α : Type) where
  mode : Mode
  numVertices : ℕ
  simplices : List (Simplex α)
  labels : List (List Char × List Char)

/-- The case of a keyword, `Pajek.hh:81-98`. -/
def keyword (number : List Char → Option ℕ) (st : State α) (line name : List Char) : Option (State α) :=
  let name := name.map toLower
  if name = "vertices".toList ∨ name = "verts".toList then
    match matchKeyValue line with
    | none => none
    | some value =>
      match number value with
      | none => none
      | some n => some { st with numVertices := n, mode := .vertices }
  else if name = "edges".toList ∨ name = "arcs".toList then some { st with mode := .edges }
  else some st

/-- The case of a vertex, `Pajek.hh:101-118`. -/
def vertex [Zero α] (number : List Char → Option ℕ) (st : State α) (line : List Char) : Option (State α) :=
  match matchVertex line with
  | none => none
  | some (id, label) =>
    match st.labels.lookup id with
    | some _ => none
    | none =>
      match number id with
      | none => none
      | some v => some { st with labels := st.labels ++ [(id, label)], simplices := st.simplices ++ [Simplex.ofVertex v 0] }

/-- The case of an edge, `Pajek.hh:121-153`. -/
def edge [Zero α] (number : List Char → Option ℕ) (convert : List Char → α) (st : State α) (line : List Char) : Option (State α) :=
  let simplices := if st.simplices.isEmpty then (List.range st.numVertices).map fun i => Simplex.ofVertex (i + 1) 0 else st.simplices
  if simplices.length < st.numVertices then none
  else
    match matchEdge line with
    | none => none
    | some (source, target, weight) =>
      match number source, number target with
      | some u, some v =>
        let w := match weight with
          | some t => convert t
          | none => 0
        some { st with simplices := simplices ++ [Simplex.ofRange [u, v] w] }
      | _, _ => none

/-- The body of the loop, `Pajek.hh:68-161`; the first character of an empty string is a null character. -/
def step [Zero α] (number : List Char → Option ℕ) (convert : List Char → α) (st : State α) (line : List Char) : Option (State α) :=
  let line := Strings.trim line
  if line.head? = some '%' then some st
  else
    match matchKeyword line with
    | some name => keyword number st line name
    | none =>
      match st.mode with
      | .vertices => vertex number st line
      | .edges => edge number convert st line
      | .unspecified => some st

/-- `operator()( in, K )`, `Pajek.hh:44-164`, and `getLabelMap`, `Pajek.hh:166-169`: the labels and the complex.  `stored` are the labels that the object has collected in previous calls; they
are not removed.  `none` is an exception. -/
def read [Zero α] (number : List Char → Option ℕ) (convert : List Char → α) (stored : List (List Char × List Char)) (text : List Char) :
    Option (List (List Char × List Char) × Complex α) :=
  match (Strings.getlines [] text).foldlM (step number convert) ⟨.unspecified, 0, [], stored⟩ with
  | none => none
  | some st => some (st.labels, (Complex.insertRange [] st.simplices).1)

/-- `operator()( filename, K )`, `Pajek.hh:35-42`; `none` as argument is a file that cannot be opened. -/
def readFile [Zero α] (number : List Char → Option ℕ) (convert : List Char → α) (stored : List (List Char × List Char)) :
    Option (List Char) → Option (List (List Char × List Char) × Complex α)
  | none => none
  | some text => read number convert stored text

end Aleph.PajekReader
