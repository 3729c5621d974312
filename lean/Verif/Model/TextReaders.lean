import Verif.Model.Matrix
import Verif.Model.Diagram
import Verif.Model.Strings

/-!
# Boundary matrices and persistence diagrams in text format

Models the function `load` of `include/aleph/topology/BoundaryMatrix.hh` and `include/aleph/persistenceDiagrams/io/Raw.hh`.

`number` is `std::stoul`, followed by the conversion to the index type; `none` is its exception.  `convert` is `utilities::convert`, which does not raise
exceptions (`String.hh:148-187`).  `none` as a result is an exception.
-/

namespace Aleph.TextReaders

variable {α : Type}

/-- Whether the first loop counts a line, `BoundaryMatrix.hh:182-186`: spaces are removed first. -/
def isCounted (line : List Char) : Bool :=
  match line.filter fun c => !Strings.isSpace c with
  | [] => false
  | c :: _ => c != '#'

/-- The body of the second loop, `BoundaryMatrix.hh:199-237`; the state is the matrix and the current column. -/
def loadLine (k : Kind) (number : List Char → Option ℕ) (st : Rep × ℕ) (line : List Char) : Option (Rep × ℕ) :=
  if line.head? = none ∨ line.head? = some '#' then some st
  else
    let tokens := Strings.extract [] line
    if tokens.isEmpty then some st
    else
      match tokens.mapM number with
      | none => none
      | some [] => none
      | some (front :: column) =>
        match st.1.setColumn k st.2 (column.insertionSort (· ≤ ·)) with
        | none => none
        | some r => if r.getDimension st.2 ≠ some front then none else some (r, st.2 + 1)

/-- `load( std::istream& )`, `BoundaryMatrix.hh:174-241`. -/
def loadMatrix (k : Kind) (number : List Char → Option ℕ) (text : List Char) : Option BM :=
  let lines := Strings.getlines [] text
  match lines.foldlM (loadLine k number) (Rep.empty.setNumColumns (lines.countP isCounted), 0) with
  | none => none
  | some st => some ⟨st.1, false⟩

/-- `load( const std::string& )`, `BoundaryMatrix.hh:243-247`; a file that cannot be opened behaves like an empty one, as nothing is checked. -/
def loadMatrixFile (k : Kind) (number : List Char → Option ℕ) (file : Option (List Char)) : Option BM :=
  loadMatrix k number (file.getD [])

/-- The body of the loop, `Raw.hh:45-64`. -/
def diagramLine (convert : List Char → α) (D : Diagram α) (line : List Char) : Option (Diagram α) :=
  if line.head? = none ∨ line.head? = some '#' then some D
  else
    match Strings.extract [] line with
    | a :: b :: _ => some (D.add (convert a) (convert b))
    | _ => none

/-- `load`, `Raw.hh:31-68`; `none` as argument is a file that cannot be opened. -/
def loadDiagram (convert : List Char → α) : Option (List Char) → Option (Diagram α)
  | none => none
  | some text => (Strings.getlines [] text).foldlM (diagramLine convert) Diagram.empty

end Aleph.TextReaders
