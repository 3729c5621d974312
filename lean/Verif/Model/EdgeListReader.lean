import Verif.Model.Complex
import Verif.Model.Strings
import Mathlib.Algebra.Group.Defs

/-!
# Edge lists

Models `include/aleph/topology/io/EdgeLists.hh`.  `convertVertex` and `convertData` are `utilities::convert` for the vertex type and
the data type.  The separator is a set of characters, as the regular expression is formed by enclosing it in brackets.
-/

namespace Aleph.EdgeListReader

variable {α : Type}

/-- The options of the reader, `EdgeLists.hh:158-170`. -/
structure Options where
  separator : Char → Bool := Strings.isSpace
  readWeights : Bool := true
  trimLines : Bool := true

/-- The default comment tokens, `EdgeLists.hh:158`. -/
def commentTokens : List Char := ['#', '%', '"', '*']

/-- The lines seen by the loop `while( in ) { std::getline( in, line ); … }`, `EdgeLists.hh:72-74`.  After the last line there is one
more iteration: if the text ends with a line feed (or is empty), `getline` clears the string; otherwise the stream has
reached its end already, so that the string keeps its content and the last line is processed a second time. -/
def iterations (text : List Char) : List (List Char) :=
  let lines := Strings.getlines [] text
  if text.getLast? = some '\n' then lines ++ [[]] else lines ++ [lines.getLast?.getD []]

/-- The variables of the loop, and the member `_nodeLabels`, which survives the call. -/
structure State (α : Type) where
  labels : List (List Char × ℕ)
  lastID : ℕ
  edges : List (Simplex α)
  vertices : List (Simplex α)

/-- `if( _nodeLabels.find(us) == _nodeLabels.end() ) _nodeLabels[us] = lastID++;`, `EdgeLists.hh:100-104`. -/
def register (st : State α) (s : List Char) : State α :=
  match st.labels.lookup s with
  | some _ => st
  | none => { st with labels := st.labels ++ [(s, st.lastID)], lastID := st.lastID + 1 }

/-- The vertices of a line, `EdgeLists.hh:87-108`. -/
def endpoints (convertVertex : List Char → ℕ) (st : State α) (a b : List Char) : State α × ℕ × ℕ :=
  if a.all (fun c => '0' ≤ c && c ≤ '9') then (st, convertVertex a, convertVertex b)
  else
    let st := register (register st a) b
    (st, (st.labels.lookup a).getD 0, (st.labels.lookup b).getD 0)

/-- The body of the loop for the tokens of a line, `EdgeLists.hh:85-120`; `none` is the exception. -/
def process [Zero α] (o : Options) (convertVertex : List Char → ℕ) (convertData : List Char → α) (st : State α) :
    List (List Char) → Option (State α)
  | a :: b :: rest =>
    let (st, u, v) := endpoints convertVertex st a b
    let w := match rest with
      | t :: _ => if o.readWeights then convertData t else 0
      | [] => 0
    some { st with
      edges := st.edges ++ [Simplex.ofRange [u, v] w]
      vertices := st.vertices ++ [Simplex.ofVertex u 0, Simplex.ofVertex v 0] }
  | _ => none

/-- The body of the loop, `EdgeLists.hh:74-120`. -/
def step [Zero α] (o : Options) (convertVertex : List Char → ℕ) (convertData : List Char → α) (st : State α)
    (line : List Char) : Option (State α) :=
  let line := if o.trimLines then Strings.trim line else line
  let tokens := Strings.split o.separator line
  match line with
  | [] => some st
  | c :: _ => if commentTokens.contains c then some st else process o convertVertex convertData st tokens

/-- A `std::set` of simplices filled with the elements of a list: of elements with equal vertices, the first one is kept; the
elements are sorted by `operator<`, `EdgeLists.hh:67, 123-130`. -/
def simplexSet (l : List (Simplex α)) : List (Simplex α) :=
  (l.foldl (fun S s => if S.any (fun t => t.eq s) then S else S ++ [s]) []).insertionSort fun s t => t.lt s = false

/-- `operator()(in, K)`, `EdgeLists.hh:57-133`: the node labels of the reader afterwards, and the complex.  `none` is an
exception. -/
def read [Zero α] (o : Options) (convertVertex : List Char → ℕ) (convertData : List Char → α)
    (labels : List (List Char × ℕ)) (text : List Char) : Option (List (List Char × ℕ) × Complex α) :=
  match (iterations text).foldlM (step o convertVertex convertData) ⟨labels, 0, [], []⟩ with
  | none => none
  | some st =>
    let simplices := simplexSet (simplexSet st.vertices ++ st.edges)
    some (st.labels, (Complex.insertRange [] simplices).1)

end Aleph.EdgeListReader
