import Verif.Model.PajekReader
import Mathlib.Data.List.Sort
import Mathlib.Data.List.Lex
import Mathlib.Data.Char

/-!
# GML files

Models the class `GMLReader` of `include/aleph/topology/io/GML.hh`.  `number` is `std::stoll`, followed by the conversion to the vertex type; `convert` is
`utilities::convert` for the data type, `f` the functor for weights.  The regular expressions in lines 138-140 are modelled by functions that return the groups of a match.
A dictionary (`std::map`) is a list of assignments, the most recent first.
-/

namespace Aleph.GmlReader

variable {α : Type}

/-- What may happen apart from returning. -/
inductive Failure
  | exception
  | undefined
  deriving DecidableEq

/-- The outcomes of `std::stoll`: a number, or one of two exceptions. -/
inductive Parsed
  | value (n : ℕ)
  | invalid
  | range
  deriving DecidableEq

/-- A dictionary of attributes. -/
abbrev Dict := List (List Char × List Char)

/-- `Node`, `GML.hh:458-463`. -/
structure Node where
  id : List Char
  dict : Dict
  deriving DecidableEq

/-- `Edge`, `GML.hh:466-472`. -/
structure Edge where
  source : List Char
  target : List Char
  dict : Dict
  deriving DecidableEq

/-- The variables of the loop, `GML.hh:130-140`, and the members `_nodes` and `_edges`; the top of the stack is the head of the list. -/
structure State where
  stack : List (List Char)
  last : List Char
  graph : Dict
  node : Node
  edge : Edge
  nodes : List Node
  edges : List Edge
  deriving DecidableEq

/-- The class `[_\|[:alpha:]]`. -/
def isKey (c : Char) : Bool := c == '_' || c == '|' || PajekReader.isAlpha c

/-- The class `[[:alnum:]\.]`. -/
def isValue (c : Char) : Bool := PajekReader.isAlpha c || PajekReader.isDigit c || c == '.'

/-- `isLevel`, `GML.hh:120-123`. -/
def isLevel (name : List Char) : Bool := name == "graph".toList || name == "node".toList || name == "edge".toList

/-- `isAttribute`, `GML.hh:125-128`. -/
def isAttribute (name : List Char) : Bool :=
  name == "id".toList || name == "label".toList || name == "source".toList || name == "target".toList || name == "value".toList || name == "weight".toList

/-- `reAttribute`, `GML.hh:142`: a name (as long as possible), whitespace, and anything.  The result is the first group. -/
def matchAttribute (s : List Char) : Option (List Char) :=
  let name := s.takeWhile isKey
  let rest := (s.dropWhile isKey).dropWhile Strings.isSpace
  if !name.isEmpty && rest.all PajekReader.isAny then some name else none

/-- `reKeyValue`, `GML.hh:143`: a name, whitespace, and a value.  The result is the second group. -/
def matchKeyValue (s : List Char) : Option (List Char) :=
  let name := s.takeWhile isKey
  let rest := s.dropWhile isKey
  let blanks := rest.takeWhile Strings.isSpace
  let value := rest.dropWhile Strings.isSpace
  if !name.isEmpty && !blanks.isEmpty && !value.isEmpty && value.all isValue then some value else none

/-- The last part of `reLabel`, `GML.hh:144`: a text without quotation marks, which is not empty, between quotation marks. -/
def quoted : List Char → Option (List Char)
  | '"' :: label => if label.getLast? == some '"' && !label.dropLast.isEmpty && label.dropLast.all (· != '"') then some label.dropLast else none
  | _ => none

/-- `reLabel`, `GML.hh:144`: the word `label`, whitespace, and a text in quotation marks.  The result is the second group. -/
def matchLabel (s : List Char) : Option (List Char) :=
  if s.take 5 = "label".toList then
    let rest := s.drop 5
    if !(rest.takeWhile Strings.isSpace).isEmpty then quoted (rest.dropWhile Strings.isSpace) else none
  else none

/-- `dict->operator[]( name ) = value`, with the dictionary of the current level, `GML.hh:211-214, 240, 252`. -/
def put (st : State) (top name value : List Char) : State :=
  if top = "node".toList then { st with node := { st.node with dict := (name, value) :: st.node.dict } }
  else if top = "edge".toList then { st with edge := { st.edge with dict := (name, value) :: st.edge.dict } }
  else { st with graph := (name, value) :: st.graph }

/-- The assignment of a known attribute, `GML.hh:231-240`. -/
def store (st : State) (top name value : List Char) : State :=
  if name = "id".toList then { st with node := { st.node with id := value } }
  else if name = "source".toList then { st with edge := { st.edge with source := value } }
  else if name = "target".toList then { st with edge := { st.edge with target := value } }
  else put st top name value

/-- The value of a known attribute, `GML.hh:221-229`: the result of a match that fails is empty. -/
def valueOf (name line : List Char) : List Char := if name = "label".toList then (matchLabel line).getD [] else (matchKeyValue line).getD []

/-- The case of an attribute, `GML.hh:203-256`. -/
def readAttribute (st : State) (line : List Char) : Except Failure State :=
  match st.stack with
  | [] => .error .exception
  | top :: _ =>
    if isLevel top then
      match matchAttribute line with
      | none => .ok st
      | some name =>
        if isAttribute name then .ok (store st top name (valueOf name line))
        else
          match matchKeyValue line with
          | none => .ok st
          | some value => .ok (put st top name value)
    else .error .exception

/-- The end of a level, `GML.hh:187-201`; the top of an empty stack is undefined. -/
def close (st : State) : Except Failure State :=
  match st.stack with
  | [] => .error .undefined
  | top :: rest =>
    .ok { st with
      stack := rest
      node := ⟨[], []⟩
      edge := ⟨[], [], []⟩
      nodes := if top = "node".toList then st.nodes ++ [st.node] else st.nodes
      edges := if top = "edge".toList then st.edges ++ [st.edge] else st.edges }

/-- The start of a level, `GML.hh:157-178`. -/
def openLevel (st : State) (tokens : List (List Char)) (line : List Char) : Except Failure State :=
  if st.last = [] then
    if tokens.length = 2 then .ok { st with stack := tokens.headD [] :: st.stack } else .ok { st with last := line }
  else .error .exception

/-- The body of the loop, `GML.hh:146-257`. -/
def step (st : State) (line : List Char) : Except Failure State :=
  let line := Strings.trim line
  let tokens := Strings.split Strings.isSpace line
  if tokens.head? = some "comment".toList ∨ tokens.head? = some "Creator".toList then .ok st
  else if isLevel line || (tokens.length == 2 && tokens.getLast? == some ['['] && isLevel (tokens.headD [])) then openLevel st tokens line
  else if line = ['['] then .ok { st with stack := st.last :: st.stack, last := [] }
  else if line = [']'] then close st
  else readAttribute st line

/-- `std::distance( ids.begin(), ids.find( id ) )` for an ordered set: the number of smaller elements, or of all elements if there is no such element. -/
def position (ids : List (List Char)) (id : List Char) : ℕ := if id ∈ ids then (ids.dedup.filter (· < id)).length else ids.dedup.length

/-- `getID`, `GML.hh:432-449`. -/
def getID (number : List Char → Parsed) (ids : List (List Char)) (id : List Char) : Except Failure ℕ :=
  match number id with
  | .value n => .ok n
  | .range => .error .exception
  | .invalid => .ok (position ids id)

/-- The weight of an entry, `GML.hh:281-286, 300-312`: `weight`, or else `value`. -/
def weightOf (convert : List Char → α) (d : Dict) : Option α :=
  match d.lookup "weight".toList with
  | some w => some (convert w)
  | none => (d.lookup "value".toList).map convert

/-- The creation of a vertex, `GML.hh:277-289`. -/
def vertexOf [Zero α] (number : List Char → Parsed) (convert : List Char → α) (ids : List (List Char)) (node : Node) : Except Failure (Simplex α) :=
  match getID number ids node.id with
  | .error e => .error e
  | .ok v => .ok (Simplex.ofVertex v ((weightOf convert node.dict).getD 0))

/-- `id_to_simplex.at( v )`, `GML.hh:275, 288, 302-303`: the data of the last vertex with the given number. -/
def dataAt (vertices : List (Simplex α)) (v : ℕ) : Option α := (vertices.reverse.find? fun s => s.vertices == [v]).map (·.data)

/-- The creation of an edge, `GML.hh:293-313`. -/
def edgeOf (number : List Char → Parsed) (convert : List Char → α) (f : α → α → α) (ids : List (List Char)) (vertices : List (Simplex α)) (edge : Edge) : Except Failure (Simplex α) :=
  match getID number ids edge.source with
  | .error e => .error e
  | .ok u =>
    match getID number ids edge.target with
    | .error e => .error e
    | .ok v =>
      match weightOf convert edge.dict with
      | some w => .ok (Simplex.ofRange [u, v] w)
      | none =>
        match dataAt vertices u, dataAt vertices v with
        | some a, some b => .ok (Simplex.ofRange [u, v] (f a b))
        | _, _ => .error .exception

/-- The creation of the complex, `GML.hh:259-316`. -/
def build [Zero α] (number : List Char → Parsed) (convert : List Char → α) (f : α → α → α) (nodes : List Node) (edges : List Edge) : Except Failure (Complex α) :=
  let ids := nodes.map (·.id)
  if ids.Nodup then
    match nodes.mapM (vertexOf number convert ids) with
    | .error e => .error e
    | .ok vertices =>
      match edges.mapM (edgeOf number convert f ids vertices) with
      | .error e => .error e
      | .ok es => .ok (Complex.insertRange [] (vertices ++ es)).1
  else .error .exception

/-- The variables of the loop at the start. -/
def start : State := ⟨[], [], [], ⟨[], []⟩, ⟨[], [], []⟩, [], []⟩

/-- What the object stores. -/
structure Storage where
  nodes : List Node
  edges : List Edge
  deriving DecidableEq

/-- What happens after the loop, `GML.hh:259-317`. -/
def finish [Zero α] (number : List Char → Parsed) (convert : List Char → α) (f : α → α → α) : Except Failure State → Except Failure (Storage × Complex α)
  | .error e => .error e
  | .ok st =>
    match build number convert f st.nodes st.edges with
    | .error e => .error e
    | .ok K => .ok (⟨st.nodes, st.edges⟩, K)

/-- `operator()( in, K, f )`, `GML.hh:105-317`.  The attributes of the graph are stored, but cannot be queried. -/
def read [Zero α] (number : List Char → Parsed) (convert : List Char → α) (f : α → α → α) (text : List Char) : Except Failure (Storage × Complex α) :=
  finish number convert f ((Strings.getlines [] text).foldlM step start)

/-- `operator()( filename, K, f )`, `GML.hh:86-93`; `none` as argument is a file that cannot be opened. -/
def readFile [Zero α] (number : List Char → Parsed) (convert : List Char → α) (f : α → α → α) : Option (List Char) → Except Failure (Storage × Complex α)
  | none => .error .exception
  | some text => read number convert f text

/-- A set of strings, in lexicographical order. -/
def sortedNames (l : List (List Char)) : List (List Char) := l.dedup.insertionSort (· ≤ ·)

/-- `getNodeAttributeNames`, `GML.hh:320-331`. -/
def getNodeAttributeNames (s : Storage) : List (List Char) := sortedNames (s.nodes.flatMap fun n => n.dict.map Prod.fst)

/-- `getEdgeAttributeNames`, `GML.hh:334-345`. -/
def getEdgeAttributeNames (s : Storage) : List (List Char) := sortedNames (s.edges.flatMap fun e => e.dict.map Prod.fst)

/-- `getNodeAttribute`, `GML.hh:353-366`: the map, as a list of assignments, the most recent first. -/
def getNodeAttribute (s : Storage) (name : List Char) : Dict := (s.nodes.map fun n => (n.id, (n.dict.lookup name).getD [])).reverse

/-- `getEdgeAttribute`, `GML.hh:382-401`. -/
def getEdgeAttribute (s : Storage) (source target name : List Char) : List Char :=
  match s.edges.find? fun e => e.source == source && e.target == target with
  | none => []
  | some e => (e.dict.lookup name).getD []

/-- `id_to_index`, `GML.hh:409-421`: the map, as a list of assignments, the most recent first. -/
def idToIndex (s : Storage) : List (List Char × ℕ) := (s.nodes.map fun n => (n.id, position (s.nodes.map (·.id)) n.id)).reverse

end Aleph.GmlReader
