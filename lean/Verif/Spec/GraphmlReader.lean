import Verif.Model.GraphmlReader
import Verif.Spec.GmlReader
import Verif.Spec.Collects

/-!
# Graphs in GraphML files

Everything is stated for the tree of an XML document.
-/

namespace Aleph.Spec.Graphml

open GraphmlReader (Xml)
open Gml (LastValue)

/-- Assignments of values to names. -/
abbrev Assignments := List (List Char × List Char)

/-- The value of an attribute, which is the first one if there are several. -/
def Attr (as : Assignments) (k : String) (v : List Char) : Prop := ∃ a b, as = a ++ (k.toList, v) :: b ∧ ∀ x ∈ a, x.1 ≠ k.toList

/-- There is no such attribute. -/
def NoAttr (as : Assignments) (k : String) : Prop := ∀ x ∈ as, x.1 ≠ k.toList

/-- The text of an element, possibly after comments. -/
def Text (children : List Xml) (v : List Char) : Prop := ∃ cs rest, children = cs ++ .text v :: rest ∧ ∀ x ∈ cs, x = .comment

/-- A node of the tree that is not an element with one of the given names. -/
def Other (names : List String) (x : Xml) : Prop := ∀ n a c, x = .element n a c → ∀ m ∈ names, n ≠ m.toList

/-- The data of a node or an edge: keys and values. -/
inductive Data : List Xml → Assignments → Prop
  | nil : Data [] []
  | skip (x : Xml) (rest : List Xml) (ds : Assignments) : Other ["data"] x → Data rest ds → Data (x :: rest) ds
  | data (as : Assignments) (cs rest : List Xml) (k v : List Char) (ds : Assignments) : Attr as "key" k → Text cs v → Data rest ds → Data (.element "data".toList as cs :: rest) ((k, v) :: ds)

/-- The keys for nodes and for edges: names and identifiers. -/
inductive Keys : List Xml → Assignments → Assignments → Prop
  | nil : Keys [] [] []
  | skip (x : Xml) (rest : List Xml) (nk ek : Assignments) : Other ["key"] x → Keys rest nk ek → Keys (x :: rest) nk ek
  | node (as : Assignments) (cs rest : List Xml) (name id : List Char) (nk ek : Assignments) : Attr as "for" "node".toList → Attr as "attr.name" name → Attr as "id" id → Keys rest nk ek →
      Keys (.element "key".toList as cs :: rest) ((name, id) :: nk) ek
  | edge (as : Assignments) (cs rest : List Xml) (name id : List Char) (nk ek : Assignments) : Attr as "for" "edge".toList → Attr as "attr.name" name → Attr as "id" id → Keys rest nk ek →
      Keys (.element "key".toList as cs :: rest) nk ((name, id) :: ek)

/-- A node of a graph: its identifier and its data. -/
structure NodeEntry where
  id : List Char
  data : Assignments

/-- An edge of a graph: the identifiers of its nodes, and its data. -/
structure EdgeEntry where
  source : List Char
  target : List Char
  data : Assignments

/-- The nodes and edges of a graph, in the order of the file. -/
inductive Body : List Xml → List NodeEntry → List EdgeEntry → Prop
  | nil : Body [] [] []
  | skip (x : Xml) (rest : List Xml) (ns : List NodeEntry) (es : List EdgeEntry) : Other ["node", "edge"] x → Body rest ns es → Body (x :: rest) ns es
  | node (as : Assignments) (cs rest : List Xml) (id : List Char) (ds : Assignments) (ns : List NodeEntry) (es : List EdgeEntry) : Attr as "id" id → Data cs ds → Body rest ns es →
      Body (.element "node".toList as cs :: rest) (⟨id, ds⟩ :: ns) es
  | edge (as : Assignments) (cs rest : List Xml) (id source target : List Char) (ds : Assignments) (ns : List NodeEntry) (es : List EdgeEntry) : Attr as "id" id → Attr as "source" source →
      Attr as "target" target → Data cs ds → Body rest ns es → Body (.element "edge".toList as cs :: rest) ns (⟨source, target, ds⟩ :: es)

/-- The content of a file. -/
structure Content where
  directed : Bool
  nodeKeys : Assignments
  edgeKeys : Assignments
  nodes : List NodeEntry
  edges : List EdgeEntry

/-- The first element with a name in a list. -/
def First (l : List Xml) (name : String) (as : Assignments) (cs : List Xml) : Prop := ∃ pre post, l = pre ++ .element name.toList as cs :: post ∧ ∀ x ∈ pre, Other [name] x

/-- The element `graphml` of a document, which follows another node such as a declaration. -/
def Root (doc : List Xml) (children : List Xml) : Prop := ∃ first rest as, doc = first :: rest ∧ First rest "graphml" as children

/-- A document describes a graph: the first one is used. -/
def Document (doc : List Xml) (c : Content) : Prop :=
  ∃ children ga gc, Root doc children ∧ Keys children c.nodeKeys c.edgeKeys ∧ First children "graph" ga gc ∧ (c.directed = true ↔ Attr ga "edgedefault" "directed".toList) ∧ Body gc c.nodes c.edges

/-- The vertex of an identifier: the number of smaller identifiers. -/
def VertexOf (ids : List (List Char)) (id : List Char) (v : ℕ) : Prop := id ∈ ids ∧ ∃ l : List (List Char), l.Nodup ∧ (∀ x, x ∈ l ↔ x ∈ ids ∧ x < id) ∧ v = l.length

/-- Data specify a value of a named attribute, by means of the key of that name. -/
def Specifies (keys : Assignments) (label : List Char) (data : Assignments) (v : List Char) : Prop := ∃ k, LastValue keys label k ∧ LastValue data k v

/-- A weight is requested if it shall be read and its attribute has a name. -/
def Requested (flag : Bool) (label : List Char) : Prop := flag = true ∧ label ≠ []

/-- A node of a complex: its identifier, its vertex and its data. -/
structure NodeInfo (α : Type) where
  id : List Char
  vertex : ℕ
  data : α

/-- An edge of a complex: its vertices and its data. -/
structure EdgeInfo (α : Type) where
  source : ℕ
  target : ℕ
  data : α

/-- The weight that is requested and specified, or zero. -/
def Weight {α : Type} [Zero α] (convert : List Char → α × Bool) (flag : Bool) (label : List Char) (keys data : Assignments) (d : α) : Prop :=
  (Requested flag label ∧ ∃ v, Specifies keys label data v ∧ convert v = (d, true)) ∨ (¬ (Requested flag label ∧ ∃ v, Specifies keys label data v) ∧ d = 0)

/-- A node describes a vertex: its index is the number of smaller identifiers. -/
def IsNode {α : Type} [Zero α] (convert : List Char → α × Bool) (flag : Bool) (label : List Char) (c : Content) (n : NodeEntry) (m : NodeInfo α) : Prop :=
  m.id = n.id ∧ VertexOf (c.nodes.map (·.id)) n.id m.vertex ∧ Weight convert flag label c.nodeKeys n.data m.data

/-- The data of an edge whose weight is not requested: the functor is applied to the weights of its nodes, if these are requested and there is a key for them; otherwise, it is zero. -/
def Derived {α : Type} [Zero α] (f : α → α → α) (flag : Bool) (label : List Char) (c : Content) (ns : List (NodeInfo α)) (e : EdgeEntry) (d : α) : Prop :=
  (Requested flag label ∧ ∃ a ∈ c.nodes, ∃ b ∈ c.nodes, a.id = e.source ∧ b.id = e.target ∧ (∃ v, Specifies c.nodeKeys label a.data v) ∧ (∃ v, Specifies c.nodeKeys label b.data v) ∧
    ∃ m ∈ ns, ∃ n ∈ ns, m.id = e.source ∧ n.id = e.target ∧ d = f m.data n.data) ∨
  (¬ (Requested flag label ∧ ∃ k, LastValue c.nodeKeys label k) ∧ d = 0)

/-- An edge describes an edge between nodes; its weight is its own one if edge weights are requested. -/
def IsEdge {α : Type} [Zero α] (convert : List Char → α × Bool) (f : α → α → α) (s : GraphmlReader.Settings) (c : Content) (ns : List (NodeInfo α)) (e : EdgeEntry) (i : EdgeInfo α) : Prop :=
  VertexOf (c.nodes.map (·.id)) e.source i.source ∧ VertexOf (c.nodes.map (·.id)) e.target i.target ∧
    ((Requested s.readEdgeWeights s.edgeWeightAttribute ∧ Weight convert s.readEdgeWeights s.edgeWeightAttribute c.edgeKeys e.data i.data) ∨
      (¬ Requested s.readEdgeWeights s.edgeWeightAttribute ∧ Derived f s.readNodeWeights s.nodeWeightAttribute c ns e i.data))

/-- A function that sorts, in the sense of `std::sort`: elements with the same key may be in any order. -/
def Sorts {β : Type} (sort : (β → ℕ) → List β → List β) : Prop := ∀ key l, (sort key l).Perm l ∧ (sort key l).Pairwise fun a b => key a ≤ key b

end Aleph.Spec.Graphml
