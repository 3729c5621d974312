import Verif.Model.GmlReader
import Verif.Model.Complex

/-!
# GraphML files

Models the class `GraphMLReader` of `include/aleph/topology/io/GraphML.hh`, when compiled with `TinyXML2`.  The parser itself is not modelled: the reader starts from the tree that it
yields, which is empty if a file cannot be loaded or parsed (the result of `LoadFile` in line 100 is ignored).  `convert` is `utilities::convert` for the data type, with the flag for its
success; `f` is the functor for weights; `sort` is `std::sort`, which may order equivalent nodes arbitrarily.  A dictionary (`std::map`) is a list of assignments, the most recent first.
The conversion of indices to the vertex type is the identity.  Passing a null pointer where a string is expected, or following it, is undefined.
-/

namespace Aleph.GraphmlReader

open GmlReader (Failure Dict Node Edge sortedNames)

variable {α : Type}

/-- The nodes of the tree that `TinyXML2` yields; `other` are declarations and unknown nodes. -/
inductive Xml
  | element (name : List Char) (attributes : List (List Char × List Char)) (children : List Xml)
  | text (value : List Char)
  | comment
  | other

/-- `tinyxml2::XMLElement`. -/
structure Element where
  name : List Char
  attributes : List (List Char × List Char)
  children : List Xml

/-- The elements of a list of nodes, which `FirstChildElement` and `NextSiblingElement` traverse. -/
def elements (l : List Xml) : List Element :=
  l.filterMap fun x => match x with
    | .element n a c => some ⟨n, a, c⟩
    | _ => none

/-- `XMLElement::Attribute`; `none` is a null pointer. -/
def Element.attribute (e : Element) (k : List Char) : Option (List Char) := e.attributes.lookup k

/-- Comments. -/
def Xml.isComment : Xml → Bool
  | .comment => true
  | _ => false

/-- `XMLElement::GetText`: the text of the first child that is not a comment; `none` is a null pointer. -/
def Element.getText (e : Element) : Option (List Char) :=
  match e.children.dropWhile Xml.isComment with
  | .text v :: _ => some v
  | _ => none

/-- The settings of the reader, `GraphML.hh:454-457`. -/
structure Settings where
  readEdgeWeights : Bool := true
  readNodeWeights : Bool := true
  edgeWeightAttribute : List Char := "weight".toList
  nodeWeightAttribute : List Char := "weight".toList

/-- The local storage, `GraphML.hh:424-449, 460-467`. -/
structure Storage where
  isDirected : Bool
  nodeKeys : Dict
  edgeKeys : Dict
  nodes : List Node
  edges : List Edge

/-- The initial storage, `GraphML.hh:87-90`. -/
def start : Storage := ⟨false, [], [], [], []⟩

/-- The body of the first loop, for a `key`, `GraphML.hh:110-125`. -/
def readKey (st : Storage) (e : Element) : Except Failure Storage :=
  match e.attribute "for".toList with
  | none => .error .undefined
  | some type =>
    if type = "node".toList then
      match e.attribute "attr.name".toList, e.attribute "id".toList with
      | some name, some id => .ok { st with nodeKeys := (name, id) :: st.nodeKeys }
      | _, _ => .error .undefined
    else if type = "edge".toList then
      match e.attribute "attr.name".toList, e.attribute "id".toList with
      | some name, some id => .ok { st with edgeKeys := (name, id) :: st.edgeKeys }
      | _, _ => .error .undefined
    else .error .exception

/-- The body of the loop of `parseData`, `GraphML.hh:381-393`. -/
def dataStep (dict : Dict) (e : Element) : Except Failure Dict :=
  if e.name = "data".toList then
    match e.attribute "key".toList, e.getText with
    | some k, some v => .ok ((k, v) :: dict)
    | _, _ => .error .undefined
  else .ok dict

/-- `parseData`, `GraphML.hh:378-394`. -/
def parseData (e : Element) : Except Failure Dict := (elements e.children).foldlM dataStep []

/-- `parseNode`, `GraphML.hh:330-349`; the check of the name is omitted, as the name has been checked before. -/
def parseNode (st : Storage) (e : Element) : Except Failure Storage :=
  match e.attribute "id".toList with
  | none => .error .exception
  | some id =>
    match parseData e with
    | .error x => .error x
    | .ok dict => .ok { st with nodes := st.nodes ++ [⟨id, dict⟩] }

/-- `parseEdge`, `GraphML.hh:351-376`; the check of the name is omitted, as the name has been checked before. -/
def parseEdge (st : Storage) (e : Element) : Except Failure Storage :=
  match e.attribute "id".toList, e.attribute "source".toList, e.attribute "target".toList with
  | some _, some source, some target =>
    match parseData e with
    | .error x => .error x
    | .ok dict => .ok { st with edges := st.edges ++ [⟨source, target, dict⟩] }
  | _, _, _ => .error .exception

/-- The body of the second loop, `GraphML.hh:144-158`. -/
def graphStep (st : Storage) (e : Element) : Except Failure Storage :=
  if e.name = "node".toList then parseNode st e else if e.name = "edge".toList then parseEdge st e else .ok st

/-- The graph, `GraphML.hh:130-158`. -/
def parseGraph (st : Storage) (graphml : Element) : Except Failure Storage :=
  match (elements graphml.children).find? (·.name = "graph".toList) with
  | none => .error .exception
  | some graph => (elements graph.children).foldlM graphStep { st with isDirected := graph.attribute "edgedefault".toList = some "directed".toList }

/-- The part of `operator()` that reads the document, `GraphML.hh:99-159`. -/
def parse (document : List Xml) : Except Failure Storage :=
  match document with
  | [] => .error .undefined
  | _ :: siblings =>
    match (elements siblings).find? (·.name = "graphml".toList) with
    | none => .error .undefined
    | some graphml =>
      match ((elements graphml.children).filter (·.name = "key".toList)).foldlM readKey start with
      | .error x => .error x
      | .ok st => parseGraph st graphml

/-- `id_to_index`, `GraphML.hh:300-312`. -/
def idToIndex (nodes : List Node) : List (List Char × ℕ) := (nodes.map fun n => (n.id, (sortedNames (nodes.map (·.id))).idxOf n.id)).reverse

/-- The comparison of nodes, `GraphML.hh:179-182`: nodes are compared by their index. -/
def indexOf (indices : List (List Char × ℕ)) (n : Node) : ℕ := (indices.lookup n.id).getD 0

section

variable [Zero α] (convert : List Char → α × Bool) (f : α → α → α) (s : Settings) (st : Storage)

/-- The weight of a node, `GraphML.hh:190-208`. -/
def nodeWeight (n : Node) : Except Failure α :=
  if s.readNodeWeights && !s.nodeWeightAttribute.isEmpty then
    match st.nodeKeys.lookup s.nodeWeightAttribute with
    | none => .ok 0
    | some key =>
      match n.dict.lookup key with
      | none => .ok 0
      | some data => if (convert data).2 then .ok (convert data).1 else .error .exception
  else .ok 0

/-- The weight of an edge, `GraphML.hh:217-258`, given the nodes after sorting. -/
def edgeWeight (nodes : List Node) (u v : ℕ) (e : Edge) : Except Failure α :=
  if s.readEdgeWeights && !s.edgeWeightAttribute.isEmpty then
    match st.edgeKeys.lookup s.edgeWeightAttribute with
    | none => .ok 0
    | some key =>
      match e.dict.lookup key with
      | none => .ok 0
      | some data => if (convert data).2 then .ok (convert data).1 else .error .exception
  else if s.readNodeWeights && !s.nodeWeightAttribute.isEmpty then
    match st.nodeKeys.lookup s.nodeWeightAttribute with
    | none => .ok 0
    | some key =>
      match nodes[u]?, nodes[v]? with
      | some m, some n =>
        match m.dict.lookup key, n.dict.lookup key with
        | some du, some dv => .ok (f (convert du).1 (convert dv).1)
        | _, _ => .error .exception
      | _, _ => .error .exception
  else .ok 0

/-- The simplex of a node, `GraphML.hh:187-211`. -/
def nodeSimplex (indices : List (List Char × ℕ)) (n : Node) : Except Failure (Simplex α) :=
  match indices.lookup n.id with
  | none => .error .exception
  | some v =>
    match nodeWeight convert s st n with
    | .error x => .error x
    | .ok w => .ok (Simplex.ofVertex v w)

/-- The simplex of an edge, `GraphML.hh:213-261`. -/
def edgeSimplex (indices : List (List Char × ℕ)) (nodes : List Node) (e : Edge) : Except Failure (Simplex α) :=
  match indices.lookup e.source, indices.lookup e.target with
  | some u, some v =>
    match edgeWeight convert f s st nodes u v e with
    | .error x => .error x
    | .ok w => .ok (Simplex.ofRange [u, v] w)
  | _, _ => .error .exception

variable (sort : (Node → ℕ) → List Node → List Node)

/-- The creation of the complex, `GraphML.hh:166-263`; the nodes of the storage remain sorted. -/
def build : Except Failure (Storage × Complex α) :=
  let indices := idToIndex st.nodes
  let nodes := sort (indexOf indices) st.nodes
  match nodes.mapM (nodeSimplex convert s st indices) with
  | .error x => .error x
  | .ok vs =>
    match st.edges.mapM (edgeSimplex convert f s st indices nodes) with
    | .error x => .error x
    | .ok es => .ok ({ st with nodes := nodes }, (Complex.insertRange [] (vs ++ es)).1)

end

/-- `operator()` with a functor, `GraphML.hh:85-264`. -/
def read [Zero α] (sort : (Node → ℕ) → List Node → List Node) (convert : List Char → α × Bool) (s : Settings) (f : α → α → α) (document : List Xml) : Except Failure (Storage × Complex α) :=
  match parse document with
  | .error x => .error x
  | .ok st => build convert f s st sort

/-- `operator()` without a functor, `GraphML.hh:56-62`: the maximum is used. -/
def readMax [Zero α] [LinearOrder α] (sort : (Node → ℕ) → List Node → List Node) (convert : List Char → α × Bool) (s : Settings) (document : List Xml) : Except Failure (Storage × Complex α) :=
  read sort convert s (fun a b => max a b) document

/-- `getNodeAttributeNames`, `GraphML.hh:267-278`. -/
def nodeAttributeNames (st : Storage) : List (List Char) := sortedNames (st.nodes.flatMap fun n => n.dict.map Prod.fst)

/-- `getEdgeAttributeNames`, `GraphML.hh:281-292`. -/
def edgeAttributeNames (st : Storage) : List (List Char) := sortedNames (st.edges.flatMap fun e => e.dict.map Prod.fst)

end Aleph.GraphmlReader
