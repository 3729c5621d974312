import Verif.Model.TriangulationReader

/-!
# Sparse adjacency matrices

Models `include/aleph/topology/io/SparseAdjacencyMatrix.hh`.  A file system maps names to texts; names without a text are files that do not exist.
The separator is a single character.  `convert` and `convertId` are the conversions of strings to vertices, without and with a check for success, `value` is the
conversion to attributes.  The traversal of an unordered set is the parameter `order`.  Attributes are not stored, as they are used only by the call that reads
them.
-/

namespace Aleph.SparseReader

variable {α : Type}

/-- What may happen apart from returning. -/
inductive Failure
  | exception
  | undefined
  deriving DecidableEq

/-- Options, `SparseAdjacencyMatrix.hh:470-477, 517`; no index is the maximum of the type. -/
structure Options where
  readGraphLabels : Bool := true
  readNodeLabels : Bool := false
  readNodeAttributes : Bool := false
  readEdgeAttributes : Bool := false
  trimLines : Bool := true
  nodeAttributeIndex : Option ℕ := none
  edgeAttributeIndex : Option ℕ := none
  separator : Char := ','

/-- Labels that are stored by the reader, `SparseAdjacencyMatrix.hh:496-499`. -/
structure Labels where
  graph : List (List Char)
  node : List (List Char)
  deriving DecidableEq

/-- `getPrefix`, `SparseAdjacencyMatrix.hh:445-451`: everything before the last `_`, or everything. -/
def getPrefix (filename : List Char) : List Char :=
  if '_' ∈ filename then ((filename.reverse.dropWhile (· ≠ '_')).drop 1).reverse else filename

/-- The loop of `readVerticesAndEdges`, `SparseAdjacencyMatrix.hh:278-296`. -/
def readEdges (separator : Char) (convert : List Char → ℕ) (text : List Char) : Except Failure (List (ℕ × ℕ)) :=
  (Strings.getlines [] text).mapM fun line =>
    match TriangulationReader.splitEach separator [] false line with
    | [a, b] => .ok (convert a, convert b)
    | _ => .error .exception

/-- The loop of `readGraphAndNodeIDs`, `SparseAdjacencyMatrix.hh:331-345`: the graph of every node, starting with node 1. -/
def readGraphs (convertId : List Char → Option ℕ) (text : List Char) : Except Failure (List ℕ) :=
  (Strings.getlines [] text).mapM fun line =>
    match convertId (Strings.trim line) with
    | some id => .ok id
    | none => .error .exception

/-- `readLabels`, `SparseAdjacencyMatrix.hh:350-368`. -/
def readLabels (trimLines : Bool) (text : List Char) : List (List Char) :=
  (Strings.getlines [] text).map fun line => if trimLines then Strings.trim line else line

/-- `readAttributes`, `SparseAdjacencyMatrix.hh:388-419`. -/
def readAttributes (trimLines : Bool) (separator : Char) (value : List Char → α) (text : List Char) : List (List α) :=
  (Strings.getlines [] text).map fun line =>
    (TriangulationReader.splitEach separator [] false (if trimLines then Strings.trim line else line)).map value

/-- A set filled with the elements of a list: sorted, without duplicates. -/
def sortedSet (l : List ℕ) : List ℕ := l.dedup.insertionSort (· ≤ ·)

/-- `node_id_to_graph_id[v]`, `SparseAdjacencyMatrix.hh:73, 342`: zero is inserted if there is no entry. -/
def graphOf (graphs : List ℕ) (v : ℕ) : ℕ := if v = 0 then 0 else graphs.getD (v - 1) 0

/-- `graph_id_to_index[id]`, `SparseAdjacencyMatrix.hh:82-89`: zero is inserted if there is no entry. -/
def graphIndex (graphs : List ℕ) (id : ℕ) : ℕ := ((sortedSet graphs).idxOf? id).getD 0

/-- `node_id_to_index[v]`, `SparseAdjacencyMatrix.hh:98-113`. -/
def nodeIndex (vertices graphs : List ℕ) (v : ℕ) : ℕ := ((sortedSet (vertices ++ List.range' 1 graphs.length)).idxOf? v).getD 0

/-- Data of a simplex, `SparseAdjacencyMatrix.hh:158-162, 182-183`: the default value, or an attribute; reading past the end is undefined. -/
def dataOf [Zero α] (use : Bool) (index : Option ℕ) (attributes : List (List α)) (i : ℕ) : Except Failure α :=
  if use then
    match index with
    | none => .ok 0
    | some k =>
      match attributes[i]? with
      | none => .error .undefined
      | some l =>
        match l[k]? with
        | none => .error .undefined
        | some a => .ok a
  else .ok 0

/-- The body of the first loop, `SparseAdjacencyMatrix.hh:146-165`. -/
def addVertex [Zero α] (o : Options) (graphs vertices : List ℕ) (graphLabels : List (List Char)) (attributes : List (List α))
    (st : List (Complex α) × List (List Char)) (v : ℕ) : Except Failure (List (Complex α) × List (List Char)) :=
  let index := graphIndex graphs (graphOf graphs v)
  match st.1[index]? with
  | none => .error .undefined
  | some K =>
    match graphLabels[index]? with
    | none => .error .exception
    | some label =>
      match dataOf o.readNodeAttributes o.nodeAttributeIndex attributes (nodeIndex vertices graphs v) with
      | .error e => .error e
      | .ok a => .ok (st.1.set index (Complex.insertRange K [Simplex.ofVertex v a]).1, st.2.set index label)

/-- The body of the second loop, `SparseAdjacencyMatrix.hh:167-186`, for the edge with index `e.2`. -/
def addEdge [Zero α] (o : Options) (graphs : List ℕ) (attributes : List (List α)) (complexes : List (Complex α)) (e : (ℕ × ℕ) × ℕ) : Except Failure (List (Complex α)) :=
  if graphOf graphs e.1.1 ≠ graphOf graphs e.1.2 then .error .exception
  else
    let index := graphIndex graphs (graphOf graphs e.1.1)
    match complexes[index]? with
    | none => .error .undefined
    | some K =>
      match dataOf o.readEdgeAttributes o.edgeAttributeIndex attributes e.2 with
      | .error e => .error e
      | .ok a => .ok (complexes.set index (Complex.insertRange K [Simplex.ofRange [e.1.1, e.1.2] a]).1)

/-- Creation of the output, `SparseAdjacencyMatrix.hh:135-192`: the complexes, and the labels of graphs. -/
def assemble [Zero α] [LinearOrder α] (o : Options) (order : List ℕ → List ℕ) (edges : List (ℕ × ℕ)) (graphs : List ℕ) (graphLabels : List (List Char))
    (nodeAttributes edgeAttributes : List (List α)) : Except Failure (List (Complex α) × List (List Char)) :=
  let vertices := order (edges.flatMap fun e => [e.1, e.2])
  let n := (sortedSet graphs).length
  match vertices.foldlM (addVertex o graphs vertices graphLabels nodeAttributes) (List.replicate n [], List.replicate n []) with
  | .error e => .error e
  | .ok (complexes, labels) =>
    match edges.zipIdx.foldlM (addEdge o graphs edgeAttributes) complexes with
    | .error e => .error e
    | .ok complexes =>
      .ok (complexes.map fun K => K.sort (asLt (Filtration.data fun a b => decide (a < b))), if n < graphLabels.length then labels else graphLabels)

/-- A file that is required: an exception is thrown if it does not exist. -/
def required (text : Option (List Char)) : Except Failure (List Char) :=
  match text with
  | none => .error .exception
  | some t => .ok t

/-- Information that is read only if requested, from a file that is required in this case, `SparseAdjacencyMatrix.hh:117-127`. -/
def optional {γ : Type} (use : Bool) (text : Option (List Char)) (f : List Char → γ) (otherwise : γ) : Except Failure γ :=
  if use then (required text).map f else .ok otherwise

/-- `operator()( filename, complexes )`, `SparseAdjacencyMatrix.hh:47-193`: the complexes, and the labels stored by the reader. -/
def read [Zero α] [LinearOrder α] (o : Options) (order : List ℕ → List ℕ) (convert : List Char → ℕ) (convertId : List Char → Option ℕ) (value : List Char → α)
    (files : List Char → Option (List Char)) (filename : List Char) (stored : Labels) : Except Failure (List (Complex α) × Labels) := do
  let name := fun s : String => getPrefix filename ++ s.toList
  let matrix ← required (files filename)
  let edges ← readEdges o.separator convert matrix
  let indicator ← required (files (name "_graph_indicator.txt"))
  let graphs ← readGraphs convertId indicator
  let graphLabels ← optional o.readGraphLabels (files (name "_graph_labels.txt")) (readLabels o.trimLines) stored.graph
  let nodeLabels :=
    if o.readNodeLabels then
      match files (name "_node_labels.txt") with
      | none => stored.node
      | some t => readLabels o.trimLines t
    else stored.node
  let nodeAttributes ← optional o.readNodeAttributes (files (name "_node_attributes.txt")) (readAttributes o.trimLines o.separator value) []
  let edgeAttributes ← optional o.readEdgeAttributes (files (name "_edge_attributes.txt")) (readAttributes o.trimLines o.separator value) []
  let result ← assemble o order edges graphs graphLabels nodeAttributes edgeAttributes
  .ok (result.1, ⟨result.2, nodeLabels⟩)

end Aleph.SparseReader
