import Verif.Model.UnionFind
import Mathlib.Logic.Function.Basic
import Mathlib.Order.Defs.LinearOrder

/-!
# Half-edge meshes

Models `include/aleph/topology/Mesh.hh` and `include/aleph/topology/MorseSmaleComplex.hh`.

Half-edges and faces live in two lists; a pointer to one of them is its position, a null pointer is `none`.  A vertex is identified by its ID: the map of
vertices stores exactly one object per ID.  The map is a function together with the list of its keys in the order of insertion; the order in which
containers with hashes are traversed is given by the parameters `iter` (map of vertices), `iterSet` (set of vertex IDs) and `iterFace` (set of faces).
Objects that are not reachable any more are not removed from the lists.

The first argument of the loops and the argument `fuel` bound the number of rounds of each loop of the code; the code returns a value if and only if a sufficiently large
bound does.  `undefined` and `none` are the dereference of a null pointer, a failing assertion, an exception in a function that is declared `noexcept`,
or a loop that needs more rounds.
-/

namespace Aleph.Mesh

/-- `Mesh::HalfEdge`, `Mesh.hh:45-63`. -/
structure HalfEdge where
  face : Option ℕ := none
  vertex : Option ℕ := none
  next : Option ℕ := none
  prev : Option ℕ := none
  pair : Option ℕ := none
deriving DecidableEq, Repr

/-- `Mesh::Vertex`, `Mesh.hh:92-101`; the ID is the key of the vertex. -/
structure Vertex (P D : Type) where
  x : P
  y : P
  z : P
  data : D
  edge : Option ℕ := none
deriving DecidableEq, Repr

/-- The members of `Mesh`, `Mesh.hh:578-585`, together with all half-edges and the edges of all faces (`Mesh::Face`, `Mesh.hh:65-67`). -/
structure _root_.Aleph.Mesh (P D : Type) where
  largest : ℕ := 0
  ids : List ℕ := []
  vertex : ℕ → Option (Vertex P D) := fun _ => none
  halfEdges : List HalfEdge := []
  faces : List (Option ℕ) := []

/-- The outcome of a function that modifies a mesh, `Mesh.hh:165-313`: it returns, throws an exception and leaves a modified mesh behind, or its
behaviour is not defined. -/
inductive Result (σ α : Type)
  | ok (a : α)
  | thrown (s : σ)
  | undefined

variable {P D : Type}

/-- `e->pair`, `Mesh.hh:52`. -/
def pairOf (H : List HalfEdge) (e : ℕ) : Option ℕ := H[e]?.bind (·.pair)

/-- `e->next`, `Mesh.hh:50`. -/
def nextOf (H : List HalfEdge) (e : ℕ) : Option ℕ := H[e]?.bind (·.next)

/-- `e->prev`, `Mesh.hh:51`. -/
def prevOf (H : List HalfEdge) (e : ℕ) : Option ℕ := H[e]?.bind (·.prev)

/-- `e->face`, `Mesh.hh:47`. -/
def faceOf (H : List HalfEdge) (e : ℕ) : Option ℕ := H[e]?.bind (·.face)

/-- `target`, `Mesh.hh:59-62`. -/
def targetOf (H : List HalfEdge) (e : ℕ) : Option ℕ := H[e]?.bind (·.vertex)

/-- `source`, `Mesh.hh:54-57`. -/
def sourceOf (H : List HalfEdge) (e : ℕ) : Option ℕ := (pairOf H e).bind (targetOf H)

/-- The loop of `Face::vertices`, `Mesh.hh:75-89`. -/
def faceVerticesLoop (H : List HalfEdge) (start : ℕ) : ℕ → ℕ → List ℕ → Option (List ℕ)
  | 0, _, _ => none
  | f + 1, e, v =>
    match sourceOf H e, nextOf H e with
    | some s, some e' => if e' = start then some (v ++ [s]) else faceVerticesLoop H start f e' (v ++ [s])
    | _, _ => none

/-- `Face::vertices`, `Mesh.hh:75-89`. -/
def faceVertices (fuel : ℕ) (m : Mesh P D) (φ : ℕ) : Option (List ℕ) :=
  match m.faces[φ]? with
  | some (some e) => faceVerticesLoop m.halfEdges e fuel e []
  | _ => none

/-- `vertices`, `Mesh.hh:105-114`. -/
def vertices (iter : List ℕ → List ℕ) (m : Mesh P D) : List ℕ := iter m.ids

/-- `numVertices`, `Mesh.hh:116-119`. -/
def numVertices (m : Mesh P D) : ℕ := m.ids.length

/-- The loop that collects faces in `faces` and `numFaces`, `Mesh.hh:126-134, 149-157`; the list stands for the set, in the order of insertion. -/
def collectFaces (m : Mesh P D) : List ℕ → List ℕ → Option (List ℕ)
  | [], faces => some faces
  | v :: vs, faces =>
    match (m.vertex v).bind (·.edge) with
    | none => none
    | some e =>
      match faceOf m.halfEdges e with
      | none => collectFaces m vs faces
      | some φ => collectFaces m vs (if φ ∈ faces then faces else faces ++ [φ])

/-- `faces`, `Mesh.hh:122-143`. -/
def listFaces (iter iterFace : List ℕ → List ℕ) (fuel : ℕ) (m : Mesh P D) : Option (List (List ℕ)) :=
  match collectFaces m (iter m.ids) [] with
  | none => none
  | some faces => (iterFace faces).mapM (faceVertices fuel m)

/-- `numFaces`, `Mesh.hh:145-160`. -/
def numFaces (iter : List ℕ → List ℕ) (m : Mesh P D) : Option ℕ :=
  match collectFaces m (iter m.ids) [] with
  | none => none
  | some faces => some faces.length

/-- `addVertex`, `Mesh.hh:165-182`; the default ID, the maximum of the type, is `none`. -/
def addVertex (m : Mesh P D) (x y z : P) (data : D) (id : Option ℕ) : Result (Mesh P D) (Mesh P D) :=
  let id' := id.getD (max m.ids.length m.largest)
  match m.vertex id' with
  | some _ => .thrown m
  | none =>
    .ok { m with
      largest := max m.largest id'
      ids := m.ids ++ [id']
      vertex := Function.update m.vertex id' (some { x := x, y := y, z := z, data := data }) }

/-- The loop of `getEdges`, `Mesh.hh:504-514`; `start` is the edge of the vertex. -/
def edgesLoop (H : List HalfEdge) (start : Option ℕ) : ℕ → Option ℕ → List ℕ → Option (List ℕ)
  | 0, _, _ => none
  | _ + 1, none, edges => some edges
  | f + 1, some e, edges =>
    match pairOf H e with
    | none => none
    | some p => if nextOf H p = start then some (edges ++ [e]) else edgesLoop H start f (nextOf H p) (edges ++ [e])

/-- `getEdges`, `Mesh.hh:500-517`. -/
def getEdges (fuel : ℕ) (H : List HalfEdge) (start : Option ℕ) : Option (List ℕ) := edgesLoop H start fuel start []

/-- `getEdge`, `Mesh.hh:544-560`. -/
def getEdge (fuel : ℕ) (m : Mesh P D) (u v : ℕ) : Option (Option ℕ) :=
  match m.vertex u, m.vertex v with
  | some source, some _ =>
    match getEdges fuel m.halfEdges source.edge with
    | none => none
    | some edges => some (edges.find? fun e => decide (sourceOf m.halfEdges e = some u) && decide (targetOf m.halfEdges e = some v))
  | _, _ => none

/-- `if( !v->edge ) v->edge = e`, `Mesh.hh:226-230`. -/
def setEdge (m : Mesh P D) (v e : ℕ) : Mesh P D :=
  { m with vertex := Function.update m.vertex v ((m.vertex v).map fun x => { x with edge := x.edge.or (some e) }) }

/-- The creation of a pair of half-edges, `Mesh.hh:214-231`. -/
def newEdge (m : Mesh P D) (source target : ℕ) : Mesh P D × ℕ :=
  let e := m.halfEdges.length
  let m1 : Mesh P D := { m with halfEdges := m.halfEdges ++ [{ pair := some (e + 1) }, { vertex := some source, pair := some e }] }
  (setEdge (setEdge m1 source e) target (e + 1), e)

/-- The body of the first loop of `addFace` for the face `φ`, `Mesh.hh:199-247`. -/
def faceStep (fuel : ℕ) (m : Mesh P D) (φ curr next : ℕ) : Result (Mesh P D) (Mesh P D × ℕ) :=
  match m.vertex curr, m.vertex next with
  | some _, some _ =>
    match getEdge fuel m curr next with
    | none => .undefined
    | some r =>
      let (m1, e) :=
        match r with
        | some e => (m, e)
        | none => newEdge m curr next
      match faceOf m1.halfEdges e, pairOf m1.halfEdges e with
      | none, some _ =>
        .ok ({ m1 with
          faces := m1.faces.modify φ fun x => x.or (some e)
          halfEdges := m1.halfEdges.modify e fun h => { h with face := some φ, vertex := some next } }, e)
      | _, _ => .undefined
  | _, _ => .thrown m

/-- The first loop of `addFace`, `Mesh.hh:199-247`; `first` is the first vertex of the face. -/
def faceLoop (fuel φ first : ℕ) : Mesh P D → List ℕ → List ℕ → Result (Mesh P D) (Mesh P D × List ℕ)
  | m, [], edges => .ok (m, edges)
  | m, [c], edges =>
    match faceStep fuel m φ c first with
    | .ok (m', e) => .ok (m', edges ++ [e])
    | .thrown m' => .thrown m'
    | .undefined => .undefined
  | m, c :: n :: vs, edges =>
    match faceStep fuel m φ c n with
    | .ok (m', e) => faceLoop fuel φ first m' (n :: vs) (edges ++ [e])
    | .thrown m' => .thrown m'
    | .undefined => .undefined

/-- The second loop of `addFace`, `Mesh.hh:255-271`. -/
def linkFace (H : List HalfEdge) (edges : List ℕ) : List HalfEdge :=
  (edges.zip ((edges.tail ++ edges.head?.toList).zip (edges.getLast?.toList ++ edges.dropLast))).foldl
    (fun H t => H.modify t.1 fun h => { h with next := some t.2.1, prev := some t.2.2 }) H

/-- The loop along the boundary, `Mesh.hh:285-306`, for the vertex `v`; the state consists of the half-edges, `edge` and `curr`. -/
def boundaryLoop (fuel : ℕ) (vertex : ℕ → Option (Vertex P D)) (v : ℕ) : ℕ → List HalfEdge → ℕ → ℕ → Option (List HalfEdge × ℕ)
  | 0, _, _, _ => none
  | f + 1, H, edge, curr =>
    match faceOf H edge, vertex curr with
    | none, some x =>
      match getEdges fuel H x.edge with
      | none => none
      | some edges =>
        match edges.find? fun e => (pairOf H e).any fun p => (faceOf H p).isNone with
        | none => if curr = v then some (H, edge) else boundaryLoop fuel vertex v f H edge curr
        | some e =>
          match pairOf H e with
          | none => none
          | some p =>
            match (pairOf H p).bind (targetOf H) with
            | none => none
            | some curr' =>
              let H' := (H.modify p fun h => { h with next := some edge }).modify edge fun h => { h with prev := some p }
              if curr' = v then some (H', p) else boundaryLoop fuel vertex v f H' p curr'
    | _, _ => none

/-- The body of the third loop of `addFace`, `Mesh.hh:278-312`. -/
def extendVertex (fuel : ℕ) (vertex : ℕ → Option (Vertex P D)) (H : List HalfEdge) (v : ℕ) : Option (List HalfEdge) :=
  match vertex v with
  | none => none
  | some x =>
    match x.edge with
    | none => some H
    | some e =>
      match pairOf H e with
      | none => none
      | some p =>
        match faceOf H p with
        | some _ => some H
        | none =>
          match targetOf H e with
          | none => none
          | some curr =>
            match boundaryLoop fuel vertex v fuel H p curr with
            | none => none
            | some (H', edge) => some ((H'.modify p fun h => { h with next := some edge }).modify edge fun h => { h with prev := some p })

/-- `addFace`, `Mesh.hh:190-313`. -/
def addFace (iter : List ℕ → List ℕ) (fuel : ℕ) (m : Mesh P D) (vs : List ℕ) : Result (Mesh P D) (Mesh P D) :=
  match faceLoop fuel m.faces.length (vs.headD 0) { m with faces := m.faces ++ [none] } vs [] with
  | .thrown m' => .thrown m'
  | .undefined => .undefined
  | .ok (m', edges) =>
    match (iter m'.ids).foldlM (extendVertex fuel m'.vertex) (linkFace m'.halfEdges edges) with
    | none => .undefined
    | some H => .ok { m' with halfEdges := H }

/-- `data`, `Mesh.hh:318-322`; `none` is the exception. -/
def dataAt (m : Mesh P D) (id : ℕ) : Option D := (m.vertex id).map (·.data)

/-- The loop of `getFaces`, `Mesh.hh:520-537`. -/
def facesLoop (H : List HalfEdge) (start : Option ℕ) : ℕ → Option ℕ → List ℕ → Option (List ℕ)
  | 0, _, _ => none
  | _ + 1, none, faces => some faces
  | f + 1, some e, faces =>
    match faceOf H e with
    | none => some faces
    | some φ =>
      match pairOf H e with
      | none => none
      | some p => if nextOf H p = start then some (faces ++ [φ]) else facesLoop H start f (nextOf H p) (faces ++ [φ])

/-- Inserts the vertices of the star, `Mesh.hh:345-352`. -/
def starVertices (m : Mesh P D) : Mesh P D → List ℕ → Option (Mesh P D)
  | M, [] => some M
  | M, v :: vs =>
    match m.vertex v with
    | none => none
    | some x =>
      match addVertex M x.x x.y x.z x.data (some v) with
      | .ok M' => starVertices m M' vs
      | _ => none

/-- Inserts the faces of the star, `Mesh.hh:355-359`. -/
def starFaces (iter : List ℕ → List ℕ) (fuel : ℕ) : Mesh P D → List (List ℕ) → Option (Mesh P D)
  | M, [] => some M
  | M, vs :: fs =>
    match addFace iter fuel M vs with
    | .ok M' => starFaces iter fuel M' fs
    | _ => none

/-- `star`, `Mesh.hh:329-362`. -/
def star (iter iterSet : List ℕ → List ℕ) (fuel : ℕ) (m : Mesh P D) (id : ℕ) : Option (Mesh P D) :=
  match m.vertex id with
  | none => none
  | some x =>
    match facesLoop m.halfEdges x.edge fuel x.edge [] with
    | none => none
    | some faces =>
      match faces.mapM (faceVertices fuel m) with
      | none => none
      | some fs =>
        match starVertices m {} (iterSet (fs.flatten.foldl (fun l v => if v ∈ l then l else l ++ [v]) [])) with
        | none => none
        | some M => starFaces iter fuel M fs

/-- The loop of `getNeighbours`, `Mesh.hh:484-494`. -/
def neighboursLoop (H : List HalfEdge) (v : ℕ) (start : Option ℕ) : ℕ → Option ℕ → List ℕ → Option (List ℕ)
  | 0, _, _ => none
  | _ + 1, none, neighbours => some neighbours
  | f + 1, some e, neighbours =>
    match targetOf H e, (prevOf H e).bind (pairOf H) with
    | some t, some e' =>
      if some e' = start then some (neighbours ++ [t])
      else
        match sourceOf H e' with
        | none => none
        | some s => if s = v then neighboursLoop H v start f (some e') (neighbours ++ [t]) else some (neighbours ++ [t])
    | _, _ => none

/-- `getNeighbours`, `Mesh.hh:480-497`, and `link`, `Mesh.hh:373-385`. -/
def link (fuel : ℕ) (m : Mesh P D) (id : ℕ) : Option (List ℕ) :=
  match m.vertex id with
  | none => none
  | some x => neighboursLoop m.halfEdges id x.edge fuel x.edge []

/-- `getLowerNeighbours`, `Mesh.hh:387-410`. -/
def lowerNeighbours [LinearOrder D] (fuel : ℕ) (m : Mesh P D) (id : ℕ) : Option (List ℕ) :=
  match m.vertex id, link fuel m id with
  | some x, some neighbours => some (neighbours.filter fun w => !((m.vertex w).any fun y => decide (x.data ≤ y.data)))
  | _, _ => none

/-- `getHigherNeighbours`, `Mesh.hh:412-436`. -/
def higherNeighbours [LinearOrder D] (fuel : ℕ) (m : Mesh P D) (id : ℕ) : Option (List ℕ) :=
  match m.vertex id, link fuel m id with
  | some x, some neighbours => some (neighbours.filter fun w => !((m.vertex w).any fun y => decide (y.data ≤ x.data)))
  | _, _ => none

/-- `hasEdge`, `Mesh.hh:443-451`; `none` is the exception for an unknown vertex, too. -/
def hasEdge (fuel : ℕ) (m : Mesh P D) (u v : ℕ) : Option Bool :=
  match m.vertex u, m.vertex v with
  | some _, some _ =>
    match link fuel m u with
    | none => none
    | some neighbours => some (decide (v ∈ neighbours))
  | _, _ => none

/-- The body of the loop of `numConnectedComponents`, `Mesh.hh:460-469`. -/
def componentsStep (leftFirst : Bool) (m : Mesh P D) (uf : ParentMap) (v : ℕ) : Option ParentMap :=
  match (m.vertex v).bind (·.edge) with
  | none => none
  | some e =>
    match sourceOf m.halfEdges e, targetOf m.halfEdges e with
    | some source, some target => uf.merge leftFirst target source
    | _, _ => none

/-- `numConnectedComponents`, `Mesh.hh:454-475`; `leftFirst` is the order of evaluation in `UnionFind::merge`. -/
def numConnectedComponents (iter : List ℕ → List ℕ) (leftFirst : Bool) (m : Mesh P D) : Option ℕ :=
  match (iter m.ids).foldlM (componentsStep leftFirst m) (ParentMap.ofRange (iter m.ids)) with
  | none => none
  | some uf =>
    match uf.roots with
    | none => none
    | some (_, roots) => some roots.length

/-- Calls that modify a mesh, `Mesh.hh:165-313`. -/
inductive Op (P D : Type)
  | vertex (x y z : P) (data : D) (id : Option ℕ)
  | face (vs : List ℕ)

/-- The mesh after a call, `Mesh.hh:165-313`.  A vertex that is refused leaves the mesh unchanged; `none` if the insertion of a face does not return. -/
def exec (iter : List ℕ → List ℕ) (fuel : ℕ) (m : Mesh P D) : Op P D → Option (Mesh P D)
  | .vertex x y z data id =>
    match addVertex m x y z data id with
    | .ok m' => some m'
    | .thrown m' => some m'
    | .undefined => none
  | .face vs =>
    match addFace iter fuel m vs with
    | .ok m' => some m'
    | _ => none

/-- A history of calls, starting with an empty mesh, `Mesh.hh:165-313`. -/
def run (iter : List ℕ → List ℕ) (fuel : ℕ) (ops : List (Op P D)) : Option (Mesh P D) := ops.foldlM (exec iter fuel) {}

/-- The loop of `contiguousSegments`, `MorseSmaleComplex.hh:89-105`, for `curr` and the elements after it; `first` is the first element of the link, `next`
runs one element ahead and returns to the first element.  `none` is an exception. -/
def segmentsLoop (leftFirst : Bool) (hasEdge : ℕ → ℕ → Option Bool) (id first : ℕ) : ParentMap → List ℕ → Option ParentMap
  | uf, [] => some uf
  | uf, v :: vs =>
    match hasEdge id v with
    | some true =>
      match hasEdge v (vs.headD first) with
      | some true =>
        match uf.merge leftFirst v (vs.headD first) with
        | none => none
        | some uf' => segmentsLoop leftFirst hasEdge id first uf' vs
      | some false => segmentsLoop leftFirst hasEdge id first uf vs
      | none => none
    | _ => none

/-- The lambda of `contiguousSegments`, `MorseSmaleComplex.hh:82-111`; for an empty link the code increments the end of an empty range, which is not
defined. -/
def segments (leftFirst : Bool) (hasEdge : ℕ → ℕ → Option Bool) (id : ℕ) (link : List ℕ) : Option ℕ :=
  match link with
  | [] => none
  | first :: _ =>
    match segmentsLoop leftFirst hasEdge id first (ParentMap.ofRange link) link with
    | none => none
    | some uf =>
      match uf.roots with
      | none => none
      | some (_, roots) => some roots.length

/-- `contiguousSegments`, `MorseSmaleComplex.hh:69-114`. -/
def contiguousSegments [LinearOrder D] (leftFirst : Bool) (fuel : ℕ) (m : Mesh P D) (id : ℕ) : Option (ℕ × ℕ) :=
  match m.vertex id, link fuel m id with
  | some x, some l =>
    let upperLink := l.filter fun u => (m.vertex u).any fun y => decide (x.data ≤ y.data)
    let lowerLink := l.filter fun u => (m.vertex u).any fun y => decide (y.data ≤ x.data)
    match segments leftFirst (hasEdge fuel m) id lowerLink, segments leftFirst (hasEdge fuel m) id upperLink with
    | some nl, some nu => some (nl, nu)
    | _, _ => none
  | _, _ => none

end Aleph.Mesh
