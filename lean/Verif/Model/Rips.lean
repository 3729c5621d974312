import Verif.Model.Complex

/-!
# Vietoris–Rips complexes

Models
* `include/aleph/geometry/RipsExpander.hh`
* `include/aleph/geometry/RipsSkeleton.hh`
* `include/aleph/geometry/VietorisRipsComplex.hh`
* `radiusSearch` of `include/aleph/geometry/BruteForce.hh`

An `std::unordered_set` is modelled by the list of its elements in the order of their
insertion.  The order in which it is traversed is not specified; neither is the order in which
the dimension index of a complex lists simplices of equal dimension (it depends on
the history).  Both are parameters of the model, collected in `Orders`.
-/

namespace Aleph

/-- Unspecified traversal orders: of an unordered set of vertices (`RipsExpander.hh:213, 250`) and of simplices of equal
dimension (`SimplicialComplex.hh:43`). -/
structure Orders (α : Type) where
  verts : List Nat → List Nat
  simps : List (Simplex α) → List (Simplex α)
  verts_perm : ∀ l, (verts l).Perm l
  simps_perm : ∀ l, (simps l).Perm l

/-- The traversal in insertion order (`RipsExpander.hh:213`): one admissible choice. -/
def Orders.default (α : Type) : Orders α := ⟨id, id, fun _ => .refl _, fun _ => .refl _⟩

/-- The traversal of unordered sets in reverse insertion order (`RipsExpander.hh:213`): another admissible choice. -/
def Orders.reversed (α : Type) : Orders α :=
  ⟨List.reverse, id, fun l => l.reverse_perm, fun _ => .refl _⟩

namespace Rips

variable {α : Type}

/-- `LowerNeighboursMap`, `RipsExpander.hh:202`. -/
abbrev LowerMap := List (Nat × List Nat)

/-- `lowerNeighbours.find(v)` and `at(v)`, `RipsExpander.hh:67-71`. -/
def LowerMap.get (m : LowerMap) (v : Nat) : Option (List Nat) :=
  (List.find? (fun e => e.1 == v) m).map (·.2)

/-- Insertion into an `unordered_set`, `RipsExpander.hh:251, 271`. -/
def insertSet (l : List Nat) (u : Nat) : List Nat := if l.contains u then l else l ++ [u]

/-- `lowerNeighbours[v].insert(u)`, `RipsExpander.hh:270-273`. -/
def LowerMap.add (m : LowerMap) (v u : Nat) : LowerMap :=
  if (m.get v).isSome then m.map fun e => if e.1 = v then (v, insertSet e.2 u) else e
  else m ++ [(v, [u])]

/-- `getLowerNeighbours`, `RipsExpander.hh:257-277`, from the list of edges; an edge has two vertices. -/
def getLowerNeighbours (edges : List (Simplex α)) : LowerMap :=
  edges.foldl (fun m s =>
    match s.vertices with
    | u :: v :: _ => if u < v then m.add v u else m.add u v
    | _ => m) []

/-- `intersect`, `RipsExpander.hh:239-255`. -/
def intersect (o : Orders α) (U V : List Nat) : List Nat :=
  if V.length < U.length then ((o.verts V).filter fun u => U.contains u).foldl insertSet []
  else ((o.verts U).filter fun u => V.contains u).foldl insertSet []

/-- `addCofaces`, `RipsExpander.hh:204-237`; returns the extended list of simplices.  The first
argument bounds the depth of the recursion, `none` if it is exceeded (or if `dimension()`
throws). -/
def addCofaces (o : Orders α) (d0 : α) (lower : LowerMap) (dimension : Nat) :
    Nat → Simplex α → List Nat → List (Simplex α) → Option (List (Simplex α))
  | 0, _, _, _ => none
  | f + 1, s, neighbours, simplices =>
    match s.dimension with
    | none => none
    | some d =>
      if d ≥ dimension then some simplices
      else
        (o.verts neighbours).foldlM (fun simplices neighbour =>
          match lower.get neighbour with
          | none => some (simplices ++ [Simplex.ofRange (s.vertices ++ [neighbour]) d0])
          | some lowerNeighbours =>
            addCofaces o d0 lower dimension f (Simplex.ofRange (s.vertices ++ [neighbour]) d0)
              (intersect o lowerNeighbours neighbours)
              (simplices ++ [Simplex.ofRange (s.vertices ++ [neighbour]) d0])) simplices

/-- The loop over the vertices, `RipsExpander.hh:63-75`. -/
def expandList (o : Orders α) (d0 : α) (lower : LowerMap) (dimension : Nat) (vertices : List Nat) :
    Option (List (Simplex α)) :=
  vertices.foldlM (fun simplices v =>
    match lower.get v with
    | none => some (simplices ++ [Simplex.ofVertex v d0])
    | some ns => addCofaces o d0 lower dimension (dimension + 1) (Simplex.ofVertex v d0) ns
        (simplices ++ [Simplex.ofVertex v d0])) []

/-- Data of vertices and edges is taken from the original complex, `RipsExpander.hh:87-96`. -/
def reassign (K : Complex α) (s : Simplex α) : Simplex α :=
  if Complex.dim s ≤ 1 then
    match K.find s.vertices with
    | some t => s.withData t.data
    | none => s
  else s

/-- `RipsExpander::operator()`, `RipsExpander.hh:53-99`; `d0` is the default-constructed data.  `none` is an exception or an
exhausted recursion bound (shown not to happen). -/
def expand (o : Orders α) (d0 : α) (K : Complex α) (dimension : Nat) : Option (Complex α) :=
  match expandList o d0 (getLowerNeighbours (o.simps (K.range 1))) dimension K.vertices with
  | none => none
  | some simplices =>
    match Complex.insertRange [] (simplices.map (reassign K)) with
    | (L, false) => some L
    | (_, true) => none

/-- `assignMaximumWeight`, `RipsExpander.hh:103-131`. -/
def assignMaximumWeight [LinearOrder α] (o : Orders α) (minDimension : Nat) (K : Complex α) :
    Option (Complex α) :=
  (Complex.byDimension (o.simps K)).foldlM (fun S s =>
    if Complex.dim s > minDimension then
      Complex.pushBack S (s.withData (s.faces.foldl (fun w f =>
        match S.find f with
        | none => w
        | some t => max w t.data) s.data))
    else Complex.pushBack S s) []

/-- `vertexToIndex[v]`, `RipsExpander.hh:176-190`: the position of the vertex in the ordered set of vertices; a missing
vertex is inserted with value zero. -/
def vertexToIndex (K : Complex α) (v : Nat) : Nat := ((K.vertices).idxOf? v).getD 0

/-- `assignData`, `RipsExpander.hh:152-197`.  `none` is an access out of bounds. -/
def assignData (K : Complex α) (values : List α) (init : α) (functor : α → α → α) :
    Option (Complex α) :=
  K.foldlM (fun S s =>
    match s.vertices.foldlM (fun d v => (values[vertexToIndex K v]?).map (functor d)) init with
    | none => none
    | some d => Complex.pushBack S (s.withData d)) []

/-- `assignMaximumData`, `RipsExpander.hh:133-142`; `lo` is `numeric_limits::lowest()`. -/
def assignMaximumData [LinearOrder α] (lo : α) (K : Complex α) (values : List α) :
    Option (Complex α) :=
  assignData K values lo max

/-- `BruteForce::radiusSearch`, `BruteForce.hh:40-73`: the neighbours of each of the `n` points with their
distances.  The distance of two points is given by the function `dist`. -/
def radiusSearch [LinearOrder α] (n : Nat) (dist : Nat → Nat → α) (radius : α) :
    List (List (Nat × α)) :=
  (List.range n).map fun i =>
    ((List.range n).map fun j => (j, dist i j)).filter fun e => e.2 < radius

/-- `RipsSkeleton::operator()`, `RipsSkeleton.hh:24-56`, from the number of points and the result of the radius
search. -/
def ripsSkeleton (d0 : α) (n : Nat) (search : List (List (Nat × α))) : Complex α × Bool :=
  Complex.insertRange []
    ((List.range n).map (fun i => Simplex.ofVertex i d0) ++
      (search.zipIdx).flatMap fun e =>
        (e.1.filter fun v => e.2 < v.1).map fun v => Simplex.ofRange [e.2, v.1] v.2)

/-- `buildVietorisRipsComplex(nn, epsilon, dimension)`, `VietorisRipsComplex.hh:34-57`, with `BruteForce` as nearest
neighbour structure. -/
def buildVietorisRips [LinearOrder α] (o : Orders α) (d0 : α) (n : Nat) (dist : Nat → Nat → α)
    (epsilon : α) (dimension : Nat) : Option (Complex α) :=
  match ripsSkeleton d0 n (radiusSearch n dist epsilon) with
  | (_, true) => none
  | (skeleton, false) =>
    match expand o d0 skeleton dimension with
    | none => none
    | some K =>
      match assignMaximumWeight o 1 K with
      | none => none
      | some K => some (K.sort (asLt (Filtration.data fun a b => a < b)))

/-- `buildVietorisRipsComplex(nn, epsilon, dimension, begin, end)`, `VietorisRipsComplex.hh:68-96`. -/
def buildVietorisRipsWithValues [LinearOrder α] (o : Orders α) (d0 lo : α) (n : Nat)
    (dist : Nat → Nat → α) (epsilon : α) (dimension : Nat) (values : List α) : Option (Complex α) :=
  match ripsSkeleton d0 n (radiusSearch n dist epsilon) with
  | (_, true) => none
  | (skeleton, false) =>
    match expand o d0 skeleton dimension with
    | none => none
    | some K =>
      match assignMaximumData lo K values with
      | none => none
      | some K => some (K.sort (asLt (Filtration.data fun a b => a < b)))

end Rips

end Aleph
