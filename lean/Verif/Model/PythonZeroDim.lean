import Verif.Model.PythonMatrix

/-!
# Python bindings for zero-dimensional persistent homology and point clouds

Models `bindings/python/aleph.cc:444-613`.  The argument `unpairedData` is `none` if it is not finite (the default).
-/

namespace Aleph.PythonMatrix

variable {α : Type}

/-- The complex of a bipartite graph, `aleph.cc:546-580`: the rows and then the columns of the matrix are vertices with the given
weight, and each entry is an edge. -/
def bipartiteComplex (vertexWeight : α) (A : Matrix α) : Except Failure (Complex α) :=
  match dimensions A with
  | .error e => .error e
  | .ok (n, m, s0, s1) =>
    match ((List.range n).flatMap fun u => (List.range m).map fun v => (u, v)).mapM
        fun e => (element A s0 s1 e.1 e.2).map fun w => Simplex.ofRange [e.1, e.2 + n] w with
    | .error e => .error e
    | .ok edges => complexOf ((List.range (n + m)).map (fun v => Simplex.ofVertex v vertexWeight) ++ edges)

/-- Sorting from large to small weights, or vice versa, `aleph.cc:582-589`. -/
def sortedBy [LinearOrder α] (reverse : Bool) (K : Complex α) : Complex α :=
  if reverse then K.sort (asLt (Filtration.data fun a b => b < a)) else K.sort (asLt (Filtration.data fun a b => a < b))

/-- Replaces the destruction of unpaired points, `aleph.cc:595-607` and `508-520`. -/
def closePoints [DecidableEq α] (inf : α) (unpairedData : Option α) (points : List (α × α)) : List (α × α) :=
  match unpairedData with
  | none => points
  | some y => points.map fun p => if p.2 = inf then (p.1, y) else p

/-- `calculateZeroDimensionalPersistenceDiagramAndPairing( K, unpairedData )`, `aleph.cc:495-527`. -/
def diagramAndPairing [DecidableEq α] (leftFirst : Bool) (inf : α) (K : Complex α) (unpairedData : Option α := none) :
    Except Failure (List (α × α) × List (Nat × Nat)) :=
  match zeroDimensional false leftFirst inf K with
  | none => .error .exception
  | some (points, pairing) => .ok (closePoints inf unpairedData points, pairing)

/-- `calculateZeroDimensionalPersistenceDiagramOfMatrix( M, reverseFiltration, vertexWeight, unpairedData )`, `aleph.cc:534-613`. -/
def diagramOfMatrix [LinearOrder α] (leftFirst : Bool) (inf : α) (A : Matrix α) (reverse : Bool) (vertexWeight : α)
    (unpairedData : Option α := none) : Except Failure (List (α × α)) := do
  let K ← bipartiteComplex vertexWeight A
  match zeroDimensional false leftFirst inf (sortedBy reverse K) with
  | none => .error .exception
  | some (points, _) => .ok (closePoints inf unpairedData points)

/-- `std::copy( source, source + n*d, target )`, `aleph.cc:470-473`: the strides of the array are not used. -/
def copyNumbers (A : Matrix α) (count : Nat) : Except Failure (List α) :=
  (List.range count).mapM fun k : Nat =>
    match A.memory ((k : Int) * 8) with
    | none => .error .undefined
    | some x => .ok x

/-- `calculatePersistenceDiagrams( buffer, epsilon, dimension )`, `aleph.cc:453-490`.  The distance between points (the Euclidean one) is a
parameter. -/
def diagramsOfBuffer [LinearOrder α] [Zero α] (o : Orders α) (inf : α) (dist : List α → List α → α) (A : Matrix α) (epsilon : α := 0)
    (dimension : Nat := 0) : Except Failure (List (Diagram α)) :=
  match A.shape with
  | [n, d] =>
    match copyNumbers A (n * d) with
    | .error e => .error e
    | .ok numbers =>
      let point := fun i : Nat => (numbers.drop (i * d)).take d
      match Rips.buildVietorisRips o 0 n (fun i j => dist (point i) (point j)) epsilon (if 0 < dimension then dimension else d + 1) with
      | none => .error .exception
      | some K =>
        match calculatePersistenceDiagrams .twist .vector inf K with
        | none => .error .exception
        | some Ds => .ok Ds
  | _ => .error .exception

end Aleph.PythonMatrix
