import Verif.Model.Rips
import Verif.Model.Conversions
import Verif.Model.UnionFind

/-!
# Python bindings for matrices

Models the functions of `bindings/python/aleph.cc` whose argument is a `numpy` matrix.  A matrix is described by its shape, its strides in
bytes and its memory: the number that is stored at an offset (in bytes) from the first element, or `none` if there is no such element.
Simplifications: numbers of vertices do not overflow `unsigned`; numbers are elements of an ordered type; the conversion of Python lists
into arrays is not modelled.
-/

namespace Aleph.PythonMatrix

variable {α : Type}

/-- The ways in which a call can fail: an exception, which is reported to Python, or an access out of bounds. -/
inductive Failure
  | exception
  | undefined
  deriving DecidableEq, Repr

/-- The members of `py::buffer_info` that are used, `aleph.cc:824-852`. -/
structure Matrix (α : Type) where
  shape : List Nat
  strides : List Int
  memory : Int → Option α

/-- The number of values of `std::size_t`. -/
def wordSize : Nat := 18446744073709551616

/-- `std::size_t( stride ) / sizeof(DataType)`, `aleph.cc:851-852`. -/
def elementStride (s : Int) : Nat := (s % wordSize).toNat / 8

/-- The offset in bytes of `ptr[u*rowStride+v*colStride]`, `aleph.cc:868`: all operations are modulo the range of `std::size_t`, and so is the
addition of the pointer, such that large offsets are negative ones. -/
def offset (rowStride colStride u v : Nat) : Int :=
  let bytes := (u * rowStride + v * colStride) * 8 % wordSize
  if 2 * bytes < wordSize then bytes else (bytes : Int) - wordSize

/-- Reads an element, `aleph.cc:868`. -/
def element (A : Matrix α) (s0 s1 : Int) (u v : Nat) : Except Failure α :=
  match A.memory (offset (elementStride s0) (elementStride s1) u v) with
  | none => .error .undefined
  | some w => .ok w

/-- The shape and the strides of a two-dimensional array, `aleph.cc:826-833` (other arrays raise an exception). -/
def dimensions (A : Matrix α) : Except Failure (Nat × Nat × Int × Int) :=
  match A.shape, A.strides with
  | [n, m], [s0, s1] => .ok (n, m, s0, s1)
  | _, _ => .error .exception

/-- The constructor of a complex from a range, `aleph.cc:872`; the exception for empty simplices. -/
def complexOf (l : List (Simplex α)) : Except Failure (Complex α) :=
  match Complex.insertRange [] l with
  | (_, true) => .error .exception
  | (K, false) => .ok K

/-- The complex of a distance matrix, `aleph.cc:835-872`, `915-954` and `1012-1049`: vertices with weight zero, and an edge for each entry above
the diagonal. -/
def distanceComplex [Zero α] (A : Matrix α) : Except Failure (Complex α) :=
  match dimensions A with
  | .error e => .error e
  | .ok (n, m, s0, s1) =>
    if n ≠ m then .error .exception
    else
      match ((List.range n).flatMap fun u => (List.range' (u + 1) (n - (u + 1))).map fun v => (u, v)).mapM
          fun e => (element A s0 s1 e.1 e.2).map fun w => Simplex.ofRange [e.1, e.2] w with
      | .error e => .error e
      | .ok edges => complexOf ((List.range n).map (fun v => Simplex.ofVertex v 0) ++ edges)

/-- `K.sort( aleph::topology::filtrations::Data<Simplex>() )`, `aleph.cc:885`. -/
def sorted [LinearOrder α] (K : Complex α) : Complex α := K.sort (asLt (Filtration.data fun a b => a < b))

/-- The expansion of a complex, `aleph.cc:876-881` and `1053-1057`. -/
def expanded [LinearOrder α] [Zero α] (o : Orders α) (dimension : Nat) (K : Complex α) : Except Failure (Complex α) :=
  match Rips.expand o 0 K dimension with
  | none => .error .exception
  | some L =>
    match Rips.assignMaximumWeight o 1 L with
    | none => .error .exception
    | some L => .ok L

/-- The persistence pairing of a complex, `aleph.cc:887-888`, with the default algorithm and representation. -/
def pairingOf (K : Complex α) : Except Failure (List (Nat × Nat)) :=
  match makeBoundaryMatrix .vector K with
  | none => .error .exception
  | some M =>
    match M.dualize with
    | none => .error .exception
    | some M =>
      match calculatePersistencePairing .twist .vector M with
      | none => .error .exception
      | some p => .ok p

/-- `vietoris_rips_from_matrix( M, max_dimension )`, `aleph.cc:821-895`. -/
def vietorisRips [LinearOrder α] [Zero α] (o : Orders α) (inf : α) (A : Matrix α) (maxDimension : Nat := 0) :
    Except Failure (List (Diagram α)) := do
  let K ← distanceComplex A
  let K ← if maxDimension ≠ 0 then expanded o maxDimension K else .ok K
  let K := sorted K
  let p ← pairingOf K
  match makePersistenceDiagrams inf p K with
  | none => .error .exception
  | some Ds => .ok Ds

/-- `std::make_pair( edge[1], edge[0] )`, `aleph.cc:979-980`. -/
def edgeOf (K : Complex α) (j : Nat) : Except Failure (Nat × Nat) :=
  match K[j]? with
  | none => .error .undefined
  | some e =>
    match e.vertices[1]?, e.vertices[0]? with
    | some a, some b => .ok (a, b)
    | _, _ => .error .undefined

/-- The loop over the pairs, `aleph.cc:968-982`. -/
def selectEdges (K : Complex α) (p : List (Nat × Nat)) : Except Failure (List (Nat × Nat)) :=
  p.foldlM (fun edges ij => if K.length < ij.2 then .ok edges else (edgeOf K ij.2).map fun e => edges ++ [e]) []

/-- `vietoris_rips_from_matrix_1d( M )`, `aleph.cc:901-987`. -/
def vietorisRips1d [LinearOrder α] [Zero α] (A : Matrix α) : Except Failure (List (Nat × Nat)) := do
  let K ← distanceComplex A
  let K := sorted K
  let p ← pairingOf K
  selectEdges K p

/-- The edge for a pair of dimension zero, `aleph.cc:1099-1106`: the creator, and a vertex of the destroyer that differs from it. -/
def edgeWithCreator (K : Complex α) (u j : Nat) : Except Failure (Nat × Nat) :=
  match K[j]? with
  | none => .error .undefined
  | some e =>
    match e.vertices[0]? with
    | none => .error .undefined
    | some x =>
      if x ≠ u then .ok (u, x)
      else
        match e.vertices[1]? with
        | none => .error .undefined
        | some y => .ok (u, y)

/-- The edges of a pair of dimension one, `aleph.cc:1110-1167`. -/
def edgePair [LinearOrder α] (A : Matrix α) (s0 s1 : Int) (K : Complex α) (creator : Simplex α) (j : Nat) :
    Except Failure (Nat × Nat × Nat × Nat) :=
  match K[j]? with
  | none => .error .undefined
  | some destroyer =>
    match destroyer.vertices[2]?, destroyer.vertices[1]?, destroyer.vertices[0]?, creator.vertices[1]?, creator.vertices[0]? with
    | some u, some v, some w, some i, some j => do
      let d1 ← element A s0 s1 u v
      let d2 ← element A s0 s1 u w
      let d3 ← element A s0 s1 v w
      if d1 ≥ creator.data then .ok (i, j, u, v)
      else if d2 ≥ creator.data then .ok (i, j, u, w)
      else if d3 ≥ creator.data then .ok (i, j, v, w)
      else .ok (i, j, i, j)
    | _, _, _, _, _ => .error .undefined

/-- Body of the loop over the pairs, `aleph.cc:1083-1169`. -/
def selectStep [LinearOrder α] (A : Matrix α) (s0 s1 : Int) (K : Complex α) (st : List (Nat × Nat) × List (Nat × Nat × Nat × Nat))
    (ij : Nat × Nat) : Except Failure (List (Nat × Nat) × List (Nat × Nat × Nat × Nat)) :=
  match K[ij.1]? with
  | none => .error .undefined
  | some creator =>
    match creator.dimension with
    | none => .error .exception
    | some 0 =>
      if K.length < ij.2 then .ok st
      else
        match creator.vertices[0]? with
        | none => .error .undefined
        | some u => (edgeWithCreator K u ij.2).map fun e => (st.1 ++ [e], st.2)
    | some 1 => (edgePair A s0 s1 K creator ij.2).map fun e => (st.1, st.2 ++ [e])
    | some _ => .ok st

/-- `vietoris_rips_from_matrix_2d( M )`, `aleph.cc:998-1174`. -/
def vietorisRips2d [LinearOrder α] [Zero α] (o : Orders α) (A : Matrix α) :
    Except Failure (List (Nat × Nat) × List (Nat × Nat × Nat × Nat)) := do
  let (_, _, s0, s1) ← dimensions A
  let K ← distanceComplex A
  let K ← expanded o 2 K
  let K := sorted K
  let p ← pairingOf K
  p.foldlM (selectStep A s0 s1 K) ([], [])

end Aleph.PythonMatrix
