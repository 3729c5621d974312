import Verif.Model.Conversions

/-!
# One-dimensional functions

Models `include/aleph/topology/io/Function.hh` and `calculatePersistenceDiagram` of
`include/aleph/persistentHomology/Calculation.hh:197-206`.

Reading numbers from a stream is not modelled: a function is the list of the values that were read
(simplification), a file of several functions the list of its lines.
-/

namespace Aleph

variable {α : Type}

namespace FunctionIO

/-- First loop of `loadFunction(begin, end, f)` and `loadFunctions`, `Function.hh:149-151, 217-220`: one vertex
for each value. -/
def pushVertices : Nat → List α → Complex α → Option (Complex α)
  | _, [], K => some K
  | v, a :: l, K =>
    match K.pushBack (Simplex.ofVertex v a) with
    | none => none
    | some K' => pushVertices (v + 1) l K'

/-- Second loop, `Function.hh:153-169, 222-238`: one edge for each pair of adjacent values. -/
def pushEdges (f : α → α → α) : Nat → List α → Complex α → Option (Complex α)
  | _, [], K => some K
  | _, [_], K => some K
  | v, a :: b :: l, K =>
    match K.pushBack (Simplex.ofRange [v, v + 1] (f a b)) with
    | none => none
    | some K' => pushEdges f (v + 1) (b :: l) K'

/-- `loadFunction(begin, end, f)`, `Function.hh:133-172`. -/
def pathComplex (f : α → α → α) (values : List α) : Option (Complex α) :=
  match pushVertices 0 values [] with
  | none => none
  | some K => pushEdges f 0 values K

/-- `loadFunctions(filename, f)`, `Function.hh:188-244`, for a file with the given lines. -/
def loadFunctions (f : α → α → α) (lines : List (List α)) : Option (List (Complex α)) :=
  lines.mapM (pathComplex f)

variable [LinearOrder α]

/-- The lambda `weight`, `Function.hh:57-68`; `none` is an exception of `at`. -/
def weight (values : List α) (i : Nat) : Option α :=
  if i < values.length then values[i]?
  else
    match values[i - values.length]?, values[i - values.length + 1]? with
    | some l, some r => some (max l r)
    | _, _ => none

/-- The comparison, `Function.hh:55-71`.  An exception is impossible for the indices that are sorted
(lemma `weight_isSome`). -/
def weightLt (values : List α) (i j : Nat) : Bool :=
  match weight values i, weight values j with
  | some a, some b => decide (a < b)
  | _, _ => false

/-- The vector `indices` after the stable sort, `Function.hh:51-71`. -/
def sortedIndices (values : List α) : List Nat :=
  (List.range (2 * values.length - 1)).insertionSort fun i j => weightLt values j i = false

/-- Loop body `Function.hh:82-98` for position `j`.  The `std::unordered_map` `vertexIndexMap` is an
association list, whose most recent entries come first. -/
def fillStep (k : Kind) (n : Nat) (st : Rep × List (Nat × Nat)) (ij : Nat × Nat) :
    Option (Rep × List (Nat × Nat)) :=
  if ij.1 < n then
    match st.1.clearColumn ij.2 with
    | none => none
    | some r => some (r, (ij.1, ij.2) :: st.2)
  else
    match st.2.lookup (ij.1 - n), st.2.lookup (ij.1 - n + 1) with
    | some a, some b =>
      match st.1.setColumn k ij.2 [a, b] with
      | none => none
      | some r => some (r, st.2)
    | _, _ => none

/-- Loop body `Function.hh:105-110`. -/
def extendStep (l : List α) (i : Nat) : Option (List α) :=
  match l[i]?, l[i + 1]? with
  | some a, some b => some (l ++ [max a b])
  | _, _ => none

/-- `loadFunction(filename, boundaryMatrix, functionValues)`, `Function.hh:26-125`, with the state `r` of the
matrix that is passed in and the values read from the file.  Results: the new state of the matrix and the vector
`functionValues`; `none` is an exception. -/
def loadFunction (k : Kind) (r : Rep) (values : List α) : Option (Rep × List α) :=
  if values.isEmpty then none
  else
    let indices := sortedIndices values
    match indices.zipIdx.foldlM (fillStep k values.length) (r.setNumColumns indices.length, []) with
    | none => none
    | some (r', _) =>
      match (List.range (values.length - 1)).foldlM extendStep values with
      | none => none
      | some ext =>
        match indices.mapM fun i => ext[i]? with
        | none => none
        | some vs => some (r', vs)

end FunctionIO

/-- `calculatePersistenceDiagram(boundaryMatrix, functionValues)`,
`persistentHomology/Calculation.hh:197-206`. -/
def calculatePersistenceDiagram (a : Algorithm) (k : Kind) (M : BM) (values : List α) :
    Option (Diagram α) :=
  match calculatePersistencePairing a k M with
  | none => none
  | some p => makePersistenceDiagram p values

end Aleph
