import Verif.Model.SparseMatrix

/-!
# Maximal cliques

Models `include/aleph/topology/MaximalCliques.hh`.  Unordered sets are lists without duplicates; the order in which they
are traversed is given by the parameter `order`.  (Erasing elements does not change the order of the others.)
-/

namespace Aleph.Cliques

variable {α : Type}

/-- `createInitialVertexSet`, `MaximalCliques.hh:32-46`. -/
def createInitialVertexSet (K : Complex α) : List Nat := List.range K.vertices.length

/-- `vertex_to_id`, `MaximalCliques.hh:58-64`; `none` is the exception thrown by `at`. -/
def vertexToId (K : Complex α) (v : Nat) : Option Nat := K.vertices.idxOf? v

/-- The entries of one edge, `MaximalCliques.hh:68-80`; `none` is an exception. -/
def addEdge (K : Complex α) (A : SparseMatrix) (s : Simplex α) : Option SparseMatrix :=
  match s.vertices with
  | a :: b :: _ =>
    match vertexToId K a, vertexToId K b with
    | some u, some v =>
      match A.set u v with
      | none => none
      | some A => A.set v u
    | _, _ => none
  | _ => none

/-- `adjacencyMatrix`, `MaximalCliques.hh:48-84`; `none` is an exception. -/
def adjacencyMatrix (K : Complex α) (edges : List (Simplex α)) : Option SparseMatrix :=
  match edges.foldlM (addEdge K) (SparseMatrix.empty K.vertices.length) with
  | none => none
  | some A =>
    match A.setIndices K.vertices with
    | (A, false) => some A
    | (_, true) => none

/-- The ordered set of the labels of a clique, `MaximalCliques.hh:95-99` and `170-174`. -/
def newClique (A : SparseMatrix) (C : List Nat) : Option (List Nat) :=
  (C.mapM A.getIndex).map fun l => l.dedup.insertionSort (· ≤ ·)

/-- State of the traversal: the candidates `I`, the excluded vertices `X` and the cliques found so far,
`MaximalCliques.hh:87-91`. -/
structure State where
  I : List Nat
  X : List Nat
  cliques : List (List Nat)

/-- The recursive visit of one element, `MaximalCliques.hh:137-157` and `179-203`. -/
def visit (order : List Nat → List Nat) (A : SparseMatrix) (C : List Nat)
    (rec : List Nat → List Nat → List Nat → List (List Nat) → Option (List (List Nat)))
    (st : State) (element : Nat) : Option State :=
  let I := st.I.erase element
  match A.column element with
  | none => none
  | some neighbours =>
    match rec (Rips.insertSet C element) (setIntersection order I neighbours)
        (setIntersection order st.X neighbours) st.cliques with
    | none => none
    | some cliques => some ⟨I, Rips.insertSet st.X element, cliques⟩

/-- `enumerateBronKerbosch`, `MaximalCliques.hh:161-205`.  The first argument bounds the depth of the recursion; `none` is an
exception or an exhausted bound (shown not to happen). -/
def enumerateBronKerbosch (order : List Nat → List Nat) (A : SparseMatrix) :
    Nat → List Nat → List Nat → List Nat → List (List Nat) → Option (List (List Nat))
  | 0, _, _, _, _ => none
  | f + 1, C, I, X, cliques =>
    if I.isEmpty && X.isEmpty then
      match newClique A C with
      | none => none
      | some q => some (cliques ++ [q])
    else
      ((order I).foldlM (visit order A C (enumerateBronKerbosch order A f)) ⟨I, X, cliques⟩).map
        (·.cliques)

/-- Selection of the pivot, `MaximalCliques.hh:108-119`; `none` is an exception or an empty range. -/
def selectPivot (A : SparseMatrix) (l : List Nat) : Option Nat :=
  match l with
  | [] => none
  | p :: _ =>
    (l.foldlM (fun (st : Nat × Nat) v =>
      match A.numEntries v with
      | none => none
      | some degree => some (if degree > st.2 then (v, degree) else st)) (p, 0)).map Prod.fst

/-- One step of the loop of Koch's variant, `MaximalCliques.hh:123-158`. -/
def kochStep (order : List Nat → List Nat) (A : SparseMatrix) (C : List Nat)
    (rec : List Nat → List Nat → List Nat → List (List Nat) → Option (List (List Nat)))
    (pivot : Nat) (st : State) (element : Nat) : Option State :=
  match A.get element pivot with
  | none => none
  | some true => some st
  | some false => visit order A C rec st element

/-- `enumerateKoch`, `MaximalCliques.hh:86-159`. -/
def enumerateKoch (order : List Nat → List Nat) (A : SparseMatrix) :
    Nat → List Nat → List Nat → List Nat → List (List Nat) → Option (List (List Nat))
  | 0, _, _, _, _ => none
  | f + 1, C, I, X, cliques =>
    if I.isEmpty && X.isEmpty then
      match newClique A C with
      | none => none
      | some q => some (cliques ++ [q])
    else if I.isEmpty then some cliques
    else
      match selectPivot A (order I) with
      | none => none
      | some pivot =>
        ((order I).foldlM (kochStep order A C (enumerateKoch order A f) pivot) ⟨I, X, cliques⟩).map
          (·.cliques)

/-- `maximalCliquesKoch`, `MaximalCliques.hh:218-230`. -/
def maximalCliquesKoch (o : Orders α) (K : Complex α) : Option (List (List Nat)) :=
  match adjacencyMatrix K (o.simps (K.range 1)) with
  | none => none
  | some A =>
    enumerateKoch o.verts A (K.vertices.length + 1) [] (createInitialVertexSet K) [] []

/-- `maximalCliquesBronKerbosch`, `MaximalCliques.hh:232-244`. -/
def maximalCliquesBronKerbosch (o : Orders α) (K : Complex α) : Option (List (List Nat)) :=
  match adjacencyMatrix K (o.simps (K.range 1)) with
  | none => none
  | some A =>
    enumerateBronKerbosch o.verts A (K.vertices.length + 1) [] (createInitialVertexSet K) [] []

end Aleph.Cliques
