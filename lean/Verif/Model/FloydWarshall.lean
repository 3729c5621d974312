import Verif.Model.Complex
import Verif.Model.SymmetricMatrix
import Mathlib.Algebra.Order.Monoid.Defs
import Mathlib.Algebra.Order.Monoid.Unbundled.WithTop

/-!
# Shortest paths

Models `include/aleph/topology/FloydWarshall.hh`.  Entries of the matrix are weights or infinity (`⊤`), as for a data
type with `numeric_limits::has_infinity`; weights themselves are finite.  The vertex type is large enough for the size
of the matrix.
-/

namespace Aleph

namespace FloydWarshall

variable {α : Type}

/-- `vertex_to_index`, `FloydWarshall.hh:45-52`: the vertices (as simplices) in the order of the complex; the index of a
vertex is its position. -/
def vertexList (K : Complex α) : List (List Nat) :=
  ((K : List (Simplex α)).filter fun s => Complex.dim s == 0).map (·.vertices)

/-- The lookup `vertex_to_index.at(u)`, `FloydWarshall.hh:77-78`; `none` is the exception. -/
def vertexIndex (K : Complex α) (u : Nat) : Option Nat := (vertexList K).idxOf? [u]

/-- Initialisation, `FloydWarshall.hh:62-69`. -/
def initial [Zero α] (n : Nat) : Option (SymMatrix (WithTop α)) :=
  SymMatrix.setAll (SymMatrix.ofRows id 0 n)
    ((List.range n).flatMap fun i =>
      (i, i, 0) :: ((List.range n).filter fun j => i < j).map fun j => (i, j, ⊤))

/-- The assignment for an edge, `FloydWarshall.hh:73-81`; other simplices are skipped. -/
def edgeStep [Zero α] [DecidableEq α] (K : Complex α) (w : α) (M : SymMatrix (WithTop α)) (s : Simplex α) :
    Option (SymMatrix (WithTop α)) :=
  if Complex.dim s = 1 then
    match s.vertices with
    | u :: v :: _ =>
      match vertexIndex K u, vertexIndex K v with
      | some iu, some iv => M.set iu iv ((if s.data ≠ 0 then s.data else w : α) : WithTop α)
      | _, _ => none
    | _ => none
  else some M

/-- Body of the innermost loop, `FloydWarshall.hh:90-91`. -/
def relax [Add α] [LinearOrder α] (k : Nat) (M : SymMatrix (WithTop α)) (ij : Nat × Nat) :
    Option (SymMatrix (WithTop α)) :=
  match M.get ij.1 ij.2, M.get ij.1 k, M.get k ij.2 with
  | some a, some b, some c => if a > b + c then M.set ij.1 ij.2 (b + c) else some M
  | _, _, _ => none

/-- The pairs visited by the two inner loops, `FloydWarshall.hh:86-88`. -/
def pairs (n : Nat) : List (Nat × Nat) :=
  (List.range n).flatMap fun i => ((List.range n).filter fun j => i < j).map fun j => (i, j)

/-- `floydWarshall(K, w)`, `FloydWarshall.hh:30-97`. -/
def run [Zero α] [Add α] [LinearOrder α] (K : Complex α) (w : α) : Option (SymMatrix (WithTop α)) :=
  match initial (vertexList K).length with
  | none => none
  | some M =>
    match K.foldlM (edgeStep K w) M with
    | none => none
    | some M =>
      (List.range (vertexList K).length).foldlM (fun M k =>
        (pairs (vertexList K).length).foldlM (relax k) M) M

end FloydWarshall

end Aleph
