import Verif.Model.Rips

/-!
# Sparse binary matrices and operations on unordered sets

Models `include/aleph/math/SparseMatrix.hh` and `include/aleph/utilities/UnorderedSetOperations.hh`.  The columns
of the code are ordered sets; here they are lists without duplicates, since no operation of the class depends on the
order of the elements of a column except for the order in which they are copied to an output iterator.
-/

namespace Aleph

/-- `SparseBinaryMatrix`, `SparseMatrix.hh:30-117`. -/
structure SparseMatrix where
  columns : List (List Nat)
  indexMap : List Nat
deriving DecidableEq, Repr

namespace SparseMatrix

/-- The constructor, `SparseMatrix.hh:40-43`. -/
def empty (columns : Nat) : SparseMatrix := ⟨List.replicate columns [], []⟩

/-- `set`, `SparseMatrix.hh:51-54`; `none` is the exception thrown by `at`. -/
def set (A : SparseMatrix) (row column : Nat) : Option SparseMatrix :=
  match A.columns[column]? with
  | none => none
  | some c => some { A with columns := A.columns.set column (Rips.insertSet c row) }

/-- `get(row, column)`, `SparseMatrix.hh:62-66`. -/
def get (A : SparseMatrix) (row column : Nat) : Option Bool :=
  (A.columns[column]?).map fun c => c.contains row

/-- `get(column, result)`, `SparseMatrix.hh:69-75`. -/
def column (A : SparseMatrix) (column : Nat) : Option (List Nat) := A.columns[column]?

/-- `setIndices`, `SparseMatrix.hh:78-83`; the flag says whether an exception was thrown (the indices are stored all
the same). -/
def setIndices (A : SparseMatrix) (indices : List Nat) : SparseMatrix × Bool :=
  ({ A with indexMap := indices }, decide (indices.length ≠ A.columns.length))

/-- `getIndex`, `SparseMatrix.hh:90-96`. -/
def getIndex (A : SparseMatrix) (column : Nat) : Option Nat :=
  if A.indexMap.isEmpty then some column else A.indexMap[column]?

/-- `numEntries`, `SparseMatrix.hh:99-102`. -/
def numEntries (A : SparseMatrix) (column : Nat) : Option Nat :=
  (A.columns[column]?).map List.length

/-- `numColumns`, `SparseMatrix.hh:105-108`. -/
def numColumns (A : SparseMatrix) : Nat := A.columns.length

end SparseMatrix

/-- `set_intersection` of unordered sets, `UnorderedSetOperations.hh:12-29`, with an empty third set.  The parameter is
the traversal order of unordered sets. -/
def setIntersection (order : List Nat → List Nat) (A B : List Nat) : List Nat :=
  if B.length < A.length then ((order B).filter fun a => A.contains a).foldl Rips.insertSet []
  else ((order A).filter fun a => B.contains a).foldl Rips.insertSet []

end Aleph
