import Mathlib.Data.List.Sort

/-!
# Boundary matrices and their column representations

Models
* `include/aleph/topology/representations/{Vector,List,Set}.hh`
* `include/aleph/topology/BoundaryMatrix.hh`

A column is the list of its row indices in container order.  The index type
(`unsigned` by default) is modelled by `Nat` (simplification: no wrap-around of
the index type; the number of columns is bounded by it anyway).  `none` as a
result of an operation stands for the exception `std::out_of_range` thrown by
`.at()`.
-/

namespace Aleph

/-- Inner loop of `std::set_symmetric_difference` for a fixed head `x` of the
first range (with tail `rest`); `next` continues with the tail of the first
range.  Structural splitting of the loop used in
`representations/Vector.hh:49-51`, `List.hh:49-51`, `Set.hh:48-50`. -/
def symmDiffGo (x : Nat) (rest : List Nat) (next : List Nat → List Nat) :
    List Nat → List Nat
  | [] => x :: rest
  | y :: ys =>
    if x < y then x :: next (y :: ys)
    else if y < x then y :: symmDiffGo x rest next ys
    else next ys

/-- `std::set_symmetric_difference` on two sorted ranges, as called in
`representations/Vector.hh:49-51` (source range first, target range second). -/
def symmDiff : List Nat → List Nat → List Nat
  | [], ys => ys
  | x :: xs, ys => symmDiffGo x xs (symmDiff xs) ys

/-- Which container stores the columns: `representations/Vector.hh:107`,
`representations/List.hh:107`, `representations/Set.hh:103`. -/
inductive Kind
  | vector
  | list
  | set
deriving DecidableEq, Repr

/-- The two members of each representation class: `_data` and `_dimensions`
(`Vector.hh:107-108`, `List.hh:107-108`, `Set.hh:103-104`). -/
structure Rep where
  data : List (List Nat)
  dims : List Nat
deriving DecidableEq, Repr

namespace Rep

/-- A default-constructed representation (`Vector.hh:107-108`). -/
def empty : Rep := ⟨[], []⟩

/-- `std::vector::resize` for a vector of default-constructible values, as called in `Vector.hh:24-25`. -/
def resize {α : Type} (d : α) (n : Nat) (l : List α) : List α :=
  l.take n ++ List.replicate (n - l.length) d

/-- `setNumColumns`, `Vector.hh:22-26`, `List.hh:23-27`, `Set.hh:22-26`. -/
def setNumColumns (r : Rep) (n : Nat) : Rep :=
  ⟨resize [] n r.data, resize 0 n r.dims⟩

/-- `getNumColumns`, `Vector.hh:28-31`. -/
def numColumns (r : Rep) : Nat := r.data.length

/-- `getColumn`, `Vector.hh:73-76`. -/
def getColumn (r : Rep) (j : Nat) : Option (List Nat) := r.data[j]?

/-- `getMaximumIndex`, `Vector.hh:33-39`, `Set.hh:33-39`: `some none` is the
pair `(0,false)` for an empty column, `some (some i)` the pair `(i,true)` with
the last element `i` of the column, `none` an exception. -/
def getMaximumIndex (r : Rep) (j : Nat) : Option (Option Nat) :=
  match r.data[j]? with
  | none => none
  | some c => some c.getLast?

/-- How a freshly computed sorted range is stored: a `std::set` drops repeated
elements on insertion (`Set.hh:46-52`), the other containers keep them. -/
def store (k : Kind) (c : List Nat) : List Nat :=
  match k with
  | .vector => c
  | .list => c
  | .set => c.dedup

/-- `addColumns(source, target)`, `Vector.hh:41-54`, `List.hh:42-54`,
`Set.hh:41-53`. -/
def addColumns (k : Kind) (r : Rep) (source target : Nat) : Option Rep :=
  match r.data[source]?, r.data[target]? with
  | some s, some t => some { r with data := r.data.set target (store k (symmDiff s t)) }
  | _, _ => none

/-- `setColumn(column, begin, end)`, `Vector.hh:56-71`, `List.hh:56-71` (assign
and sort) and `Set.hh:55-67` (insertion into an ordered set).  The dimension is
the length of the *input range* minus one, and zero for the empty range. -/
def setColumn (k : Kind) (r : Rep) (j : Nat) (c : List Nat) : Option Rep :=
  if j < r.data.length ∧ j < r.dims.length then
    some ⟨r.data.set j (store k (c.insertionSort (· ≤ ·))), r.dims.set j (c.length - 1)⟩
  else none

/-- `clearColumn`, `Vector.hh:78-81`. -/
def clearColumn (r : Rep) (j : Nat) : Option Rep :=
  if j < r.data.length then some { r with data := r.data.set j [] } else none

/-- `setDimension`, `Vector.hh:83-86`. -/
def setDimension (r : Rep) (j d : Nat) : Option Rep :=
  if j < r.dims.length then some { r with dims := r.dims.set j d } else none

/-- `getDimension(column)`, `Vector.hh:88-91`. -/
def getDimension (r : Rep) (j : Nat) : Option Nat := r.dims[j]?

/-- `getDimension()`, `Vector.hh:93-99`: maximum of all dimensions, zero for an
empty matrix. -/
def dimension (r : Rep) : Nat := r.dims.foldr max 0

/-- The mutating member functions of a representation (`Vector.hh:22-86`). -/
inductive Op
  | setNumColumns (n : Nat)
  | addColumns (source target : Nat)
  | setColumn (j : Nat) (c : List Nat)
  | clearColumn (j : Nat)
  | setDimension (j d : Nat)
deriving DecidableEq, Repr

/-- Effect of one call (`Vector.hh:22-86`); `none` is an exception. -/
def exec (k : Kind) (r : Rep) : Op → Option Rep
  | .setNumColumns n => some (r.setNumColumns n)
  | .addColumns s t => r.addColumns k s t
  | .setColumn j c => r.setColumn k j c
  | .clearColumn j => r.clearColumn j
  | .setDimension j d => r.setDimension j d

/-- A history of calls on a default-constructed object.  A call that throws leaves
the object unchanged (`.at` throws before anything is modified, `Vector.hh:46-84`).  The result
also lists for each call whether it threw. -/
def runOps (k : Kind) : Rep → List Op → Rep × List Bool
  | r, [] => (r, [])
  | r, o :: os =>
    match r.exec k o with
    | none => ((runOps k r os).1, true :: (runOps k r os).2)
    | some r1 => ((runOps k r1 os).1, false :: (runOps k r1 os).2)

end Rep

/-- `BoundaryMatrix`, `topology/BoundaryMatrix.hh:27-259`: a representation and
the flag `_isDualized`. The default representation `Vector`
(`config/Defaults.hh`) is used here. -/
structure BM where
  rep : Rep
  dual : Bool
deriving DecidableEq, Repr

namespace BM

/-- `getNumColumns`, `BoundaryMatrix.hh:37-40`. -/
def numColumns (M : BM) : Nat := M.rep.numColumns

/-- Column `j` as a list of rows; `[]` beyond the matrix. Total reader used by the
specification; the modelled API is `Rep.getColumn`. -/
def col (M : BM) (j : Nat) : List Nat := M.rep.data.getD j []

/-- Recorded dimension of column `j`; `0` beyond the matrix (total reader). -/
def dim (M : BM) (j : Nat) : Nat := M.rep.dims.getD j 0

/-- Column `a` of the anti-transpose before sorting, `BoundaryMatrix.hh:139-145`:
the loop over `j` pushes `n-1-j` to column `n-1-i` for each entry `i` of column
`j`, with multiplicity. -/
def dualColumn (n : Nat) (data : List (List Nat)) (a : Nat) : List Nat :=
  (data.zipIdx).flatMap fun (c, j) =>
    (c.filter fun i => n - 1 - i = a).map fun _ => n - 1 - j

/-- `dualize`, `BoundaryMatrix.hh:113-170`.  `none` models the out-of-range write
`dualMatrix[numColumns-1-i]` (undefined behaviour) for an entry `i` that is not
a valid index.  Sorting, `setColumn` and `setDimension` of lines 155-166 are
combined, `d - dim(j)` of line 150 cannot underflow because `d` is the maximum. -/
def dualize (M : BM) : Option BM :=
  let n := M.rep.data.length
  if M.rep.data.all (fun c => c.all (fun i => i < n)) ∧ M.rep.dims.length = n then
    some
      { rep :=
          { data := (List.range n).map fun a =>
              ((dualColumn n M.rep.data a).insertionSort (· ≤ ·))
            dims := (List.range n).map fun a => M.rep.dimension - M.dim (n - 1 - a) }
        dual := !M.dual }
  else none

end BM

end Aleph
