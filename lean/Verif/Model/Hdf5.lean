import Verif.Model.Complex

/-!
# Scalar fields in HDF5 files

Models `include/aleph/topology/io/HDF5.hh`, for a build with `ALEPH_WITH_HDF5` on a machine whose numbers have the least significant byte first.  The library for HDF5 files is not modelled: a file is
given by its data sets, a data set by its type, its dimensions and the bytes of its elements in the order of the file, where the last dimension varies fastest.  The library converts between the type of
the file and a type that is requested for the memory; bytes are copied if both are the same.
-/

namespace Aleph.Hdf5

variable {α : Type}

/-- Types of numbers, as far as they are distinguished in `HDF5.hh:229-252`. -/
inductive Kind
  | double
  | float
  | other
  deriving DecidableEq

/-- The order of bytes. -/
inductive Endian
  | little
  | big
  deriving DecidableEq

/-- A data set. -/
structure DataSet where
  kind : Kind
  endian : Endian
  dimensions : List ℕ
  elements : List (List ℕ)

/-- Files: groups, and the data sets of every group. -/
abbrev File := List Char → Option (List Char → Option DataSet)

/-- Members, `HDF5.hh:258-259`. -/
structure Reader where
  groupName : List Char := "/".toList
  dataSetName : List Char := "YField".toList

/-- Exceptions and undefined behaviour. -/
inductive Failure
  | exception
  | undefined
  deriving DecidableEq

/-- What the library writes to the memory if a type `kind`, `endian` is requested: bytes are reversed if the order is another one.  Conversions between different kinds are not used. -/
def transfer (ds : DataSet) (endian : Endian) : List (List ℕ) := ds.elements.map fun bytes => if endian = ds.endian then bytes else bytes.reverse

/-- `read`, `HDF5.hh:223-255`: the type that is requested for the memory is the type of the data set, but the memory contains native numbers, whose values are given by `double` and `float`.
Access to the first element of an empty vector is undefined. -/
def readValues (double float : List ℕ → α) (ds : DataSet) (size : ℕ) : Except Failure (List α) :=
  match ds.kind with
  | .double => if size = 0 then .error .undefined else .ok ((transfer ds ds.endian).map double)
  | .float => if size = 0 then .error .undefined else .ok ((transfer ds ds.endian).map float)
  | .other => .error .exception

/-- `coordinatesToIndex`, `HDF5.hh:134-137`. -/
def coordinatesToIndex (width x y : ℕ) : ℕ := y * width + x

/-- `neighbourCoordinates`, `HDF5.hh:148-159`. -/
def neighbours (width height x y : ℕ) : List ℕ :=
  (if x > 0 then [coordinatesToIndex width (x - 1) y] else []) ++
  (if x < width - 1 then [coordinatesToIndex width (x + 1) y] else []) ++
  (if y > 0 then [coordinatesToIndex width x (y - 1)] else []) ++
  (if y < height - 1 then [coordinatesToIndex width x (y + 1)] else []) ++
  (if x < width - 1 ∧ y > 0 then [coordinatesToIndex width (x + 1) (y - 1)] else [])

/-- An edge, `HDF5.hh:177-178`; `none` is an access to a value that does not exist. -/
def edge (f : α → α → α) (data : List α) (u v : ℕ) : Option (Simplex α) := do
  let a ← data[u]?
  let b ← data[v]?
  some (Simplex.ofRange [u, v] (f a b))

/-- Both triangles, `HDF5.hh:183-189`. -/
def triangles (f : α → α → α) (data : List α) (u v w x : ℕ) : Option (List (Simplex α)) := do
  let a ← data[u]?
  let b ← data[v]?
  let c ← data[w]?
  let d ← data[x]?
  some [Simplex.ofRange [u, x, w] (f a (f d c)), Simplex.ofRange [u, v, x] (f a (f b d))]

/-- The body of the loops, `HDF5.hh:143-190`. -/
def cell (f : α → α → α) (data : List α) (width height x y : ℕ) : Option (List (Simplex α)) := do
  let i := coordinatesToIndex width x y
  let edges ← ((neighbours width height x y).filter fun v => i > v).mapM (edge f data i)
  let faces ← if x < width - 1 ∧ y > 0 then
      triangles f data i (coordinatesToIndex width x (y - 1)) (coordinatesToIndex width (x + 1) y) (coordinatesToIndex width (x + 1) (y - 1))
    else some []
  some (edges ++ faces)

/-- The vector `simplices`, `HDF5.hh:119-192`. -/
def simplices (f : α → α → α) (data : List α) (width height : ℕ) : Option (List (Simplex α)) := do
  let vertices ← (List.range (width * height)).mapM fun i => (data[i]?).map fun a => Simplex.ofVertex i a
  let cells ← (List.range height).mapM fun y => (List.range width).mapM fun x => cell f data width height x y
  some (vertices ++ cells.flatten.flatten)

/-- The complex of a data set, `HDF5.hh:91-194`; data sets that do not have two dimensions leave the complex as it is. -/
def readDataSet (double float : List ℕ → α) (f : α → α → α) (ds : DataSet) (K : Complex α) : Except Failure (Complex α) :=
  match ds.dimensions with
  | [width, height] => do
    let data ← readValues double float ds (width * height)
    match simplices f data width height with
    | none => .error .undefined
    | some l => .ok (Complex.insertRange [] l).1
  | _ => .ok K

/-- `operator()( filename, K, f )`, `HDF5.hh:81-202`; files, groups and data sets that do not exist are reported by exceptions of the library. -/
def read (double float : List ℕ → α) (f : α → α → α) (r : Reader) (file : Option File) (K : Complex α) : Except Failure (Complex α) :=
  match file with
  | none => .error .exception
  | some file =>
    match file r.groupName with
    | none => .error .exception
    | some group =>
      match group r.dataSetName with
      | none => .error .exception
      | some ds => readDataSet double float f ds K

/-- `operator()( filename, K )`, `HDF5.hh:52-58`. -/
def readMax [LinearOrder α] (double float : List ℕ → α) (r : Reader) (file : Option File) (K : Complex α) : Except Failure (Complex α) :=
  read double float (fun a b => max a b) r file K

end Aleph.Hdf5
