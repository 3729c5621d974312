import Verif.Model.EdgeListReader
import Verif.Model.Filesystem
import Verif.Model.GmlReader
import Verif.Model.PajekReader
import Verif.Model.PlyReader
import Verif.Model.VtkReader

/-!
# Reading files of any format

Models `include/aleph/topology/io/SimplicialComplexReader.hh`.  The readers for the individual formats are modelled in other files, except for HDF5, which requires a library: its reader
is a parameter.  `files` are the contents of the files that can be opened.
-/

namespace Aleph.SimplicialComplexReader

variable {α : Type}

/-- What a call may do instead of returning. -/
inductive Failure
  | exception
  | assertion
  | undefined
  deriving DecidableEq

/-- Conversions of strings: `std::stoll` and `std::stoul` (or `std::stoull`), followed by the conversion to the vertex type, the extraction of a number from a stream, the check whether `std::stod` succeeds, and `utilities::convert` for the data type and for
the vertex type; the lowest and the highest number of the data type; and the reader for HDF5 files, which returns `none` in case of an exception. -/
structure Context (α : Type) where
  lo : α
  hi : α
  stoll : List Char → GmlReader.Parsed
  stoul : List Char → Option ℕ
  extract : List Char → Option ℕ
  real : List Char → Bool
  convert : List Char → α
  convertVertex : List Char → ℕ
  hdf5 : List Char → Option (Complex α)

/-- The members of the class, `SimplicialComplexReader.hh:224, 235, 290`. -/
structure Reader where
  dataAttribute : List Char := []
  labelAttribute : List Char := "label".toList
  labels : List (List Char) := []
  deriving DecidableEq

/-- `getLabels( map )`, `SimplicialComplexReader.hh:243-258`: the entries of a map are sorted by their keys. -/
def getLabels (map : List (List Char × List Char)) : List (List Char) :=
  if map.isEmpty then [] else ((map.insertionSort fun a b => a.1 ≤ b.1).map Prod.snd).filter fun label => !label.isEmpty

/-- The body of the loop in the following function, `SimplicialComplexReader.hh:274-278`; `none` is the exception of `at`. -/
def setLabel (idMap : List (List Char × ℕ)) (labels : List (List Char)) (entry : List Char × List Char) : Option (List (List Char)) :=
  if entry.2.isEmpty then some labels
  else
    match idMap.lookup entry.1 with
    | none => none
    | some i => if i < labels.length then some (labels.set i entry.2) else none

/-- The entries of a map that is given as a list of assignments, the most recent first. -/
def entries (map : List (List Char × List Char)) : List (List Char × List Char) := (GmlReader.sortedNames (map.map Prod.fst)).map fun id => (id, (map.lookup id).getD [])

/-- `getLabels( labelMap, idMap )`, `SimplicialComplexReader.hh:266-281`. -/
def getIndexedLabels (labelMap : List (List Char × List Char)) (idMap : List (List Char × ℕ)) : Option (List (List Char)) :=
  if labelMap.isEmpty || idMap.isEmpty then some [] else (entries labelMap).foldlM (setLabel idMap) (List.replicate (entries labelMap).length [])

/-- Failures of the reader for GML files. -/
def ofGml : GmlReader.Failure → Failure
  | .exception => .exception
  | .undefined => .undefined

/-- Failures of the reader for PLY files. -/
def ofPly : PlyReader.Failure → Failure
  | .exception => .exception
  | .assertion => .assertion
  | .undefined => .undefined

/-- The case of GML files, `SimplicialComplexReader.hh:101-109`. -/
def readGml [Zero α] [LinearOrder α] (c : Context α) (r : Reader) (text : List Char) : Except Failure (Reader × Complex α) :=
  match GmlReader.read c.stoll c.convert max text with
  | .error e => .error (ofGml e)
  | .ok (s, K) =>
    match getIndexedLabels (GmlReader.getNodeAttribute s r.labelAttribute) (GmlReader.idToIndex s) with
    | none => .error .exception
    | some labels => .ok ({ r with labels := labels }, K)

/-- The case of HDF5 files, `SimplicialComplexReader.hh:113-117`. -/
def readHdf5 (c : Context α) (r : Reader) (text : List Char) : Except Failure (Reader × Complex α) :=
  match c.hdf5 text with
  | none => .error .exception
  | some K => .ok (r, K)

/-- The case of Pajek files, `SimplicialComplexReader.hh:121-127`. -/
def readPajek [Zero α] (c : Context α) (r : Reader) (text : List Char) : Except Failure (Reader × Complex α) :=
  match PajekReader.read c.stoul c.convert [] text with
  | none => .error .exception
  | some (map, K) => .ok ({ r with labels := getLabels map }, K)

/-- The property that is used for PLY files, `SimplicialComplexReader.hh:136-137`. -/
def property (r : Reader) : List Char := if r.dataAttribute.isEmpty then PlyReader.defaultProperty else r.dataAttribute

/-- The case of PLY files, `SimplicialComplexReader.hh:132-140`. -/
def readPly [Zero α] [LinearOrder α] (c : Context α) (r : Reader) (text : List Char) : Except Failure (Reader × Complex α) :=
  match PlyReader.read c.lo c.hi c.extract c.real c.convert (property r) text with
  | .error e => .error (ofPly e)
  | .ok K => .ok (r, K)

/-- The case of VTK files, `SimplicialComplexReader.hh:144-148`. -/
def readVtk (c : Context α) (r : Reader) (f : α → α → α) (K : Complex α) (text : List Char) : Except Failure (Reader × Complex α) :=
  match VtkReader.read c.stoul c.convert f {} K text with
  | .error _ => .error .exception
  | .ok (_, K) => .ok (r, K)

/-- The case of edge lists, `SimplicialComplexReader.hh:154-161`. -/
def readEdges [Zero α] (c : Context α) (r : Reader) (text : List Char) : Except Failure (Reader × Complex α) :=
  match EdgeListReader.read {} c.convertVertex c.convert [] text with
  | none => .error .exception
  | some (_, K) => .ok (r, K)

/-- `operator()( filename, K, functor )`, `SimplicialComplexReader.hh:91-162`. -/
def read [Zero α] [LinearOrder α] (c : Context α) (r : Reader) (f : α → α → α) (files : List Char → Option (List Char)) (filename : List Char) (K : Complex α) :
    Except Failure (Reader × Complex α) :=
  match files filename with
  | none => .error .exception
  | some text =>
    let extension := Filesystem.extension filename
    if extension = ".gml".toList then readGml c r text
    else if extension = ".h5".toList then readHdf5 c r text
    else if extension = ".net".toList then readPajek c r text
    else if extension = ".ply".toList then readPly c r text
    else if extension = ".vtk".toList then readVtk c r f K text
    else readEdges c r text

/-- `operator()( filename, K )`, `SimplicialComplexReader.hh:57-63`. -/
def readMaximum [Zero α] [LinearOrder α] (c : Context α) (r : Reader) (files : List Char → Option (List Char)) (filename : List Char) (K : Complex α) :
    Except Failure (Reader × Complex α) := read c r max files filename K

end Aleph.SimplicialComplexReader
