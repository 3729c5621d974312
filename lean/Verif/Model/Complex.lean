import Verif.Model.Simplex
import Mathlib.Data.Nat.Factorial.Basic

/-!
# Simplicial complexes

Models `include/aleph/topology/SimplicialComplex.hh` (without I/O).

The `boost::multi_index` container (`SimplicialComplex.hh:37-45`) is modelled by the list of
simplices in the order of its random access index, i.e. the current filtration
order.  Its unique lexicographic index makes insertion of a simplex with already
stored vertices a no-op; its dimension index evaluates `dimension()` as key,
hence inserting the empty simplex throws.  Look-ups compare vertices only, so that
queries take a list of vertices.
-/

namespace Aleph

/-- `SimplicialComplex`, `SimplicialComplex.hh:32-745`. -/
abbrev Complex (α : Type) := List (Simplex α)

namespace Complex

variable {α : Type}

/-- `find`, `SimplicialComplex.hh:332-353`; `none` is the past-the-end iterator. -/
def find (K : Complex α) (vs : List Nat) : Option (Simplex α) :=
  List.find? (fun s => s.vertices == vs) K

/-- `contains`, `SimplicialComplex.hh:312-315`. -/
def contains (K : Complex α) (vs : List Nat) : Bool := (K.find vs).isSome

/-- `index`, `SimplicialComplex.hh:368-376`; `none` is the exception. -/
def index (K : Complex α) (vs : List Nat) : Option Nat :=
  List.findIdx? (fun s => s.vertices == vs) K

/-- `at` and `operator[]` with a position, `SimplicialComplex.hh:207-221`; `none` is out of range (exception or
undefined behaviour). -/
def get (K : Complex α) (i : Nat) : Option (Simplex α) := K[i]?

/-- `push_back`, `SimplicialComplex.hh:128-131`; `none` is the exception for the empty simplex. -/
def pushBack (K : Complex α) (s : Simplex α) : Option (Complex α) :=
  if s.vertices.isEmpty then none
  else if K.contains s.vertices then some K
  else some (K ++ [s])

/-- `insert(begin, end)`, `SimplicialComplex.hh:111-115`, and the range constructors
`SimplicialComplex.hh:76-93`: elements are appended one after the other.  The flag tells
whether an empty simplex raised an exception; previous elements stay inserted. -/
def insertRange (K : Complex α) : List (Simplex α) → Complex α × Bool
  | [] => (K, false)
  | s :: l =>
    match K.pushBack s with
    | none => (K, true)
    | some K' => insertRange K' l

/-- `replace(position, simplex)`, `SimplicialComplex.hh:158-161`: fails if a different position stores
the same vertices; `none` is the exception for the empty simplex or an invalid
position. -/
def replace (K : Complex α) (i : Nat) (s : Simplex α) : Option (Complex α × Bool) :=
  if s.vertices.isEmpty ∨ ¬ i < K.length then none
  else
    match K.index s.vertices with
    | some j => if j = i then some (K.set i s, true) else some (K, false)
    | none => some (K.set i s, true)

/-- `rearrange(view)`, `SimplicialComplex.hh:142-145`.  The view is given by the list of positions;
`none` is a violation of the precondition that the view is a permutation. -/
def rearrange (K : Complex α) (p : List Nat) : Option (Complex α) :=
  if p.Perm (List.range K.length) then some (p.filterMap fun i => K[i]?) else none

/-- `sort(comparison)`, `SimplicialComplex.hh:451-454`: a stable sort of the random access index. -/
def sort (K : Complex α) (lt : Simplex α → Simplex α → Bool) : Complex α :=
  List.insertionSort (fun s t => lt t s = false) K

/-- `sort()`, `SimplicialComplex.hh:457-460`. -/
def sortLex (K : Complex α) : Complex α := K.sort Simplex.lt

/-- Dimension of a simplex stored in a complex (never the empty one): the key
`dimension()` of `SimplicialComplex.hh:43`. -/
def dim (s : Simplex α) : Nat := s.vertices.length - 1

/-- `dimension()`, `SimplicialComplex.hh:395-401`; `none` is the exception. -/
def dimension (K : Complex α) : Option Nat :=
  if K.isEmpty then none else some ((K.map dim).foldr max 0)

/-- `range(d)`, `SimplicialComplex.hh:415-437`: the simplices of dimension `d` (their relative order in
the dimension index depends on the insertion history and is not modelled). -/
def range (K : Complex α) (d : Nat) : List (Simplex α) := List.filter (fun s => dim s == d) K

/-- `vertices(result)`, `SimplicialComplex.hh:280-299`: first vertices of the zero-dimensional simplices,
collected in an ordered set. -/
def vertices (K : Complex α) : List Nat :=
  (((K.range 0).filterMap fun s => s.vertices.head?).dedup).insertionSort (· ≤ ·)

/-- `checkValidity`, `SimplicialComplex.hh:717-733`. -/
def checkValidity (K : Complex α) (s : Simplex α) : Bool := s.faces.all K.contains

/-- `remove_without_validation`, `SimplicialComplex.hh:617-620`. -/
def removeOnly (K : Complex α) (vs : List Nat) : Complex α :=
  List.filter (fun s => s.vertices != vs) K

/-- One `for` sweep of `remove`, `SimplicialComplex.hh:596-607`: `pre` is the part already visited.  Every
invalid simplex is erased at once, so that later checks see the smaller complex. -/
def removeSweep (pre : Complex α) : Complex α → Complex α × Bool
  | [] => (pre, false)
  | s :: post =>
    if checkValidity (pre ++ s :: post) s then removeSweep (pre ++ [s]) post
    else ((removeSweep pre post).1, true)

/-- The `do … while` loop of `remove`, `SimplicialComplex.hh:592-608`, with a bound on the number of
sweeps; `none` if the bound is exceeded. -/
def removeLoop : Nat → Complex α → Option (Complex α)
  | 0, _ => none
  | f + 1, K =>
    match removeSweep [] K with
    | (K', true) => removeLoop f K'
    | (K', false) => some K'

/-- `remove`, `SimplicialComplex.hh:586-609`. -/
def remove (K : Complex α) (vs : List Nat) : Option (Complex α) :=
  removeLoop (K.length + 1) (K.removeOnly vs)

/-- `checkAndRestoreValidity`, `SimplicialComplex.hh:688-707`: appends the missing boundary simplices with
the data of their coface. -/
def restoreValidity (K : Complex α) (s : Simplex α) : Complex α :=
  s.faces.foldl (fun K f => if K.contains f then K else K ++ [⟨f, s.data⟩]) K

/-- The loop of `createMissingFaces`, `SimplicialComplex.hh:634-638`, from position `i` on.  The container
grows during the iteration and the loop also visits appended simplices.  The first
argument bounds the number of iterations; `none` if it is exceeded. -/
def createMissingFacesLoop : Nat → Nat → Complex α → Option (Complex α)
  | 0, _, _ => none
  | f + 1, i, K =>
    match K[i]? with
    | none => some K
    | some s => createMissingFacesLoop f (i + 1) (K.restoreValidity s)

/-- `createMissingFaces`, `SimplicialComplex.hh:634-638`. -/
def createMissingFaces (K : Complex α) : Option (Complex α) :=
  createMissingFacesLoop ((K.map fun s => (s.vertices.length + 1).factorial).sum + 1) 0 K

/-- Setting the data of the simplex with given vertices: `replace` with a copy of the
simplex with new data (`SimplicialComplex.hh:567-571`), which never fails. -/
def setData (K : Complex α) (vs : List Nat) (d : α) : Complex α :=
  K.map fun s => if s.vertices = vs then { s with data := d } else s

/-- Loop body of `recalculateWeights(useMaximum, skipOneDimensionalSimplices)`,
`SimplicialComplex.hh:535-572`, for the simplex with vertices `vs`; `lo` and `hi` are
`numeric_limits::lowest()` and `max()`. -/
def recalcStep [LinearOrder α] (lo hi : α) (useMax skip : Bool) (K : Complex α) (s : Simplex α) :
    Complex α :=
  if dim s = 0 ∨ (skip ∧ dim s = 1) then K
  else
    K.setData s.vertices
      (s.faces.foldl (fun w f =>
        match K.find f with
        | none => w
        | some t => if useMax then max w t.data else min w t.data)
        (if useMax then lo else hi))

/-- `recalculateWeights(useMaximum, skipOneDimensionalSimplices)`, `SimplicialComplex.hh:531-573`, where
`ord` lists the simplices in the order of the dimension index. -/
def recalculateWeightsIn [LinearOrder α] (lo hi : α) (useMax skip : Bool) (ord K : Complex α) :
    Complex α :=
  ord.foldl (recalcStep lo hi useMax skip) K

/-- The dimension index (`SimplicialComplex.hh:43`) lists simplices by ascending dimension; ties are modelled
by the current order, `recalculateWeightsIn` leaves their order open. -/
def byDimension (K : Complex α) : Complex α :=
  List.insertionSort (fun s t => dim s ≤ dim t) K

/-- `recalculateWeights(useMaximum, skipOneDimensionalSimplices)`, `SimplicialComplex.hh:531-573`. -/
def recalculateWeights [LinearOrder α] (lo hi : α) (useMax skip : Bool) (K : Complex α) :
    Complex α :=
  recalculateWeightsIn lo hi useMax skip K.byDimension K

/-- `recalculateWeights(begin, end)`, `SimplicialComplex.hh:473-515`: resets all data to `hi`, assigns the
given weights to the vertices (`none` if `weights.at` throws) and recalculates. -/
def recalculateFromVertices [LinearOrder α] (lo hi : α) (weights : List α) (K : Complex α) :
    Option (Complex α) :=
  let K1 := K.map fun s => { s with data := hi }
  let K2 := K1.mapM fun s =>
    if dim s = 0 then (weights[s.vertices.headD 0]?).map fun w => { s with data := w } else some s
  K2.map (recalculateWeights lo hi true false)

/-- `operator==`, `SimplicialComplex.hh:648-662`: same vertices at all positions. -/
def eq (K L : Complex α) : Bool := K.map (·.vertices) == L.map (·.vertices)

/-- Mutating member functions of `SimplicialComplex` (`SimplicialComplex.hh:97-161, 451-460, 586-638`). -/
inductive Op (α : Type)
  | clear
  | pushBack (s : Simplex α)
  | insertRange (l : List (Simplex α))
  | replace (i : Nat) (s : Simplex α)
  | rearrange (p : List Nat)
  | sort (lt : Simplex α → Simplex α → Bool)
  | remove (vs : List Nat)
  | removeOnly (vs : List Nat)
  | createMissingFaces

/-- Effect of a call on the stored simplices, and whether it threw (`SimplicialComplex.hh:97-638`). -/
def exec (K : Complex α) : Op α → Option (Complex α × Bool)
  | .clear => some ([], false)
  | .pushBack s => some ((K.pushBack s).getD K, (K.pushBack s).isNone)
  | .insertRange l => some (K.insertRange l)
  | .replace i s => if i < K.length then
      some (match K.replace i s with
        | none => (K, true)
        | some (K', _) => (K', false))
      else none
  | .rearrange p => (K.rearrange p).map (·, false)
  | .sort lt => some (K.sort lt, false)
  | .remove vs => (K.remove vs).map (·, false)
  | .removeOnly vs => some (K.removeOnly vs, false)
  | .createMissingFaces => K.createMissingFaces.map (·, false)

/-- A history of calls (`SimplicialComplex.hh:97-638`); `none` if some call violates its precondition. -/
def runOps : Complex α → List (Op α) → Option (Complex α)
  | K, [] => some K
  | K, o :: os =>
    match K.exec o with
    | none => none
    | some (K', _) => runOps K' os

end Complex

/-- `Skeleton::operator()`, `topology/Skeleton.hh:35-46`. -/
def skeleton {α : Type} (k : Nat) (K : Complex α) : Option (Complex α) :=
  K.foldlM (fun L s =>
    match s.dimension with
    | none => none
    | some d => if d ≤ k then Complex.pushBack L s else some L) []

/-- `Filter::operator()`, `topology/Filter.hh:34-45`. -/
def filterComplex {α : Type} (f : Simplex α → Bool) (K : Complex α) : Option (Complex α) :=
  K.foldlM (fun L s => if f s then Complex.pushBack L s else some L) []

end Aleph
