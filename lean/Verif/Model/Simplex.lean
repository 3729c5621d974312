import Mathlib.Data.List.Sort

/-!
# Simplices

Models `include/aleph/topology/Simplex.hh` and the comparison functors of
`include/aleph/topology/filtrations/{Data,LowerStar,UpperStar}.hh`.

The vertex type is modelled by `Nat` (simplification: no conversion to a narrower
vertex type), the data type `α` is arbitrary.
-/

namespace Aleph

/-- `std::unique` followed by `erase`, `Simplex.hh:123-126`: drops each element equal to its
successor. -/
def uniq : List Nat → List Nat
  | [] => []
  | [x] => [x]
  | x :: y :: l => if x = y then uniq (y :: l) else x :: uniq (y :: l)

/-- `Simplex`, `Simplex.hh:39-351`: the members `_vertices` and `_data`. -/
structure Simplex (α : Type) where
  vertices : List Nat
  data : α
deriving DecidableEq, Repr

namespace Simplex

variable {α : Type}

/-- The range constructor `Simplex(begin, end, data)`, `Simplex.hh:112-127`: vertices are
sorted in descending order, then duplicates are removed.  The constructor from an
initializer list delegates to it. -/
def ofRange (vs : List Nat) (d : α) : Simplex α :=
  ⟨uniq (vs.insertionSort (· ≥ ·)), d⟩

/-- `Simplex(VertexType u, DataType data)`, `Simplex.hh:79-83`. -/
def ofVertex (v : Nat) (d : α) : Simplex α := ⟨[v], d⟩

/-- The constructor `Simplex(simplex, data)`, `Simplex.hh:95-99`, and `setData`. -/
def withData (s : Simplex α) (d : α) : Simplex α := { s with data := d }

/-- `contains(vertex)`, `Simplex.hh:181-184`. -/
def hasVertex (s : Simplex α) (v : Nat) : Bool := s.vertices.contains v

/-- `size()`, `Simplex.hh:267-270`. -/
def size (s : Simplex α) : Nat := s.vertices.length

/-- `dimension()`, `Simplex.hh:258-264`; `none` is the exception thrown for the empty
simplex. -/
def dimension (s : Simplex α) : Option Nat :=
  if s.vertices.isEmpty then none else some (s.vertices.length - 1)

/-- `operator==`, `Simplex.hh:296-299`: only vertices are compared. -/
def eq (s t : Simplex α) : Bool := s.vertices == t.vertices

/-- `std::lexicographical_compare` of vertex ranges, as used by `Simplex.hh:322-326`. -/
def lexLt : List Nat → List Nat → Bool
  | _, [] => false
  | [], _ :: _ => true
  | x :: xs, y :: ys => if x < y then true else if y < x then false else lexLt xs ys

/-- `operator<`, `Simplex.hh:322-326`. -/
def lt (s t : Simplex α) : Bool := lexLt s.vertices t.vertices

/-- `hash_value`, `Simplex.hh:355-360`: `boost::hash` of the vector of vertices, where `combine`
stands for the mixing function of boost. -/
def hash (combine : Nat → Nat → Nat) (s : Simplex α) : Nat := s.vertices.foldl combine 0

/-- The vertices of the simplices in the range `begin_boundary()`..`end_boundary()`,
`Simplex.hh:189-202` with the dereference operator `Simplex.hh:420-439`: empty for at
most one vertex, otherwise for each vertex `v` the range constructor is applied to the
vertices different from `v`. -/
def faces (s : Simplex α) : List (List Nat) :=
  if s.vertices.length ≤ 1 then []
  else s.vertices.map fun v => uniq ((s.vertices.filter (· ≠ v)).insertionSort (· ≥ ·))

/-- The boundary simplices themselves; they carry default-constructed data `d0`
(`Simplex.hh:438`). -/
def boundary (d0 : α) (s : Simplex α) : List (Simplex α) := s.faces.map fun vs => ⟨vs, d0⟩

end Simplex

/-! ## Comparators -/

namespace Filtration

variable {α : Type} [LinearOrder α]

/-- `filtrations::Data<Simplex, Compare>::operator()`, `filtrations/Data.hh:21-37`.  `lt` is the functor
`Compare`.  The dimensions compared by the code throw for empty simplices, which a
complex cannot contain. -/
def data (lt : α → α → Bool) (s t : Simplex α) : Option Bool :=
  if s.data = t.data then
    match s.dimension, t.dimension with
    | some m, some n => if m = n then some (s.lt t) else some (decide (m < n))
    | _, _ => none
  else some (lt s.data t.data)

/-- Fold of `std::max` over the values of the vertices, `filtrations/LowerStar.hh:96-104`; `none` is the
out-of-bounds read for a vertex without value. -/
def maximumValue (lo : α) (values : List α) (s : Simplex α) : Option α :=
  s.vertices.foldlM (fun m v => (values[v]?).map (max m)) lo

/-- `filtrations::LowerStar::operator()`, `filtrations/LowerStar.hh:68-86`; `lo` is
`numeric_limits::lowest()`. -/
def lowerStar (lo : α) (values : List α) (s t : Simplex α) : Option Bool :=
  match maximumValue lo values s, maximumValue lo values t with
  | some a, some b => if a < b then some true else if a = b then some (s.lt t) else some false
  | _, _ => none

/-- Fold of `std::min` over the values of the vertices, `filtrations/UpperStar.hh:84-92`. -/
def minimumValue (hi : α) (values : List α) (s : Simplex α) : Option α :=
  s.vertices.foldlM (fun m v => (values[v]?).map (min m)) hi

/-- `filtrations::UpperStar::operator()`, `filtrations/UpperStar.hh:56-74`; `hi` is
`numeric_limits::max()`. -/
def upperStar (hi : α) (values : List α) (s t : Simplex α) : Option Bool :=
  match minimumValue hi values s, minimumValue hi values t with
  | some a, some b => if b < a then some true else if a = b then some (s.lt t) else some false
  | _, _ => none

end Filtration

/-- A comparator as called by a sorting function (`SimplicialComplex.hh:451-454`).  The value for an
exception is irrelevant: the theorems about sorting assume that none occurs. -/
def asLt {α : Type} (cmp : Simplex α → Simplex α → Option Bool) (s t : Simplex α) : Bool :=
  (cmp s t).getD false

end Aleph
