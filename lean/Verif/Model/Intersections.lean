import Verif.Model.Spine
import Verif.Model.Complex

/-!
# Intersections of simplices with simplicial complexes

Models the functions `intersect( K, s )` and `intersectWithConstrainedDimension( K, s )` of `include/aleph/topology/Intersections.hh`.  The results are
sets of simplices whose data is left unspecified; they are modelled by the lists of their vertices, without duplicates (simplification: the order of
`std::set` is not modelled).
-/

namespace Aleph.Intersections

variable {α : Type}

/-- The loop over a range of simplices, `Intersections.hh:90-98` and `Intersections.hh:125-133`. -/
def collect (s : List Nat) (range : List (Simplex α)) : List (List Nat) :=
  range.foldl (fun simplices t =>
    let u := Spine.intersect s t.vertices
    if u.isEmpty then simplices else simplices.insert u) []

/-- `intersect( K, s )`, `Intersections.hh:72-101`; `none` is the exception of `dimension()` for the empty simplex, which terminates the program. -/
def intersect (K : Complex α) (s : Simplex α) : Option (List (List Nat)) :=
  match K.find s.vertices with
  | some t => some [t.vertices]
  | none =>
    match s.dimension with
    | some d => some (collect s.vertices (List.filter (fun t => decide (Complex.dim t ≤ d)) K))
    | none => if K.isEmpty then some [] else none

/-- `intersectWithConstrainedDimension( K, s )`, `Intersections.hh:116-138`. -/
def intersectConstrained (K : Complex α) (s : Simplex α) : Option (List (List Nat)) :=
  match s.dimension with
  | some d => some (collect s.vertices (K.range d))
  | none => none

end Aleph.Intersections
