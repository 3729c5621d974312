import Verif.Model.UnionFind
import Verif.Model.Diagram

/-!
# Classes of equal diagrams

Models the cleaning and the classification of diagrams in `src/tools/interlevel_set_persistence_hierarchy.cc`.
-/

namespace Aleph.DiagramClasses

variable {α : Type} [LinearOrder α]

/-- The comparison of points, `interlevel_set_persistence_hierarchy.cc:196-199`. -/
def pointLess (a b : α × α) : Bool := decide (a.1 < b.1) || (decide (a.1 = b.1) && decide (a.2 < b.2))

/-- The cleaned diagram, `interlevel_set_persistence_hierarchy.cc:194-201`.  The result of sorting does not depend on the algorithm, as points that are not ordered are equal. -/
def clean (D : Diagram α) : Diagram α :=
  let D := D.removeDiagonal
  { D with points := D.points.insertionSort fun a b => pointLess b a = false }

/-- The pairs of indices of the loops, `interlevel_set_persistence_hierarchy.cc:259-263`. -/
def pairs (n : ℕ) : List (ℕ × ℕ) := (List.range n).flatMap fun i => (List.range' (i + 1) (n - (i + 1))).map fun j => (i, j)

/-- The body of the loops, `interlevel_set_persistence_hierarchy.cc:261-268`; `none` is an exception. -/
def step (leftFirst : Bool) (Ds : List (Diagram α)) (uf : ParentMap) (ij : ℕ × ℕ) : Option ParentMap :=
  match Ds[ij.1]?, Ds[ij.2]? with
  | some D1, some D2 => if D1.eq D2 then uf.merge leftFirst ij.2 ij.1 else some uf
  | _, _ => none

/-- The loop over all roots, `interlevel_set_persistence_hierarchy.cc:279-296`: the lines that are written to the file. -/
def output (uf : ParentMap) : List ℕ → Option (List (List ℕ))
  | [] => some []
  | root :: roots =>
    match uf.get root with
    | none => none
    | some (uf', indices) =>
      match output uf' roots with
      | none => none
      | some lines => some (if indices.length > 1 then indices :: lines else lines)

/-- The classification, `interlevel_set_persistence_hierarchy.cc:253-297`: the classes and the number of different diagrams. -/
def classify (leftFirst : Bool) (Ds : List (Diagram α)) : Option (List (List ℕ) × ℕ) :=
  match (pairs Ds.length).foldlM (step leftFirst Ds) (ParentMap.ofRange (List.range Ds.length)) with
  | none => none
  | some uf =>
    match uf.roots with
    | none => none
    | some (uf', roots) =>
      match output uf' roots with
      | none => none
      | some lines => some (lines, roots.length)

end Aleph.DiagramClasses
