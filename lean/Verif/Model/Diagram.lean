import Mathlib.Data.List.Sort

/-!
# Persistence diagrams

Models `include/aleph/persistenceDiagrams/PersistenceDiagram.hh`.  A point is a pair of data values.
The parameter `inf` stands for `numeric_limits::infinity()`, or `max()` for types without
infinity; it is the second coordinate of unpaired points.
-/

namespace Aleph

/-- `PersistenceDiagram`, `PersistenceDiagram.hh:14-246`: members `_dimension` and `_points`. -/
structure Diagram (α : Type) where
  dimension : Nat
  points : List (α × α)
deriving DecidableEq, Repr

namespace Diagram

variable {α : Type}

/-- A default-constructed diagram, `PersistenceDiagram.hh:241-245`. -/
def empty : Diagram α := ⟨0, []⟩

/-- `add(x)`, `PersistenceDiagram.hh:99-102`, with the constructor `PersistenceDiagram.hh:28-34`. -/
def addUnpaired (inf : α) (D : Diagram α) (x : α) : Diagram α :=
  { D with points := D.points ++ [(x, inf)] }

/-- `add(x, y)`, `PersistenceDiagram.hh:104-107`. -/
def add (D : Diagram α) (x y : α) : Diagram α := { D with points := D.points ++ [(x, y)] }

/-- `insert(position, first, last)`, `PersistenceDiagram.hh:118-123`; `none` for an invalid position. -/
def insert (D : Diagram α) (i : Nat) (l : List (α × α)) : Option (Diagram α) :=
  if i ≤ D.points.length then some { D with points := D.points.take i ++ l ++ D.points.drop i }
  else none

/-- `erase(position)`, `PersistenceDiagram.hh:125-128`; `none` for an invalid position. -/
def erase (D : Diagram α) (i : Nat) : Option (Diagram α) :=
  if i < D.points.length then some { D with points := D.points.eraseIdx i } else none

/-- `isUnpaired`, `PersistenceDiagram.hh:68-72`. -/
def isUnpaired [DecidableEq α] (inf : α) (p : α × α) : Bool := p.2 = inf

/-- `removeDiagonal`, `PersistenceDiagram.hh:136-146`. -/
def removeDiagonal [DecidableEq α] (D : Diagram α) : Diagram α :=
  { D with points := D.points.filter fun p => !decide (p.1 = p.2) }

/-- `removeUnpaired`, `PersistenceDiagram.hh:149-159`. -/
def removeUnpaired [DecidableEq α] (inf : α) (D : Diagram α) : Diagram α :=
  { D with points := D.points.filter fun p => !isUnpaired inf p }

/-- `Point::operator<`, `PersistenceDiagram.hh:60-66`. -/
def pointLt [LinearOrder α] (p q : α × α) : Bool :=
  if p.1 = q.1 then decide (p.2 < q.2) else decide (p.1 < q.1)

/-- Insertion into `std::set<Point>`, `PersistenceDiagram.hh:170`. -/
def setInsert [LinearOrder α] (p : α × α) : List (α × α) → List (α × α)
  | [] => [p]
  | q :: l => if pointLt p q then p :: q :: l else if pointLt q p then q :: setInsert p l else q :: l

/-- `removeDuplicates`, `PersistenceDiagram.hh:168-174`. -/
def removeDuplicates [LinearOrder α] (D : Diagram α) : Diagram α :=
  { D with points := D.points.foldl (fun l p => setInsert p l) [] }

/-- `merge(other)`, `PersistenceDiagram.hh:184-188`. -/
def merge (D E : Diagram α) : Diagram α := { D with points := D.points ++ E.points }

/-- `setDimension`, `PersistenceDiagram.hh:192-195`. -/
def setDimension (D : Diagram α) (d : Nat) : Diagram α := { D with dimension := d }

/-- `operator==`, `PersistenceDiagram.hh:204-207`. -/
def eq [DecidableEq α] (D E : Diagram α) : Bool := D.points == E.points

/-- `betti`, `PersistenceDiagram.hh:217-227`. -/
def betti [DecidableEq α] (inf : α) (D : Diagram α) : Nat := D.points.countP (isUnpaired inf)

end Diagram

end Aleph
