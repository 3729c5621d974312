import Verif.Model.PersistenceIndicator

/-!
# The number of active intervals of a persistence diagram
-/

namespace Aleph.Spec

variable {α : Type} [LinearOrder α]

/-- The number of intervals of the diagram `D` that contain `t` in their interior; an interval extends from the smaller to the
larger coordinate of a point. -/
def activeIntervals (D : List (α × α)) (t : α) : Nat := D.countP fun p => min p.1 p.2 < t ∧ t < max p.1 p.2

/-- `v` is a coordinate of a point of the diagram. -/
def IsEvent (D : List (α × α)) (v : α) : Prop := ∃ p ∈ D, v = p.1 ∨ v = p.2

/-- At `v` an interval of the diagram starts and an interval ends. -/
def IsMixed (D : List (α × α)) (v : α) : Prop := (∃ p ∈ D, p.1 = v) ∧ ∃ p ∈ D, p.2 = v

/-- `next` behaves like the successor function of a type of numbers, as far as the diagram is concerned: the successor of a value
`v` lies between `v` and all larger values.  This is required only if an interval starts and an interval ends at `v`. -/
def NextFits (next : α → α) (D : List (α × α)) : Prop :=
  ∀ v, IsMixed D v → v < next v ∧ ∀ w, IsEvent D w → v < w → next v < w

/-- `t` is not a coordinate of a point, and it does not lie between such a value and its successor. -/
def Regular (next : α → α) (D : List (α × α)) (t : α) : Prop :=
  ¬IsEvent D t ∧ ∀ v, IsMixed D v → ¬(v < t ∧ t < next v)

end Aleph.Spec
