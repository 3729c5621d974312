import Verif.Spec.Complex
import Mathlib.Algebra.Order.Field.Basic
import Mathlib.Algebra.Order.Group.Abs

/-!
# Specification: data and diagrams that differ by at most `ε`
-/

namespace Aleph.Spec

variable {α : Type} [Field α] [LinearOrder α]

/-- Two complexes have the same simplices, in any order, and the data of each simplex differs by at most `ε`. -/
structure DataWithin (ε : α) (K L : Complex α) : Prop where
  simplices : (K.map (·.vertices)).Perm (L.map (·.vertices))
  data : ∀ s ∈ K, ∀ t ∈ L, s.vertices = t.vertices → |s.data - t.data| ≤ ε

/-- Creation and destruction of two points differ by at most `ε`; a point that is never destroyed corresponds to one that is never
destroyed. -/
def PointWithin (inf ε : α) (p q : α × α) : Prop :=
  |p.1 - q.1| ≤ ε ∧ (p.2 = inf ∧ q.2 = inf ∨ p.2 ≠ inf ∧ q.2 ≠ inf ∧ |p.2 - q.2| ≤ ε)

/-- The points of two diagrams correspond to each other, one by one and up to `ε`. -/
def PointsWithin (inf ε : α) (P Q : List (α × α)) : Prop :=
  ∃ P', P'.Perm P ∧ List.Forall₂ (PointWithin inf ε) P' Q

end Aleph.Spec
