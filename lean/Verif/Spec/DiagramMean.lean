import Verif.Model.Diagram
import Verif.Spec.Matching
import Mathlib.Algebra.Order.Field.Basic

/-!
# Specification vocabulary for means of persistence diagrams
-/

namespace Aleph.Spec

variable {α : Type} [Field α] [LinearOrder α]

/-- The squared distance of two points (maximum of the differences of coordinates). -/
def squaredDistance (p q : α × α) : α := max |p.1 - q.1| |p.2 - q.2| ^ 2

/-- The projection of a point to the diagonal. -/
def toDiagonal (p : α × α) : α × α := ((p.1 + p.2) / 2, (p.1 + p.2) / 2)

/-- `w` is the smallest cost of a partial matching, where a point without a partner is paired with its projection to the diagonal. -/
def IsPairingCost (A B : List (α × α)) (w : α) : Prop := IsMinimalCost squaredDistance (fun p => squaredDistance p (toDiagonal p)) A B w

/-- The points of `Z` are the arithmetic means of what optimal matchings assign to the points of `Y`, in the order of `Y`: for each diagram, the partner of
the point or, if there is none, the projection of the point to the diagonal. -/
def IsMeanStep (Ds : List (Diagram α)) (Y Z : List (α × α)) : Prop :=
  ∃ (m : (j : Fin Ds.length) → Finset (Fin Y.length × Fin Ds[j].points.length)) (a : Fin Ds.length → Fin Y.length → α × α),
    (∀ j, IsMatching (m j) ∧
      IsPairingCost Y Ds[j].points (matchingCost squaredDistance (fun p => squaredDistance p (toDiagonal p)) Y Ds[j].points (m j))) ∧
    (∀ j i, (∀ k, (i, k) ∈ m j → a j i = Ds[j].points[k]) ∧ ((∀ k, (i, k) ∉ m j) → a j i = toDiagonal Y[i])) ∧
    Z = List.ofFn fun i => ((∑ j, (a j i).1) / (Ds.length : α), (∑ j, (a j i).2) / (Ds.length : α))

end Aleph.Spec
