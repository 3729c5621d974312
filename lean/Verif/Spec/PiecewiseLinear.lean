import Verif.Model.PiecewiseLinear

/-!
# Piecewise linear functions

A piecewise linear function is given by finitely many points with distinct first coordinates.
-/

namespace Aleph.Spec

variable {α : Type} [LinearOrder α]

/-- The points are in strictly ascending order of their first coordinates. -/
def Ascending (f : List (α × α)) : Prop := f.Pairwise fun p q => p.1 < q.1

/-- `x` lies between the smallest and the largest first coordinate. -/
def InDomain (f : List (α × α)) (x : α) : Prop := (∃ p ∈ f, p.1 ≤ x) ∧ ∃ q ∈ f, x ≤ q.1

/-- `p` and `q` are points of `f`, and there is no point between them. -/
def Neighbours (f : List (α × α)) (p q : α × α) : Prop :=
  p ∈ f ∧ q ∈ f ∧ p.1 < q.1 ∧ ∀ r ∈ f, r.1 ≤ p.1 ∨ q.1 ≤ r.1

/-- The piecewise linear function through the points `f` has value `y` at `x`: either `(x, y)` is one of the points, or it lies on
the segment between two neighbours, or `x` is outside of the domain and `y` is zero. -/
def ValueAt [Field α] (f : List (α × α)) (x y : α) : Prop :=
  (x, y) ∈ f ∨
  (∃ p q, Neighbours f p q ∧ p.1 < x ∧ x < q.1 ∧ (y - p.2) * (q.1 - p.1) = (q.2 - p.2) * (x - p.1)) ∨
  (¬InDomain f x ∧ y = 0)

/-- Between neighbours the sign does not change. -/
def NoSignChange [Field α] (f : List (α × α)) : Prop := ∀ p q, Neighbours f p q → 0 ≤ p.2 * q.2

end Aleph.Spec
