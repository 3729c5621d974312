import Mathlib.Order.Bounds.Defs
import Mathlib.Order.Basic
import Mathlib.Data.Nat.Notation

/-!
# Specification vocabulary for witness complexes
-/

namespace Aleph.Spec

variable {α : Type}

/-- `m` is the `nu`-th smallest element of a list, counted with multiplicity. -/
def IsNthSmallest [LinearOrder α] (l : List α) (nu : ℕ) (m : α) : Prop :=
  m ∈ l ∧ (l.filter (· < m)).length < nu ∧ nu ≤ (l.filter (· ≤ m)).length

/-- The number `m_k` of de Silva and Carlsson: zero for `nu = 0`, and the distance of the point `k` to its
`nu`-th nearest landmark otherwise. -/
def IsThreshold [LinearOrder α] [Zero α] (dist : ℕ → ℕ → α) (landmarks : List ℕ) (nu k : ℕ) (m : α) :
    Prop :=
  (nu = 0 ∧ m = 0) ∨ (0 < nu ∧ IsNthSmallest (landmarks.map fun l => dist l k) nu m)

/-- The point `k` is a witness for the edge between the landmarks with positions `u` and `v`, and `y` is the larger one of
its distances to them. -/
def IsWitness [LinearOrder α] [Zero α] [Add α] (dist : ℕ → ℕ → α) (landmarks : List ℕ) (nu : ℕ) (R : α)
    (k u v : ℕ) (y : α) : Prop :=
  ∃ a b m, landmarks[u]? = some a ∧ landmarks[v]? = some b ∧ IsThreshold dist landmarks nu k m ∧
    y = max (dist a k) (dist b k) ∧ y ≤ R + m

/-- The weight of an edge of the witness complex: the smallest distance for which one of the `N` points is
a witness. -/
def IsWitnessWeight [LinearOrder α] [Zero α] [Add α] (N : ℕ) (dist : ℕ → ℕ → α) (landmarks : List ℕ)
    (nu : ℕ) (R : α) (u v : ℕ) (y : α) : Prop :=
  IsLeast {y | ∃ k < N, IsWitness dist landmarks nu R k u v y} y

/-- `x` is the distance of the point `i` to the nearest one of a list of points. -/
def IsDistanceTo [LinearOrder α] (dist : ℕ → ℕ → α) (l : List ℕ) (i : ℕ) (x : α) : Prop :=
  IsLeast {y | ∃ j ∈ l, y = dist i j} x

end Aleph.Spec
