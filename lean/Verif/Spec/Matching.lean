import Mathlib.Algebra.BigOperators.Group.Finset.Defs
import Mathlib.Data.Fintype.Prod
import Mathlib.Order.Bounds.Defs

/-!
# Partial matchings of persistence diagrams
-/

namespace Aleph.Spec

open Finset

variable {α : Type}

/-- A partial matching of two lists of points: every point occurs in at most one pair. -/
structure IsMatching {a b : ℕ} (m : Finset (Fin a × Fin b)) : Prop where
  left : ∀ i j j', (i, j) ∈ m → (i, j') ∈ m → j = j'
  right : ∀ i i' j, (i, j) ∈ m → (i', j) ∈ m → i = i'

/-- The cost of a partial matching: the costs of the pairs, and the costs of the points without partner. -/
def matchingCost [AddCommMonoid α] {P : Type} (cost : P → P → α) (alone : P → α) (A B : List P)
    (m : Finset (Fin A.length × Fin B.length)) : α :=
  ∑ x ∈ m, cost A[x.1] B[x.2] + ∑ i with ∀ j, (i, j) ∉ m, alone A[i] + ∑ j with ∀ i, (i, j) ∉ m, alone B[j]

/-- `w` is the smallest cost of a partial matching. -/
def IsMinimalCost [AddCommMonoid α] [LE α] {P : Type} (cost : P → P → α) (alone : P → α) (A B : List P) (w : α) : Prop :=
  IsLeast {x | ∃ m : Finset (Fin A.length × Fin B.length), IsMatching m ∧ x = matchingCost cost alone A B m} w

end Aleph.Spec
