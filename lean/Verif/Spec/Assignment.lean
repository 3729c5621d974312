import Mathlib.Algebra.BigOperators.Group.Finset.Defs
import Mathlib.Data.Fintype.Basic
import Mathlib.Order.Defs.LinearOrder

/-!
# Specification vocabulary for assignment problems
-/

namespace Aleph.Spec

open Finset

/-- The total cost of an assignment, i.e. a permutation `σ` that assigns the column `σ i` to the row `i`. -/
def assignmentCost {T : Type} [AddCommMonoid T] {n : ℕ} (costs : ℕ → ℕ → T) (σ : Equiv.Perm (Fin n)) : T :=
  ∑ i : Fin n, costs i (σ i)

/-- No assignment is cheaper than `σ`. -/
def IsOptimal {T : Type} [AddCommMonoid T] [LinearOrder T] {n : ℕ} (costs : ℕ → ℕ → T)
    (σ : Equiv.Perm (Fin n)) : Prop :=
  ∀ τ : Equiv.Perm (Fin n), assignmentCost costs σ ≤ assignmentCost costs τ

end Aleph.Spec
