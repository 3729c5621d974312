import Verif.Spec.Complex
import Mathlib.Algebra.BigOperators.Group.Finset.Basic
import Mathlib.Algebra.Ring.Int.Defs

/-!
# Specification: the Euler characteristic
-/

namespace Aleph.Spec

open Finset

variable {α : Type}

/-- The Euler characteristic of a complex: every simplex counts `1` if its dimension is even and `-1` if its dimension is
odd. -/
def euler (K : Complex α) : ℤ := ∑ t ∈ sets K, (-1) ^ (#t - 1)

/-- `D` is the largest dimension of a simplex. -/
def IsTopDimension (K : Complex α) (D : ℕ) : Prop :=
  (∃ s ∈ K, #s.vset = D + 1) ∧ ∀ s ∈ K, #s.vset ≤ D + 1

end Aleph.Spec
