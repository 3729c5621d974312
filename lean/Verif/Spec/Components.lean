import Verif.Spec.Complex
import Mathlib.Logic.Relation

/-!
# Specification: components of sublevel sets
-/

namespace Aleph.Spec

variable {α : Type}

/-- `n` is the number of classes of a relation that contain an element of `V`: there are `n` elements of `V` such that each
element of `V` is related to exactly one of them. -/
def IsClassCount (V : Set ℕ) (r : ℕ → ℕ → Prop) (n : ℕ) : Prop :=
  ∃ R : Finset ℕ, R.card = n ∧ (∀ a ∈ R, a ∈ V) ∧ ∀ v ∈ V, ∃! a, a ∈ R ∧ r v a

/-- The vertices whose values are at most `x`. -/
def verticesUpTo [LE α] (K : Complex α) (x : α) : Set ℕ := {v | ∃ s ∈ K, s.vset = {v} ∧ s.data ≤ x}

/-- Connected by a path of edges whose values are at most `y`. -/
def ConnectedUpTo [LE α] (K : Complex α) (y : α) : ℕ → ℕ → Prop :=
  Relation.EqvGen fun a b => a ≠ b ∧ ∃ s ∈ K, s.vset = {a, b} ∧ s.data ≤ y

end Aleph.Spec
