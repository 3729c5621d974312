import Verif.Spec.Complex

/-!
# Specification: flags of simplices
-/

namespace Aleph.Spec

open Finset

/-- A flag: a non-empty set of simplices, any two of which are contained in each other. -/
def IsFlag (S C : Finset (Finset ℕ)) : Prop :=
  C.Nonempty ∧ C ⊆ S ∧ ∀ s ∈ C, ∀ t ∈ C, s ⊆ t ∨ t ⊆ s

instance (S C : Finset (Finset ℕ)) : Decidable (IsFlag S C) := by unfold IsFlag; infer_instance

end Aleph.Spec
