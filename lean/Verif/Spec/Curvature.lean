import Verif.Spec.Complex
import Mathlib.Algebra.BigOperators.Group.Finset.Basic
import Mathlib.Analysis.SpecialFunctions.Sqrt

/-!
# Specification: degrees and Forman's curvature

All notions are stated for the finite family `A` of vertex sets of a complex.
-/

namespace Aleph.Spec

open Finset

/-- The number of simplices that properly contain the vertex `v`. -/
def degree (A : Finset (Finset ℕ)) (v : ℕ) : ℕ := #{τ ∈ A | v ∈ τ ∧ 2 ≤ #τ}

/-- The cofaces of `σ` of the next dimension. -/
def cofaces (A : Finset (Finset ℕ)) (σ : Finset ℕ) : Finset (Finset ℕ) := {τ ∈ A | σ ⊆ τ ∧ #τ = #σ + 1}

/-- The faces of `σ` of the previous dimension. -/
def facetsOf (σ : Finset ℕ) : Finset (Finset ℕ) := {τ ∈ σ.powerset | τ.Nonempty ∧ #τ + 1 = #σ}

/-- Parallel neighbours of `σ`: different simplices of the same dimension that have a common face or a common coface with `σ`, but not
both. -/
def parallels (A : Finset (Finset ℕ)) (σ : Finset ℕ) : Finset (Finset ℕ) :=
  {τ ∈ A | τ ≠ σ ∧ #τ = #σ ∧ ¬ ((facetsOf σ ∩ facetsOf τ).Nonempty ↔ (cofaces A σ ∩ cofaces A τ).Nonempty)}

/-- Forman's combinatorial curvature (for unit weights). -/
def forman (A : Finset (Finset ℕ)) (σ : Finset ℕ) : ℤ := #(cofaces A σ) + #(facetsOf σ) - #(parallels A σ)

/-- Forman's combinatorial curvature for weights `w`. -/
noncomputable def formanWeighted (A : Finset (Finset ℕ)) (w : Finset ℕ → ℝ) (σ : Finset ℕ) : ℝ :=
  w σ * (∑ τ ∈ cofaces A σ, w σ / w τ + ∑ τ ∈ facetsOf σ, w τ / w σ -
    ∑ σ' ∈ A with σ' ≠ σ ∧ #σ' = #σ,
      |∑ τ ∈ cofaces A σ ∩ cofaces A σ', √(w σ * w σ') / w τ - ∑ τ ∈ facetsOf σ ∩ facetsOf σ', w τ / √(w σ * w σ')|)

end Aleph.Spec
