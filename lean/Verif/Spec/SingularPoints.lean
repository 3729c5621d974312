import Verif.Spec.PhiPersistence
import Mathlib.Data.Finset.Card

/-!
# Singular points
-/

namespace Aleph.Spec.Singular

open Finset

/-- A vertex is singular if its value is below the threshold, or above it if the meaning is inverted. -/
def IsSingular {α : Type} [LinearOrder α] (invert : Bool) (threshold : α) (values : List α) (v : ℕ) : Prop :=
  ∃ x, values[v]? = some x ∧ if invert then threshold < x else x < threshold

open Classical in
/-- The singular vertices of a set. -/
noncomputable def singularVertices (S : ℕ → Prop) (σ : Finset ℕ) : Finset ℕ := σ.filter S

/-- The simplices of a complex of dimension two or three that are allowable if the singular vertices, and in dimension three the edges between them, are the singular strata: simplices without singular vertices, triangles (in
dimension three with a single singular vertex), and tetrahedra. -/
def Permitted (S : ℕ → Prop) (d : ℕ) (σ : Finset ℕ) : Prop :=
  #(singularVertices S σ) = 0 ∨ (#σ = 3 ∧ (d = 2 ∨ #(singularVertices S σ) = 1)) ∨ #σ = 4

/-- The same, if triangles with a singular vertex are not allowable either. -/
def Restricted (S : ℕ → Prop) (σ : Finset ℕ) : Prop := #(singularVertices S σ) = 0 ∨ #σ = 4

end Aleph.Spec.Singular
