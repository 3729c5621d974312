import Mathlib.Analysis.SpecialFunctions.Integrals.Basic

/-!
# Areas of parts of spheres and tori
-/

namespace Aleph.Spec

/-- The area of the part of a sphere of radius `r` with longitudes from `α` to `β` and angles from `φ₁` to `φ₂` to the axis: the area element is
`r² sin φ dφ dθ`. -/
noncomputable def sphereArea (r α β φ₁ φ₂ : ℝ) : ℝ := ∫ _ in α..β, ∫ φ in φ₁..φ₂, r ^ 2 * Real.sin φ

/-- The area of the part of a torus with angles from `θ₁` to `θ₂` around the tube and from `α` to `β` around the axis: the area element is
`r (R + r cos θ) dθ dψ`. -/
noncomputable def torusArea (R r θ₁ θ₂ α β : ℝ) : ℝ := ∫ _ in α..β, ∫ θ in θ₁..θ₂, r * (R + r * Real.cos θ)

end Aleph.Spec
