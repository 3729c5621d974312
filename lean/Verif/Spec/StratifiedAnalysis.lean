import Verif.Spec.Rips
import Mathlib.Algebra.Order.Group.Abs

/-!
# Weights of vertices
-/

namespace Aleph.Spec.Strata

variable {α : Type}

/-- The vertex belongs to an edge. -/
def Touched (K : Complex α) (v : ℕ) : Prop := ∃ t : Finset ℕ, t.card = 2 ∧ v ∈ t ∧ Has K t

/-- The value belongs to an edge, and no other edge has a lower value (or a higher one, in the reverse direction). -/
def ExtremeWeight [LinearOrder α] (reverse : Bool) (K : Complex α) (d : α) : Prop :=
  (∃ t : Finset ℕ, t.card = 2 ∧ HasData K t d) ∧ ∀ (t : Finset ℕ) w, t.card = 2 → HasData K t w → if reverse then w ≤ d else d ≤ w

/-- The value belongs to an edge of the vertex, and no other edge of the vertex has a lower value (or a higher one, in the reverse direction). -/
def ExtremeAt [LinearOrder α] (reverse : Bool) (K : Complex α) (v : ℕ) (d : α) : Prop :=
  (∃ t : Finset ℕ, t.card = 2 ∧ v ∈ t ∧ HasData K t d) ∧ ∀ (t : Finset ℕ) w, t.card = 2 → v ∈ t → HasData K t w → if reverse then w ≤ d else d ≤ w

/-- The value belongs to an edge, and no other edge has a lower (higher) absolute value. -/
def ExtremeAbs [AddCommGroup α] [LinearOrder α] (reverse : Bool) (K : Complex α) (d : α) : Prop :=
  (∃ t : Finset ℕ, t.card = 2 ∧ HasData K t d) ∧ ∀ (t : Finset ℕ) w, t.card = 2 → HasData K t w → if reverse then |w| ≤ |d| else |d| ≤ |w|

end Aleph.Spec.Strata
