import Verif.Spec.Homology
import Verif.Spec.Complex

/-!
# Specification: sublevel sets and persistent Betti numbers
-/

namespace Aleph.Spec

open Finset

variable {α : Type} [LinearOrder α]

/-- The simplices that are present at the threshold `x`. -/
def sublevel (K : Complex α) (x : α) : Finset (Finset ℕ) := sets (K.filter fun s => s.data ≤ x)

/-- The simplices with values of at least `x`. -/
def superlevel (K : Complex α) (x : α) : Finset (Finset ℕ) := sets (K.filter fun s => x ≤ s.data)

/-- `β` is the persistent Betti number of an inclusion `A ⊆ B` of families of simplices: the dimension of the cycles of `A`
modulo those that are boundaries in `B`.  Dimensions over the field with two elements are given by numbers of elements. -/
def IsPersistentBetti (A B : Finset (Finset ℕ)) (d β : ℕ) : Prop :=
  #(setCycles A d) = 2 ^ β * #{b ∈ setBoundaries B d | b ⊆ A}

end Aleph.Spec
