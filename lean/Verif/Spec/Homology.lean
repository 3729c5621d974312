import Verif.Spec.Complex
import Mathlib.Data.Finset.Powerset
import Mathlib.Algebra.Ring.Parity

/-!
# Homology of a family of simplices, and elementary collapses

Simplices are given by their vertex sets; chains have coefficients modulo two, so that a chain is a
finite set of simplices.
-/

namespace Aleph.Spec

open Finset

/-- A family of sets contains each non-empty subset of its members. -/
def DownClosed (A : Finset (Finset ℕ)) : Prop := ∀ σ ∈ A, ∀ τ ⊆ σ, τ.Nonempty → τ ∈ A

/-- The boundary of a chain: the non-empty sets that are codimension-one faces of an odd number of simplices. -/
def setBd (c : Finset (Finset ℕ)) : Finset (Finset ℕ) :=
  {τ ∈ c.biUnion powerset | τ.Nonempty ∧ Odd #{σ ∈ c | τ ⊆ σ ∧ #τ + 1 = #σ}}

/-- The chains of dimension `d`. -/
def setChains (A : Finset (Finset ℕ)) (d : ℕ) : Finset (Finset (Finset ℕ)) :=
  ({σ ∈ A | #σ = d + 1} : Finset (Finset ℕ)).powerset

/-- The cycles of dimension `d`. -/
def setCycles (A : Finset (Finset ℕ)) (d : ℕ) : Finset (Finset (Finset ℕ)) :=
  {c ∈ setChains A d | setBd c = ∅}

/-- The boundaries of the chains of dimension `d + 1`. -/
def setBoundaries (A : Finset (Finset ℕ)) (d : ℕ) : Finset (Finset (Finset ℕ)) :=
  (setChains A (d + 1)).image setBd

/-- Two families have homology groups of the same size in all dimensions, i.e. the same Betti numbers: the quotients
of the number of cycles by the number of boundaries agree. -/
def SameHomology (A B : Finset (Finset ℕ)) : Prop :=
  ∀ d, #(setCycles A d) * #(setBoundaries B d) = #(setCycles B d) * #(setBoundaries A d)

/-- `τ` is a free face of `σ`: no other member of the family properly contains it. -/
def FreePair (A : Finset (Finset ℕ)) (σ τ : Finset ℕ) : Prop :=
  σ ∈ A ∧ τ ∈ A ∧ τ ⊂ σ ∧ ∀ ρ ∈ A, τ ⊂ ρ → ρ = σ

/-- `B` results from `A` by elementary collapses, i.e. by successively removing a simplex together with a free
face. -/
inductive Collapses : Finset (Finset ℕ) → Finset (Finset ℕ) → Prop
  | refl (A) : Collapses A A
  | step {A B σ τ} : FreePair A σ τ → Collapses ((A.erase σ).erase τ) B → Collapses A B

end Aleph.Spec
