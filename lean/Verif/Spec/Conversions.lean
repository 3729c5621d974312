import Verif.Spec.Complex
import Verif.Spec.Matrix

/-!
# The boundary operator of an ordered simplicial complex

Positions in the filtration order stand for simplices.
-/

namespace Aleph.Spec

open Finset

variable {α : Type}

/-- The vertex set of the simplex at position `i`; empty beyond the complex. -/
def vsetAt (K : Complex α) (i : ℕ) : Finset ℕ :=
  match K[i]? with
  | some s => s.vset
  | none => ∅

/-- The dimension of the simplex at position `i`. -/
def dimAt (K : Complex α) (i : ℕ) : ℕ := #(vsetAt K i) - 1

/-- The positions of the codimension-one faces of the simplex at position `j`. -/
def facets (K : Complex α) (j : ℕ) : Finset ℕ :=
  {i ∈ range K.length | vsetAt K i ⊆ vsetAt K j ∧ #(vsetAt K i) + 1 = #(vsetAt K j)}

/-- A filtered simplicial complex: well formed, closed under faces, faces precede cofaces. -/
structure IsFiltration (K : Complex α) : Prop where
  wf : WF K
  closed : FaceClosed K
  order : FacesFirst K

/-- The chains of `d`-simplices without boundary. -/
def simplicialCycles (K : Complex α) (d : ℕ) : Finset (Finset ℕ) :=
  {c ∈ ({k ∈ range K.length | dimAt K k = d} : Finset ℕ).powerset | chainBd (facets K) c = ∅}

/-- The boundaries of the chains of `d`-simplices. -/
def simplicialBoundaries (K : Complex α) (d : ℕ) : Finset (Finset ℕ) :=
  ({k ∈ range K.length | dimAt K k = d} : Finset ℕ).powerset.image (chainBd (facets K))

end Aleph.Spec
