import Verif.Model.Rips
import Verif.Spec.Complex
import Mathlib.Order.Bounds.Defs

/-!
# Specification vocabulary for cliques and Vietoris–Rips complexes
-/

namespace Aleph.Spec

variable {α : Type}

/-- The complex contains a simplex with vertex set `t`. -/
def Has (K : Complex α) (t : Finset ℕ) : Prop := ∃ s ∈ K, s.vset = t

/-- The simplex with vertex set `t` is stored with data `x`. -/
def HasData (K : Complex α) (t : Finset ℕ) (x : α) : Prop := ∃ s ∈ K, s.vset = t ∧ s.data = x

/-- A clique of the 1-skeleton: a set of vertices of the complex, any two of which are joined by an edge. -/
def IsClique (K : Complex α) (t : Finset ℕ) : Prop :=
  (∀ v ∈ t, Has K {v}) ∧ ∀ u ∈ t, ∀ v ∈ t, u ≠ v → Has K {u, v}

/-- A clique that is not contained in a larger one. -/
def IsMaximalClique (K : Complex α) (t : Finset ℕ) : Prop :=
  IsClique K t ∧ ∀ u, IsClique K u → t ⊆ u → u = t

/-- The end points of edges are vertices of the complex. -/
def EdgeClosed (K : Complex α) : Prop := ∀ u v, u ≠ v → Has K {u, v} → Has K {u}

/-- The weight of the simplex `t` in terms of the data of `K`: simplices of dimension at most `m` keep their data, the
others get the maximum data of their faces of dimension at least `m`. -/
def IsMaximumWeight [LinearOrder α] (K : Complex α) (m : ℕ) (t : Finset ℕ) (x : α) : Prop :=
  (t.card ≤ m + 1 → HasData K t x) ∧
  (m + 1 < t.card → IsGreatest {y | ∃ u ⊆ t, m + 1 ≤ u.card ∧ HasData K u y} x)

end Aleph.Spec
