import Verif.Spec.Rips
import Mathlib.Data.Real.Basic
import Mathlib.Algebra.BigOperators.Group.Finset.Basic
import Mathlib.Logic.Relation

/-!
# Specification vocabulary for Laplacian matrices and heat kernels

Matrices of size `n` are functions of two indices, vectors are functions of one index.
-/

namespace Aleph.Spec

/-- All vertices of the complex in ascending order. -/
def IsVertexList {α : Type} (K : Complex α) (vs : List ℕ) : Prop := vs.Pairwise (· < ·) ∧ ∀ v, v ∈ vs ↔ Has K {v}

/-- `x` is the entry of the adjacency matrix for the vertices `u` and `v`: the weight of the edge between them, zero if there is none. -/
def IsAdjacency (K : Complex ℝ) (u v : ℕ) (x : ℝ) : Prop :=
  (u ≠ v ∧ HasData K {u, v} x) ∨ ((u = v ∨ ¬Has K {u, v}) ∧ x = 0)

/-- Eigenvalues in ascending order, with an orthonormal basis of eigenvectors. -/
structure IsEigensystem (n : ℕ) (L : ℕ → ℕ → ℝ) (values : List ℝ) (vectors : List (ℕ → ℝ)) : Prop where
  size : values.length = n
  count : vectors.length = n
  ascending : values.Pairwise (· ≤ ·)
  eigen : ∀ k < n, ∀ i < n, ∑ j ∈ Finset.range n, L i j * vectors.getD k 0 j = values.getD k 0 * vectors.getD k 0 i
  orthonormal : ∀ k < n, ∀ l < n, ∑ i ∈ Finset.range n, vectors.getD k 0 i * vectors.getD l 0 i = if k = l then 1 else 0

/-- Any two vertices of the complex are connected by a path of edges. -/
def IsConnectedBy {α : Type} (K : Complex α) : Prop :=
  ∀ u v, Has K {u} → Has K {v} → Relation.ReflTransGen (fun a b => Has K {a, b}) u v

/-- The simplices whose vertices all satisfy the condition, in their original order. -/
def inducedBy {α : Type} (K : Complex α) (p : ℕ → Prop) [DecidablePred p] : List (Simplex α) :=
  List.filter (fun s => decide (∀ v ∈ s.vertices, p v)) K

end Aleph.Spec
