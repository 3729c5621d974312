import Verif.Spec.Rips
import Verif.Spec.Json
import Mathlib.Algebra.Field.Defs

/-!
# Communities of cliques

The `k`-clique communities of a graph, after Palla et al.: cliques with `k + 1` vertices are adjacent if they share `k` vertices;
communities are the classes of the equivalence relation that adjacency generates.
-/

namespace Aleph.Spec

open Finset

variable {α : Type}

/-- The cliques of the graph with the vertices and edges of `K` that are not heavier than `threshold`, if the weights of edges are
replaced by `w`. -/
def LightClique [LE α] (K : Complex α) (w : α → α) (threshold : α) (t : Finset ℕ) : Prop :=
  (∀ v ∈ t, ∃ x ≤ threshold, HasData K {v} x) ∧
  ∀ u ∈ t, ∀ v ∈ t, u ≠ v → ∃ x, HasData K {u, v} x ∧ w x ≤ threshold

/-- The ends of light edges are light vertices. -/
def LightEnds [LE α] (K : Complex α) (w : α → α) (threshold : α) : Prop :=
  ∀ u v x, u ≠ v → HasData K {u, v} x → w x ≤ threshold → ∃ y ≤ threshold, HasData K {u} y

/-- The weight of an edge after normalisation and inversion, for the smallest weight `m` and the largest weight `M`. -/
def edgeWeight [Field α] [DecidableEq α] (normalize invert : Bool) (m M x : α) : α :=
  if normalize = true ∧ m ≠ M then
    if invert then 1 - (x - m) / (M - m) else (x - m) / (M - m)
  else if invert then M - x else x

/-- Two cliques belong to the same community. -/
def SameCommunity (P : Finset ℕ → Prop) (k : ℕ) : Finset ℕ → Finset ℕ → Prop :=
  Relation.EqvGen fun s t => P s ∧ P t ∧ #s = k + 1 ∧ #t = k + 1 ∧ #(s ∩ t) = k

/-- `cs` lists the communities of the cliques with `k + 1` vertices: each clique is listed once, with its vertices in descending
order; two cliques are listed in the same community if and only if they belong to the same community. -/
structure IsCommunities (P : Finset ℕ → Prop) (k : ℕ) (cs : List (List (List ℕ))) : Prop where
  nonempty : ∀ c ∈ cs, c ≠ []
  descending : ∀ c ∈ cs, ∀ vs ∈ c, vs.Pairwise (· > ·)
  cliques : ∀ t, (∃ c ∈ cs, ∃ vs ∈ c, vs.toFinset = t) ↔ P t ∧ #t = k + 1
  once : cs.flatten.Nodup
  together : ∀ c ∈ cs, ∀ c' ∈ cs, ∀ vs ∈ c, ∀ ws ∈ c', c = c' ↔ SameCommunity P k vs.toFinset ws.toFinset

/-- The value of a vertex: its label or its number. -/
def vertexValue (useLabels : Bool) (labels : ℕ → Option (List Char)) (v : ℕ) : Json :=
  if useLabels then .text ((labels v).getD []) else .number v

/-- The value of a list of communities. -/
def communitiesValue (useLabels : Bool) (labels : ℕ → Option (List Char)) (cs : List (List (List ℕ))) : Json :=
  .array (cs.map fun c => .array (c.map fun vs => .array (vs.map (vertexValue useLabels labels))))

end Aleph.Spec
