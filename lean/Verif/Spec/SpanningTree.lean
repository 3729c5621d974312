import Mathlib.Logic.Relation
import Mathlib.Algebra.BigOperators.Group.List.Basic
import Mathlib.Data.List.Basic

/-!
# Specification: minimum spanning trees
-/

namespace Aleph.Spec

/-- The edges of the complete graph with vertices `0, …, n - 1`. -/
def complete (n : ℕ) (u v : ℕ) : Prop := u < v ∧ v < n

/-- The edges of the complete bipartite graph with vertices `0, …, a - 1` and `a, …, a + b - 1`. -/
def bipartite (a b : ℕ) (u v : ℕ) : Prop := u < a ∧ a ≤ v ∧ v < a + b

/-- A spanning tree of a graph with vertices `0, …, n - 1`, whose edges are given as pairs: a list of different edges, one less than there
are vertices, which connects all vertices. -/
structure SpanningTree (n : ℕ) (G : ℕ → ℕ → Prop) (T : List (ℕ × ℕ)) : Prop where
  edges : ∀ e ∈ T, G e.1 e.2
  nodup : T.Nodup
  size : T.length + 1 = n
  connected : ∀ a < n, ∀ b < n, Relation.EqvGen (fun a b => (a, b) ∈ T) a b

/-- A spanning tree of minimum weight. -/
def MinimumSpanningTree {α : Type} [AddCommMonoid α] [LE α] (n : ℕ) (G : ℕ → ℕ → Prop) (w : ℕ → ℕ → α) (T : List (ℕ × ℕ)) : Prop :=
  SpanningTree n G T ∧ ∀ T', SpanningTree n G T' → (T.map fun e => w e.1 e.2).sum ≤ (T'.map fun e => w e.1 e.2).sum

/-- A spanning tree of maximum weight. -/
def MaximumSpanningTree {α : Type} [AddCommMonoid α] [LE α] (n : ℕ) (G : ℕ → ℕ → Prop) (w : ℕ → ℕ → α) (T : List (ℕ × ℕ)) : Prop :=
  SpanningTree n G T ∧ ∀ T', SpanningTree n G T' → (T'.map fun e => w e.1 e.2).sum ≤ (T.map fun e => w e.1 e.2).sum

/-- For every threshold, no spanning tree has less edges whose weights exceed it; in particular, the largest weight is as small as
possible. -/
def BottleneckSpanningTree {α : Type} [LT α] [DecidableLT α] (n : ℕ) (G : ℕ → ℕ → Prop) (w : ℕ → ℕ → α) (T : List (ℕ × ℕ)) : Prop :=
  SpanningTree n G T ∧ ∀ T', SpanningTree n G T' →
    ∀ x : α, (T.filter fun e => x < w e.1 e.2).length ≤ (T'.filter fun e => x < w e.1 e.2).length

end Aleph.Spec
