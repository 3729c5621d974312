import Verif.Spec.Rips
import Mathlib.Data.Finset.Prod

/-!
# Specification vocabulary for random graphs
-/

namespace Aleph.Spec

/-- The pairs of vertices of a graph with `n` vertices. -/
def vertexPairs (n : ℕ) : Finset (ℕ × ℕ) := (Finset.range n ×ˢ Finset.range n).filter fun q => q.1 < q.2

/-- The position of a pair of vertices among all pairs, in lexicographic order. -/
def pairRank (n u v : ℕ) : ℕ := ((vertexPairs n).filter fun q => q.1 < u ∨ q.1 = u ∧ q.2 < v).card

/-- `f` enumerates the failures (numbers not below `p`) of a sequence of random numbers in ascending order. -/
def IsFailureSequence {β : Type} [LT β] (draw : ℕ → β) (p : β) (f : ℕ → ℕ) : Prop :=
  StrictMono f ∧ ∀ t, (∃ k, f k = t) ↔ ¬ draw t < p

/-- The number of successes between the previous failure and failure number `k`. -/
def successes (f : ℕ → ℕ) (k : ℕ) : ℕ := if k = 0 then f 0 else f k - f (k - 1) - 1

/-- A simplicial complex of dimension at most one on the vertices `0, …, n - 1`, in an order in which faces precede cofaces. -/
structure IsGraphOn {α : Type} (n : ℕ) (K : Complex α) : Prop where
  wf : WF K
  closed : FaceClosed K
  order : FacesFirst K
  dimension : ∀ s ∈ K, s.vset.card ≤ 2
  vertices : ∀ v, Has K {v} ↔ v < n

end Aleph.Spec
