import Verif.Spec.Curvature
import Verif.Spec.NetworkAnalysis

/-!
# Specification: degree filtrations of graphs
-/

namespace Aleph.Spec

open Finset

/-- The cliques of a graph, with at most `k + 1` vertices, in which no vertex has a degree above `x`; vertices themselves may be exempted. -/
noncomputable def degreeCliques (G : Complex ℕ) (k : ℕ) (exempt : Bool) (x : ℕ) : Finset (Finset ℕ) :=
  {t ∈ cliquesUpTo G k | (exempt = true ∧ #t = 1) ∨ ∀ v ∈ t, degree (sets G) v ≤ x}

/-- The degree of some vertex, or the value of exempted vertices. -/
def IsDegreeValue (exempt : Bool) (G : Complex ℕ) (y : ℕ) : Prop := (exempt = true ∧ y = 0) ∨ ∃ v, Has G {v} ∧ y = degree (sets G) v

/-- What diagrams, given by their dimensions and points, say about the degrees of a graph.  There is a diagram for each dimension below that of the clique complex, and for
each of its dimensions with a non-trivial class if `loops` are required.  Values are degrees, or zero for exempted vertices.  Points of dimension zero are not on the diagonal.
Points count persistent homology classes. -/
structure IsDegreeAnalysis (inf : ℕ) (exempt loops : Bool) (G : Complex ℕ) (k : ℕ) (Es : List (ℕ × List (ℕ × ℕ))) : Prop where
  ascending : (Es.map Prod.fst).Pairwise (· < ·)
  dimensions : ∀ e, e ∈ Es.map Prod.fst ↔ (∃ t ∈ cliquesUpTo G k, #t = e + 2) ∨
    (loops = true ∧ ∃ n, 0 < n ∧ IsPersistentBetti (cliquesUpTo G k) (cliquesUpTo G k) e n)
  values : ∀ E ∈ Es, ∀ p ∈ E.2, IsDegreeValue exempt G p.1 ∧ (p.2 = inf ∨ (p.1 ≤ p.2 ∧ IsDegreeValue exempt G p.2))
  diagonal : ∀ E ∈ Es, E.1 = 0 → ∀ p ∈ E.2, p.1 ≠ p.2
  counts : ∀ E ∈ Es, ∀ x y, x ≤ y → IsPersistentBetti (degreeCliques G k exempt x) (degreeCliques G k exempt y) E.1
    (E.2.countP fun p => p.1 ≤ x ∧ (p.2 = inf ∨ y < p.2))

/-- The second coordinates in a file: with a positive factor, infinite ones are replaced by the multiple of the largest degree, as far as it can be represented. -/
def closedBy (inf factor top : ℕ) (p : ℕ × ℕ) : ℕ × ℕ := if p.2 = inf ∧ 0 < factor then (p.1, factor * top % 4294967296) else p

end Aleph.Spec
