import Verif.Spec.PersistentBetti

/-!
# Specification: persistence diagrams of a growing family of simplices
-/

namespace Aleph.Spec

open Finset

variable {α : Type} [LinearOrder α]

/-- What diagrams, given by their dimensions and points, say about the family `A x` of simplices that are present at the threshold `x`; `all` are the simplices that are present
in the end.  There is a diagram for each dimension below that of the complex, in ascending order.  No point lies on the diagonal.  The points that are created at `x` at the
latest and destroyed after `y` count the persistent homology classes, the infinite ones those of the complete complex. -/
structure IsLevelAnalysis (inf : α) (A : α → Finset (Finset ℕ)) (all : Finset (Finset ℕ)) (Es : List (ℕ × List (α × α))) : Prop where
  ascending : (Es.map Prod.fst).Pairwise (· < ·)
  dimensions : ∀ e, e ∈ Es.map Prod.fst ↔ ∃ t ∈ all, #t = e + 2
  above : ∀ E ∈ Es, ∀ p ∈ E.2, p.1 ≠ inf ∧ (p.2 = inf ∨ p.1 < p.2)
  counts : ∀ E ∈ Es, ∀ x y, x ≤ y → IsPersistentBetti (A x) (A y) E.1 (E.2.countP fun p => p.1 ≤ x ∧ (p.2 = inf ∨ y < p.2))
  betti : ∀ E ∈ Es, IsPersistentBetti all all E.1 (E.2.countP fun p => p.2 = inf)

end Aleph.Spec
