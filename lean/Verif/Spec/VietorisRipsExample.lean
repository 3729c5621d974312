import Verif.Spec.PythonMatrix
import Verif.Spec.PersistentBetti
import Mathlib.Analysis.SpecialFunctions.Pow.NNReal
import Mathlib.Order.Bounds.Defs

/-!
# Specification: persistence diagrams of point clouds
-/

namespace Aleph.Spec

open Finset

/-- The Euclidean distance of two of the given points. -/
noncomputable def pointDistance (rows : List (List ℝ)) (i j : ℕ) : ℝ :=
  √((List.zipWith (fun x y => (x - y) ^ 2) (rows.getD i []) (rows.getD j [])).sum)

/-- The largest distance of two points, or zero. -/
def IsDiameter (rows : List (List ℝ)) (Δ : ℝ) : Prop :=
  IsGreatest {y | y = 0 ∨ ∃ i j, i < j ∧ j < rows.length ∧ y = pointDistance rows i j} Δ

variable {α : Type}

/-- The Vietoris–Rips complex for a threshold: the non-empty sets of at most `k + 1` points with distances below the threshold. -/
def ripsBelow [LinearOrder α] (n : ℕ) (M : ℕ → ℕ → α) (k : ℕ) (ε : α) : Finset (Finset ℕ) :=
  {t ∈ (range n).powerset | t.Nonempty ∧ #t ≤ k + 1 ∧ ∀ u ∈ t, ∀ v ∈ t, u < v → M u v < ε}

/-- What the diagrams of a Vietoris–Rips complex are, given by their dimensions and their points: there is a diagram for each dimension below that of the complex, in
ascending order, and it counts persistent homology classes, in particular those of the complete complex, with infinite points.  In dimension zero,
there is a point for every point of the data. -/
structure IsRipsAnalysis [LinearOrder α] [Zero α] (inf : α) (n : ℕ) (M : ℕ → ℕ → α) (k : ℕ) (ε : α) (Es : List (ℕ × List (α × α))) : Prop where
  ascending : (Es.map Prod.fst).Pairwise (· < ·)
  dimensions : ∀ e, e ∈ Es.map Prod.fst ↔ ∃ t ∈ ripsBelow n M k ε, #t = e + 2
  counts : ∀ E ∈ Es, ∀ x y, x ≤ y → y < ε →
    IsPersistentBetti (ripsAt n M k x) (ripsAt n M k y) E.1 (E.2.countP fun p => p.1 ≤ x ∧ (p.2 = inf ∨ y < p.2))
  betti : ∀ E ∈ Es, IsPersistentBetti (ripsBelow n M k ε) (ripsBelow n M k ε) E.1 (E.2.countP fun p => p.2 = inf)
  values : ∀ E ∈ Es, ∀ p ∈ E.2, (p.1 = 0 ∨ ∃ u v, u < v ∧ v < n ∧ M u v < ε ∧ p.1 = M u v) ∧ (p.2 = inf ∨ ∃ u v, u < v ∧ v < n ∧ M u v < ε ∧ p.2 = M u v)
  zero : ∀ E ∈ Es, E.1 = 0 → E.2.length = n

open Classical in
/-- The points that are displayed: without those on the diagonal, unless they are kept.  If there is a scale, then all values are divided by it, and infinite values are
replaced by one. -/
noncomputable def displayed (inf : ℝ) (keep : Bool) (scale : Option ℝ) (points : List (ℝ × ℝ)) : List (ℝ × ℝ) :=
  (points.filter fun p => keep ∨ p.1 ≠ p.2).map fun p =>
    match scale with
    | none => p
    | some m => (p.1 / m, if p.2 = inf then 1 else p.2 / m)

end Aleph.Spec
