import Verif.Spec.RandomGraph
import Mathlib.Analysis.SpecialFunctions.Pow.Real
import Mathlib.Order.Bounds.Defs

/-!
# Specification vocabulary for descriptors of point clouds

A point cloud with `n` points is described by the distances `dist i j` for `i, j < n`.
-/

namespace Aleph.Spec

/-- The eccentricity of point `i`: the greatest distance to another point for order zero, the mean of order `p` of the distances to all points
(including the point itself, whose distance is zero) otherwise. -/
def IsEccentricity (n : ℕ) (dist : ℕ → ℕ → ℝ) (p i : ℕ) (x : ℝ) : Prop :=
  if p = 0 then IsGreatest {d | ∃ j < n, j ≠ i ∧ d = dist i j} x
  else 0 ≤ x ∧ x ^ p * n = ∑ j ∈ (Finset.range n).erase i, dist i j ^ p

/-- The density at point `i` with Gaussian kernel of bandwidth `h`, truncated at distance `h`; `dist2` are the squared distances. -/
noncomputable def gaussianDensity (n : ℕ) (dist2 : ℕ → ℕ → ℝ) (h : ℝ) (i : ℕ) : ℝ :=
  (∑ j ∈ (Finset.range n).filter (fun j => dist2 i j ≤ h ^ 2), Real.exp (-dist2 i j / (2 * h ^ 2))) / n

/-- `T` consists of `k` nearest points of point `i` (possibly `i` itself). -/
structure AreNearest (n : ℕ) (dist : ℕ → ℕ → ℝ) (k i : ℕ) (T : Finset ℕ) : Prop where
  range : ∀ j ∈ T, j < n
  card : T.card = k
  nearest : ∀ a ∈ T, ∀ j < n, j ∉ T → dist i a ≤ dist i j

/-- The pairs of points whose lens contains point `k`. -/
noncomputable def lenses (n : ℕ) (dist : ℕ → ℕ → ℝ) (k : ℕ) : Finset (ℕ × ℕ) :=
  (vertexPairs n).filter fun q => k ≠ q.1 ∧ k ≠ q.2 ∧ dist q.1 k ≤ dist q.1 q.2 ∧ dist q.2 k ≤ dist q.1 q.2

/-- The weight of a neighbour at distance `d`: the inverse of the squared distance, one for coinciding points. -/
noncomputable def inverseSquare (d : ℝ) : ℝ := if d = 0 then 1 else 1 / d ^ 2

end Aleph.Spec
