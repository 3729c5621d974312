import Mathlib.Analysis.SpecialFunctions.Log.Basic
import Mathlib.Algebra.BigOperators.Group.Finset.Basic

/-!
# Specification vocabulary for estimators of the intrinsic dimension
-/

namespace Aleph.Spec

/-- The distances of point `i` to all points, including itself, in ascending order. -/
def AscendingDistances (n : ℕ) (dist : ℕ → ℕ → ℝ) (i : ℕ) (t : List ℝ) : Prop :=
  t.Pairwise (· ≤ ·) ∧ t.Perm ((List.range n).map (dist i))

/-- The mean of the `k` smallest distances. -/
noncomputable def meanOfSmallest (t : List ℝ) (k : ℕ) : ℝ := (∑ j ∈ Finset.range k, t.getD j 0) / k

/-- The sum of squared errors of the linear relation between `r k / k` and the increments `r (k + 1) - r k`, for `k` from `a` to `b - 1`. -/
noncomputable def incrementErrors (r : ℕ → ℝ) (a b : ℕ) (x : ℝ) : ℝ := ∑ k ∈ Finset.Ico a b, (r k / k - x * (r (k + 1) - r k)) ^ 2

/-- The logarithm of the likelihood of dimension `x`, given that the `k`-th distance is `t k` and the smaller positive distances are `t 1, …, t (k - 1)`
(up to terms that do not depend on `x`): each ratio `t j / t k` has the density `x * u ^ (x - 1)`. -/
noncomputable def logLikelihood (t : List ℝ) (k : ℕ) (x : ℝ) : ℝ := ∑ j ∈ Finset.Ico 1 k, (Real.log x - x * Real.log (t.getD k 0 / t.getD j 0))

/-- Singular values in descending order and right singular vectors of a matrix with `m` columns, given as a list of rows (a *thin* decomposition): the
vectors are orthonormal, their images under the matrix are orthogonal and as long as the singular values, and all rows are combinations of the vectors. -/
structure IsThinSVD (m : ℕ) (M : List (List ℝ)) (values : List ℝ) (vectors : List (List ℝ)) : Prop where
  size : values.length = min M.length m
  count : vectors.length = min M.length m
  nonneg : ∀ x ∈ values, 0 ≤ x
  descending : values.Pairwise (· ≥ ·)
  orthonormal : ∀ a < min M.length m, ∀ b < min M.length m,
    ∑ j ∈ Finset.range m, (vectors.getD a []).getD j 0 * (vectors.getD b []).getD j 0 = if a = b then 1 else 0
  images : ∀ a < min M.length m, ∀ b < min M.length m,
    ∑ i ∈ Finset.range M.length, (∑ j ∈ Finset.range m, (M.getD i []).getD j 0 * (vectors.getD a []).getD j 0) *
      (∑ j ∈ Finset.range m, (M.getD i []).getD j 0 * (vectors.getD b []).getD j 0) = if a = b then values.getD a 0 ^ 2 else 0
  rows : ∀ i < M.length, ∀ j < m, (M.getD i []).getD j 0 =
    ∑ a ∈ Finset.range (min M.length m), (∑ l ∈ Finset.range m, (M.getD i []).getD l 0 * (vectors.getD a []).getD l 0) * (vectors.getD a []).getD j 0

/-- The mean of coordinate `j` of the points. -/
noncomputable def coordinateMean (data : List (List ℝ)) (j : ℕ) : ℝ := (∑ i ∈ Finset.range data.length, (data.getD i []).getD j 0) / data.length

/-- The sum of the squared deviations, from the mean, of the points in direction `w`; divided by the number of points, this is the variance in
this direction. -/
noncomputable def scatter (data : List (List ℝ)) (m : ℕ) (w : ℕ → ℝ) : ℝ :=
  ∑ i ∈ Finset.range data.length, (∑ j ∈ Finset.range m, ((data.getD i []).getD j 0 - coordinateMean data j) * w j) ^ 2

/-- The distance between consecutive singular values. -/
def spectralGap (values : List ℝ) (j : ℕ) : ℝ := |values.getD j 0 - values.getD (j + 1) 0|

end Aleph.Spec
