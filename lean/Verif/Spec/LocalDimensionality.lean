import Verif.Spec.DataDescriptors
import Verif.Spec.Dimensionality
import Verif.Spec.Options
import Verif.Spec.VietorisRipsExample

/-!
# Specification: estimates of the local dimension
-/

namespace Aleph.Spec

/-- The singular values of points with `m` coordinates: in descending order, they describe how far the points are scattered in orthogonal directions, each of which is the
best one among those that are orthogonal to the previous ones. -/
def IsSpectrum (data : List (List ℝ)) (m : ℕ) (values : List ℝ) : Prop :=
  values.length = min data.length m ∧ values.Pairwise (· ≥ ·) ∧ (∀ x ∈ values, 0 ≤ x) ∧
  ∃ u : ℕ → ℕ → ℝ, (∀ a < values.length, ∀ b < values.length, ∑ j ∈ Finset.range m, u a j * u b j = if a = b then 1 else 0) ∧
    ∀ a < values.length, scatter data m (u a) = m * values.getD a 0 ^ 2 ∧
      ∀ w : ℕ → ℝ, ∑ j ∈ Finset.range m, w j ^ 2 = 1 → (∀ b < a, ∑ j ∈ Finset.range m, u b j * w j = 0) → scatter data m w ≤ m * values.getD a 0 ^ 2

/-- The position of the first largest gap between consecutive values, where the position of the first gap is one. -/
def IsLargestGap (values : List ℝ) (d : ℕ) : Prop :=
  1 ≤ d ∧ d < values.length ∧ (∀ j, j + 1 < values.length → spectralGap values j ≤ spectralGap values (d - 1)) ∧ ∀ j, j + 1 < d → spectralGap values j < spectralGap values (d - 1)

/-- The estimate for point `i` by means of the principal components of its `k + 1` nearest points, including itself. -/
def IsSpectralEstimate (rows : List (List ℝ)) (m k i : ℕ) (x : Option ℝ) : Prop :=
  ∃ (ids : List ℕ) (values : List ℝ) (d : ℕ), ids.Nodup ∧ AreNearest rows.length (pointDistance rows) (k + 1) i ids.toFinset ∧
    IsSpectrum (ids.map fun j => rows.getD j []) m values ∧ IsLargestGap values d ∧ x = some (d : ℝ)

/-- The estimate for a point with distances `t`, in ascending order, by means of the means of its `k` and `k + 1` smallest distances; `none` is a number that is infinite or
undefined. -/
def IsNearestEstimate (t : List ℝ) (k : ℕ) (x : Option ℝ) : Prop :=
  (k = 0 ∨ t.getD 0 0 = t.getD k 0 → x = none) ∧
  (k ≠ 0 → t.getD 0 0 < t.getD k 0 → x = some (meanOfSmallest t k / ((meanOfSmallest t (k + 1) - meanOfSmallest t k) * k)))

/-- The best estimate, in the sense of least squares, for the numbers of neighbours from `a` to `b - 2`. -/
def IsRegressionEstimate (t : List ℝ) (a b : ℕ) (x : Option ℝ) : Prop :=
  ((∀ k, a ≤ k → k < b - 1 → t.getD 0 0 = t.getD k 0) → x = none) ∧
  ((∃ k, a ≤ k ∧ k < b - 1 ∧ t.getD 0 0 < t.getD k 0) →
    ∃ y, x = some y ∧ ∀ z, z ≠ y → incrementErrors (meanOfSmallest t) a (b - 1) y < incrementErrors (meanOfSmallest t) a (b - 1) z)

/-- The mean of the estimates with maximal likelihood, for the numbers of neighbours from `a - 1` to `b - 1`, for a point that does not coincide with another point. -/
def IsLikelihoodEstimate (t : List ℝ) (a b : ℕ) (x : Option ℝ) : Prop :=
  ∃ y, x = some y ∧ 0 ≤ y ∧
    (t.getD 0 0 = 0 → 0 < t.getD 1 0 → ∃ v : ℕ → ℝ, y = (∑ k ∈ Finset.Icc (a - 1) (b - 1), v k) / (Finset.Icc (a - 1) (b - 1)).card ∧
      ∀ k, k < b → (k < 2 → v k = 0) ∧ (2 ≤ k → (t.getD 1 0 = t.getD k 0 → v k = 0) ∧
        (t.getD 1 0 < t.getD k 0 → 0 < v k ∧ ∀ z, 0 < z → z ≠ v k → logLikelihood t k z < logLikelihood t k (v k))))

/-- The estimates of a method. -/
def AreEstimates (rows : List (List ℝ)) (m : ℕ) (method : List Char) (k K : ℕ) (e : ℕ → Option ℝ) : Prop :=
  (method = "pca".toList ∧ ∀ i < rows.length, IsSpectralEstimate rows m k i (e i)) ∨
  (method = "nn".toList ∧ K = 0 ∧ ∀ i < rows.length, ∀ t, AscendingDistances rows.length (pointDistance rows) i t → IsNearestEstimate t k (e i)) ∨
  (method = "nn".toList ∧ K ≠ 0 ∧ ∀ i < rows.length, ∀ t, AscendingDistances rows.length (pointDistance rows) i t → IsRegressionEstimate t k K (e i)) ∨
  (method = "mle".toList ∧ ∀ i < rows.length, ∀ t, AscendingDistances rows.length (pointDistance rows) i t → IsLikelihoodEstimate t k K (e i))

/-- Parameters for which estimates of `n` points with `m` coordinates are defined. -/
def SupportsEstimates (n m : ℕ) (method : List Char) (k K : ℕ) : Prop :=
  (method = "pca".toList ∧ 2 ≤ m ∧ 1 ≤ k ∧ k < n) ∨ (method = "nn".toList ∧ K = 0 ∧ k < n) ∨ ((method = "nn".toList ∨ method = "mle".toList) ∧ 1 ≤ k ∧ k ≤ K ∧ K ≤ n)

/-- Smoothing: in each of the steps, each value is replaced by the mean of the values of the `k + 1` nearest points after the previous step, weighted with the inverse of the
squared distance.  The result is a number if and only if all of these values are. -/
def IsSmoothing (n : ℕ) (dist : ℕ → ℕ → ℝ) (k steps : ℕ) (e f : ℕ → Option ℝ) : Prop :=
  ∃ T : ℕ → Finset ℕ, (∀ i < n, AreNearest n dist (k + 1) i (T i)) ∧
    ∃ g : ℕ → ℕ → Option ℝ, (∀ i < n, g 0 i = e i ∧ g steps i = f i) ∧
      ∀ s < steps, ∀ i < n, ((∃ j ∈ T i, g s j = none) → g (s + 1) i = none) ∧
        ∀ x : ℕ → ℝ, (∀ j ∈ T i, g s j = some (x j)) → ∃ y, g (s + 1) i = some y ∧ y * ∑ j ∈ T i, inverseSquare (dist i j) = ∑ j ∈ T i, inverseSquare (dist i j) * x j

end Aleph.Spec
