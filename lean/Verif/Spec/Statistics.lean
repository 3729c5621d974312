import Mathlib.Data.Real.Basic
import Mathlib.Algebra.BigOperators.Group.List.Basic

/-!
# Moments of finite samples
-/

namespace Aleph.Spec

/-- The mean of a sample. -/
noncomputable def mean (l : List ℝ) : ℝ := l.sum / (l.length : ℝ)

/-- The `k`-th central moment of a sample. -/
noncomputable def moment (k : ℕ) (l : List ℝ) : ℝ := (l.map fun x => (x - mean l) ^ k).sum / (l.length : ℝ)

/-- The unbiased estimator of the covariance of paired samples. -/
noncomputable def covariance (l m : List ℝ) : ℝ :=
  ((l.zip m).map fun p => (p.1 - mean l) * (p.2 - mean m)).sum / ((l.length : ℝ) - 1)

/-- The unbiased estimator of the variance. -/
noncomputable def variance (l : List ℝ) : ℝ := (l.map fun x => (x - mean l) ^ 2).sum / ((l.length : ℝ) - 1)

/-- All values of the sample are equal. -/
def Constant (l : List ℝ) : Prop := ∀ x ∈ l, ∀ y ∈ l, x = y

end Aleph.Spec
