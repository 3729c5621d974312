import Verif.Spec.RandomGraph
import Mathlib.Analysis.SpecialFunctions.Log.Basic

/-!
# Specification vocabulary for the correlation dimension
-/

namespace Aleph.Spec

/-- The fraction of all pairs of points whose distance is at most `t`. -/
noncomputable def pairFraction (n : ℕ) (dist : ℕ → ℕ → ℝ) (t : ℝ) : ℝ :=
  (((vertexPairs n).filter fun q => dist q.1 q.2 ≤ t).card : ℝ) / (n.choose 2 : ℝ)

/-- The sum of squared residuals of the line with slope `a` and intercept `b`. -/
noncomputable def squaredResiduals (X Y : List ℝ) (a b : ℝ) : ℝ := ((X.zip Y).map fun p => (p.2 - (a * p.1 + b)) ^ 2).sum

/-- `a` is the slope of a line of best fit. -/
def IsRegressionSlope (X Y : List ℝ) (a : ℝ) : Prop := ∃ b, ∀ a' b', squaredResiduals X Y a b ≤ squaredResiduals X Y a' b'

end Aleph.Spec
