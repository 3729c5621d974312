import Mathlib.Analysis.SpecialFunctions.Pow.Real
import Mathlib.Analysis.SpecialFunctions.Trigonometric.Basic

/-!
# Kernel density estimation

Models `include/aleph/math/KernelDensityEstimator.hh`.  Values are real numbers (simplification: no rounding).
-/

namespace Aleph.KernelDensity

noncomputable section

/-- `kernels::Gaussian`, `KernelDensityEstimator.hh:30-47`, for a parameter different from zero. -/
def gaussian (sigma value : ℝ) : ℝ :=
  1 / (Real.sqrt (2 * Real.pi) * sigma) * Real.exp (-0.5 * (value * value) / (sigma * sigma))

/-- `kernels::Epanechnikov`, `KernelDensityEstimator.hh:54-61`. -/
def epanechnikov (value : ℝ) : ℝ := if |value| ≤ 1 then 0.75 * (1 - value * value) else 0

/-- `norms::Identity`, `KernelDensityEstimator.hh:79-86`. -/
def identity (value : ℝ) : ℝ := value

/-- `KernelDensityEstimator::operator()`, `KernelDensityEstimator.hh:172-201`, with kernel, norm and difference as parameters; `none` is an undefined
value (division by zero). -/
def estimate {X E : Type} (bandwidth : ℝ) (dimension : ℕ) (kernel : ℝ → ℝ) (norm : E → ℝ) (difference : X → X → E) (data : List X) (x : X) : Option ℝ :=
  if bandwidth = 0 ∨ data = [] then none
  else
    let value := data.foldl (fun value p => value + kernel (norm (difference p x) / bandwidth)) 0
    some (value / bandwidth ^ (dimension : ℝ) / (data.length : ℝ))

end

end Aleph.KernelDensity
