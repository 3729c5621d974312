import Verif.Model.DiagramNorms
import Verif.Model.Distances
import Mathlib.Analysis.SpecialFunctions.Exp
import Mathlib.Analysis.SpecialFunctions.Trigonometric.Arctan
import Mathlib.Analysis.SpecialFunctions.Sqrt

/-!
# Kernels for persistence diagrams

Models `include/aleph/persistenceDiagrams/kernels/MultiScaleKernel.hh` and
`include/aleph/persistenceDiagrams/kernels/KernelEmbedding.hh`.

Data are real numbers (simplification: exact arithmetic, no infinite or undefined values).  A square root of a negative number,
which is not a number in the code, is `none`; divisions by a smoothing parameter of zero are not modelled (they are excluded by
the hypotheses of the theorems or give `none`).
-/

namespace Aleph.DiagramKernels

noncomputable section

/-- `std::sqrt`: not a number for negative arguments. -/
def sqrt (x : ℝ) : Option ℝ := if x < 0 then none else some (Real.sqrt x)

/-! ### Multi-scale kernel -/

/-- `squaredEuclideanDistance(p, q, mirror)`, `MultiScaleKernel.hh:25-44`. -/
def squaredEuclideanDistance (p q : ℝ × ℝ) (mirror : Bool) : ℝ :=
  let x0 := p.1
  let y0 := p.2
  let x1 := if mirror then q.2 else q.1
  let y1 := if mirror then q.1 else q.2
  let dx := if x0 > x1 then x0 - x1 else x1 - x0
  let dy := if y0 > y1 then y0 - y1 else y1 - y0
  dx * dx + dy * dy

/-- `multiScaleKernel(D1, D2, sigma)`, `MultiScaleKernel.hh:63-82`. -/
def multiScaleKernel (D1 D2 : Diagram ℝ) (sigma : ℝ) : ℝ :=
  1 / (8 * Real.pi * sigma) *
    (D1.points.foldl (fun sum p => D2.points.foldl (fun sum q =>
      (sum.add (Real.exp (-squaredEuclideanDistance p q false / (8 * Real.pi)))).sub
        (Real.exp (-squaredEuclideanDistance p q true / (8 * Real.pi)))) sum) (Kahan.init 0)).sum

/-- `multiScaleFeatureMap(D, sigma)`, `MultiScaleKernel.hh:84-102`. -/
def multiScaleFeatureMap (D : Diagram ℝ) (sigma : ℝ) : ℝ :=
  1 / (4 * Real.pi * sigma) *
    (D.points.foldl (fun sum p => D.points.foldl (fun sum q =>
      (sum.add (Real.exp (-squaredEuclideanDistance p q false / (4 * Real.pi)))).sub
        (Real.exp (-squaredEuclideanDistance p q true / (4 * Real.pi)))) sum) (Kahan.init 0)).sum

/-- `multiScalePseudoMetric(D1, D2, sigma)`, `MultiScaleKernel.hh:115-124`. -/
def multiScalePseudoMetric (D1 D2 : Diagram ℝ) (sigma : ℝ) : Option ℝ :=
  let kxx := multiScaleKernel D1 D1 sigma
  let kxy := multiScaleKernel D1 D2 sigma
  let kyy := multiScaleKernel D2 D2 sigma
  sqrt (kxx + kyy - 2 * kxy)

/-! ### Persistence-weighted kernel -/

/-- `DefaultWeightFunction::operator()`, `KernelEmbedding.hh:21-38` (for points with non-negative persistence; the power of a
negative number need not be a number in the code). -/
def defaultWeight (C p : ℝ) (q : ℝ × ℝ) : ℝ := Real.arctan (C * DiagramNorms.persistence q ^ p)

/-- `DefaultKernel::operator()`, `KernelEmbedding.hh:40-57` (for a non-zero `sigma`). -/
def defaultKernel (sigma : ℝ) (p q : ℝ × ℝ) : ℝ :=
  Real.exp (-Distances.euclideanPoint p q / (2 * sigma * sigma))

/-- `linearKernel(D, E, w, k)`, `KernelEmbedding.hh:78-98`. -/
def linearKernel (D E : Diagram ℝ) (w : ℝ × ℝ → ℝ) (k : ℝ × ℝ → ℝ × ℝ → ℝ) : ℝ :=
  (D.points.foldl (fun r p => E.points.foldl (fun r q => r.add (w p * w q * k p q)) r) (Kahan.init 0)).sum

/-- `pseudoMetric(D, E, w, k)`, `KernelEmbedding.hh:120-136`; the three kernel values are calculated from the same
arguments. -/
def pseudoMetric (D E : Diagram ℝ) (w : ℝ × ℝ → ℝ) (k : ℝ × ℝ → ℝ × ℝ → ℝ) : Option ℝ :=
  let kxx := linearKernel D E w k
  let kxy := linearKernel D E w k
  let kyy := linearKernel D E w k
  sqrt (kxx + kyy - 2 * kxy)

/-- `gaussianKernel(D, E, w, k, tau)`, `KernelEmbedding.hh:160-174`; `none` is not a number. -/
def gaussianKernel (D E : Diagram ℝ) (w : ℝ × ℝ → ℝ) (k : ℝ × ℝ → ℝ × ℝ → ℝ) (tau : ℝ) : Option ℝ := do
  let d ← pseudoMetric D E w k
  if tau = 0 ∧ d = 0 then none else some (Real.exp (-1 / (2 * tau * tau) * d))

/-- `gaussianKernel(D, E, sigma, C, p, tau)`, `KernelEmbedding.hh:189-202`. -/
def gaussianKernelDefault (D E : Diagram ℝ) (sigma C p tau : ℝ) : Option ℝ := do
  let w := defaultWeight C p
  let k := defaultKernel sigma
  let d ← pseudoMetric D E w k
  if tau = 0 ∧ d = 0 then none else some (Real.exp (-1 / (2 * tau * tau) * d))

end

end Aleph.DiagramKernels
