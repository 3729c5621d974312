import Verif.Model.Kahan
import Mathlib.Analysis.SpecialFunctions.Sqrt
import Mathlib.Data.List.Sort
import Mathlib.Algebra.Order.Round

/-!
# Medians and bootstrap

Models `include/aleph/math/Quantiles.hh` and `include/aleph/math/Bootstrap.hh`.
-/

namespace Aleph.Bootstrap

variable {α β : Type}

/-- `median`, `Quantiles.hh:14-36`.  The parameter `nth m l` is the range after `std::nth_element( begin, begin + m, end )`; values are elements
of an ordered field (simplification: for integers, the division in the code truncates).  `none` is the access behind the end of an empty
vector. -/
def median [Field α] (nth : ℕ → List α → List α) (l : List α) : Option α := do
  let n := l.length
  let m := n / 2
  let values := nth m l
  let middle ← values[m]?
  if n % 2 ≠ 0 then some middle
  else do
    let values := nth (m - 1) values
    let other ← values[m - 1]?
    some ((middle + other) / 2)

/-- `makeReplicates`, `Bootstrap.hh:48-86`.  `draw k i` is the random number for sample `k` and position `i`; `none` is the exception of
`at`. -/
def makeReplicates (draw : ℕ → ℕ → ℕ) (numSamples : ℕ) (data : List α) (functor : List α → β) : Option (List β) :=
  if data = [] then some []
  else (List.range numSamples).mapM fun k => do
    let sample ← (List.range data.length).mapM fun i => data[draw k i]?
    some (functor sample)

/-- The value of `numSamples - 1` for a 32-bit unsigned number, `Bootstrap.hh:155`. -/
def decrement : ℕ → ℕ
  | 0 => 4294967295
  | n + 1 => n

noncomputable section

/-- `standardError`, `Bootstrap.hh:118-157`.  `none` stands for exceptions and undefined values (NaN). -/
def standardError (draw : ℕ → ℕ → ℕ) (numSamples : ℕ) (data : List α) (functor : List α → ℝ) : Option ℝ := do
  let estimates ← makeReplicates draw numSamples data functor
  let mean := if numSamples = 0 then none else some (Kahan.accumulate estimates 0 / (numSamples : ℝ))
  let sampleSquaredDeviations ← estimates.mapM fun estimate => mean.map fun mean => (mean - estimate) * (mean - estimate)
  let sumSquaredDeviations := Kahan.accumulateSorted sampleSquaredDeviations 0
  if decrement numSamples = 0 then none
  else some (√(sumSquaredDeviations / (decrement numSamples : ℝ)))

/-- `Bootstrap::index`, `Bootstrap.hh:232-239`; `none` if the conversion to `unsigned` is undefined. -/
def index (samples : ℕ) (alpha : ℝ) : Option ℕ :=
  let c := ⌈(samples : ℝ) * alpha⌉
  if 0 ≤ c ∧ c < 2 ^ 32 then some (decrement c.toNat) else none

/-- `percentileConfidenceInterval`, `Bootstrap.hh:186-210`. -/
def percentileConfidenceInterval (draw : ℕ → ℕ → ℕ) (numSamples : ℕ) (alpha : ℝ) (data : List α) (functor : List α → ℝ) : Option (ℝ × ℝ) := do
  let estimates ← makeReplicates draw numSamples data functor
  let estimates := estimates.insertionSort (· ≤ ·)
  let lowerPercentile := alpha / 2
  let lowerIndex ← index numSamples lowerPercentile
  let lowerEstimate ← estimates[lowerIndex]?
  let upperPercentile := 1 - lowerPercentile
  let upperIndex ← index numSamples upperPercentile
  let upperEstimate ← estimates[upperIndex]?
  some (lowerEstimate, upperEstimate)

/-- `basicConfidenceInterval`, `Bootstrap.hh:159-184`. -/
def basicConfidenceInterval (draw : ℕ → ℕ → ℕ) (numSamples : ℕ) (alpha : ℝ) (data : List α) (functor : List α → ℝ) : Option (ℝ × ℝ) := do
  let theta := functor data
  let estimates ← makeReplicates draw numSamples data functor
  let estimates := estimates.insertionSort (· ≤ ·)
  let upperPercentile := alpha / 2
  let upperIndex ← index numSamples upperPercentile
  let upperEstimate ← estimates[upperIndex]?
  let lowerPercentile := 1 - upperPercentile
  let lowerIndex ← index numSamples lowerPercentile
  let lowerEstimate ← estimates[lowerIndex]?
  some (2 * theta - lowerEstimate, 2 * theta - upperEstimate)

/-- `studentConfidenceInterval`, `Bootstrap.hh:212-229`.  `quantile d p` is the quantile of Student's distribution with `d` degrees of freedom;
`none` is the exception for `d ≤ 0`, or an undefined standard error. -/
def studentConfidenceInterval (quantile : ℕ → ℝ → ℝ) (draw : ℕ → ℕ → ℕ) (numSamples : ℕ) (alpha : ℝ) (data : List α) (functor : List α → ℝ) :
    Option (ℝ × ℝ) := do
  let theta := functor data
  if data.length ≤ 1 then none
  else do
    let tl := quantile (data.length - 1) (1 - alpha)
    let tu := quantile (data.length - 1) alpha
    let se ← standardError draw numSamples data functor
    some (theta - tl * se, theta - tu * se)

end

end Aleph.Bootstrap
