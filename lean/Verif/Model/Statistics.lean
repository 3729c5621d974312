import Mathlib.Analysis.SpecialFunctions.Pow.Real

/-!
# Statistics

Models `include/aleph/math/Statistics.hh`.  Values are real numbers (simplification: no rounding, no overflow); an undefined value (NaN)
is `none`.
-/

namespace Aleph.Statistics

noncomputable section

/-- `sampleMean`, `Statistics.hh:26-33`. -/
def sampleMean (l : List ℝ) : Option ℝ :=
  if l = [] then none else some (l.foldl (fun s x => s + x) 0 / (l.length : ℝ))

/-- `sampleCovariance`, `Statistics.hh:45-77`; `Except.error` is the exception. -/
def sampleCovariance (l1 l2 : List ℝ) : Except Unit (Option ℝ) :=
  if l1 = [] ∨ l2 = [] ∨ l1.length = 1 ∨ l2.length = 1 then .ok none
  else if l1.length ≠ l2.length then .error ()
  else .ok do
    let mean1 ← sampleMean l1
    let mean2 ← sampleMean l2
    let sum := (l1.zip l2).foldl (fun sum p =>
      let d1 := p.1 - mean1
      let d2 := p.2 - mean2
      sum + d1 * d2) 0
    some (sum / ((l1.length - 1 : ℕ) : ℝ))

/-- `sampleVariance`, `Statistics.hh:88-107`. -/
def sampleVariance (l : List ℝ) : Option ℝ :=
  if l = [] ∨ l.length = 1 then none
  else do
    let mean ← sampleMean l
    let sum := l.foldl (fun sum d => sum + (d - mean) * (d - mean)) 0
    some ((1 / ((l.length - 1 : ℕ) : ℝ)) * sum)

/-- `sampleStandardDeviation`, `Statistics.hh:119-123`. -/
def sampleStandardDeviation (l : List ℝ) : Option ℝ := (sampleVariance l).map fun v => √v

/-- `sampleSkewness`, `Statistics.hh:134-156`.  The `return` for empty ranges is missing; the computation goes on with the undefined mean and
ends with an undefined quotient. -/
def sampleSkewness (l : List ℝ) : Option ℝ := do
  let mean ← sampleMean l
  let (numerator, denominator) := l.foldl (fun (s : ℝ × ℝ) x =>
    (s.1 + (x - mean) ^ 3, s.2 + (x - mean) * (x - mean))) (0, 0)
  let numerator := numerator / (l.length : ℝ)
  let denominator := denominator / (l.length : ℝ)
  let denominator := denominator ^ ((3 : ℝ) / 2)
  if denominator = 0 then none else some (numerator / denominator)

/-- `sampleKurtosis`, `Statistics.hh:168-190`. -/
def sampleKurtosis (l : List ℝ) : Option ℝ := do
  let mean ← sampleMean l
  let (m4, m2) := l.foldl (fun (s : ℝ × ℝ) x => (s.1 + (x - mean) ^ 4, s.2 + (x - mean) ^ 2)) (0, 0)
  let n := (l.length : ℝ)
  let m4 := m4 / n
  let m2 := m2 / n
  if m2 * m2 = 0 then none else some (m4 / (m2 * m2) - 3)

end

end Aleph.Statistics
