import Verif.Model.DataDescriptors
import Verif.Model.Statistics
import Mathlib.Analysis.SpecialFunctions.Log.Basic

/-!
# Correlation dimension

Models `include/aleph/containers/FractalDimension.hh`.  Values are real numbers (simplification: no rounding, and the numbers of pairs do not
overflow).
-/

namespace Aleph.FractalDimension

noncomputable section

/-- `distances[ x ] += 1` for a `std::map`, `FractalDimension.hh:63`. -/
def increment (x : ℝ) : List (ℝ × ℕ) → List (ℝ × ℕ)
  | [] => [(x, 1)]
  | (y, c) :: l => if x < y then (x, 1) :: (y, c) :: l else if x = y then (y, c + 1) :: l else (y, c) :: increment x l

/-- The map of distances, `FractalDimension.hh:48-65`; `dist i j` is the converted distance. -/
def distances (n : ℕ) (dist : ℕ → ℕ → ℝ) : List (ℝ × ℕ) :=
  (DataDescriptors.pairs n).foldl (fun m q => increment (dist q.1 q.2) m) []

/-- The loop over the map, `FractalDimension.hh:75-88`; the value is the sequence of pairs `(x, y)`. -/
def integralLoop (n : ℕ) : ℕ → List (ℝ × ℕ) → List (ℝ × ℝ)
  | _, [] => []
  | seen, (distance, count) :: l =>
    let seen := seen + count
    if distance > 0 then (distance, (seen : ℝ) / (((n * (n - 1) : ℕ) : ℝ) * 0.5)) :: integralLoop n seen l
    else integralLoop n seen l

/-- `correlationDimensionIntegral`, `FractalDimension.hh:38-91`: the vectors `x` and `y`. -/
def correlationDimensionIntegral (n : ℕ) (dist : ℕ → ℕ → ℝ) : List ℝ × List ℝ :=
  let l := integralLoop n 0 (distances n dist)
  (l.map Prod.fst, l.map Prod.snd)

/-- `std::log`, `FractalDimension.hh:110-113`; `none` stands for infinite and undefined values, which make the final result undefined. -/
def log (x : ℝ) : Option ℝ := if 0 < x then some (Real.log x) else none

/-- `correlationDimension`, `FractalDimension.hh:99-129`; `Except.error` is the exception, `none` an undefined value. -/
def correlationDimension (x y : List ℝ) : Except Unit (Option ℝ) :=
  if x.length ≠ y.length then .error ()
  else match x.mapM log, y.mapM log with
    | some X, some Y => do
      let cov ← Statistics.sampleCovariance X Y
      let var := Statistics.sampleVariance X
      .ok do
        let cov ← cov
        let var ← var
        if var = 0 then none else some (cov / var)
    | _, _ => .ok none

end

end Aleph.FractalDimension
