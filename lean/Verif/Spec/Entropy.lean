import Mathlib.Analysis.SpecialFunctions.Log.Base

/-!
# Shannon entropy
-/

namespace Aleph.Spec

/-- The Shannon entropy (in bits) of non-negative weights, not necessarily normalised.  Weights that are zero do not contribute
(`Real.logb 2 0 = 0`). -/
noncomputable def shannon (w : List ℝ) : ℝ := -(w.map fun x => x / w.sum * Real.logb 2 (x / w.sum)).sum

/-- The cell of a coordinate `x` between `lo` and `hi` if the range is divided into `n - 1` parts of equal width; the last cell only
contains the end point `hi`. -/
noncomputable def gridCell (n : ℕ) (lo hi x : ℝ) : ℕ := ⌊((n : ℝ) - 1) * (x - lo) / (hi - lo)⌋₊

end Aleph.Spec
