import Verif.Spec.Complex
import Mathlib.Data.Real.Basic

/-!
# Weights of edges
-/

namespace Aleph.Spec.Strata

/-- The weights of the edges of a complex. -/
def edgeWeights (K : Complex ℝ) : List ℝ := (K.filter fun s => decide (s.vset.card = 2)).map (·.data)

end Aleph.Spec.Strata
