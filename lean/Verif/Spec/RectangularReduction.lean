import Verif.Spec.Matrix

/-!
# Specification of the reduction of rectangular matrices
-/

namespace Aleph.Spec

/-- The column has an entry that is not the index of a column. -/
def IsTall (r : Rep) (j : ℕ) : Prop := ∃ i ∈ cols r j, r.data.length ≤ i

open Classical in
/-- The columns, without those that have an entry that is not the index of a column. -/
noncomputable def shortCols (r : Rep) (j : ℕ) : Finset ℕ := if IsTall r j then ∅ else cols r j

end Aleph.Spec
