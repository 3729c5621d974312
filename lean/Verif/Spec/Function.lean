import Mathlib.Data.Finset.Insert

/-!
# Specification of the path of a one-dimensional function
-/

namespace Aleph.Spec

variable {α : Type}

/-- The simplices of the path with the values of a function: vertex `i` carries the `i`-th value, the edge
between `i` and `i + 1` the combination of the values of its vertices. -/
def PathData (f : α → α → α) (values : List α) (t : Finset ℕ) (x : α) : Prop :=
  (∃ i, t = {i} ∧ values[i]? = some x) ∨
    ∃ i a b, t = {i, i + 1} ∧ values[i]? = some a ∧ values[i + 1]? = some b ∧ x = f a b

end Aleph.Spec
