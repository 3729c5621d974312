import Verif.Spec.Complex
import Mathlib.Data.List.Basic

/-!
# Spectra
-/

namespace Aleph.Spec.Spectrum

/-- A line with data: it starts with a digit. -/
def IsData (l : List Char) : Prop := ∃ c ∈ ['0', '1', '2', '3', '4', '5', '6', '7', '8', '9'], l.head? = some c

/-- The superlevel sets of a sequence of values: a path with a vertex for every value, and edges between consecutive vertices that have the minimum of both values. -/
def PathData {α : Type} [LinearOrder α] (ys : List α) (t : Finset ℕ) (d : α) : Prop :=
  (∃ i, t = {i} ∧ ys[i]? = some d) ∨
  (∃ i a b, t = {i, i + 1} ∧ ys[i]? = some a ∧ ys[i + 1]? = some b ∧ d = min a b)

end Aleph.Spec.Spectrum
