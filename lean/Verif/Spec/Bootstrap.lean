import Mathlib.Order.Basic
import Mathlib.Data.List.Perm.Basic

/-!
# Partial sorting and resampling
-/

namespace Aleph.Spec

variable {α : Type}

/-- What the standard guarantees about `std::nth_element`: the range is permuted; the element at position `m` is not smaller than those before
it and not larger than those behind it.  (Nothing happens if `m` is the end of the range.) -/
structure IsNthElement [LinearOrder α] (nth : ℕ → List α → List α) : Prop where
  perm : ∀ m l, m ≤ l.length → (nth m l).Perm l
  split : ∀ m l v, (nth m l)[m]? = some v → (∀ x ∈ (nth m l).take m, x ≤ v) ∧ ∀ x ∈ (nth m l).drop m, v ≤ x

/-- The sample that consists of the elements of `data` at the positions `draw 0`, `draw 1`, ... -/
def resample (draw : ℕ → ℕ) (data : List α) : List α := (List.range data.length).filterMap fun i => data[draw i]?

/-- The random numbers are positions of elements. -/
def InRange (draw : ℕ → ℕ → ℕ) (data : List α) : Prop := ∀ k i, draw k i < data.length

end Aleph.Spec
