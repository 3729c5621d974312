import Verif.Spec.Components
import Mathlib.Algebra.Order.Group.Abs
import Mathlib.Order.Bounds.Basic
import Mathlib.Algebra.Order.Field.Basic
import Mathlib.Algebra.BigOperators.Group.List.Defs

/-!
# Specification: peaks of spectra
-/

namespace Aleph.Spec.Peaks

variable {α : Type} [Field α] [LinearOrder α]

/-- The intensities of the samples of a spectrum, or their parts of the total intensity. -/
def intensities (normalize : Bool) (samples : List (α × α)) : List α :=
  if normalize then (samples.map Prod.snd).map (· / (samples.map Prod.snd).sum) else samples.map Prod.snd

/-- All values at the two places and between them are at least `y`. -/
def RunAbove (ys : List α) (y : α) (i j : ℕ) : Prop := ∀ k a, min i j ≤ k → k ≤ max i j → ys[k]? = some a → y ≤ a

/-- The diagram of the superlevel sets of a spectrum.  There is a point for its largest value, destroyed at zero.  All other points lie below the diagonal.  The
number of points created at `x` at the latest and destroyed after `y` is the number of runs of values of at least `y` that contain a value of at least `x`; the point of
the largest value counts for all `y`. -/
structure IsPeakDiagram (ys : List α) (P : List (α × α)) : Prop where
  points : ∃ m Q, P.Perm ((m, 0) :: Q) ∧ m ∈ ys ∧ (∀ v ∈ ys, v ≤ m) ∧ (∀ p ∈ Q, p.1 ∈ ys ∧ p.2 ∈ ys ∧ p.2 < p.1) ∧
    ∀ x y, y ≤ x → IsClassCount {i | ∃ a, ys[i]? = some a ∧ x ≤ a} (RunAbove ys y) ((if x ≤ m then 1 else 0) + Q.countP fun p => x ≤ p.1 ∧ p.2 < y)

/-- The value at the first place is larger; of equal values, the first one is considered as larger. -/
def Higher (ys : List α) (j i : ℕ) : Prop := ∃ a b, ys[i]? = some a ∧ ys[j]? = some b ∧ (a < b ∨ a = b ∧ j < i)

/-- The prominence of a value: its difference to the largest `y` such that a higher value is reached without falling below `y`.  There is no such `y` for the
largest value, whose prominence is its absolute value. -/
def IsProminence (ys : List α) (i : ℕ) (p : α) : Prop :=
  ∃ a, ys[i]? = some a ∧
    ((∀ j, ¬ Higher ys j i) ∧ p = |a| ∨ ∃ d, IsGreatest {y | ∃ j, Higher ys j i ∧ RunAbove ys y i j} d ∧ p = a - d)

/-- The transformed spectrum, sorted by positions: each position of a sample occurs once, with the prominence of a sample at that position. -/
structure IsTransformed (xs ys : List α) (T : List (α × α)) : Prop where
  sorted : T.Pairwise fun p q => p.1 < q.1
  covers : ∀ x ∈ xs, ∃ p, (x, p) ∈ T
  prominence : ∀ e ∈ T, ∃ i, xs[i]? = some e.1 ∧ IsProminence ys i e.2

end Aleph.Spec.Peaks
