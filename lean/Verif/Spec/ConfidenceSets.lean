import Verif.Model.StepFunction
import Mathlib.Data.Real.Basic

/-!
# Specification: confidence bands of step functions

The addition of step functions is a parameter `plus`; it may fail (see C50).
-/

namespace Aleph.Spec

open Step

/-- The sum of a function and some further functions, which are added one after the other. -/
inductive SumOf (plus : Fn ℝ → Fn ℝ → Option (Fn ℝ)) : Fn ℝ → List (Fn ℝ) → Fn ℝ → Prop
  | nil (s : Fn ℝ) : SumOf plus s [] s
  | cons (s f t u : Fn ℝ) (fs : List (Fn ℝ)) : plus s f = some t → SumOf plus t fs u → SumOf plus s (f :: fs) u

/-- The same intervals, with other values. -/
def mapValues (g : ℝ → ℝ) (f : Fn ℝ) : Fn ℝ := f.map fun e => ⟨e.a, e.b, g e.y⟩

/-- The mean of some functions. -/
def MeanOf (plus : Fn ℝ → Fn ℝ → Option (Fn ℝ)) (fs : List (Fn ℝ)) (m : Fn ℝ) : Prop := ∃ s, SumOf plus [] fs s ∧ m = mapValues (fun y => y / fs.length) s

/-- The difference of two functions is at most `r`. -/
def DifferByAtMost (plus : Fn ℝ → Fn ℝ → Option (Fn ℝ)) (f g : Fn ℝ) (r : ℝ) : Prop := 0 ≤ r ∧ ∃ d, plus f (mapValues (fun y => -y) g) = some d ∧ ∀ e ∈ d, |e.y| ≤ r

/-- The difference of two functions is less than `r`. -/
def DifferByLess (plus : Fn ℝ → Fn ℝ → Option (Fn ℝ)) (f g : Fn ℝ) (r : ℝ) : Prop := ∃ r' < r, DifferByAtMost plus f g r'

/-- The mean of a list of numbers. -/
noncomputable def average (l : List ℝ) : ℝ := l.sum / l.length

end Aleph.Spec
