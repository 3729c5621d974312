import Verif.Spec.Filesystem
import Verif.Spec.TopologicalDistance
import Verif.Spec.Json
import Mathlib.Data.Real.Basic
import Mathlib.Order.Bounds.Basic
import Mathlib.Analysis.SpecialFunctions.Pow.Real

/-!
# Statistics of persistence diagrams
-/

namespace Aleph.Spec.DiagramStatistics

/-- The statistics of a list of points: their number, the sum of powers of the persistence values, its mean, the largest absolute persistence value (zero without points), the mean of the
persistence values.  Means exist for non-empty diagrams only. -/
structure IsStatistics (points : List (ℝ × ℝ)) (p : ℝ) (n : ℕ) (total : ℝ) (normalized : Option ℝ) (infinity : ℝ) (average : Option ℝ) : Prop where
  number_eq : n = points.length
  total_eq : total = (points.map fun q => |q.2 - q.1| ^ p).sum
  normalized_eq : ∀ x, normalized = some x ↔ points ≠ [] ∧ x * (points.length : ℝ) = total
  infinity_eq : (points = [] ∧ infinity = 0) ∨ IsGreatest {x | ∃ q ∈ points, x = |q.2 - q.1|} infinity
  average_eq : ∀ x, average = some x ↔ points ≠ [] ∧ x * (points.length : ℝ) = (points.map fun q => q.2 - q.1).sum

/-- Texts, separated by commas. -/
inductive Separated : List (List Char) → List Char → Prop
  | one (x : List Char) : Separated [x] x
  | cons {x y : List Char} {xs : List (List Char)} {t : List Char} : Separated (y :: xs) t → Separated (x :: y :: xs) (x ++ ',' :: t)

/-- The text consists of the lines, each of which is ended. -/
inductive EndedLines : List (List Char) → List Char → Prop
  | nil : EndedLines [] []
  | cons {l : List Char} {ls : List (List Char)} {t : List Char} : EndedLines ls t → EndedLines (l :: ls) (l ++ '\n' :: t)

end Aleph.Spec.DiagramStatistics
