import Mathlib.Analysis.Real.Sqrt
import Mathlib.Algebra.BigOperators.Fin

/-!
# Spheres through points
-/

namespace Aleph.Spec.Curvature

variable {d : ℕ}

/-- A polynomial `a + b · x + c |x|²`, whose zeros are a sphere or a plane. -/
@[ext] structure Quadric (d : ℕ) where
  a : ℝ
  b : Fin d → ℝ
  c : ℝ

/-- The value at a point. -/
def Quadric.value (q : Quadric d) (x : Fin d → ℝ) : ℝ := q.a + ∑ i, q.b i * x i + q.c * ∑ i, x i ^ 2

/-- The discriminant `|b|² - 4 a c`, which is positive for planes and for spheres with positive radius. -/
def Quadric.size (q : Quadric d) : ℝ := ∑ i, q.b i ^ 2 - 4 * q.a * q.c

open Classical in
/-- The curvature of the zeros: the inverse of the radius of a sphere, and 0 for all else. -/
noncomputable def Quadric.curvature (q : Quadric d) : ℝ := if 0 < q.size then 2 * |q.c| / Real.sqrt q.size else 0

/-- The Euclidean distance. -/
noncomputable def distance (x y : Fin d → ℝ) : ℝ := Real.sqrt (∑ i, (x i - y i) ^ 2)

open Classical in
/-- The weight of a point at a distance `r`, for neighbours within a distance `h`. -/
noncomputable def weight (h r : ℝ) : ℝ := if r < h then (1 - (r / h) ^ 2) ^ 4 else 0

/-- The sum of the squared values of a polynomial at some points, with weights. -/
noncomputable def cost (position : ℕ → Fin d → ℝ) (i : ℕ) (h : ℝ) (ids : List ℕ) (q : Quadric d) : ℝ :=
  (ids.map fun j => weight h (distance (position i) (position j)) * q.value (position j) ^ 2).sum

/-- The `k` nearest neighbours of a point `i`, and the largest distance of one of them. -/
structure Nearest (n : ℕ) (position : ℕ → Fin d → ℝ) (k i : ℕ) (ids : List ℕ) (h : ℝ) : Prop where
  length : ids.length = k
  nodup : ids.Nodup
  lt : ∀ j ∈ ids, j < n
  closest : ∀ j ∈ ids, ∀ l < n, l ∉ ids → distance (position i) (position j) ≤ distance (position i) (position l)
  le : ∀ j ∈ ids, distance (position i) (position j) ≤ h
  attained : ∃ j ∈ ids, distance (position i) (position j) = h

end Aleph.Spec.Curvature
