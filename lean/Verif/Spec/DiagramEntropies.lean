import Verif.Spec.Entropy
import Mathlib.Analysis.SpecialFunctions.Sqrt
import Mathlib.Order.Bounds.Basic

/-!
# Entropies of persistence diagrams; `none` is not a number
-/

namespace Aleph.Spec.DiagramEntropies

/-- The distances of points to their nearest neighbours. -/
def NearestDistances (points : List (ℝ × ℝ)) (r : List ℝ) : Prop :=
  r.length = points.length ∧ ∀ (i : ℕ) (_ : i < r.length) (_ : i < points.length), IsLeast {x | ∃ (j : ℕ) (hj : j < points.length), j ≠ i ∧
    x = √((points[i].1 - points[j].1) ^ 2 + (points[i].2 - points[j].2) ^ 2)} r[i]

/-- The Shannon entropy of the areas of disks around all points that reach to the nearest other point. -/
def NearestNeighbourEntropy (points : List (ℝ × ℝ)) (v : Option ℝ) : Prop :=
  (points = [] ∧ v = some 0) ∨
    ∃ r, NearestDistances points r ∧ (((∀ x ∈ r, x = 0) ∧ v = none) ∨ ((∃ x ∈ r, x ≠ 0) ∧ v = some (shannon (r.map fun x => x ^ 2))))

/-- The Shannon entropy of the numbers of points per cell, for a grid of `n` times `n` cells that contains all points. -/
def CellEntropy (n : ℕ) (points : List (ℝ × ℝ)) (v : Option ℝ) : Prop :=
  (points = [] ∧ v = some 0) ∨
    ∃ c0 c1 d0 d1, IsLeast {x | x ∈ points.map (·.1)} c0 ∧ IsGreatest {x | x ∈ points.map (·.1)} c1 ∧ IsLeast {x | x ∈ points.map (·.2)} d0 ∧
      IsGreatest {x | x ∈ points.map (·.2)} d1 ∧ c0 < c1 ∧ d0 < d1 ∧
      v = some (shannon ((List.range (n * n)).map fun k =>
        ((points.countP fun p => gridCell n d0 d1 p.2 = k % n ∧ gridCell n (-c1) (-c0) (-p.1) = k / n : ℕ) : ℝ)))

/-- The Shannon entropy of the persistence values, provided that all points are on the same side of the diagonal. -/
def PersistenceEntropy (points : List (ℝ × ℝ)) (v : Option ℝ) : Prop :=
  (((∀ p ∈ points, p.1 < p.2) ∨ ∀ p ∈ points, p.2 < p.1) ∧ v = some (shannon (points.map fun p => |p.2 - p.1|))) ∨
    (¬((∀ p ∈ points, p.1 < p.2) ∨ ∀ p ∈ points, p.2 < p.1) ∧ v = none)

/-- Neither all creation values nor all destruction values agree. -/
def Spread (points : List (ℝ × ℝ)) : Prop := (∃ p ∈ points, ∃ q ∈ points, p.1 ≠ q.1) ∧ ∃ p ∈ points, ∃ q ∈ points, p.2 ≠ q.2

end Aleph.Spec.DiagramEntropies
