import Verif.Spec.EccentricityExample
import Verif.Spec.Json
import Verif.Spec.Options

/-!
# Specification: persistence diagrams of point clouds with descriptors
-/

namespace Aleph.Spec

/-- The values of one of three descriptors: minus the sum of the distances to the `k` nearest points, divided by the number of points; the eccentricity of order `p`; the sum of
exponentials over all points whose distance is at most `h`, divided by the number of points. -/
def IsDescriptor (rows : List (List ℝ)) (name : List Char) (k : ℕ) (h : ℝ) (p : ℕ) (f : ℕ → ℝ) : Prop :=
  (name = "density".toList ∧ ∀ i < rows.length, ∃ T, AreNearest rows.length (pointDistance rows) k i T ∧ f i * rows.length = -∑ j ∈ T, pointDistance rows i j) ∨
  (name = "eccentricity".toList ∧ ∀ i < rows.length, IsEccentricity rows.length (pointDistance rows) p i (f i)) ∨
  (name = "gaussian".toList ∧ ∀ i < rows.length, f i * rows.length =
    ∑ j ∈ (Finset.range rows.length).filter (fun j => pointDistance rows i j ^ 2 ≤ h ^ 2), Real.exp (-pointDistance rows i j ^ 2 / (2 * h)))

/-- Parameters for which a descriptor is defined for `n` points. -/
def IsSupported (n : ℕ) (name : List Char) (k : ℕ) (h : ℝ) (p : ℕ) : Prop :=
  (name = "density".toList ∧ (k ≤ n ∨ n = 0)) ∨ (name = "eccentricity".toList ∧ (p ≠ 0 ∨ n ≠ 1)) ∨ (name = "gaussian".toList ∧ h ≠ 0)

/-- All values are subtracted from the largest one. -/
def IsReflected (n : ℕ) (f g : ℕ → ℝ) : Prop := ∀ largest, IsGreatest {x | ∃ i < n, x = f i} largest → ∀ i < n, g i = largest - f i

/-- Zero for the smallest value, one for the largest one, and linear in between; equal values do not change. -/
def IsRescaled (n : ℕ) (f g : ℕ → ℝ) : Prop :=
  ∀ least largest, IsLeast {x | ∃ i < n, x = f i} least → IsGreatest {x | ∃ i < n, x = f i} largest →
    ∀ i < n, (least < largest → g i * (largest - least) = f i - least) ∧ (least = largest → g i = f i)

/-- The JSON value for a diagram: the number of points at infinity, the dimension, a name, the number of points, and the points. -/
def diagramReport {α : Type} [DecidableEq α] (inf : α) (print : α → List Char) (name : List Char) (dimension : ℕ) (points : List (α × α)) : Json :=
  .object ([("betti".toList, .number (points.countP fun p => p.2 = inf)), ("dimension".toList, .number dimension)] ++
    (if name = [] then [] else [("name".toList, .text name)]) ++
    [("size".toList, .number points.length), ("diagram".toList, .array (points.map fun p => .array [.text (print p.1), .text (print p.2)]))])

end Aleph.Spec
