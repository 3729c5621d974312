import Verif.Spec.VietorisRipsExample
import Mathlib.Analysis.SpecialFunctions.Trigonometric.Inverse

/-!
# Specification: files of random persistence diagrams
-/

namespace Aleph.Spec

/-- The points whose coordinates are successive random numbers. -/
def boxRows (draw : ℕ → ℝ) (m : ℕ) : List (List ℝ) := (List.range m).map fun j => [draw (3 * j), draw (3 * j + 1), draw (3 * j + 2)]

/-- The points on a sphere that are given by two random numbers each: a fraction of a turn around the axis, and a height. -/
noncomputable def sphereRows (draw : ℕ → ℝ) (m : ℕ) (r : ℝ) : List (List ℝ) :=
  (List.range m).map fun j =>
    let θ := 2 * Real.pi * draw (2 * j)
    let φ := Real.arccos (1 - 2 * draw (2 * j + 1))
    [r * Real.cos θ * Real.sin φ, r * Real.sin θ * Real.sin φ, r * Real.cos φ]

open Classical in
/-- The rounds in which an angle is accepted, because a random number is below the density. -/
noncomputable def acceptedRounds (R r : ℝ) (x y : ℕ → ℝ) (rounds : ℕ) : List ℕ :=
  (List.range rounds).filter fun j => y j < (1 + r / R * Real.cos (x j)) / (2 * Real.pi)

/-- The points on a torus that are given by the first angles that are accepted, and angles around the axis. -/
noncomputable def torusRows (R r : ℝ) (x y psi : ℕ → ℝ) (rounds m : ℕ) : List (List ℝ) :=
  (((acceptedRounds R r x y rounds).take m).zipIdx).map fun t =>
    [(R + r * Real.cos (x t.1)) * Real.cos (psi t.2), (R + r * Real.cos (x t.1)) * Real.sin (psi t.2), r * Real.sin (x t.1)]

/-- The text for the points of a diagram: a line with the two coordinates for each point, and an empty line. -/
def pointsText (print : ℝ → List Char) (points : List (ℝ × ℝ)) : List Char :=
  (points.flatMap fun p => print p.1 ++ "\t".toList ++ print p.2 ++ "\n".toList) ++ "\n".toList

end Aleph.Spec
