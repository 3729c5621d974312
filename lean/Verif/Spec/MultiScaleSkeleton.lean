import Verif.Spec.VietorisRipsExample
import Mathlib.Analysis.Calculus.Deriv.Basic
import Mathlib.Algebra.BigOperators.Group.Finset.Basic

/-!
# Specification vocabulary for the tool `multi_scale_skeleton`
-/

namespace Aleph.Spec

/-- Two of `n` points are joined in the Gabriel graph: no other point lies in the closed ball whose diameter is the segment between them. -/
def IsGabriel (n : ℕ) (d : ℕ → ℕ → ℝ) (i j : ℕ) : Prop := i ≠ j ∧ ∀ r < n, r ≠ i → r ≠ j → d i j ^ 2 < d r i ^ 2 + d r j ^ 2

open Classical in
/-- The points that are joined to a point. -/
noncomputable def gabrielNeighbours (n : ℕ) (d : ℕ → ℕ → ℝ) (i : ℕ) : Finset ℕ := (Finset.range n).filter (IsGabriel n d i)

/-- The mean length of the edges at a point; `none` if there are no edges. -/
noncomputable def meanLength (n : ℕ) (d : ℕ → ℕ → ℝ) (i : ℕ) : Option ℝ :=
  if (gabrielNeighbours n d i).card = 0 then none else some ((∑ j ∈ gabrielNeighbours n d i, d i j) / (gabrielNeighbours n d i).card)

/-- The amount of heat `h i j t` at point `i` and time `t`, if point `j` has one unit of heat at the beginning: heat flows along the edges, in proportion to their length and to
the difference of heat. -/
structure IsHeatFlow (n : ℕ) (d : ℕ → ℕ → ℝ) (h : ℕ → ℕ → ℝ → ℝ) : Prop where
  start : ∀ i < n, ∀ j < n, h i j 0 = if i = j then 1 else 0
  flow : ∀ i < n, ∀ j < n, ∀ t, HasDerivAt (h i j) (∑ k ∈ gabrielNeighbours n d i, d i k * (h k j t - h i j t)) t

/-- One block of lines for each time, with one line for each point. -/
def blocks (times : List ℝ) (n : ℕ) (line : ℝ → ℕ → List Char) : List Char :=
  (times.map fun t => ((List.range n).map (line t)).flatten ++ ['\n', '\n']).flatten

end Aleph.Spec
