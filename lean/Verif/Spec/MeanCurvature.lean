import Verif.Spec.TangentSpace

/-!
# Specification vocabulary for the tool `mean_curvature`
-/

namespace Aleph.Spec.Curvature

/-- The positions of points in a space of dimension `d`. -/
noncomputable def positions (d : ℕ) (rows : List (List ℝ)) (i : ℕ) : Fin d → ℝ := fun l => (rows.getD i []).getD l 0

/-- `x` is the curvature of the sphere or plane that fits best to the `k` nearest neighbours of a point: it minimises the weighted sum of squared values, among all polynomials with discriminant 1.
Neighbours that belong to a sphere or plane are not covered. -/
def IsFittedCurvature {d : ℕ} (n : ℕ) (position : ℕ → Fin d → ℝ) (k i : ℕ) (x : ℝ) : Prop :=
  ∃ ids h, Nearest n position k i ids h ∧ ((∀ q : Quadric d, cost position i h ids q = 0 → q = ⟨0, fun _ => 0, 0⟩) →
    ∃ q : Quadric d, q.size = 1 ∧ (∀ p : Quadric d, p.size = 1 → cost position i h ids q ≤ cost position i h ids p) ∧ x = 2 * |q.c|)

/-- One line for each point, with its coordinates and a further number, separated by blanks. -/
def pointLines (print : ℝ → List Char) (rows : List (List ℝ)) (xs : List ℝ) : List Char :=
  (List.zipWith (fun row x => (row.map fun y => print y ++ [' ']).flatten ++ print x ++ ['\n']) rows xs).flatten

end Aleph.Spec.Curvature
