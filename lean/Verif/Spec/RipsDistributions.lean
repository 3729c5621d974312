import Verif.Spec.VietorisRipsExample
import Verif.Spec.Options

/-!
# Specification: distributions of distances and degrees
-/

namespace Aleph.Spec

/-- The Manhattan distance of two of the given points. -/
noncomputable def manhattanDistance (rows : List (List ℝ)) (i j : ℕ) : ℝ := (List.zipWith (fun x y => |x - y|) (rows.getD i []) (rows.getD j [])).sum

/-- The squares of the distances of all pairs of points, each of them once, ordered by the first and then by the second point. -/
def squaredDistances (n : ℕ) (M : ℕ → ℕ → ℝ) : List ℝ :=
  (List.range n).flatMap fun i => ((List.range n).filter fun j => i < j).map fun j => M i j ^ 2

open Classical in
/-- The other points whose distance to a point is below a threshold. -/
noncomputable def otherNeighbours (n : ℕ) (M : ℕ → ℕ → ℝ) (ε : ℝ) (i : ℕ) : Finset ℕ := (Finset.range n).filter fun j => j ≠ i ∧ M i j < ε

/-- A named list of values as a member of a JSON object, followed by the end of the line. -/
def jsonMember (name : List Char) (words : List (List Char)) : List Char := "  \"".toList ++ name ++ "\": [".toList ++ [','].intercalate words ++ "]\n".toList

end Aleph.Spec
