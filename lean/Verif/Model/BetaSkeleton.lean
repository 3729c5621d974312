import Verif.Model.Complex
import Mathlib.Algebra.Field.Defs

/-!
# Beta-skeletons

Models `include/aleph/geometry/BetaSkeleton.hh` and the vector operators of
`include/aleph/utilities/ContainerOperators.hh` that it uses.

A point is the list of its coordinates; all points of the container have the same dimension.  The coordinates are
elements of a field (for containers of integers, the cast of the scalar in `ContainerOperators.hh:47` truncates the factors,
which is not modelled).
-/

namespace Aleph

namespace BetaSkeleton

variable {α : Type}

/-- `operator*`, `ContainerOperators.hh:40-52`. -/
def scale [Mul α] (lambda : α) (v : List α) : List α := v.map fun x => lambda * x

/-- `operator+`, `ContainerOperators.hh:63-72`, for vectors of the same size. -/
def add [Add α] (u v : List α) : List α := List.zipWith (· + ·) u v

/-- `BetaBall`, `BetaSkeleton.hh:27-56`. -/
structure Ball (α : Type) where
  centre : List α
  radius : α

/-- The constructor, `BetaSkeleton.hh:37-41`; `half` is `0.5`. -/
def Ball.make [Mul α] (half : α) (centre : List α) (diameter : α) : Ball α := ⟨centre, half * diameter⟩

/-- `BetaBall::contains`, `BetaSkeleton.hh:43-51`, for a point of the same dimension. -/
def Ball.contains [Field α] [LinearOrder α] (b : Ball α) (other : List α) : Bool :=
  (List.zip b.centre other).foldl (fun distance e => distance + (e.1 - e.2) * (e.1 - e.2)) 0 ≤ b.radius * b.radius

/-- `BetaLune`, `BetaSkeleton.hh:66-89`: whether the lune of the points `P` and `Q` at distance `d` contains `other`. -/
def luneContains [Field α] [LinearOrder α] (P Q : List α) (beta d : α) (other : List α) : Bool :=
  let half : α := 1 / 2
  let centreP := add (scale (1 - half * beta) P) (scale (half * beta) Q)
  let centreQ := add (scale (1 - half * beta) Q) (scale (half * beta) P)
  let diameter := beta * d
  (Ball.make half centreP diameter).contains other && (Ball.make half centreQ diameter).contains other

/-- `buildBetaSkeletonNaive`, `BetaSkeleton.hh:114-170`, for a container with `n` points; `dist i j` is the converted
distance (`traits.from`) of the points `i` and `j`, and `d0` the default-constructed data.  `none` is the exception for an
empty simplex (shown not to happen). -/
def build [Field α] [LinearOrder α] (d0 : α) (n : ℕ) (point : ℕ → List α) (dist : ℕ → ℕ → α) (beta : α) :
    Option (Complex α) :=
  let vertices := (List.range n).map fun i => Simplex.ofVertex i d0
  let edges := (List.range n).flatMap fun i =>
    (List.range' (i + 1) (n - (i + 1))).filterMap fun j =>
      if (List.range n).all fun r => !(r != i && r != j && luneContains (point i) (point j) beta (dist i j) (point r))
      then some (Simplex.ofRange [i, j] (dist i j)) else none
  (vertices ++ edges).foldlM (fun (K : Complex α) s => K.pushBack s) []

end BetaSkeleton

end Aleph
