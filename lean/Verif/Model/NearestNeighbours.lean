import Mathlib.Data.List.Sort

/-!
# Nearest neighbour queries

Models `neighbourSearch` of `include/aleph/geometry/BruteForce.hh` (`radiusSearch` is in `Verif/Model/Rips.lean`).
-/

namespace Aleph

namespace NearestNeighbours

variable {α : Type}

/-- The treatment of point `i`, `BruteForce.hh:90-115`.  `dist i j` is the converted distance (`_traits.from`) of points `i`
and `j`.  `sort` is `std::sort` with the comparator of lines 106-109; the order of indices with equal distances
is not specified, so that it is a parameter.  `none` is undefined behaviour: `begin() + k` is beyond the end
(lines 114-115), or the comparator reads past the end of the distances. -/
def neighboursOf [LinearOrder α] (sort : (ℕ → ℕ → Bool) → List ℕ → List ℕ) (n : ℕ) (dist : ℕ → ℕ → α) (k i : ℕ) :
    Option (List ℕ × List α) :=
  let indices := List.range n
  let distances := (List.range n).map fun j => dist i j
  let indices := sort (fun a b =>
    match distances[a]?, distances[b]? with
    | some x, some y => decide (x < y)
    | _, _ => false) indices
  let distances := distances.insertionSort (· ≤ ·)
  if n < k then none else some (indices.take k, distances.take k)

/-- `BruteForce::neighbourSearch`, `BruteForce.hh:75-117`. -/
def neighbourSearch [LinearOrder α] (sort : (ℕ → ℕ → Bool) → List ℕ → List ℕ) (n : ℕ) (dist : ℕ → ℕ → α) (k : ℕ) :
    Option (List (List ℕ × List α)) :=
  (List.range n).mapM fun i => neighboursOf sort n dist k i

end NearestNeighbours

end Aleph
