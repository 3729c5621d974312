import Verif.Model.Rips
import Mathlib.Data.List.Sort

/-!
# Witness complexes and landmark selection

Models `include/aleph/geometry/WitnessComplex.hh`.

The container is modelled by the number `N` of its points and the function `dist`, which gives the distance of the
points with indices `i` and `j` (`traits.from(dist(...))`, lines 132-146).  Values are taken from a linear order with
addition and zero, `top` is `numeric_limits::max()`, `bot` is `numeric_limits::lowest()`; there is no
overflow and no rounding.
-/

namespace Aleph.Witness

variable {α : Type}

/-- The distance matrix, `WitnessComplex.hh:129-150`: one row per point, one column per landmark.  `none` is a
landmark index that is not valid for the container (line 144 would read out of bounds). -/
def distances (N : ℕ) (dist : ℕ → ℕ → α) (landmarks : List ℕ) : Option (List (List α)) :=
  if landmarks.all (· < N) then
    some ((List.range N).map fun j => landmarks.map fun l => dist l j)
  else none

/-- `nth_element` and `column.at(nu - 1)`, `WitnessComplex.hh:162-165`: the element that would be at that position if the
column were sorted.  `none`: the position is past the end. -/
def nthElement [LinearOrder α] (column : List α) (nu : ℕ) : Option α :=
  (column.insertionSort (· ≤ ·))[nu - 1]?

/-- `smallest`, `WitnessComplex.hh:156-167`. -/
def smallest [LinearOrder α] [Zero α] (nu : ℕ) (D : List (List α)) : Option (List α) :=
  if nu ≠ 0 then D.mapM fun column => nthElement column nu
  else some (D.map fun _ => 0)

/-- The loop over the points for one potential edge, `WitnessComplex.hh:184-190`. -/
def edgeWeight [LinearOrder α] [Add α] (top R : α) (D : List (List α)) (m : List α) (i j : ℕ) :
    Option α :=
  (D.zip m).foldlM (fun min e =>
    match e.1[i]?, e.1[j]? with
    | some a, some b => some (if max a b ≤ R + e.2 then Min.min min (max a b) else min)
    | _, _ => none) top

/-- The edges with smaller vertex `i`, `WitnessComplex.hh:182-199`. -/
def edgesOf [LinearOrder α] [Add α] (top R : α) (D : List (List α)) (m : List α) (n i : ℕ) :
    Option (List (Simplex α)) :=
  ((List.range' (i + 1) (n - (i + 1))).mapM fun j =>
    (edgeWeight top R D m i j).map fun min =>
      if min ≠ top then [Simplex.ofRange [i, j] min] else []).map List.flatten

/-- The list of simplices of the graph, `WitnessComplex.hh:174-200`. -/
def simplices [LinearOrder α] [Add α] [Zero α] (top R : α) (D : List (List α)) (m : List α)
    (n : ℕ) : Option (List (Simplex α)) :=
  ((List.range n).mapM fun i =>
    (edgesOf top R D m n i).map fun es => Simplex.ofVertex i 0 :: es).map List.flatten

/-- `buildWitnessComplex`, `WitnessComplex.hh:93-210`; `d` is the dimension of the container.  `none` is an access out of
bounds or an exception. -/
def build [LinearOrder α] [Add α] [Zero α] (o : Orders α) (top : α) (N d : ℕ)
    (dist : ℕ → ℕ → α) (landmarks : List ℕ) (dimension nu : ℕ) (R : α) : Option (Complex α) :=
  if landmarks.length = 0 ∨ N = 0 then some []
  else
    match distances N dist landmarks with
    | none => none
    | some D =>
      match smallest nu D with
      | none => none
      | some m =>
        match simplices top R D m landmarks.length with
        | none => none
        | some l =>
          match Complex.insertRange [] l with
          | (_, true) => none
          | (K, false) =>
            match Rips.expand o 0 K (if dimension = 0 then d + 1 else dimension) with
            | none => none
            | some L =>
              match Rips.assignMaximumWeight o 1 L with
              | none => none
              | some L => some (L.sort (asLt (Filtration.data fun a b => a < b)))

/-- `generateRandomLandmarks`, `WitnessComplex.hh:223-235`; `shuffle` is the result of the random shuffle (a permutation).
`none`: more landmarks than points are requested, the copy reads past the end. -/
def randomLandmarks (shuffle : List ℕ → List ℕ) (n k : ℕ) : Option (List ℕ) :=
  if k ≤ (shuffle (List.range n)).length then some ((shuffle (List.range n)).take k) else none

/-- The minimum distance to the landmarks selected so far, `WitnessComplex.hh:283-289`. -/
def minDistance [LinearOrder α] (top : α) (dist : ℕ → ℕ → α) (indices : List ℕ) (i : ℕ) : α :=
  indices.foldl (fun min l => Min.min min (dist i l)) top

/-- The loop over the points, `WitnessComplex.hh:278-296`: pairs of `max` and `index`. -/
def farthest [LinearOrder α] (top bot : α) (N : ℕ) (dist : ℕ → ℕ → α) (indices : List ℕ) : α × ℕ :=
  (List.range N).foldl (fun p i =>
    if p.1 < minDistance top dist indices i then (minDistance top dist indices i, i) else p) (bot, 0)

/-- The loop `while(indices.size() < n)`, `WitnessComplex.hh:276-299`, run `k` times. -/
def selectMore [LinearOrder α] (top bot : α) (N : ℕ) (dist : ℕ → ℕ → α) : ℕ → List ℕ → List ℕ
  | 0, indices => indices
  | k + 1, indices =>
    selectMore top bot N dist k (indices ++ [(farthest top bot N dist indices).2])

/-- `generateMaxMinLandmarks`, `WitnessComplex.hh:251-302`; `first` is the random index of line 270.  `none` is the
exception of line 258.  The loop condition fails after `n - 1` rounds. -/
def maxMinLandmarks [LinearOrder α] (top bot : α) (N : ℕ) (dist : ℕ → ℕ → α) (first n : ℕ) :
    Option (List ℕ) :=
  if N < n then none else some (selectMore top bot N dist (n - 1) [first])

end Aleph.Witness
