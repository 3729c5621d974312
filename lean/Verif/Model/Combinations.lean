import Verif.Model.Cliques

/-!
# Combinations and top-down Rips expansion

Models `include/aleph/geometry/RipsExpanderTopDown.hh`.
-/

namespace Aleph

/-- `std::rotate` of the segment from `a` to the end, so that the element at `m` becomes its first element
(`RipsExpanderTopDown.hh:60, 68, 73`). -/
def rotateAt (C : List Nat) (a m : Nat) : List Nat := C.take a ++ (C.drop m ++ (C.take m).drop a)

/-- `std::iter_swap`, `RipsExpanderTopDown.hh:54`. -/
def swapAt (C : List Nat) (i j : Nat) : List Nat := (C.set i (C.getD j 0)).set j (C.getD i 0)

/-- `next_combination(first, k, last)`, `RipsExpanderTopDown.hh:29-75`, for the positions `0`, `k` and
`C.length`.  Returns the new content of the range and the result. -/
def nextCombination (C : List Nat) (k : Nat) : List Nat × Bool :=
  if C.length = 0 ∨ k = 0 ∨ k = C.length then (C, false)
  else if C.length = 1 then (C, false)
  else
    -- the loop `while( first != itr1 )` looks for the last element before `k` smaller than the last element
    match (List.range k).reverse.find? fun i => C.getD i 0 < C.getD (C.length - 1) 0 with
    | some i =>
      -- the loop `while( !(*itr1 < *j) )`
      let j := k + (C.drop k).findIdx fun y => C.getD i 0 < y
      let C := swapAt C i j
      let C := rotateAt C (i + 1) (j + 1)
      -- `itr2` is advanced as often as `j` has to be advanced to reach the end
      (rotateAt C k (k + (C.length - (j + 1))), true)
    | none => (rotateAt C 0 k, false)

/-- The loop `do { use } while( next_combination )`, `RipsExpanderTopDown.hh:103-107` and `144-152`: the combinations
used and the final content of the range.  The first argument bounds the number of rounds, `none` if it is exceeded. -/
def combinationLoop : Nat → List Nat → Nat → Option (List (List Nat) × List Nat)
  | 0, _, _ => none
  | f + 1, C, k =>
    match nextCombination C k with
    | (C', false) => some ([C.take k], C')
    | (C', true) =>
      match combinationLoop f C' k with
      | none => none
      | some (l, C'') => some (C.take k :: l, C'')

namespace TopDown

variable {α : Type}

/-- The simplices created for one clique, `RipsExpanderTopDown.hh:99-108`, for the sizes `k` in the given list. -/
def cliqueSimplices (d0 : α) : List Nat → List Nat → Option (List (Simplex α))
  | _, [] => some []
  | C, k :: ks =>
    match combinationLoop (2 ^ C.length) C k with
    | none => none
    | some (l, C') =>
      match cliqueSimplices d0 C' ks with
      | none => none
      | some r => some (l.map (fun vs => Simplex.ofRange vs d0) ++ r)

/-- `RipsExpanderTopDown::operator()`, `RipsExpanderTopDown.hh:91-114`, without the wrap-around of `kMax + 1`. -/
def expand (o : Orders α) (d0 : α) (K : Complex α) (kMax kMin : Nat) : Option (Complex α) :=
  match Cliques.maximalCliquesKoch o K with
  | none => none
  | some maximalCliques =>
    match maximalCliques.foldlM (fun simplices C =>
        (cliqueSimplices d0 C (List.range' (kMin + 1) (min (kMax + 1) C.length - kMin))).map
          fun l => simplices ++ l) [] with
    | none => none
    | some simplices =>
      match Complex.insertRange [] simplices with
      | (S, false) => some S
      | (_, true) => none

/-- `assignMaximumWeight(K, S, dimension)`, `RipsExpanderTopDown.hh:125-159`; `lo` is `numeric_limits::lowest()`. -/
def assignMaximumWeight [LinearOrder α] (lo : α) (K S : Complex α) (dimension : Nat) :
    Option (Complex α) :=
  K.foldlM (fun R s =>
    if Complex.dim s < dimension then Complex.pushBack R s
    else
      match combinationLoop (2 ^ s.vertices.length) (s.vertices.insertionSort (· ≤ ·)) (dimension + 1) with
      | none => none
      | some (l, _) =>
        Complex.pushBack R (s.withData (l.foldl (fun weight vs =>
          match S.find (Simplex.ofRange vs lo).vertices with
          | none => weight
          | some t => max weight t.data) lo))) []

end TopDown

end Aleph
