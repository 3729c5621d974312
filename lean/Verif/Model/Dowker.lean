import Verif.Model.Complex
import Verif.Model.Combine
import Mathlib.Order.WithBot

/-!
# Dowker complexes

Models `include/aleph/geometry/DowkerComplex.hh`.

The orders of the elements of the two kinds of `std::unordered_map` are unspecified and are parameters of the model:
`order` lists the keys of a map of base points, `shuffle` rearranges the map of simplex weights.  The search for
shortest paths is a function of the Boost Graph Library; it is the parameter `apsp`.
-/

namespace Aleph

namespace Dowker

variable {α : Type} [LinearOrder α]

/-- `detail::Pair`, `DowkerComplex.hh:48-53`. -/
structure Pair (α : Type) where
  p : Nat
  q : Nat
  w : α
deriving DecidableEq, Repr

/-- The directed graph of `admissiblePairs`, `DowkerComplex.hh:84-102`, for a square matrix of size `n`: the weight of
the edge between two vertices, if there is one. -/
def graph [Zero α] (n : Nat) (W : Nat → Nat → α) (i j : Nat) : Option α :=
  if i < n ∧ j < n ∧ W i j > 0 then some (W i j) else none

/-- `admissiblePairs(W, R)`, `DowkerComplex.hh:78-135`.  Which of two library functions calculates the lengths of
shortest paths depends on the number of edges; both have the same result `apsp`. -/
def admissiblePairs [Zero α] (apsp : Nat → (Nat → Nat → Option α) → Nat → Nat → WithTop α) (n : Nat)
    (W : Nat → Nat → α) (R : α) : List (Pair α) :=
  (List.range n).flatMap fun i => (List.range n).filterMap fun j =>
    match apsp n (graph n W) i j with
    | none => none
    | some d => if d ≤ R then some ⟨i, j, d⟩ else none

/-- A map of base points: the vector stored for each key, and the empty vector for a missing key. -/
abbrev BaseMap (α : Type) := Nat → List (Nat × α)

/-- `map[p].push_back( { q, w } )`, `DowkerComplex.hh:180-181`, `317`. -/
def BaseMap.push (m : BaseMap α) (p : Nat) (v : Nat × α) : BaseMap α := fun x => if x = p then m x ++ [v] else m x

/-- `sourceBasePointMap`, `DowkerComplex.hh:175-182`, `312-318`. -/
def sourceMap (pairs : List (Pair α)) : BaseMap α :=
  pairs.foldl (fun m x => m.push x.p (x.q, x.w)) fun _ => []

/-- `sinkBasePointMap`, `DowkerComplex.hh:175-182`. -/
def sinkMap (pairs : List (Pair α)) : BaseMap α :=
  pairs.foldl (fun m x => m.push x.q (x.p, x.w)) fun _ => []

/-- `getWeight`, `DowkerComplex.hh:190-199`, `326-334`; `lo` is `numeric_limits::lowest()`. -/
def getWeight (lo : α) (c : List (Nat × α)) : α := c.foldl (fun w v => max w v.2) lo

/-- The callback, `DowkerComplex.hh:221-237`, `365-384`, with the map from simplices to weights as its state. -/
def record (lo : α) (m : List (List Nat × α)) (c : List (Nat × α)) : List (List Nat × α) × Bool :=
  let s := (Simplex.ofRange (c.map (·.1)) ()).vertices
  if m.any fun e => e.1 == s then
    (m.map fun e => if e.1 = s then (e.1, min e.2 (getWeight lo c)) else e, false)
  else (m ++ [(s, getWeight lo c)], false)

/-- The loop over the sizes of the combinations of the vertices of a base point, `DowkerComplex.hh:218-239`, `362-386`;
the first argument is the current size. -/
def sizes (lo : α) : Nat → List (Nat × α) → List (List Nat × α) → List (List Nat × α)
  | 0, _, m => m
  | d + 1, vs, m =>
    match Combine.forEach (record lo) (d + 1) vs m with
    | (m, _, vs) => sizes lo d vs m

/-- The loop over the base points, `DowkerComplex.hh:206-240`, `350-387`. -/
def weights (lo : α) (dimension : Nat) (map : BaseMap α) (order : List Nat) : List (List Nat × α) :=
  order.foldl (fun m p =>
    let vs := map p
    let maxDimension := if dimension = 0 then vs.length else dimension + 1
    sizes lo (min vs.length maxDimension) vs m) []

/-- `makeSimplices` and the construction of a sorted complex, `DowkerComplex.hh:201-260`, `342-401`; `none` is the
exception of an empty simplex. -/
def build (lo : α) (dimension : Nat) (map : BaseMap α) (order : List Nat)
    (shuffle : List (List Nat × α) → List (List Nat × α)) : Option (Complex α) :=
  match Complex.insertRange [] ((shuffle (weights lo dimension map order)).map fun e => ⟨e.1, e.2⟩) with
  | (_, true) => none
  | (K, false) => some (K.sort (asLt (Filtration.data fun a b => decide (a < b))))

/-- `buildDowkerSinkSourceComplexes(pairs, dimension)`, `DowkerComplex.hh:147-263`. -/
def sinkSource (lo : α) (pairs : List (Pair α)) (dimension : Nat) (order order' : List Nat)
    (shuffle shuffle' : List (List Nat × α) → List (List Nat × α)) : Option (Complex α × Complex α) :=
  match build lo dimension (sourceMap pairs) order shuffle, build lo dimension (sinkMap pairs) order' shuffle' with
  | some K, some L => some (K, L)
  | _, _ => none

/-- `buildDowkerSourceCompplex(matrix, epsilon, dimension)`, `DowkerComplex.hh:280-404`. -/
def source [Zero α] (apsp : Nat → (Nat → Nat → Option α) → Nat → Nat → WithTop α) (lo : α) (n : Nat)
    (W : Nat → Nat → α) (epsilon : α) (dimension : Nat) (order : List Nat)
    (shuffle : List (List Nat × α) → List (List Nat × α)) : Option (Complex α) :=
  build lo dimension (sourceMap (admissiblePairs apsp n W epsilon)) order shuffle

end Dowker

end Aleph
