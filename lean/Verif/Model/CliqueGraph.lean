import Verif.Model.Complex

/-!
# Clique graphs

Models `include/aleph/topology/CliqueGraph.hh`.  The vertex type is large enough for the positions in the complex.
-/

namespace Aleph

namespace CliqueGraph

variable {α : Type}

/-- `simplexMap`, `CliqueGraph.hh:70-73`: the simplices of dimension `k`, in the order of `operator<`, with their positions;
`none` if `index` throws.  The keys of a complex are distinct, so that sorting them gives the order of the map. -/
def simplexMap (K : Complex α) (k : Nat) : Option (List (Simplex α × Nat)) :=
  ((K.range k).insertionSort (fun s t => Simplex.lt t s = false)).mapM fun s =>
    (K.index s.vertices).map fun i => (s, i)

/-- `cofaceMap[f].push_back(i)`, `CliqueGraph.hh:81`, on an ordered map. -/
def pushCoface (f : List Nat) (i : Nat) : List (List Nat × List Nat) → List (List Nat × List Nat)
  | [] => [(f, [i])]
  | (g, l) :: m =>
    if Simplex.lexLt f g then (f, [i]) :: (g, l) :: m
    else if Simplex.lexLt g f then (g, l) :: pushCoface f i m
    else (g, l ++ [i]) :: m

/-- `cofaceMap`, `CliqueGraph.hh:62, 75-82`. -/
def cofaceMap (sm : List (Simplex α × Nat)) : List (List Nat × List Nat) :=
  sm.foldl (fun m p => p.1.faces.foldl (fun m f => pushCoface f p.2 m) m) []

/-- The index pairs visited by the two loops, `CliqueGraph.hh:110-124`. -/
def indexPairs : List Nat → List (Nat × Nat)
  | [] => []
  | u :: l => l.map (fun v => (u, v)) ++ indexPairs l

/-- The edge for a pair of positions, `CliqueGraph.hh:118-122`; `none` if `at` throws. -/
def edge (f : α → α → α) (K : Complex α) (u v : Nat) : Option (Simplex α) :=
  match K.get u, K.get v with
  | some s, some t => some (Simplex.ofRange [u, v] (f s.data t.data))
  | _, _ => none

/-- The list `edges`, `CliqueGraph.hh:102-126`. -/
def edges (f : α → α → α) (K : Complex α) (m : List (List Nat × List Nat)) : Option (List (Simplex α)) :=
  (m.flatMap fun p => if p.2.length ≥ 2 then indexPairs p.2 else []).mapM fun p => edge f K p.1 p.2

/-- `getCliqueGraph(K, k, functor)`, `CliqueGraph.hh:57-133`; `none` is an exception. -/
def get (f : α → α → α) (K : Complex α) (k : Nat) : Option (Complex α) :=
  match simplexMap K k with
  | none => none
  | some sm =>
    match edges f K (cofaceMap sm) with
    | none => none
    | some es =>
      match Complex.insertRange [] (sm.map fun p => Simplex.ofVertex p.2 p.1.data) with
      | (_, true) => none
      | (L, false) =>
        match Complex.insertRange L es with
        | (_, true) => none
        | (L, false) => some L

/-- `getCliqueGraph(K, k)`, `CliqueGraph.hh:33-38`. -/
def getMax [LinearOrder α] (K : Complex α) (k : Nat) : Option (Complex α) := get max K k

end CliqueGraph

end Aleph
