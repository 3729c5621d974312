import Verif.Model.CliqueCommunities
import Verif.Model.ZeroDimFunctor
import Verif.Model.Combinations
import Mathlib.Logic.Function.Basic
import Mathlib.Algebra.Group.Prod
import Mathlib.Data.Nat.Log

/-!
# Persistence of clique communities

Models `src/tools/clique_persistence_diagram.cc`, after the file has been read.  Maps are functions to `Option`.  The output is
modelled by its values; their text is not.  Simplification: arithmetic is exact, and positions are not truncated to the vertex type.
-/

namespace Aleph

namespace CliquePersistence

variable {α : Type}

/-- The members of `CliqueCommunityInformationFunctor`, `clique_persistence_diagram.cc:189-210`: sizes of components, members of components,
and accumulated persistence and number of communities of vertices. -/
structure State (α : Type) where
  cs : Nat → Option Nat
  cc : Nat → Option (List Nat)
  vim : Nat → Option (α × Nat)

/-- The constructor, `clique_persistence_diagram.cc:71-84`. -/
def State.new [Zero α] (K : Complex α) : State α :=
  ⟨fun _ => none, fun _ => none, fun v => if v ∈ K.vertices then some (0, 0) else none⟩

/-- The set of vertices of all cliques of a component, `clique_persistence_diagram.cc:109-117, 137-145`; `none` is the exception of `at`. -/
def cliqueVertices (K : Complex α) (positions : List Nat) : Option (List Nat) :=
  (positions.mapM K.get).map fun l => (l.flatMap (·.vertices)).dedup

/-- The loops over all vertices of a component, `clique_persistence_diagram.cc:123-127, 147-151`; `operator[]` yields zeros for a
missing vertex. -/
def accumulate [Ring α] (amount : α) (vs : List Nat) (vim : Nat → Option (α × Nat)) : Nat → Option (α × Nat) :=
  vs.foldl (fun vim v => Function.update vim v (some ((vim v).getD (0, 0) + (amount, 1)))) vim

/-- `operator()` for two components, `clique_persistence_diagram.cc:92-131`. -/
def merge [Ring α] [DecidableEq α] (K : Complex α) (younger older : Nat) (creation destruction : α) (_u _v : Nat)
    (x : State α) : Option (State α) :=
  let members := (x.cc younger).getD []
  match cliqueVertices K members with
  | none => none
  | some vs =>
    some { cs := Function.update x.cs older (some ((x.cs older).getD 0 + (x.cs younger).getD 0))
           cc := Function.update (Function.update x.cc older (some ((x.cc older).getD [] ++ members))) younger none
           vim := if creation ≠ destruction then accumulate ((destruction - creation) ^ 2) vs x.vim else x.vim }

/-- `operator()` for a component at the end, `clique_persistence_diagram.cc:133-152`; `top` is the threshold for its destruction. -/
def root [Ring α] (top : α) (K : Complex α) (r : Nat) (creation : α) (x : State α) : Option (State α) :=
  match cliqueVertices K ((x.cc r).getD []) with
  | none => none
  | some vs => some { x with vim := accumulate ((top - creation) ^ 2) vs x.vim }

/-- `CliqueCommunityInformationFunctor`, `clique_persistence_diagram.cc:68-211`. -/
def visitor [Ring α] [DecidableEq α] (top : α) (K : Complex α) : Visitor (State α) α where
  init v x := some { x with cs := Function.update x.cs v (some 1), cc := Function.update x.cc v (some [v]) }
  merge := merge K
  root := root top K

/-- A line of the output for one `k`, `clique_persistence_diagram.cc:522`. -/
structure Row (α : Type) where
  x : α
  y : α
  size : Nat

/-- The loop over pairs and points, `clique_persistence_diagram.cc:502-509, 515-524`; `none` is the exception of `at`, or undefined
behaviour if there are fewer points than pairs. -/
def rows [DecidableEq α] (inf top : α) (C : Complex α) (cs : Nat → Option Nat) : List (Nat × Nat) → List (α × α) → Option (List (Row α))
  | [], _ => some []
  | _ :: _, [] => none
  | pair :: pairs, p :: points =>
    match C.get pair.1 with
    | none => none
    | some s =>
      match s.vertices.head? with
      | none => none
      | some v =>
        match cs v, rows inf top C cs pairs points with
        | some n, some l => some (⟨p.1, if p.2 = inf then top else p.2, n⟩ :: l)
        | _, _ => none

/-- The loop over all `k`, `clique_persistence_diagram.cc:470-526`: the lines for each `k`, and the functor; `top` is twice the maximum weight.
`ks` are the remaining values. -/
def levels [Ring α] [LinearOrder α] (leftFirst ignoreEmpty : Bool) (inf top : α) (K : Complex α) :
    List Nat → State α → Option (List (Nat × List (Row α)) × State α)
  | [], x => some ([], x)
  | k :: ks, x =>
    match CliqueGraph.getMax K k with
    | none => none
    | some C =>
      let C := C.sort (asLt (Filtration.data fun a b => decide (a < b)))
      if !ignoreEmpty && C.isEmpty then some ([], x)
      else
        match (visitor top K).run false leftFirst inf C x with
        | none => none
        | some ((points, pairs), x) =>
          let points := points.filter fun p => p.1 ≠ p.2
          if C.isEmpty then levels leftFirst ignoreEmpty inf top K ks x
          else
            match rows inf top C x.cs pairs points with
            | none => none
            | some l =>
              match levels leftFirst ignoreEmpty inf top K ks x with
              | none => none
              | some (files, x) => some ((k, l) :: files, x)

/-- A line of the last file, `clique_persistence_diagram.cc:541-544`. -/
structure VertexRow (α : Type) where
  vertex : Nat
  accumulated : α
  communities : Nat
  label : Option (List Char)

/-- `formatLabel`, `clique_persistence_diagram.cc:225-232`. -/
def formatLabel (label : List Char) : List Char :=
  if '\t' ∉ label ∧ ' ' ∉ label then label else '"' :: label ++ ['"']

/-- A line of the last file, `clique_persistence_diagram.cc:536-545`; `none` is the exception of `at`. -/
def vertexRow (labels : List (Nat × List Char)) (vim : Nat → Option (α × Nat)) (v : Nat) : Option (VertexRow α) :=
  match vim v with
  | none => none
  | some (a, n) =>
    if labels.isEmpty then some ⟨v, a, n, none⟩
    else
      match labels.lookup v with
      | none => none
      | some l => some ⟨v, a, n, some (formatLabel l)⟩

/-- The diagrams and the accumulated values of an expanded complex, `clique_persistence_diagram.cc:450-546`. -/
def analyse [Ring α] [LinearOrder α] (leftFirst ignoreEmpty : Bool) (inf top : α) (labels : List (Nat × List Char)) (maxK : Nat)
    (K : Complex α) : Option (List (Nat × List (Row α)) × List (VertexRow α)) :=
  match levels leftFirst ignoreEmpty inf top K (List.range' 1 maxK).reverse (State.new K) with
  | none => none
  | some (files, x) => ((K.vertices.dedup.insertionSort (· ≤ ·)).mapM (vertexRow labels x.vim)).map fun l => (files, l)

/-- The largest weight after normalisation, `clique_persistence_diagram.cc:381-410`. -/
def maxWeight [Field α] [LinearOrder α] (lo hi : α) (o : CliqueCommunities.Settings) (K : Complex α) : α :=
  let w := CliqueCommunities.extrema lo hi K
  if o.normalize && decide (w.1 ≠ w.2) then 1 else w.1

/-- Expansion, `clique_persistence_diagram.cc:434-450`, and order. -/
def expandSorted [LinearOrder α] (o : Orders α) (reverse : Bool) (lo d0 : α) (minK maxK : Nat) (K : Complex α) : Option (Complex α) :=
  if reverse then
    match TopDown.expand o d0 K maxK minK with
    | none => none
    | some L =>
      match TopDown.assignMaximumWeight lo L K 1 with
      | none => none
      | some M => some (M.sort (asLt (Filtration.data fun a b => decide (a < b))))
  else CliqueCommunities.expandSorted o d0 K maxK

/-- The program, `clique_persistence_diagram.cc:381-546`.  The weights are prepared as in `clique_communities_to_json.cc`. -/
def run [Field α] [LinearOrder α] (o : Orders α) (leftFirst reverse ignoreEmpty : Bool) (lo hi inf : α) (settings : CliqueCommunities.Settings)
    (labels : List (Nat × List Char)) (minK maxK : Nat) (K : Complex α) : Option (List (Nat × List (Row α)) × List (VertexRow α)) :=
  match expandSorted o reverse lo 0 minK maxK (CliqueCommunities.prepare lo hi settings K) with
  | none => none
  | some L => analyse leftFirst ignoreEmpty inf (2 * maxWeight lo hi settings K) labels maxK L

/-- `formatOutput`, `clique_persistence_diagram.cc:215-223`. Simplification: the logarithm is exact. -/
def formatOutput (pre : List Char) (k K : Nat) : List Char :=
  pre ++ List.replicate ((Nat.log 10 K + 1) - (Nat.toDigits 10 k).length) '0' ++ Nat.toDigits 10 k ++ ['.', 't', 'x', 't']

end CliquePersistence

end Aleph
