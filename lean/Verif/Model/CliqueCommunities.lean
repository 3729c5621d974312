import Verif.Model.CliqueGraph
import Verif.Model.Rips
import Verif.Model.UnionFind
import Verif.Model.DiagramJson
import Mathlib.Algebra.Field.Defs
import Mathlib.Order.Defs.LinearOrder

/-!
# Communities of cliques

Models `src/tools/clique_communities_to_json.cc`, after the file has been read.  `print` and `printNat` are the insertions of the
threshold and of natural numbers into streams; `lo` and `hi` are the smallest and the largest number of the data type.
Simplification: arithmetic is exact.
-/

namespace Aleph

namespace CliqueCommunities

variable {α : Type}

/-- The options of the command line, `clique_communities_to_json.cc:116-118`. -/
structure Settings where
  useLabels : Bool
  normalize : Bool
  invertWeights : Bool

/-- The loop for the weights, `clique_communities_to_json.cc:191-197`: maximum and minimum. -/
def extrema [LinearOrder α] (lo hi : α) (K : Complex α) : α × α :=
  K.foldl (fun w s => (max w.1 s.data, min w.2 s.data)) (lo, hi)

/-- The loops that replace weights, `clique_communities_to_json.cc:205-214, 226-235`; vertices are skipped. -/
def replaceWeights (f : α → α) (K : Complex α) : Complex α :=
  K.map fun s => if Complex.dim s = 0 then s else s.withData (f s.data)

/-- Normalisation and inversion, `clique_communities_to_json.cc:199-238`. -/
def prepare [Field α] [LinearOrder α] (lo hi : α) (o : Settings) (K : Complex α) : Complex α :=
  let w := extrema lo hi K
  let scaled := o.normalize && decide (w.1 ≠ w.2)
  let K1 := if scaled then replaceWeights (fun x => (x - w.2) / (w.1 - w.2)) K else K
  let maxWeight := if scaled then 1 else w.1
  if o.invertWeights then replaceWeights (fun x => maxWeight - x) K1 else K1

/-- The simplices that are not heavier than the threshold, `clique_communities_to_json.cc:242-256`; `none` is an exception. -/
def restrict [LinearOrder α] (threshold : α) (K : Complex α) : Option (Complex α) :=
  match Complex.insertRange [] (K.filter fun s => ¬ s.data > threshold) with
  | (L, false) => some L
  | (_, true) => none

/-- Expansion, weights and order, `clique_communities_to_json.cc:260-264`; `d0` is the default weight. -/
def expandSorted [LinearOrder α] (o : Orders α) (d0 : α) (K : Complex α) (maxK : Nat) : Option (Complex α) :=
  match Rips.expand o d0 K maxK with
  | none => none
  | some L =>
    match Rips.assignMaximumWeight o 1 L with
    | none => none
    | some M => some (M.sort (asLt (Filtration.data fun a b => decide (a < b))))

/-- The simplices of a set of positions in the order of `operator<`, `clique_communities_to_json.cc:296-307`; `none` is the
exception of `at`. -/
def simplicesOf (K : Complex α) (positions : List Nat) : Option (List (Simplex α)) :=
  match (positions.insertionSort (· ≤ ·)).mapM K.get with
  | none => none
  | some l => some (l.insertionSort fun s t => Simplex.lt t s = false)

/-- The loop over the roots, `clique_communities_to_json.cc:291-307`; queries change the structure of disjoint sets. -/
def collectAll (K : Complex α) : ParentMap → List Nat → Option (List (List (Simplex α)))
  | _, [] => some []
  | p, r :: rs =>
    match p.get r with
    | none => none
    | some (p', vs) =>
      match simplicesOf K vs, collectAll K p' rs with
      | some c, some cs => some (c :: cs)
      | _, _ => none

/-- The communities for `k`, `clique_communities_to_json.cc:273-307`. -/
def communities [LinearOrder α] (o : Orders α) (leftFirst : Bool) (K : Complex α) (k : Nat) :
    Option (List (List (Simplex α))) :=
  match CliqueGraph.getMax K k with
  | none => none
  | some C =>
    let C := C.sort (asLt (Filtration.data fun a b => decide (a < b)))
    match connectedComponents leftFirst C (o.simps (C.range 1)) with
    | none => none
    | some uf =>
      match uf.roots with
      | none => none
      | some (uf, roots) => collectAll K uf (roots.dedup.insertionSort (· ≤ ·))

/-- Texts that are divided by commas, `clique_communities_to_json.cc:59-68, 311-317`. -/
def commas : List (List Char) → List Char
  | [] => []
  | [t] => t
  | t :: s :: l => t ++ ',' :: commas (s :: l)

/-- A vertex, `clique_communities_to_json.cc:64-67`; `none` is the exception of `at`. -/
def vertexText (printNat : Nat → List Char) (useLabels : Bool) (labels : Nat → Option (List Char)) (v : Nat) :
    Option (List Char) :=
  if useLabels then (labels v).map DiagramJson.quoted else some (printNat v)

/-- `formatSimplex`, `clique_communities_to_json.cc:54-73`. -/
def formatSimplex (printNat : Nat → List Char) (useLabels : Bool) (labels : Nat → Option (List Char)) (s : Simplex α) :
    Option (List Char) :=
  (s.vertices.mapM (vertexText printNat useLabels labels)).map fun ts => '[' :: commas ts ++ [']']

/-- The line of a community without its end, `clique_communities_to_json.cc:309-319`. -/
def communityText (printNat : Nat → List Char) (useLabels : Bool) (labels : Nat → Option (List Char))
    (c : List (Simplex α)) : Option (List Char) :=
  (c.mapM (formatSimplex printNat useLabels labels)).map fun ts => List.replicate 12 ' ' ++ '[' :: commas ts ++ [']']

/-- The lines of the communities with their ends, `clique_communities_to_json.cc:321-324`. -/
def linesText : List (List Char) → List Char
  | [] => []
  | [t] => t ++ ['\n']
  | t :: s :: l => t ++ [',', '\n'] ++ linesText (s :: l)

/-- The text for `k`, `clique_communities_to_json.cc:289-332`. -/
def levelText (printNat : Nat → List Char) (maxK k : Nat) (lines : List (List Char)) : List Char :=
  List.replicate 4 ' ' ++ DiagramJson.quoted (printNat (k + 1)) ++ [':', ' ', '[', '\n'] ++ linesText lines ++
    List.replicate 4 ' ' ++ [']'] ++ (if k < maxK then [' ', ' ', ','] else []) ++ ['\n']

/-- The text for `k`, with the calculation of the communities, `clique_communities_to_json.cc:269-333`. -/
def level [LinearOrder α] (o : Orders α) (leftFirst : Bool) (printNat : Nat → List Char) (useLabels : Bool)
    (labels : Nat → Option (List Char)) (K : Complex α) (maxK k : Nat) : Option (List Char) :=
  match communities o leftFirst K k with
  | none => none
  | some cs => (cs.mapM (communityText printNat useLabels labels)).map (levelText printNat maxK k)

/-- The output of the program, `clique_communities_to_json.cc:191-336`; `none` is an exception, before which a part of the output may
have been written. -/
def run [Field α] [LinearOrder α] (o : Orders α) (leftFirst : Bool) (lo hi : α) (print : α → List Char) (printNat : Nat → List Char)
    (settings : Settings) (labels : Nat → Option (List Char)) (threshold : α) (maxK : Nat) (K : Complex α) :
    Option (List Char) :=
  match restrict threshold (prepare lo hi settings K) with
  | none => none
  | some G =>
    match expandSorted o 0 G maxK with
    | none => none
    | some L =>
      ((List.range' 1 maxK).mapM (level o leftFirst printNat settings.useLabels labels L maxK)).map fun ts =>
        ['{', '\n', ' ', ' '] ++ DiagramJson.quoted (print threshold) ++ [':', ' ', '{', '\n'] ++ ts.flatten ++
          [' ', ' ', '}', '\n', '}', '\n']

end CliqueCommunities

end Aleph
