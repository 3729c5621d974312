import Verif.Model.Wasserstein

/-!
# The Bottleneck distance

Models `include/aleph/persistenceDiagrams/distances/Bottleneck.hh`.

Undefined behaviour (dereferencing the end of the list of edges, moving an iterator before its beginning) is the result `none`.
The maximum cardinality matching is calculated by the Boost Graph Library; it is replaced by its specification
(`maximumMatching`).  `std::upper_bound` is modelled by the usual loop of the standard library, because
its predicate has a state.
-/

namespace Aleph.Bottleneck

variable {α : Type}

/-- `Edge`, `Bottleneck.hh:23-41`. -/
structure Edge (α : Type) where
  source : ℕ
  target : ℕ
  weight : α
deriving DecidableEq

/-- The end points of an edge. -/
def Edge.ends (e : Edge α) : ℕ × ℕ := (e.source, e.target)

/-- No two edges of the list share an end point. -/
def disjointEnds : List (ℕ × ℕ) → Bool
  | [] => true
  | e :: l => l.all (fun f => f.1 ≠ e.1 && f.1 ≠ e.2 && f.2 ≠ e.1 && f.2 ≠ e.2) && disjointEnds l

/-- The result of `edmonds_maximum_cardinality_matching` and `matching_size`, `Bottleneck.hh:84-90`: the largest number of
edges without common end points. -/
def maximumMatching (graph : List (ℕ × ℕ)) : ℕ :=
  (graph.sublists.filter disjointEnds).foldl (fun k l => max k l.length) 0

/-- The state of `CheckMatchingCardinality`, `Bottleneck.hh:93-98`: the position `_last` and the edges of the graph. -/
structure State where
  last : ℕ
  graph : List (ℕ × ℕ)

/-- The loop that adds edges, `Bottleneck.hh:62-70`; `k` is the number of edges to add. -/
def addEdges (es : List (Edge α)) : ℕ → State → State
  | 0, s => s
  | k + 1, s => addEdges es k
      { last := s.last + 1, graph := s.graph ++ ((es[s.last + 1]?).map Edge.ends).toList }

/-- The loop that removes edges, `Bottleneck.hh:74-82`; `k` is the number of edges to remove.  `remove_edge` removes all
parallel edges. -/
def removeEdges (es : List (Edge α)) : ℕ → State → State
  | 0, s => s
  | k + 1, s => removeEdges es k
      { last := s.last - 1, graph := s.graph.filter fun e => some e ≠ (es[s.last]?).map Edge.ends }

/-- `CheckMatchingCardinality::operator()`, `Bottleneck.hh:57-91`, for the position `it`.  If `it` is the position that has
been reached already, then the loop of lines 73-79 runs past the beginning of the list. -/
def check (size : ℕ) (es : List (Edge α)) (s : State) (it : ℕ) : Option (Bool × State) :=
  if s.last < it then
    let s := addEdges es (it - s.last) s
    some (maximumMatching s.graph == size, s)
  else if it < s.last then
    let s := removeEdges es (s.last - it) s
    some (maximumMatching s.graph == size, s)
  else none

/-- The loop of `std::upper_bound`, called in `Bottleneck.hh:200-203`; the first argument bounds the number of rounds. -/
def upperBound (size : ℕ) (es : List (Edge α)) : ℕ → ℕ → ℕ → State → Option ℕ
  | 0, _, _, _ => none
  | fuel + 1, first, len, s =>
    if len = 0 then some first
    else
      match check size es s (first + len / 2) with
      | none => none
      | some (true, s) => upperBound size es fuel first (len / 2) s
      | some (false, s) => upperBound size es fuel (first + len / 2 + 1) (len - len / 2 - 1) s

/-- The edges of the graph, `Bottleneck.hh:131-187`. -/
def edges [Field α] (d : α × α → α × α → α) (D1 D2 : Diagram α) : List (Edge α) :=
  let n := D1.points.length
  let m := D2.points.length
  let N := n + m
  -- lines 142-144
  ((List.range' n m).flatMap fun i => (List.range' (N + i) (2 * N - (N + i))).map fun j => ⟨i, j, 0⟩) ++
  -- lines 152-167
  ((D1.points.zipIdx).flatMap fun p => (D2.points.zipIdx).map fun q => ⟨p.2, N + q.2, d p.1 q.1⟩) ++
  -- lines 173-179
  ((D1.points.zipIdx).map fun p => ⟨p.2, N + m + p.2, orthogonalDistance d p.1⟩) ++
  -- lines 181-187: the loop does not change `i`
  (D2.points.map fun q => ⟨n + N - N, N, orthogonalDistance d q⟩)

/-- `bottleneckDistance`, `Bottleneck.hh:125-206`; `sort` is the result of `std::sort`, which does not specify the order of
edges of the same weight. -/
def bottleneckDistance [Field α] (sort : List (Edge α) → List (Edge α)) (d : α × α → α × α → α)
    (D1 D2 : Diagram α) : Option α :=
  let es := sort (edges d D1 D2)
  match es[0]? with
  | none => none
  | some e =>
    match upperBound (D1.points.length + D2.points.length) es (es.length + 1) 0 es.length ⟨0, [e.ends]⟩ with
    | none => none
    | some k => (es[k]?).map Edge.weight

end Aleph.Bottleneck
