import Verif.Model.ZeroDimFunctor
import Verif.Model.Complex
import Mathlib.Data.Rat.Defs
import Mathlib.Algebra.Order.Ring.Rat
import Mathlib.Logic.Function.Basic

/-!
# Relevance of the edges of a graph

Models `src/tools/relevant_edges.cc`.  Maps are functions to `Option`.  Simplification: numbers of vertices do not overflow
`unsigned`, and their ratios are exact.
-/

namespace Aleph

namespace RelevantEdges

/-- A line of the log, `relevant_edges.cc:52-67`: the names of the vertices, relevance, creation and destruction. -/
structure Line (α : Type) where
  first : String
  second : String
  relevance : ℚ
  creation : α
  destruction : α

/-- The members of `SizeFunctor`, `relevant_edges.cc:75-79`, and the lines written so far. -/
structure State (α : Type) where
  componentSize : Nat → Option Nat
  edgeRelevance : Nat × Nat → Option ℚ
  edgeStrength : Nat × Nat → Option Nat
  lines : List (Line α)

/-- A new functor, `relevant_edges.cc:98-99`. -/
def State.new (α : Type) : State α := ⟨fun _ => none, fun _ => none, fun _ => none, []⟩

/-- The name of a vertex in the log, `relevant_edges.cc:54, 62`; `none` is the exception of `at`. -/
def name (labels : List String) (v : Nat) : Option String :=
  if labels.isEmpty then some (toString v) else labels[v]?

/-- `operator()` for two components, `relevant_edges.cc:34-68`.  `operator[]` yields zero for a missing size; the entry that it
adds is not modelled. -/
def merge {α : Type} (labels : List String) (younger older : Nat) (creation destruction : α) (u v : Nat)
    (x : State α) : Option (State α) :=
  let e := if u > v then (v, u) else (u, v)
  let cOlder := (x.componentSize older).getD 0
  let cYounger := (x.componentSize younger).getD 0
  let r : ℚ := min (cOlder : ℚ) (cYounger : ℚ) / max (cOlder : ℚ) (cYounger : ℚ)
  match name labels e.1, name labels e.2 with
  | some a, some b =>
    some { componentSize := Function.update x.componentSize older (some (cOlder + cYounger))
           edgeRelevance := Function.update x.edgeRelevance e (some r)
           edgeStrength := Function.update x.edgeStrength e (some (cOlder + cYounger))
           lines := x.lines ++ [⟨a, b, r, creation, destruction⟩] }
  | _, _ => none

/-- `SizeFunctor`, `relevant_edges.cc:27-80`. -/
def visitor {α : Type} (labels : List String) : Visitor (State α) α where
  init v x := some { x with componentSize := Function.update x.componentSize v (some 1) }
  merge := merge labels
  root _ _ x := some x

/-- The program after the file was read, `relevant_edges.cc:96-104`: the diagram, and the functor. -/
def run {α : Type} [LinearOrder α] (leftFirst : Bool) (inf : α) (labels : List String) (K : Complex α) :
    Option (List (α × α) × State α) :=
  ((visitor labels).run false leftFirst inf (K.sort (asLt (Filtration.data fun a b => decide (a < b)))) (State.new α)).map
    fun r => (r.1.1, r.2)

end RelevantEdges

end Aleph
