import Verif.Spec.Curvature
import Verif.Spec.PersistentBetti
import Verif.Spec.SparseReader
import Mathlib.Algebra.BigOperators.Group.Finset.Basic
import Mathlib.Algebra.Field.Defs
import Mathlib.Order.Bounds.Defs

/-!
# Specification: degree filtrations of the graphs of a dataset
-/

namespace Aleph.Spec

open Finset Sparse

variable {α : Type}

open Classical in
/-- The nodes of a graph that occur in edges, and its edges. -/
noncomputable def graphSets (edges : List (ℕ × ℕ)) (graphs : List ℕ) (g : ℕ) : Finset (Finset ℕ) :=
  {t ∈ (edges.flatMap fun e => [{e.1}, {e.2}, {e.1, e.2}]).toFinset | ∃ v ∈ t, NodeOf graphs v g}

/-- The largest degree of the nodes of a graph. -/
def IsTopDegree (A : Finset (Finset ℕ)) (top : ℕ) : Prop := IsGreatest {n | ∃ v, {v} ∈ A ∧ n = degree A v} top

/-- The value of a node: its degree, as a fraction of the largest degree of its graph if this is requested. -/
def nodeValue [Field α] (normalise : Bool) (A : Finset (Finset ℕ)) (top : ℕ) (v : ℕ) : α := if normalise then (degree A v : α) / top else (degree A v : α)

/-- The weight of a node or of an edge: the sum of the values of its nodes, or the largest of them. -/
def IsWeight [AddCommMonoid α] [LinearOrder α] (sum : Bool) (f : ℕ → α) (t : Finset ℕ) (y : α) : Prop :=
  if sum then y = ∑ v ∈ t, f v else IsGreatest {y | ∃ v ∈ t, y = f v} y

open Classical in
/-- The nodes and edges whose weight is at most `x`. -/
noncomputable def weightLevel [AddCommMonoid α] [LinearOrder α] (sum : Bool) (f : ℕ → α) (A : Finset (Finset ℕ)) (x : α) : Finset (Finset ℕ) :=
  {t ∈ A | ∃ y ≤ x, IsWeight sum f t y}

/-- The points of a diagram describe how the nodes and edges of a graph are added by ascending weights: they count the classes of the homology of dimension `d`, their coordinates are weights, and none
of them is on the diagonal. -/
structure IsGraphDiagram [AddCommMonoid α] [LinearOrder α] (inf : α) (sum : Bool) (f : ℕ → α) (A : Finset (Finset ℕ)) (d : ℕ) (points : List (α × α)) : Prop where
  counts : ∀ x y, x ≤ y → IsPersistentBetti (weightLevel sum f A x) (weightLevel sum f A y) d (points.countP fun p => p.1 ≤ x ∧ (p.2 = inf ∨ y < p.2))
  values : ∀ p ∈ points, (∃ t ∈ A, IsWeight sum f t p.1) ∧ (p.2 = inf ∨ ∃ t ∈ A, IsWeight sum f t p.2 ∧ p.1 < p.2)

/-- A diagram as a table; the second coordinates of unpaired points are replaced. -/
def diagramTable [DecidableEq α] (print : α → List Char) (inf replacement : α) (points : List (α × α)) : List Char :=
  points.flatMap fun p => print p.1 ++ ['\t'] ++ print (if p.2 = inf then replacement else p.2) ++ ['\n']

/-- There is a path with `n` edges. -/
inductive Hops (A : Finset (Finset ℕ)) : ℕ → ℕ → ℕ → Prop
  | nil (v : ℕ) : Hops A v v 0
  | cons {u m v n : ℕ} : u ≠ m → {u, m} ∈ A → Hops A m v n → Hops A u v (n + 1)

/-- The sum of the distances of a node to the nodes of a list that can be reached from it; the distance of two nodes is the least number of edges of a path. -/
inductive IsFarness (A : Finset (Finset ℕ)) (u : ℕ) : List ℕ → ℕ → Prop
  | nil : IsFarness A u [] 0
  | reached {v n total : ℕ} {vs : List ℕ} : IsLeast {n | Hops A u v n} n → IsFarness A u vs total → IsFarness A u (v :: vs) (n + total)
  | separate {v total : ℕ} {vs : List ℕ} : (¬∃ n, Hops A u v n) → IsFarness A u vs total → IsFarness A u (v :: vs) total

/-- The closeness centrality of a node: the number of nodes, divided by the sum of its distances to the nodes that can be reached; there is no value if this sum is zero. -/
def IsCloseness [Field α] (A : Finset (Finset ℕ)) (vs : List ℕ) (u : ℕ) (x : Option α) : Prop :=
  ∃ total, IsFarness A u vs total ∧ x = if total = 0 then none else some ((vs.length : α) / total)

end Aleph.Spec
