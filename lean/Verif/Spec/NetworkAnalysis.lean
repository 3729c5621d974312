import Verif.Spec.Rips
import Verif.Spec.PersistentBetti
import Mathlib.Order.Bounds.Defs
import Mathlib.Algebra.Field.Defs

/-!
# Specification: clique complexes of weighted graphs
-/

namespace Aleph.Spec

open Finset

variable {α : Type}

/-- The smallest and the largest weight of a graph, including its vertices. -/
def IsRange [LinearOrder α] (G : Complex α) (lo hi : α) : Prop :=
  IsLeast {y | ∃ s ∈ G, s.data = y} lo ∧ IsGreatest {y | ∃ s ∈ G, s.data = y} hi

/-- The largest weight after an optional normalization. -/
def newMaximum [LinearOrder α] [Field α] (normalize : Bool) (lo hi : α) : α := if normalize ∧ lo ≠ hi then 1 else hi

/-- The weight of an edge after an optional normalization to the unit interval and an optional inversion. -/
def newWeight [LinearOrder α] [Field α] (normalize invert : Bool) (lo hi w : α) : α :=
  let w := if normalize ∧ lo ≠ hi then (w - lo) / (hi - lo) else w
  if invert then newMaximum normalize lo hi - w else w

open Classical in
/-- The cliques of a graph with at most `k + 1` vertices: the simplices of its clique complex, up to dimension `k`. -/
noncomputable def cliquesUpTo (G : Complex α) (k : ℕ) : Finset (Finset ℕ) :=
  {t ∈ ((sets G).biUnion id).powerset | t.Nonempty ∧ #t ≤ k + 1 ∧ IsClique G t}

open Classical in
/-- The part of the clique complex that is present at the threshold `x`: neither the weight of a vertex nor that of an edge, given by the function `g`, exceeds it. -/
noncomputable def cliquesAt [LinearOrder α] (G : Complex α) (g : α → α) (k : ℕ) (x : α) : Finset (Finset ℕ) :=
  {t ∈ cliquesUpTo G k | (∀ v ∈ t, ∀ y, HasData G {v} y → y ≤ x) ∧ ∀ u ∈ t, ∀ v ∈ t, u ≠ v → ∀ w, HasData G {u, v} w → g w ≤ x}

/-- The new weights of edges are not negative, and not smaller than those of the vertices. -/
def WeightsFit [LinearOrder α] [Zero α] (G : Complex α) (g : α → α) : Prop :=
  ∀ u v w, u ≠ v → HasData G {u, v} w → 0 ≤ g w ∧ ∀ y, HasData G {u} y → y ≤ g w

end Aleph.Spec
