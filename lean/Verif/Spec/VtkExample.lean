import Verif.Spec.Components
import Verif.Spec.LevelAnalysis
import Verif.Spec.VtkReader

/-!
# Specification: persistence diagrams of structured grids
-/

namespace Aleph.Spec.Vtk

open Finset

variable {α : Type}

/-- The values of two adjacent points of a grid satisfy a condition. -/
def Step (nx ny nz : ℕ) (values : List α) (p : α → Prop) (u v : ℕ) : Prop :=
  ∃ q r a b, Inside nx ny nz q ∧ Inside nx ny nz r ∧ Adjacent q r ∧ u = index nx ny q ∧ v = index nx ny r ∧ values[u]? = some a ∧ values[v]? = some b ∧ p a ∧ p b

/-- The points whose values satisfy a condition. -/
def PointsWith (values : List α) (p : α → Prop) : Set ℕ := {u | ∃ a, values[u]? = some a ∧ p a}

open Classical in
/-- The points whose values satisfy a condition, and the edges between them. -/
noncomputable def gridCells (nx ny nz : ℕ) (values : List α) (p : α → Prop) : Finset (Finset ℕ) :=
  {t ∈ (range values.length).powerset | (∃ u ∈ PointsWith values p, t = {u}) ∨ ∃ u v, Step nx ny nz values p u v ∧ t = {u, v}}

/-- What the diagrams of a grid are, given by their dimensions and points.  They count persistent homology classes of the graph of the grid.  There is only a diagram of dimension
zero, if the grid has at least two points.  Its points count the regions of adjacent points up to `y` that contain a point up to `x`. -/
structure IsGridAnalysis [LinearOrder α] (inf : α) (nx ny nz : ℕ) (values : List α) (Es : List (ℕ × List (α × α))) : Prop where
  homology : IsLevelAnalysis inf (fun x => gridCells nx ny nz values (· ≤ x)) (gridCells nx ny nz values fun _ => True) Es
  dimensions : Es.map Prod.fst = if 2 ≤ nx * ny * nz then [0] else []
  regions : ∀ E ∈ Es, ∀ x y, x ≤ y → IsClassCount (PointsWith values (· ≤ x)) (Relation.EqvGen (Step nx ny nz values (· ≤ y)))
    (E.2.countP fun p => p.1 ≤ x ∧ (p.2 = inf ∨ y < p.2))
  values : ∀ E ∈ Es, ∀ p ∈ E.2, p.1 ∈ values ∧ (p.2 = inf ∨ p.2 ∈ values)

end Aleph.Spec.Vtk
