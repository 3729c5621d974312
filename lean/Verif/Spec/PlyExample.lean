import Verif.Spec.PlyReader
import Verif.Spec.VtkExample

/-!
# Specification: persistence diagrams of triangular meshes
-/

namespace Aleph.Spec.Ply

open Finset

variable {α : Type}

/-- Two vertices of a triangle whose values satisfy a condition. -/
def Step (faces : List (ℕ × ℕ × ℕ)) (weights : List α) (p : α → Prop) (u v : ℕ) : Prop :=
  ∃ f ∈ faces, u ∈ corners f ∧ v ∈ corners f ∧ (∃ a, weights[u]? = some a ∧ p a) ∧ ∃ a, weights[v]? = some a ∧ p a

open Classical in
/-- The simplices of a mesh all of whose vertices satisfy a condition. -/
noncomputable def meshCells (faces : List (ℕ × ℕ × ℕ)) (weights : List α) (p : α → Prop) : Finset (Finset ℕ) :=
  {t ∈ (range weights.length).powerset | MeshSimplex weights.length faces t ∧ ∀ v ∈ t, ∃ a, weights[v]? = some a ∧ p a}

/-- What the diagrams of a mesh are, given by their dimensions and points.  They count persistent homology classes in dimensions zero and one.  Points of dimension zero count the
regions of vertices up to `y` that contain a vertex up to `x`. -/
structure IsMeshAnalysis [LinearOrder α] (inf : α) (faces : List (ℕ × ℕ × ℕ)) (weights : List α) (Es : List (ℕ × List (α × α))) : Prop where
  homology : IsLevelAnalysis inf (fun x => meshCells faces weights (· ≤ x)) (meshCells faces weights fun _ => True) Es
  dimensions : Es.map Prod.fst = [0, 1]
  regions : ∀ E ∈ Es, E.1 = 0 → ∀ x y, x ≤ y → IsClassCount (Vtk.PointsWith weights (· ≤ x)) (Relation.EqvGen (Step faces weights (· ≤ y)))
    (E.2.countP fun p => p.1 ≤ x ∧ (p.2 = inf ∨ y < p.2))
  values : ∀ E ∈ Es, ∀ p ∈ E.2, p.1 ∈ weights ∧ (p.2 = inf ∨ p.2 ∈ weights)

end Aleph.Spec.Ply
