import Verif.Spec.Graphs
import Verif.Spec.NetworkAnalysis

/-!
# Specification: diagrams of connectivity matrices
-/

namespace Aleph.Spec

open Finset

variable {α : Type}

/-- A text with a square matrix that is not empty. -/
def IsMatrixFile (number : List Char → Option α) (text : List Char) (rows : List (List α)) : Prop :=
  MatrixText number text rows ∧ rows ≠ [] ∧ ∀ r ∈ rows, r.length = rows.length

/-- The weighted graph of a matrix, without edges for zeros. -/
def IsMatrixGraph [Zero α] (edgeWeight : α → α) (vertexWeight : α) (rows : List (List α)) (G : Complex α) : Prop :=
  WF G ∧ ∀ t w, HasData G t w ↔ AdjacencyData (fun w => w ≠ 0) edgeWeight vertexWeight rows t w

/-- The points of dimension `e` for the cliques of a weighted graph with at most `k + 1` vertices.  Coordinates are weights, and the second one is not smaller than the first one, or infinite.  The points
count persistent homology classes if there are cliques of the next dimension, or if all unpaired simplices are required.  Otherwise, there are none. -/
structure IsMatrixDiagram [LinearOrder α] (inf : α) (keep : Bool) (G : Complex α) (k e : ℕ) (points : List (α × α)) : Prop where
  values : ∀ p ∈ points, (∃ t, HasData G t p.1) ∧ (p.2 = inf ∨ (p.1 ≤ p.2 ∧ ∃ t, HasData G t p.2))
  counts : (keep = true ∨ ∃ t ∈ cliquesUpTo G k, #t = e + 2) →
    ∀ x y, IsPersistentBetti (cliquesAt G (fun w => w) k x) (cliquesAt G (fun w => w) k y) e (points.countP fun p => p.1 ≤ x ∧ (p.2 = inf ∨ y < p.2))
  none : keep = false → (¬∃ t ∈ cliquesUpTo G k, #t = e + 2) → points = []

/-- A table of points, in which infinity is replaced as soon as the replacement is finite. -/
def pointTable [DecidableEq α] [Neg α] (print : α → List Char) (inf replacement : α) (points : List (α × α)) : List Char :=
  points.flatMap fun p => print p.1 ++ ['\t'] ++ print (if p.2 = inf ∧ replacement ≠ -inf then replacement else p.2) ++ ['\n']

end Aleph.Spec
