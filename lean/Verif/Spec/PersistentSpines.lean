import Verif.Spec.Complex
import Verif.Spec.Homology
import Verif.Spec.Options
import Verif.Spec.Rips
import Verif.Spec.Tikz
import Mathlib.Data.Real.Basic
import Mathlib.Order.Bounds.Defs

/-!
# Specification: spines of Čech complexes
-/

namespace Aleph.Spec

open Finset

/-- The square of the Euclidean distance of two points. -/
def squaredEuclidean (x z : List ℝ) : ℝ := (List.zipWith (fun a b => (a - b) ^ 2) x z).sum

/-- The contract of the external library `Miniball` for points with `d` coordinates: the smallest squared radius of a ball that contains some points. -/
def IsMiniballOf (d : ℕ) (ball : List (List ℝ) → ℝ) : Prop :=
  ∀ c : List (List ℝ), c ≠ [] → (∀ p ∈ c, p.length = d) → IsLeast {s | ∃ z : List ℝ, z.length = d ∧ ∀ p ∈ c, squaredEuclidean p z ≤ s} (ball c)

/-- There is a ball of radius `x` that contains the points with the given indices. -/
def Enclosed (rows : List (List ℝ)) (d : ℕ) (t : Finset ℕ) (x : ℝ) : Prop := ∃ z : List ℝ, z.length = d ∧ ∀ v ∈ t, squaredEuclidean (rows.getD v []) z ≤ x ^ 2

/-- The Čech complex of points with `d` coordinates: it contains all sets of points that are contained in a ball of radius `r`.  The weight of a vertex is zero, the weight of another simplex is the smallest
diameter of a ball that contains its points, and simplices are sorted by weights, such that faces precede their cofaces. -/
structure IsCech (rows : List (List ℝ)) (d : ℕ) (r : ℝ) (K : List (Simplex ℝ)) : Prop where
  wf : WF K
  simplices : ∀ t : Finset ℕ, Has K t ↔ t.Nonempty ∧ (∀ v ∈ t, v < rows.length) ∧ Enclosed rows d t r
  vertices : ∀ s ∈ K, #s.vset = 1 → s.data = 0
  weights : ∀ s ∈ K, 2 ≤ #s.vset → IsLeast {x | 0 ≤ x ∧ Enclosed rows d s.vset x} (s.data / 2)
  sorted : K.Pairwise fun s t => s.data ≤ t.data
  faces : FacesFirst K

/-- A spine of a complex: it is obtained by elementary collapses, so that it has the same homology, and no further collapses are possible. -/
structure IsSpineOf (K L : List (Simplex ℝ)) : Prop where
  sublist : L.Sublist K
  closed : FaceClosed L
  collapses : Collapses (sets K) (sets L)
  final : ∀ σ τ, ¬FreePair (sets L) σ τ
  homology : SameHomology (sets K) (sets L)

/-- The line of a simplex: its vertices, followed by its weight unless it is zero. -/
def IsSimplexLine (print : ℝ → List Char) (s : Simplex ℝ) (l : List Char) : Prop :=
  ∃ ds, List.Forall₂ (fun v d => Tikz.Decimal d v) s.vertices ds ∧ ∃ w, (s.data = 0 → w = []) ∧ (s.data ≠ 0 → w = " (".toList ++ print s.data ++ ")".toList) ∧ l = "{".toList ++ [' '].intercalate ds ++ w ++ "}".toList

/-- The text of a complex: a line for each simplex, between two lines with dashes; it is empty for an empty complex. -/
def IsComplexText (print : ℝ → List Char) (K : List (Simplex ℝ)) (text : List Char) : Prop :=
  (K = [] → text = []) ∧ (K ≠ [] → ∃ rule ls, rule = List.replicate 80 '-' ∧ List.Forall₂ (IsSimplexLine print) K ls ∧ text = (rule :: ls ++ [rule]).flatMap fun l => l ++ ['\n'])

/-- The beginning of a document with pictures, as lines. -/
def documentHead : List (List Char) :=
  ["\\documentclass{standalone}", "\\usepackage{tikz}", "\\definecolor{cb-1}{RGB}{ 27,158,119}", "\\definecolor{cb-2}{RGB}{217, 95,  2}", "\\definecolor{cb-3}{RGB}{117,112,179}",
    "\\begin{document}"].map String.toList

/-- The appearance of both pictures: points and lines have the given colour, balls have the given radius, and triangles are filled by another colour. -/
def pictureStyle (number : ℚ → List Char) (r : ℚ) (colour : List Char) : Tikz.Style where
  labels := false
  dotColour := colour
  dotSize := number (3 / 2)
  ballColour := "black".toList
  ballOpacity := number (1 / 10)
  ballRadius := number r
  triangleColour := "cb-1".toList
  triangleOpacity := number (2 / 5)
  lineColour := colour
  lineWidth := number (1 / 2)

end Aleph.Spec
