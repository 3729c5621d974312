import Verif.Spec.Components
import Verif.Spec.Grid
import Verif.Spec.LevelAnalysis
import Verif.Spec.Strings

/-!
# Specification: persistence diagrams of images

Pixels of an image with `w` columns are numbered row by row: the pixel with number `u` is in row `u / w` and in column `u % w`.
-/

namespace Aleph.Spec

open Finset

variable {α : Type}

/-- The text contains the rows of an image with `w` columns: there is a line for each row, which consists of numbers. -/
def IsImage (number : List Char → Option α) (text : List Char) (w : ℕ) (rows : List (List α)) : Prop :=
  0 < w ∧ rows ≠ [] ∧ ∃ lines b, Lines text lines b ∧
    List.Forall₂ (fun line row => ∃ words, Words line words ∧ words.length = w ∧ words.map number = row.map some) lines rows

/-- The pixel `v` is reached from the pixel `u` by at most one step to the right and at most one step down. -/
def Follows (w u v : ℕ) : Prop := u / w ≤ v / w ∧ v / w ≤ u / w + 1 ∧ u % w ≤ v % w ∧ v % w ≤ u % w + 1

/-- The value of the pixel satisfies a condition. -/
def PixelWith (w : ℕ) (rows : List (List α)) (p : α → Prop) (u : ℕ) : Prop := ∃ a, entry rows (u / w) (u % w) = some a ∧ p a

open Classical in
/-- The vertices, edges and triangles between pixels whose values satisfy a condition.  Each square of four pixels is divided by a diagonal. -/
noncomputable def imageCells (w : ℕ) (rows : List (List α)) (p : α → Prop) : Finset (Finset ℕ) :=
  {t ∈ (range (rows.length * w)).powerset | t.Nonempty ∧ (∀ u ∈ t, PixelWith w rows p u) ∧ ∀ u ∈ t, ∀ v ∈ t, u ≤ v → Follows w u v}

/-- Connected by steps between neighbouring pixels whose values satisfy a condition. -/
def SameRegion (w : ℕ) (rows : List (List α)) (p : α → Prop) : ℕ → ℕ → Prop :=
  Relation.EqvGen fun u v => PixelWith w rows p u ∧ PixelWith w rows p v ∧ Follows w u v

end Aleph.Spec
