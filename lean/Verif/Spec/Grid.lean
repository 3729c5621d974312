import Mathlib.Data.Finset.Image
import Mathlib.Data.Finset.Prod

/-!
# Triangulated grids, and words of a text
-/

namespace Aleph.Spec

variable {α : Type}

/-- The entry in row `y` and column `x` of a matrix that is given by its rows. -/
def entry (rows : List (List α)) (y x : ℕ) : Option α := (rows[y]?).bind fun r => r[x]?

/-- The simplices of the triangulated grid of a matrix with `w` columns, and the values they get.  The entry in row `y` and
column `x` is vertex `w * y + x`.  Each square is divided by the diagonal from its upper left to its lower right
corner. -/
inductive GridData (tri : Bool) (f : α → α → α) (w : ℕ) (rows : List (List α)) : Finset ℕ → α → Prop
  | vertex (y x : ℕ) (a : α) : entry rows y x = some a → GridData tri f w rows {w * y + x} a
  | right (y x : ℕ) (a b : α) : entry rows y x = some a → entry rows y (x + 1) = some b →
      GridData tri f w rows {w * y + x, w * y + (x + 1)} (f a b)
  | down (y x : ℕ) (a b : α) : entry rows y x = some a → entry rows (y + 1) x = some b →
      GridData tri f w rows {w * y + x, w * (y + 1) + x} (f a b)
  | diagonal (y x : ℕ) (a b : α) : entry rows y x = some a → entry rows (y + 1) (x + 1) = some b →
      GridData tri f w rows {w * y + x, w * (y + 1) + (x + 1)} (f a b)
  | upper (y x : ℕ) (a b c : α) : tri = true → entry rows y x = some a → entry rows y (x + 1) = some b →
      entry rows (y + 1) (x + 1) = some c →
      GridData tri f w rows {w * y + x, w * y + (x + 1), w * (y + 1) + (x + 1)} (f (f a b) c)
  | lower (y x : ℕ) (a c d : α) : tri = true → entry rows y x = some a → entry rows (y + 1) (x + 1) = some c →
      entry rows (y + 1) x = some d →
      GridData tri f w rows {w * y + x, w * (y + 1) + (x + 1), w * (y + 1) + x} (f (f a c) d)

/-- A set of positions `(y, x)` forms a simplex of the triangulated grid: it fits into a unit square, and of any two of its
positions one is neither below nor to the right of the other. -/
def IsGridCell (P : Finset (ℕ × ℕ)) : Prop :=
  P.Nonempty ∧ ∀ p ∈ P, ∀ q ∈ P, p.1 ≤ q.1 + 1 ∧ p.2 ≤ q.2 + 1 ∧ (p ≤ q ∨ q ≤ p)

/-- Whitespace. -/
def whitespace : List Char := [' ', '\t', '\n', '\x0b', '\x0c', '\r']

/-- The words of a text: maximal sequences of characters without whitespace. -/
inductive Words : List Char → List (List Char) → Prop
  | nil (g : List Char) : (∀ c ∈ g, c ∈ whitespace) → Words g []
  | last (g t : List Char) : (∀ c ∈ g, c ∈ whitespace) → t ≠ [] → (∀ c ∈ t, c ∉ whitespace) → Words (g ++ t) [t]
  | cons (g t : List Char) (c : Char) (s : List Char) (ts : List (List Char)) : (∀ c ∈ g, c ∈ whitespace) → t ≠ [] →
      (∀ c ∈ t, c ∉ whitespace) → c ∈ whitespace → Words s ts → Words (g ++ t ++ c :: s) (t :: ts)

end Aleph.Spec
