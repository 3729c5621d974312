import Verif.Spec.Grid
import Verif.Spec.Strings

/-!
# Formats of text files
-/

namespace Aleph.Spec

/-- What a line of a file with a boundary matrix stands for: nothing (a blank line, or a line that starts with `#`), or a column, given by its
dimension and its indices. -/
inductive MatrixLine (number : List Char → Option ℕ) : List Char → Option (List ℕ) → Prop
  | blank (l : List Char) : Words l [] → MatrixLine number l none
  | comment (l : List Char) : MatrixLine number ('#' :: l) none
  | column (l : List Char) (w : List Char) (ws : List (List Char)) (c : List ℕ) : l.head? ≠ some '#' → Words l (w :: ws) →
      number w = some (c.length - 1) → ws.map number = c.map some → MatrixLine number l (some c)

/-- What a line of a file with a persistence diagram stands for: nothing (an empty line, or a line that starts with `#`), or a point, given by the
first two words. -/
inductive DiagramLine {α : Type} (convert : List Char → α) : List Char → Option (α × α) → Prop
  | empty : DiagramLine convert [] none
  | comment (l : List Char) : DiagramLine convert ('#' :: l) none
  | point (l a b : List Char) (ws : List (List Char)) : l.head? ≠ some '#' → Words l (a :: b :: ws) →
      DiagramLine convert l (some (convert a, convert b))

end Aleph.Spec
