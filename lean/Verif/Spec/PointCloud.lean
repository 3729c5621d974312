import Mathlib.Data.List.Basic

/-!
# Points of a point cloud
-/

namespace Aleph.Spec

/-- An array of numbers holds the given points of dimension `d` one after another. -/
structure HasPoints {α : Type} (n d : ℕ) (array : List α) (rows : List (List α)) : Prop where
  count : n = rows.length
  dimension : ∀ r ∈ rows, r.length = d
  array : array = rows.flatten

/-- A line of a text holds data if it is, without surrounding whitespace, neither empty nor a comment. -/
def holdsData : List Char → Bool
  | [] => false
  | c :: _ => c != '#'

end Aleph.Spec
