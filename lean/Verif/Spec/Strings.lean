import Mathlib.Data.List.Basic

/-!
# Fields of a string
-/

namespace Aleph.Spec

/-- A string consists of fields without separators that are divided by non-empty sequences of separators.  The first field may
be empty (if the string starts with separators); after the last separators there is a field only if there are characters
left. -/
inductive Fields (sep : Char → Bool) : List Char → List (List Char) → Prop
  | last (t : List Char) : (∀ c ∈ t, sep c = false) → Fields sep t [t]
  | final (t g : List Char) : (∀ c ∈ t, sep c = false) → g ≠ [] → (∀ c ∈ g, sep c = true) → Fields sep (t ++ g) [t]
  | cons (t g s : List Char) (ts : List (List Char)) : (∀ c ∈ t, sep c = false) → g ≠ [] → (∀ c ∈ g, sep c = true) →
      (∃ c r, s = c :: r ∧ sep c = false) → Fields sep s ts → Fields sep (t ++ g ++ s) (t :: ts)

/-- The lines of a text: `Lines text lines unterminated`. -/
inductive Lines : List Char → List (List Char) → Bool → Prop
  | nil : Lines [] [] false
  | last (l : List Char) : l ≠ [] → '\n' ∉ l → Lines l [l] true
  | cons (l s : List Char) (ls : List (List Char)) (b : Bool) : '\n' ∉ l → Lines s ls b → Lines (l ++ '\n' :: s) (l :: ls) b

end Aleph.Spec
