import Verif.Spec.Strings
import Verif.Spec.Grid
import Verif.Model.Simplex

/-!
# Files that consist of points and lines
-/

namespace Aleph.Spec.Plot

/-- The vertices of a sequence of simplices, in their order. -/
def vertices {α : Type} (K : List (Simplex α)) : List ℕ :=
  K.filterMap fun s => match s.vertices with
    | [u] => some u
    | _ => none

/-- The edges of a sequence of simplices, in their order. -/
def edges {α : Type} (K : List (Simplex α)) : List (ℕ × ℕ) :=
  K.filterMap fun s => match s.vertices with
    | [u, v] => some (u, v)
    | _ => none

/-- The lines of a block of edges: every edge consists of the lines of its end points and an empty line. -/
inductive EdgeLines (words : ℕ → List (List Char)) : List (ℕ × ℕ) → List (List Char) → Prop
  | nil : EdgeLines words [] []
  | cons (u v : ℕ) (l m : List Char) (es : List (ℕ × ℕ)) (ls : List (List Char)) : Words l (words u) → Words m (words v) →
      EdgeLines words es ls → EdgeLines words ((u, v) :: es) (l :: m :: [] :: ls)

/-- A text with two blocks that are separated by two empty lines: a line for every vertex, with its words, and the lines of all edges. -/
def Text (vertexWords endWords : ℕ → List (List Char)) (vs : List ℕ) (es : List (ℕ × ℕ)) (text : List Char) : Prop :=
  ∃ ls ms, Lines text (ls ++ [[], []] ++ ms) false ∧ List.Forall₂ (fun u l => Words l (vertexWords u)) vs ls ∧ EdgeLines endWords es ms

/-- A word: not empty, and without whitespace. -/
def IsWord (t : List Char) : Prop := t ≠ [] ∧ ∀ c ∈ t, c ∉ whitespace

end Aleph.Spec.Plot
