import Verif.Spec.VtkReader
import Mathlib.Order.Bounds.Basic

/-!
# PLY files
-/

namespace Aleph.Spec.Ply

open Triangulation Pajek

/-- Types of properties. -/
def types : List (List Char) :=
  ["double".toList, "float".toList, "int".toList, "int32".toList, "uint".toList, "uint32".toList, "short".toList, "ushort".toList, "char".toList, "uchar".toList, "uint8".toList]

/-- Comments, and lines of the header that start with an unknown keyword. -/
def Skipped (l : List Char) : Prop :=
  ∃ t, Content l t ∧ ("comment".toList <+: t ∨ (¬ "element".toList <+: t ∧ ¬ "property".toList <+: t ∧ t ≠ "end_header".toList))

/-- The properties of an element and their names. -/
inductive Properties : List (List Char) → List (List Char) → Prop
  | nil : Properties [] []
  | skip (l : List Char) (ls names : List (List Char)) : Skipped l → Properties ls names → Properties (l :: ls) names
  | scalar (l type name : List Char) (ls names : List (List Char)) : Words l ["property".toList, type, name] → type ∈ types → Properties ls names → Properties (l :: ls) (name :: names)
  | list (l size entry name : List Char) (ls names : List (List Char)) : Words l ["property".toList, "list".toList, size, entry, name] → size ∈ types → entry ∈ types → Properties ls names →
      Properties (l :: ls) (name :: names)

/-- The lines of a header: format, number of vertices and their properties, number of faces and their properties. -/
def HeaderLines (ls : List (List Char)) (format : List Char) (n : ℕ) (vertexProperties : List (List Char)) (m : ℕ) (faceProperties : List (List Char)) : Prop :=
  ∃ a b g skipped v ps f qs e sn sm, ls = a :: b :: (skipped ++ v :: (ps ++ f :: (qs ++ [e]))) ∧
    Content a "ply".toList ∧ Content b ("format".toList ++ g ++ format) ∧ Blanks g ∧ (∀ l ∈ skipped, Skipped l) ∧
    Words v ["element".toList, "vertex".toList, sn] ∧ Numeral sn n ∧ Properties ps vertexProperties ∧
    Words f ["element".toList, "face".toList, sm] ∧ Numeral sm m ∧ Properties qs faceProperties ∧ Content e "end_header".toList

/-- The line of a vertex: there is a word for every coordinate; the data of the vertex is the word of the property, and zero if there is no such property. -/
def VertexLine {α : Type} [Zero α] (real : List Char → Bool) (convert : List Char → α) (property : List Char) (properties : List (List Char)) (l : List Char) (w : α) : Prop :=
  ∃ ws, Words l ws ∧ (∀ c ∈ [['x'], ['y'], ['z']], c ∈ properties ∧ ∃ s, ws[properties.idxOf c]? = some s ∧ real s = true) ∧
    ((property ≠ [] ∧ property ∈ properties ∧ ∃ s, ws[properties.idxOf property]? = some s ∧ w = convert s) ∨ ((property = [] ∨ property ∉ properties) ∧ w = 0))

/-- The line of a triangle; further words are ignored. -/
def FaceLine (l : List Char) (f : ℕ × ℕ × ℕ) : Prop :=
  ∃ count a b c rest, Words l (count :: a :: b :: c :: rest) ∧ Numeral count 3 ∧ Numeral a f.1 ∧ Numeral b f.2.1 ∧ Numeral c f.2.2

/-- The vertices of a triangle. -/
def corners (f : ℕ × ℕ × ℕ) : Finset ℕ := {f.1, f.2.1, f.2.2}

/-- The vertices of a triangle are different. -/
def Distinct (f : ℕ × ℕ × ℕ) : Prop := f.1 ≠ f.2.1 ∧ f.1 ≠ f.2.2 ∧ f.2.1 ≠ f.2.2

/-- The simplices of a mesh: vertices and faces of triangles. -/
def MeshSimplex (n : ℕ) (faces : List (ℕ × ℕ × ℕ)) (t : Finset ℕ) : Prop := t.Nonempty ∧ ((∃ v < n, t = {v}) ∨ ∃ f ∈ faces, t ⊆ corners f)

/-- The maximum of the data of some vertices. -/
def Maximum {α : Type} [LE α] (weights : List α) (t : Finset ℕ) (d : α) : Prop := IsGreatest {a | ∃ v ∈ t, weights[v]? = some a} d

end Aleph.Spec.Ply
