import Verif.Spec.GmlReader
import Verif.Model.Simplex

/-!
# Graphs in GML files that have been written
-/

namespace Aleph.Spec.GmlOutput

open Gml Triangulation Pajek

/-- A word that is not a bracket. -/
def Token (t : List Char) : Prop := t ≠ [] ∧ (∀ c ∈ t, ¬ Blank c) ∧ t ≠ ['[']

/-- What is left of the representation of a value in a file: everything, or nothing. -/
def Kept (t w : List Char) : Prop := (Value t ∧ w = t) ∨ (¬ Value t ∧ w = [])

/-- The attributes that are written for a vertex: its number, its label if there are any labels, which are counted from one, and its data if requested. -/
def VertexEntry {α : Type} (labels : List (List Char)) (data : Bool) (represent : α → List Char) (s : Simplex α) (as : List (List Char × List Char)) : Prop :=
  ∃ u t ls ds, s.vertices = [u] ∧ Numeral t u ∧ (t.head? = some '0' → t = ['0']) ∧ as = ("id".toList, t) :: ls ++ ds ∧
    ((labels = [] ∧ ls = []) ∨ (∃ l, 1 ≤ u ∧ labels[u - 1]? = some l ∧ ls = [("label".toList, l)])) ∧
    ((data = true ∧ Value (represent s.data) ∧ ds = [("data".toList, represent s.data)]) ∨ (¬ (data = true ∧ Value (represent s.data)) ∧ ds = []))

/-- The attributes that are written for an edge: its vertices and its data. -/
def EdgeEntry {α : Type} (represent : α → List Char) (s : Simplex α) (as : List (List Char × List Char)) : Prop :=
  ∃ u v a b w, s.vertices = [u, v] ∧ Numeral a u ∧ (a.head? = some '0' → a = ['0']) ∧ Numeral b v ∧ (b.head? = some '0' → b = ['0']) ∧ Kept (represent s.data) w ∧
    as = [("source".toList, a), ("target".toList, b), ("weight".toList, w)]

end Aleph.Spec.GmlOutput
