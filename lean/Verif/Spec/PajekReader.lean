import Verif.Spec.TriangulationReader
import Verif.Spec.Collects

/-!
# Texts of Pajek files
-/

namespace Aleph.Spec

namespace Pajek

open Triangulation

/-- A number in decimal notation. -/
def Numeral (d : List Char) (v : ℕ) : Prop :=
  d ≠ [] ∧ (∀ c ∈ d, 48 ≤ c.toNat ∧ c.toNat ≤ 57) ∧ d.foldl (fun n c => 10 * n + (c.toNat - 48)) 0 = v

/-- Whitespace, at least one character. -/
def Blanks (b : List Char) : Prop := b ≠ [] ∧ ∀ c ∈ b, Blank c

/-- A text without line terminators. -/
def Inline (s : List Char) : Prop := '\n' ∉ s ∧ '\r' ∉ s

/-- Lines that start with a percent sign. -/
def Comment (l : List Char) : Prop := ∃ t, Content l t ∧ t.head? = some '%'

/-- A word, with letters in lower or upper case. -/
def Word (w : String) (t : List Char) : Prop := List.Forall₂ (fun a b => b = a ∨ b = a.toUpper) w.toList t

/-- The declaration of the number of vertices. -/
def Header (l : List Char) (n : ℕ) : Prop :=
  ∃ name b d : List Char, Content l ('*' :: (name ++ b ++ d)) ∧ (Word "vertices" name ∨ Word "verts" name) ∧ Blanks b ∧ Inline b ∧ Numeral d n

/-- The start of the edges. -/
def EdgesHeader (l : List Char) : Prop :=
  ∃ name rest : List Char, Content l ('*' :: (name ++ rest)) ∧ (Word "edges" name ∨ Word "arcs" name) ∧ (rest = [] ∨ ∃ b r, Blanks b ∧ Inline (b ++ r) ∧ rest = b ++ r)

/-- A vertex: its number, and its label in quotation marks. -/
def VertexLine (l id label : List Char) (v : ℕ) : Prop :=
  ∃ b : List Char, Content l (id ++ b ++ '"' :: label ++ ['"']) ∧ Numeral id v ∧ Blanks b ∧ Inline label

/-- An edge: two numbers, and optionally the text of a weight, with digits and dots. -/
def EdgeLine (l : List Char) (u v : ℕ) (w : Option (List Char)) : Prop :=
  ∃ d b e : List Char, Numeral d u ∧ Blanks b ∧ Numeral e v ∧
    match w with
    | none => Content l (d ++ b ++ e)
    | some t => t ≠ [] ∧ (∀ c ∈ t, c = '.' ∨ (48 ≤ c.toNat ∧ c.toNat ≤ 57)) ∧ ∃ b' : List Char, Blanks b' ∧ Content l (d ++ b ++ e ++ b' ++ t)

/-- Two numbers, optionally followed by whitespace and digits or dots. -/
def EdgeText (t : List Char) : Prop :=
  ∃ (d b e b' w : List Char) (u v : ℕ), t = d ++ b ++ e ++ b' ++ w ∧ Numeral d u ∧ Blanks b ∧ Numeral e v ∧ (∀ c ∈ b', Blank c) ∧ ∀ c ∈ w, c = '.' ∨ (48 ≤ c.toNat ∧ c.toNat ≤ 57)

/-- Lines of vertices, with comments between them. -/
inductive VertexLines : List (List Char) → List (List Char × List Char × ℕ) → Prop
  | nil : VertexLines [] []
  | comment (l : List Char) (ls : List (List Char)) (vs : List (List Char × List Char × ℕ)) : Comment l → VertexLines ls vs → VertexLines (l :: ls) vs
  | cons (l id label : List Char) (v : ℕ) (ls : List (List Char)) (vs : List (List Char × List Char × ℕ)) : VertexLine l id label v → VertexLines ls vs →
      VertexLines (l :: ls) ((id, label, v) :: vs)

/-- Lines of edges, with comments and further keywords for edges between them. -/
inductive EdgeLines : List (List Char) → List (ℕ × ℕ × Option (List Char)) → Prop
  | nil : EdgeLines [] []
  | comment (l : List Char) (ls : List (List Char)) (es : List (ℕ × ℕ × Option (List Char))) : Comment l → EdgeLines ls es → EdgeLines (l :: ls) es
  | header (l : List Char) (ls : List (List Char)) (es : List (ℕ × ℕ × Option (List Char))) : EdgesHeader l → EdgeLines ls es → EdgeLines (l :: ls) es
  | cons (l : List Char) (u v : ℕ) (w : Option (List Char)) (ls : List (List Char)) (es : List (ℕ × ℕ × Option (List Char))) : EdgeLine l u v w → EdgeLines ls es →
      EdgeLines (l :: ls) ((u, v, w) :: es)

/-- The lines of a file up to the vertices: comments and empty lines, the number of vertices, and lines of vertices. -/
def VertexPart (ls : List (List Char)) (n : ℕ) (vs : List (List Char × List Char × ℕ)) : Prop :=
  ∃ (comments : List (List Char)) (h : List Char) (V : List (List Char)), ls = comments ++ h :: V ∧ (∀ l ∈ comments, Comment l ∨ Content l []) ∧ Header h n ∧ VertexLines V vs

/-- The lines of a file: vertices and edges. -/
def File (ls : List (List Char)) (n : ℕ) (vs : List (List Char × List Char × ℕ)) (es : List (ℕ × ℕ × Option (List Char))) : Prop :=
  ∃ V E : List (List Char), ls = V ++ E ∧ VertexPart V n vs ∧ (E = [] ∧ es = [] ∨ ∃ (h : List Char) (E' : List (List Char)), E = h :: E' ∧ EdgesHeader h ∧ EdgeLines E' es)

/-- The weight of an edge; edges without a weight have the default value. -/
def edgeWeight {α : Type} [Zero α] (convert : List Char → α) : Option (List Char) → α
  | none => 0
  | some t => convert t

/-- The simplices of a file: the vertices, and the edges with their weights.  Vertices without labels have the numbers from 1 to `n`. -/
def simplices {α : Type} [Zero α] (convert : List Char → α) (n : ℕ) (vs : List (List Char × List Char × ℕ)) (es : List (ℕ × ℕ × Option (List Char))) : List (List ℕ × α) :=
  (if vs = [] then (List.range' 1 n).map fun i => ([i], 0) else vs.map fun x => ([x.2.2], 0)) ++ es.map fun e => ([e.1, e.2.1], edgeWeight convert e.2.2)

end Pajek

end Aleph.Spec
