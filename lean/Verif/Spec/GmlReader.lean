import Verif.Model.GmlReader
import Verif.Spec.PajekReader

/-!
# Texts of GML files
-/

namespace Aleph.Spec.Gml

open Triangulation Pajek
open GmlReader (Parsed)

/-- Letters. -/
def Letter (c : Char) : Prop := (97 ≤ c.toNat ∧ c.toNat ≤ 122) ∨ (65 ≤ c.toNat ∧ c.toNat ≤ 90)

/-- Digits. -/
def Digit (c : Char) : Prop := 48 ≤ c.toNat ∧ c.toNat ≤ 57

/-- The name of an attribute: letters, underscores and bars. -/
def Key (k : List Char) : Prop := k ≠ [] ∧ ∀ c ∈ k, Letter c ∨ c = '_' ∨ c = '|'

/-- Values that are supported: letters, digits and dots. -/
def Value (v : List Char) : Prop := v ≠ [] ∧ ∀ c ∈ v, Letter c ∨ Digit c ∨ c = '.'

/-- Names with a special meaning. -/
def Known (k : List Char) : Prop := k ∈ ["id".toList, "label".toList, "source".toList, "target".toList, "value".toList, "weight".toList]

/-- Lines that start with the words `comment` or `Creator`. -/
def CommentLine (l : List Char) : Prop :=
  ∃ w rest, (w = "comment".toList ∨ w = "Creator".toList) ∧ Content l (w ++ rest) ∧ ∀ c, rest.head? = some c → Blank c

/-- A label in quotation marks. -/
def LabelLine (l v : List Char) : Prop := ∃ b, Blanks b ∧ v ≠ [] ∧ '"' ∉ v ∧ Inline v ∧ Content l ("label".toList ++ b ++ '"' :: v ++ ['"'])

/-- An attribute with a value, other than a label. -/
def ValueLine (l k v : List Char) : Prop := ∃ b, Key k ∧ k ≠ "comment".toList ∧ k ≠ "Creator".toList ∧ k ≠ "label".toList ∧ Blanks b ∧ Value v ∧ Content l (k ++ b ++ v)

/-- A label without quotation marks, or with further ones. -/
def BareLabelLine (l : List Char) : Prop :=
  ∃ b t, Blanks b ∧ Inline t ∧ t ≠ [] ∧ (∀ c, t.head? = some c → ¬ Blank c) ∧ (∀ v, v ≠ [] → '"' ∉ v → t ≠ '"' :: v ++ ['"']) ∧ Content l ("label".toList ++ b ++ t)

/-- An attribute, other than a label, whose value contains other characters, such as a sign. -/
def UnsupportedLine (l k : List Char) : Prop :=
  ∃ b t, Key k ∧ k ≠ "comment".toList ∧ k ≠ "Creator".toList ∧ k ≠ "label".toList ∧ k ∉ ["graph".toList, "node".toList, "edge".toList] ∧ Blanks b ∧ ¬ Value t ∧ t ≠ ['['] ∧ Inline t ∧ (∀ c, t.head? = some c → ¬ Blank c) ∧
    t ≠ [] ∧ Content l (k ++ b ++ t)

/-- A line assigns a value to an attribute; known attributes with an unsupported value are empty. -/
def Assigns (l k v : List Char) : Prop := (k = "label".toList ∧ LabelLine l v) ∨ (k = "label".toList ∧ BareLabelLine l ∧ v = []) ∨ ValueLine l k v ∨ (UnsupportedLine l k ∧ Known k ∧ v = [])

/-- Lines in a level without effect: blank lines, comments, and other attributes with an unsupported value. -/
def Skipped (l : List Char) : Prop := Content l [] ∨ CommentLine l ∨ ∃ k, UnsupportedLine l k ∧ ¬ Known k

/-- A level starts, in the same line or in the next one. -/
def Opens (name : String) (ls : List (List Char)) : Prop :=
  (∃ l b, ls = [l] ∧ Blanks b ∧ Content l (name.toList ++ b ++ ['['])) ∨ ∃ l m, ls = [l, m] ∧ Content l name.toList ∧ Content m ['[']

/-- Lines of attributes. -/
inductive Attributes : List (List Char) → List (List Char × List Char) → Prop
  | nil : Attributes [] []
  | skip (l : List Char) (ls : List (List Char)) (as : List (List Char × List Char)) : Skipped l → Attributes ls as → Attributes (l :: ls) as
  | cons (l k v : List Char) (ls : List (List Char)) (as : List (List Char × List Char)) : Assigns l k v → Attributes ls as → Attributes (l :: ls) ((k, v) :: as)

/-- The lines of a node or an edge. -/
def Block (name : String) (ls : List (List Char)) (as : List (List Char × List Char)) : Prop :=
  ∃ o a c, ls = o ++ a ++ [c] ∧ Opens name o ∧ Attributes a as ∧ Content c [']']

/-- The lines of a graph, and the attributes of its nodes and edges. -/
inductive Body : List (List Char) → List (List (List Char × List Char)) → List (List (List Char × List Char)) → Prop
  | nil : Body [] [] []
  | skip (l : List Char) (ls : List (List Char)) (ns es : List (List (List Char × List Char))) : Skipped l → Body ls ns es → Body (l :: ls) ns es
  | graph (l k v : List Char) (ls : List (List Char)) (ns es : List (List (List Char × List Char))) : Assigns l k v → k ≠ "id".toList → k ≠ "source".toList → k ≠ "target".toList →
      Body ls ns es → Body (l :: ls) ns es
  | node (n ls : List (List Char)) (as : List (List Char × List Char)) (ns es : List (List (List Char × List Char))) : Block "node" n as → Body ls ns es → Body (n ++ ls) (as :: ns) es
  | edge (e ls : List (List Char)) (as : List (List Char × List Char)) (ns es : List (List (List Char × List Char))) : Block "edge" e as → Body ls ns es → Body (e ++ ls) ns (as :: es)

/-- The lines of a file: a graph, with comments before and after it. -/
def File (ls : List (List Char)) (ns es : List (List (List Char × List Char))) : Prop :=
  ∃ pre o b c post, ls = pre ++ o ++ b ++ c :: post ∧ (∀ l ∈ pre, CommentLine l) ∧ Opens "graph" o ∧ Body b ns es ∧ Content c [']'] ∧ ∀ l ∈ post, CommentLine l

/-- The last value that is assigned to an attribute. -/
def LastValue (as : List (List Char × List Char)) (k v : List Char) : Prop := ∃ a b, as = a ++ (k, v) :: b ∧ ∀ x ∈ b, x.1 ≠ k

/-- The value of an attribute, which is empty if there is none. -/
def ValueOr (as : List (List Char × List Char)) (k v : List Char) : Prop := LastValue as k v ∨ ((∀ x ∈ as, x.1 ≠ k) ∧ v = [])

/-- The weight that is specified: the attribute `weight`, or else `value`. -/
def Weight {α : Type} (convert : List Char → α) (as : List (List Char × List Char)) (d : α) : Prop :=
  (∃ v, LastValue as "weight".toList v ∧ d = convert v) ∨ ((∀ x ∈ as, x.1 ≠ "weight".toList) ∧ ∃ v, LastValue as "value".toList v ∧ d = convert v)

/-- No weight is specified. -/
def Unweighted (as : List (List Char × List Char)) : Prop := ∀ x ∈ as, x.1 ≠ "weight".toList ∧ x.1 ≠ "value".toList

/-- The vertex of an identifier: its number, or, if it does not start with a number, the number of smaller identifiers. -/
def VertexOf (number : List Char → Parsed) (ids : List (List Char)) (id : List Char) (v : ℕ) : Prop :=
  number id = .value v ∨ (number id = .invalid ∧ id ∈ ids ∧ ∃ l : List (List Char), l.Nodup ∧ (∀ x, x ∈ l ↔ x ∈ ids ∧ x < id) ∧ v = l.length)

/-- A node: its identifier, its vertex and its data. -/
structure NodeInfo (α : Type) where
  id : List Char
  vertex : ℕ
  data : α

/-- The attributes of a node describe a vertex. -/
def IsNode {α : Type} [Zero α] (number : List Char → Parsed) (convert : List Char → α) (ids : List (List Char)) (as : List (List Char × List Char)) (n : NodeInfo α) : Prop :=
  ValueOr as "id".toList n.id ∧ VertexOf number ids n.id n.vertex ∧ (Weight convert as n.data ∨ (Unweighted as ∧ n.data = 0))

/-- An edge: its vertices and its data. -/
structure EdgeInfo (α : Type) where
  source : ℕ
  target : ℕ
  data : α

/-- The attributes of an edge describe an edge between nodes; edges without weight obtain one from their nodes. -/
def IsEdge {α : Type} (number : List Char → Parsed) (convert : List Char → α) (f : α → α → α) (ids : List (List Char)) (ns : List (NodeInfo α)) (as : List (List Char × List Char))
    (e : EdgeInfo α) : Prop :=
  ∃ s t, ValueOr as "source".toList s ∧ ValueOr as "target".toList t ∧ VertexOf number ids s e.source ∧ VertexOf number ids t e.target ∧
    (Weight convert as e.data ∨ (Unweighted as ∧ ∃ m ∈ ns, ∃ n ∈ ns, m.vertex = e.source ∧ n.vertex = e.target ∧ e.data = f m.data n.data))

end Aleph.Spec.Gml
