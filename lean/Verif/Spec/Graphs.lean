import Verif.Spec.Grid
import Verif.Spec.Strings
import Mathlib.Data.Finset.Card
import Mathlib.Algebra.Group.Defs

/-!
# Graphs in files
-/

namespace Aleph.Spec

variable {α : Type}

/-- The weighted graph of an adjacency matrix: vertices carry a common weight, an edge the (transformed) entry above the
diagonal, if it is to be kept. -/
inductive AdjacencyData (keep : α → Prop) (edgeWeight : α → α) (vertexWeight : α) (rows : List (List α)) :
    Finset ℕ → α → Prop
  | vertex (i : ℕ) : i < rows.length → AdjacencyData keep edgeWeight vertexWeight rows {i} vertexWeight
  | edge (y x : ℕ) (w : α) : y < x → entry rows y x = some w → keep w →
      AdjacencyData keep edgeWeight vertexWeight rows {y, x} (edgeWeight w)

/-- The weighted graph of a list of edges `(u, v, w)`: the end points of edges have weight zero, an edge has the weight of its
first occurrence; loops only contribute their vertex. -/
inductive EdgeListData [Zero α] (E : List (ℕ × ℕ × α)) : Finset ℕ → α → Prop
  | vertex (u v : ℕ) (w : α) (x : ℕ) : (u, v, w) ∈ E → x = u ∨ x = v → EdgeListData E {x} 0
  | edge (u v : ℕ) (w : α) (before after : List (ℕ × ℕ × α)) : E = before ++ (u, v, w) :: after → u ≠ v →
      (∀ e ∈ before, ({e.1, e.2.1} : Finset ℕ) ≠ {u, v}) → EdgeListData E {u, v} w

/-- The number of a label in a sequence of labels: the number of different labels before its first occurrence. -/
def labelID (L : List (List Char)) (a : List Char) : ℕ := (L.takeWhile fun b => b ≠ a).toFinset.card

/-- `t` is the text `s` without the whitespace at its ends. -/
def Stripped (s t : List Char) : Prop :=
  (∃ a b, s = a ++ t ++ b ∧ (∀ c ∈ a, c ∈ whitespace) ∧ ∀ c ∈ b, c ∈ whitespace) ∧
  (∀ c, t.head? = some c → c ∉ whitespace) ∧ ∀ c, t.getLast? = some c → c ∉ whitespace

/-- Lines that are to be skipped in an edge list: empty lines, and those that start with a comment token. -/
def Ignored (l : List Char) : Prop := l = [] ∨ ∃ c ∈ ['#', '%', '"', '*'], l.head? = some c

/-- The fields of the lines of an edge list that are not ignored. -/
inductive EdgeLines (strip : Bool) (sep : Char → Bool) : List (List Char) → List (List (List Char)) → Prop
  | nil : EdgeLines strip sep [] []
  | skip (l t : List Char) (ls : List (List Char)) (T : List (List (List Char))) :
      (if strip then Stripped l t else l = t) → Ignored t → EdgeLines strip sep ls T → EdgeLines strip sep (l :: ls) T
  | keep (l t : List Char) (ts : List (List Char)) (ls : List (List Char)) (T : List (List (List Char))) :
      (if strip then Stripped l t else l = t) → ¬ Ignored t → Fields sep t ts → EdgeLines strip sep ls T →
      EdgeLines strip sep (l :: ls) (ts :: T)

/-- A field is used as a number. -/
def Numeric (s : List Char) : Prop := ∀ c ∈ s, c ∈ ['0', '1', '2', '3', '4', '5', '6', '7', '8', '9']

instance (s : List Char) : Decidable (Numeric s) := List.decidableBAll _ _

/-- The edge of a line: the first two fields are vertices (numbers if the first field is one, otherwise labels), the third one is
the weight. -/
def edgeOf [Zero α] (number : List Char → ℕ) (id : List Char → ℕ) (weight : Option (List Char) → α) :
    List (List Char) → ℕ × ℕ × α
  | a :: b :: rest => if Numeric a then (number a, number b, weight rest.head?) else (id a, id b, weight rest.head?)
  | _ => (0, 0, 0)

/-- The labels of the lines, in the order of their occurrence. -/
def labelsOf (T : List (List (List Char))) : List (List Char) :=
  T.flatMap fun ts => match ts with
    | a :: b :: _ => if Numeric a then [] else [a, b]
    | _ => []

/-- The text of a matrix: the words of each line that is not empty are the numbers of a row, and there are no comments. -/
def MatrixText (number : List Char → Option α) (text : List Char) (rows : List (List α)) : Prop :=
  ∃ ls b ws, Lines text ls b ∧ List.Forall₂ Words (ls.filter fun l => !l.isEmpty) ws ∧ (∀ l ∈ ls, l.head? ≠ some '#') ∧
    List.Forall₂ (fun r row => r.map number = row.map some) ws rows

end Aleph.Spec
