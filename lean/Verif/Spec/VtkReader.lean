import Verif.Spec.PajekReader
import Verif.Spec.Grid
import Verif.Spec.Strings

/-!
# Structured grids and VTK files
-/

namespace Aleph.Spec.Vtk

open Triangulation Pajek

/-- A point with coordinates x, y and z is a point of a grid. -/
def Inside (nx ny nz : ℕ) (p : ℕ × ℕ × ℕ) : Prop := p.1 < nx ∧ p.2.1 < ny ∧ p.2.2 < nz

/-- The number of a point: the first coordinate varies fastest. -/
def index (nx ny : ℕ) (p : ℕ × ℕ × ℕ) : ℕ := (p.2.2 * ny + p.2.1) * nx + p.1

/-- Points at distance one: their coordinates differ by one in total. -/
def Adjacent (p q : ℕ × ℕ × ℕ) : Prop := (p.1 - q.1) + (q.1 - p.1) + ((p.2.1 - q.2.1) + (q.2.1 - p.2.1)) + ((p.2.2 - q.2.2) + (q.2.2 - p.2.2)) = 1

/-- The simplices of a grid and their data: a vertex for every value, and edges between points at distance one. -/
def GridData {α : Type} (f : α → α → α) (nx ny nz : ℕ) (values : List α) (t : Finset ℕ) (d : α) : Prop :=
  (∃ v, values[v]? = some d ∧ t = {v}) ∨
  ∃ p q a b, Inside nx ny nz p ∧ Inside nx ny nz q ∧ Adjacent p q ∧ index nx ny q < index nx ny p ∧ values[index nx ny p]? = some a ∧ values[index nx ny q]? = some b ∧
    t = {index nx ny p, index nx ny q} ∧ d = f a b

/-- The words of a line that neither starts nor ends with whitespace. -/
def Plain (l : List Char) (ws : List (List Char)) : Prop := Words l ws ∧ (∀ c, l.head? = some c → ¬ Blank c) ∧ ∀ c, l.getLast? = some c → ¬ Blank c

/-- Digits, at least one. -/
def Digits (d : List Char) : Prop := d ≠ [] ∧ ∀ c ∈ d, 48 ≤ c.toNat ∧ c.toNat ≤ 57

/-- Letters. -/
def Letter (c : Char) : Prop := (97 ≤ c.toNat ∧ c.toNat ≤ 122) ∨ (65 ≤ c.toNat ∧ c.toNat ≤ 90)

/-- Letters and digits, at least one. -/
def Alphanumeric (s : List Char) : Prop := s ≠ [] ∧ ∀ c ∈ s, Letter c ∨ (48 ≤ c.toNat ∧ c.toNat ≤ 57)

/-- Data types and their sizes. -/
def sizes : List (String × ℕ) := [("double", 8), ("float", 4), ("long", 8), ("int", 4), ("short", 2), ("char", 1), ("bit", 1)]

/-- The six lines of a header, for a grid with a number of points, and a data type with a size. -/
def HeaderLines (ls : List (List Char)) (nx ny nz n size : ℕ) : Prop :=
  ∃ a b c d e g major minor x y z m type, ls = [a, b, c, d, e, g] ∧
    Words a [['#'], "vtk".toList, "DataFile".toList, "Version".toList, major ++ '.' :: minor] ∧ Digits major ∧ Digits minor ∧
    Words c ["ASCII".toList] ∧ Words d ["DATASET".toList, "STRUCTURED_GRID".toList] ∧
    Words e ["DIMENSIONS".toList, x, y, z] ∧ Numeral x nx ∧ Numeral y ny ∧ Numeral z nz ∧
    Words g ["POINTS".toList, m, String.toList type] ∧ Numeral m n ∧ (type, size) ∈ sizes

/-- The values in a line: its words; a blank line has one value, which is empty. -/
def Tokens (l : List Char) (ws : List (List Char)) : Prop := (Words l ws ∧ ws ≠ []) ∨ (Words l [] ∧ ws = [[]])

/-- `POINT_DATA`, followed by a number. -/
def PointDataLine (l d : List Char) : Prop := Plain l ["POINT_DATA".toList, d] ∧ Digits d

/-- `SCALARS`, followed by a name, a type, and possibly the number of components. -/
def ScalarsLine (l name type : List Char) (components : Option (List Char)) : Prop :=
  Alphanumeric name ∧ Alphanumeric type ∧
    ((components = none ∧ Words l ["SCALARS".toList, name, type] ∧ ∀ c, l.head? = some c → ¬ Blank c) ∨
      ∃ d, components = some d ∧ Digits d ∧ Plain l ["SCALARS".toList, name, type, d])

/-- `LOOKUP_TABLE`, followed by a name. -/
def TableLine (l name : List Char) : Prop := Plain l ["LOOKUP_TABLE".toList, name] ∧ Alphanumeric name

/-- The lines after the coordinates, their values, and the names and types of scalars.  Lines that do not contain a keyword in the required form consist of values. -/
inductive Body (n : ℕ) : List (List Char) → List (List Char) → List (List Char × List Char) → Prop
  | nil : Body n [] [] []
  | pointData (l d : List Char) (ls ws : List (List Char)) (ss : List (List Char × List Char)) : PointDataLine l d → Numeral d n → Body n ls ws ss → Body n (l :: ls) ws ss
  | scalars (l name type : List Char) (components : Option (List Char)) (ls ws : List (List Char)) (ss : List (List Char × List Char)) : ScalarsLine l name type components →
      (∀ d, components = some d → Numeral d 1) → Body n ls ws ss → Body n (l :: ls) ws ((name, type) :: ss)
  | table (l : List Char) (ls ws : List (List Char)) (ss : List (List Char × List Char)) : TableLine l "default".toList → Body n ls ws ss → Body n (l :: ls) ws ss
  | values (l : List Char) (vs : List (List Char)) (ls ws : List (List Char)) (ss : List (List Char × List Char)) : Tokens l vs → (∀ d, ¬ PointDataLine l d) →
      (∀ name type components, ¬ ScalarsLine l name type components) → (∀ name, ¬ TableLine l name) → Body n ls ws ss → Body n (l :: ls) (vs ++ ws) ss

/-- The lines of a file: a header, three coordinates for every point, and the other lines. -/
def File (ls : List (List Char)) (nx ny nz n size : ℕ) (ws : List (List Char)) (ss : List (List Char × List Char)) : Prop :=
  ∃ header coordinates body cs, ls = header ++ coordinates ++ body ∧ HeaderLines header nx ny nz n size ∧ 0 < n ∧ List.Forall₂ Tokens coordinates cs ∧ cs.flatten.length = n * 3 ∧ Body n body ws ss

end Aleph.Spec.Vtk
