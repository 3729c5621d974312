import Verif.Spec.Strings
import Verif.Spec.Complex

/-!
# Texts of lexicographic triangulations
-/

namespace Aleph.Spec.Triangulation

/-- Whitespace characters. -/
def Blank (c : Char) : Prop := c ∈ [' ', '\t', '\n', '\x0b', '\x0c', '\r']

/-- Characters between the simplices of a list: commas and whitespace. -/
def Gap (g : List Char) : Prop := ∀ c ∈ g, c = ',' ∨ Blank c

/-- A number in decimal notation, possibly surrounded by whitespace. -/
def Vertex (t : List Char) (v : ℕ) : Prop :=
  ∃ a d b : List Char, t = a ++ d ++ b ∧ (∀ c ∈ a, Blank c) ∧ (∀ c ∈ b, Blank c) ∧ d ≠ [] ∧ (∀ c ∈ d, 48 ≤ c.toNat ∧ c.toNat ≤ 57) ∧
    d.foldl (fun n c => 10 * n + (c.toNat - 48)) 0 = v

/-- Numbers, separated by commas. -/
inductive Numbers : List Char → List ℕ → Prop
  | one (t : List Char) (v : ℕ) : Vertex t v → Numbers t [v]
  | cons (t : List Char) (v : ℕ) (s : List Char) (vs : List ℕ) : Vertex t v → Numbers s vs → Numbers (t ++ ',' :: s) (v :: vs)

/-- Simplices in brackets, with gaps after them. -/
inductive Items : List Char → List (List ℕ) → Prop
  | nil : Items [] []
  | cons (b : List Char) (vs : List ℕ) (g s : List Char) (fs : List (List ℕ)) : Numbers b vs → Gap g → Items s fs →
      Items ('[' :: b ++ ']' :: (g ++ s)) (vs :: fs)

/-- A list of simplices, in brackets. -/
def Block (B : List Char) (fs : List (List ℕ)) : Prop := ∃ g s : List Char, Gap g ∧ Items s fs ∧ B = '[' :: (g ++ s) ++ [']']

/-- The content of a line, without whitespace at both ends. -/
def Content (l t : List Char) : Prop :=
  ∃ a b : List Char, l = a ++ t ++ b ∧ (∀ c ∈ a, Blank c) ∧ (∀ c ∈ b, Blank c) ∧ (∀ c, t.head? = some c → ¬ Blank c) ∧ (∀ c, t.getLast? = some c → ¬ Blank c)

/-- Empty lines and comments. -/
def Ignored (l : List Char) : Prop := ∃ t, Content l t ∧ (t = [] ∨ t.head? = some '#')

/-- Lines that continue a block, and the text that they add to it. -/
inductive More : List (List Char) → List Char → Prop
  | nil : More [] []
  | skip (l : List Char) (ls : List (List Char)) (b : List Char) : Ignored l → More ls b → More (l :: ls) b
  | cons (l t : List Char) (ls : List (List Char)) (b : List Char) : Content l t → t ≠ [] → t.head? ≠ some '#' → '=' ∉ t → More ls b → More (l :: ls) (t ++ b)

/-- The lines of a file: comments and blocks.  A block starts with a name and an equals sign; its list starts in the same line, and may extend over several lines. -/
inductive File : List (List Char) → List (List (List ℕ)) → Prop
  | nil : File [] []
  | skip (l : List Char) (ls : List (List Char)) (r : List (List (List ℕ))) : Ignored l → File ls r → File (l :: ls) r
  | block (l t name a first b : List Char) (more ls : List (List Char)) (fs : List (List ℕ)) (r : List (List (List ℕ))) :
      Content l t → t = name ++ '=' :: a → '=' ∉ name → name.head? ≠ some '#' → Content a first → first ≠ [] → More more b → Block (first ++ b) fs →
      File ls r → File (l :: (more ++ ls)) (fs :: r)

end Aleph.Spec.Triangulation
