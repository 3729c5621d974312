import Mathlib.Data.List.Basic
import Mathlib.Data.List.Forall2
import Verif.Spec.Grid

/-!
# JSON texts

The fragment of RFC 8259 without escape sequences in strings, with integers as the only numbers.
-/

namespace Aleph.Spec

/-- Values of JSON texts. -/
inductive Json
  | text (s : List Char)
  | number (n : ℕ)
  | negative (n : ℕ)
  | array (vs : List Json)
  | object (ms : List (List Char × Json))

/-- The value for an integer. -/
def Json.integer (z : ℤ) : Json := if z < 0 then .negative z.natAbs else .number z.natAbs

/-- Whitespace between tokens. -/
def JsonBlank (g : List Char) : Prop := ∀ c ∈ g, c = ' ' ∨ c = '\n' ∨ c = '\t' ∨ c = '\r'

/-- Characters of strings that are not escaped: neither quotes nor backslashes nor control characters. -/
def JsonPlain (s : List Char) : Prop := ∀ c ∈ s, c ≠ '"' ∧ c ≠ '\\' ∧ 32 ≤ c.toNat

/-- Decimal representation of a natural number, without superfluous zeros. -/
def IsDecimal (t : List Char) (n : ℕ) : Prop :=
  t ≠ [] ∧ (∀ c ∈ t, '0' ≤ c ∧ c ≤ '9') ∧ (t.head? = some '0' → t = ['0']) ∧ t.foldl (fun n c => 10 * n + (c.toNat - 48)) 0 = n

mutual

/-- The text stands for the value. -/
inductive IsJson : List Char → Json → Prop
  | blank (g t h : List Char) (v : Json) : JsonBlank g → JsonBlank h → IsJson t v → IsJson (g ++ t ++ h) v
  | text (s : List Char) : JsonPlain s → IsJson ('"' :: s ++ ['"']) (.text s)
  | number (t : List Char) (n : ℕ) : IsDecimal t n → IsJson t (.number n)
  | negative (t : List Char) (n : ℕ) : IsDecimal t n → IsJson ('-' :: t) (.negative n)
  | emptyArray (g : List Char) : JsonBlank g → IsJson ('[' :: g ++ [']']) (.array [])
  | array (t : List Char) (vs : List Json) : IsElements t vs → IsJson ('[' :: t ++ [']']) (.array vs)
  | emptyObject (g : List Char) : JsonBlank g → IsJson ('{' :: g ++ ['}']) (.object [])
  | object (t : List Char) (ms : List (List Char × Json)) : IsMembers t ms → IsJson ('{' :: t ++ ['}']) (.object ms)

/-- Values divided by commas. -/
inductive IsElements : List Char → List Json → Prop
  | one (t : List Char) (v : Json) : IsJson t v → IsElements t [v]
  | cons (t s : List Char) (v : Json) (vs : List Json) : IsJson t v → IsElements s vs → IsElements (t ++ ',' :: s) (v :: vs)

/-- Pairs of strings and values divided by commas. -/
inductive IsMembers : List Char → List (List Char × Json) → Prop
  | one (g k h t : List Char) (v : Json) : JsonBlank g → JsonPlain k → JsonBlank h → IsJson t v →
      IsMembers (g ++ '"' :: k ++ '"' :: h ++ ':' :: t) [(k, v)]
  | cons (g k h t s : List Char) (v : Json) (ms : List (List Char × Json)) : JsonBlank g → JsonPlain k → JsonBlank h → IsJson t v → IsMembers s ms →
      IsMembers (g ++ '"' :: k ++ '"' :: h ++ ':' :: t ++ ',' :: s) ((k, v) :: ms)

end

/-- The first member of a name of an object. -/
inductive HasMember : Json → List Char → Json → Prop
  | intro (a : List (List Char × Json)) (k : List Char) (v : Json) (b : List (List Char × Json)) : (∀ e ∈ a, e.1 ≠ k) → HasMember (.object (a ++ (k, v) :: b)) k v

/-- An array that starts with two strings stands for the point with these coordinates. -/
inductive PointOf {α : Type} (convert : List Char → α) : Json → α × α → Prop
  | intro (x y : List Char) (rest : List Json) : PointOf convert (.array (.text x :: .text y :: rest)) (convert x, convert y)

/-- The value describes a diagram with a dimension and points: numbers of points and of unpaired points are correct. -/
def DiagramOf {α : Type} [DecidableEq α] (inf : α) (limit : ℕ) (convert : List Char → α) (v : Json) (dimension : ℕ) (points : List (α × α)) : Prop :=
  HasMember v "dimension".toList (.number dimension) ∧ HasMember v "betti".toList (.number (points.countP fun p => p.2 = inf)) ∧
  HasMember v "size".toList (.number points.length) ∧ dimension < limit ∧ points.countP (fun p => p.2 = inf) < limit ∧ points.length < limit ∧
  ∃ vs, HasMember v "diagram".toList (.array vs) ∧ List.Forall₂ (PointOf convert) vs points

end Aleph.Spec
