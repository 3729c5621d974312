import Verif.Spec.Components
import Verif.Spec.Strings
import Mathlib.Data.Real.Basic

/-!
# Specification: the persistence diagram of a function
-/

namespace Aleph.Spec

variable {α : Type} [LinearOrder α]

/-- The places of values up to `x`. -/
def placesUpTo (values : List α) (x : α) : Set ℕ := {i | ∃ a, values[i]? = some a ∧ a ≤ x}

/-- All values at the two places and between them are at most `y`: they lie in the same run of such values. -/
def SameRun (values : List α) (y : α) (i j : ℕ) : Prop :=
  ∀ k a, min i j ≤ k → k ≤ max i j → values[k]? = some a → a ≤ y

/-- The points of the diagram of the sublevel sets of a function: each value creates one point, points lie above the diagonal, one point connects
the extreme values, and the number of points created at `x` at the latest and destroyed after `y` is the number of
runs of values up to `y` that contain a value of at most `x`. -/
structure IsFunctionDiagram (values : List α) (P : List (α × α)) : Prop where
  creation : (P.map Prod.fst).Perm values
  destruction : ∀ p ∈ P, p.1 ≤ p.2 ∧ p.2 ∈ values
  essential : ∃ p ∈ P, ∀ v ∈ values, p.1 ≤ v ∧ v ≤ p.2
  runs : ∀ x y, x ≤ y → (∃ v ∈ values, y < v) →
    IsClassCount (placesUpTo values x) (SameRun values y) (P.countP fun p => p.1 ≤ x ∧ y < p.2)

/-- Colons, semicolons, commas and whitespace separate values. -/
def separatesValues (c : Char) : Bool := c ∈ [':', ';', ',', ' ', '\t', '\n', '\x0b', '\x0c', '\r']

/-- The values of a line. -/
def LineValues (convert : List Char → Option α) (line : List Char) (values : List α) : Prop :=
  ∃ words, Fields separatesValues line words ∧ List.Forall₂ (fun w v => convert w = some v) words values

/-- The lines of all inputs.  Names `-` and the empty name denote standard input, which is used up by the first of them.  Files that do not exist have no
lines. -/
inductive InputLines (files : List Char → Option (List Char)) : List Char → List (List Char) → List (List Char) → Prop
  | nil (stdin : List Char) : InputLines files stdin [] []
  | standard {stdin name : List Char} {names lines rest : List (List Char)} {b : Bool} : name = ['-'] ∨ name = [] → Lines stdin lines b →
      InputLines files [] names rest → InputLines files stdin (name :: names) (lines ++ rest)
  | file {stdin name text : List Char} {names lines rest : List (List Char)} {b : Bool} : name ≠ ['-'] → name ≠ [] → files name = some text →
      Lines text lines b → InputLines files stdin names rest → InputLines files stdin (name :: names) (lines ++ rest)
  | missing {stdin name : List Char} {names rest : List (List Char)} : name ≠ ['-'] → name ≠ [] → files name = none →
      InputLines files stdin names rest → InputLines files stdin (name :: names) rest

/-- The points of a diagram, scaled such that the values of the function become `0` to `1`; nothing changes for constant functions. -/
def Scaled (values : List ℝ) (P Q : List (ℝ × ℝ)) : Prop :=
  ∃ lo ∈ values, ∃ hi ∈ values, (∀ v ∈ values, lo ≤ v ∧ v ≤ hi) ∧
    (lo = hi → Q = P) ∧ (lo < hi → Q = P.map fun p => ((p.1 - lo) / (hi - lo), (p.2 - lo) / (hi - lo)))

/-- The diagram of the values of a line. -/
def IsLineDiagram (sublevel normalize : Bool) (values : List ℝ) (Q : List (ℝ × ℝ)) : Prop :=
  ∃ P, (sublevel = true → IsFunctionDiagram values P) ∧ (sublevel = false → IsFunctionDiagram (α := ℝᵒᵈ) values P) ∧
    (normalize = false → Q = P) ∧ (normalize = true → Scaled values P Q)

/-- The four numbers that summarise the persistence values of a diagram: smallest and largest one, mean, and norm. -/
structure IsSummary (P : List (ℝ × ℝ)) (low high mean norm : ℝ) : Prop where
  low_mem : ∃ p ∈ P, low = p.2 - p.1
  low_le : ∀ p ∈ P, low ≤ p.2 - p.1
  high_mem : ∃ p ∈ P, high = p.2 - p.1
  le_high : ∀ p ∈ P, p.2 - p.1 ≤ high
  mean : mean * P.length = (P.map fun p => p.2 - p.1).sum
  norm_nonneg : 0 ≤ norm
  norm : norm ^ 2 = (P.map fun p => (p.2 - p.1) ^ 2).sum

/-- The text for a diagram: its points, one in each line, and two empty lines; or its summary in one line. -/
def IsLineText (print : ℝ → List Char) (condense : Bool) (P : List (ℝ × ℝ)) (text : List Char) : Prop :=
  (condense = false → text = (P.flatMap fun p => print p.1 ++ '\t' :: print p.2 ++ ['\n']) ++ ['\n', '\n']) ∧
  (condense = true → ∃ low high mean norm, IsSummary P low high mean norm ∧
    text = print low ++ ' ' :: print high ++ ' ' :: print mean ++ ' ' :: print norm ++ ['\n'])

end Aleph.Spec
