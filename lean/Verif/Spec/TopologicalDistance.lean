import Mathlib.Data.Real.Basic
import Mathlib.Data.List.Basic
import Mathlib.Data.List.Nodup

/-!
# Specification of the tool `topological_distance`
-/

namespace Aleph.Spec.TopologicalDistance

/-- The name of a file consists of the name of the data set, an underscore, one of the letters `d` and `k`, at least one digit, and `.txt`. -/
def Divides (filename name digits : List Char) : Prop :=
  ∃ letter, (letter = 'd' ∨ letter = 'k') ∧ filename = name ++ ['_', letter] ++ digits ++ ['.', 't', 'x', 't'] ∧
    digits ≠ [] ∧ (∀ x ∈ digits, x.isDigit) ∧ '\n' ∉ name ∧ '\r' ∉ name

/-- `name` is the name of the data set that a file belongs to. -/
def IsName (filename name : List Char) : Prop :=
  (∃ digits, Divides filename name digits) ∨ (∀ n digits, ¬Divides filename n digits) ∧ name = filename

/-- The value of a sequence of decimal digits: the last digit counts once, the others tenfold. -/
inductive Decimal : List Char → ℕ → Prop
  | nil : Decimal [] 0
  | snoc {l v d} : Decimal l v → d < 10 → Decimal (l ++ [Char.ofNat (48 + d)]) (10 * v + d)

/-- `distinct` are the elements of `l` in the order of their first appearance. -/
def FirstAppearances {β : Type} (l distinct : List β) : Prop :=
  distinct.Nodup ∧ (∀ x, x ∈ distinct ↔ x ∈ l) ∧
    distinct.Pairwise fun x y => ∃ before after, l = before ++ x :: after ∧ y ∉ before

/-- The ways of comparing two data sets. -/
inductive Measure
  | bottleneck
  | envelope
  | hausdorff
  | indicator
  | scaleSpace
  | wasserstein
  deriving DecidableEq

/-- The largest of the differences of the coordinates. -/
noncomputable def maxDistance (p q : ℝ × ℝ) : ℝ := max |p.1 - q.1| |p.2 - q.2|

/-- The number `h` is at least the distance of every point of `A` from some point of `B`. -/
def Covers (h : ℝ) (A B : List (ℝ × ℝ)) : Prop := ∀ p ∈ A, ∃ q ∈ B, maxDistance p q ≤ h

/-- The Hausdorff distance of two diagrams; diagrams without points have distance zero from each other and `inf` from all others. -/
def IsHausdorffDistance (inf : ℝ) (A B : List (ℝ × ℝ)) (h : ℝ) : Prop :=
  (A = [] ∧ B = [] ∧ h = 0) ∨ (A = [] ∧ B ≠ [] ∧ h = inf) ∨ (A ≠ [] ∧ B = [] ∧ h = inf) ∨
    (A ≠ [] ∧ B ≠ [] ∧ IsLeast {x | Covers x A B ∧ Covers x B A} h)

/-- The points of the diagram that a data set contains in a dimension: the first one counts, and there are no points if there is none. -/
def PointsOf (A : List (ℕ × List (ℝ × ℝ))) (k : ℕ) (P : List (ℝ × ℝ)) : Prop :=
  (∃ before after, A = before ++ (k, P) :: after ∧ ∀ e ∈ before, e.1 ≠ k) ∨ ((∀ e ∈ A, e.1 ≠ k) ∧ P = [])

/-- What is left of a diagram after removing unwanted points: points on the diagonal and unpaired points are removed if requested. -/
def Kept (inf : ℝ) (clean : Bool) (D : List (ℝ × ℝ)) (p : ℝ × ℝ) : Prop := p ∈ D ∧ (clean = true → p.1 ≠ p.2 ∧ p.2 ≠ inf)

/-- The coordinates of points, without those of infinity. -/
def Coordinate (inf : ℝ) (kept : ℝ × ℝ → Prop) (x : ℝ) : Prop := ∃ p, kept p ∧ (x = p.1 ∨ (p.2 ≠ inf ∧ x = p.2))

/-- The positive semidefinite matrices. -/
def PositiveSemidefinite (n : ℕ) (K : ℕ → ℕ → ℝ) : Prop :=
  ∀ x : ℕ → ℝ, 0 ≤ ((List.range n).map fun i => ((List.range n).map fun j => x i * K i j * x j).sum).sum

end Aleph.Spec.TopologicalDistance
