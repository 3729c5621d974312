import Verif.Spec.Complex
import Verif.Spec.TopologicalDistance
import Verif.Spec.Json
import Mathlib.Data.Finset.Powerset
import Mathlib.Algebra.Ring.Parity

/-!
# Independent cycles of a graph, and numbers in names of files
-/

namespace Aleph.Spec.BettiNumbers

open Finset

/-- The sets of edges that meet each vertex an even number of times; the cycle space of a graph. -/
def evenSets (E : Finset (Finset ℕ)) : Finset (Finset (Finset ℕ)) :=
  {c ∈ E.powerset | ∀ v ∈ E.biUnion id, Even #{e ∈ c | v ∈ e}}

/-- `b` is the number of independent cycles of a graph, i.e. the dimension of its cycle space. -/
def IsCycleNumber (E : Finset (Finset ℕ)) (b : ℕ) : Prop := #(evenSets E) = 2 ^ b

/-- `digits` is the first group of digits in a name, and no line ends after it. -/
def FirstNumber (name digits : List Char) : Prop :=
  ∃ a b, name = a ++ digits ++ b ∧ digits ≠ [] ∧ (∀ c ∈ a, ¬ ('0' ≤ c ∧ c ≤ '9')) ∧ (∀ c ∈ digits, '0' ≤ c ∧ c ≤ '9') ∧
    (∀ c, b.head? = some c → ¬ ('0' ≤ c ∧ c ≤ '9')) ∧ ∀ c ∈ b, c ≠ '\n' ∧ c ≠ '\r'

/-- The text consists of one line for each row: both numbers with a tabulator between them. -/
inductive Table : List (ℕ × ℕ) → List Char → Prop
  | nil : Table [] []
  | cons {i b : ℕ} {x y : List Char} {rows : List (ℕ × ℕ)} {t : List Char} : Spec.IsDecimal x i → Spec.IsDecimal y b → Table rows t → Table ((i, b) :: rows) (x ++ '\t' :: y ++ '\n' :: t)

end Aleph.Spec.BettiNumbers
