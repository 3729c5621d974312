import Verif.Spec.Matching

/-!
# The Bottleneck distance
-/

namespace Aleph.Spec

variable {α : Type}

/-- `w` is the smallest non-negative number such that some partial matching uses only pairs of cost at most `w`, and
leaves only points of cost at most `w` without partner. -/
def IsBottleneck [Zero α] [LE α] {P : Type} (cost : P → P → α) (alone : P → α) (A B : List P) (w : α) : Prop :=
  IsLeast {t | 0 ≤ t ∧ ∃ m : Finset (Fin A.length × Fin B.length), IsMatching m ∧
    (∀ x ∈ m, cost A[x.1] B[x.2] ≤ t) ∧ (∀ i, (∀ j, (i, j) ∉ m) → alone A[i] ≤ t) ∧
    (∀ j, (∀ i, (i, j) ∉ m) → alone B[j] ≤ t)} w

end Aleph.Spec
