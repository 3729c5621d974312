import Verif.Spec.Bottleneck
import Verif.Spec.DiagramStatistics
import Mathlib.Algebra.Order.Group.Abs

/-!
# Signatures of persistence diagrams
-/

namespace Aleph.Spec.DiagramSignature

variable {α : Type}

/-- The distance of two points with respect to the largest difference of coordinates. -/
def distance [AddGroup α] [LinearOrder α] (p q : α × α) : α := max |p.1 - q.1| |p.2 - q.2|

/-- Each pair of points contributes the smallest one among their distance and their absolute persistence values; the values are sorted in descending order. -/
structure IsSignature [AddGroup α] [LinearOrder α] (points : List (α × α)) (s : List α) : Prop where
  sorted : s.Pairwise (· ≥ ·)
  values : ∀ t, s.count t = (Finset.univ.filter fun x : Fin points.length × Fin points.length =>
    x.1 < x.2 ∧ min (distance points[x.1] points[x.2]) (min |points[x.1].2 - points[x.1].1| |points[x.2].2 - points[x.2].1|) = t).card

/-- The first `k` numbers of a list, with zeros instead of missing ones. -/
def Fills [Zero α] (s : List α) (k : ℕ) (l : List α) : Prop :=
  l.length = k ∧ ∀ (i : ℕ) x, l[i]? = some x → s[i]? = some x ∨ (s[i]? = none ∧ x = 0)

/-- Words that are separated by single spaces. -/
inductive Spaced : List (List Char) → List Char → Prop
  | nil : Spaced [] []
  | one (x : List Char) : Spaced [x] x
  | cons {x y : List Char} {xs : List (List Char)} {t : List Char} : Spaced (y :: xs) t → Spaced (x :: y :: xs) (x ++ ' ' :: t)

end Aleph.Spec.DiagramSignature
