import Verif.Model.PythonMatrix
import Verif.Spec.Rips
import Mathlib.Algebra.Order.Group.Unbundled.Int
import Mathlib.Algebra.BigOperators.Group.Finset.Basic
import Mathlib.Data.Nat.Choose.Basic
import Mathlib.Data.Finset.Powerset

/-!
# Specification: arrays and Vietoris–Rips filtrations of matrices
-/

namespace Aleph.Spec

open Finset

variable {α : Type}

/-- The array stores the `n × m` matrix `M` in the way `numpy` describes it: the entry with indices `u` and `v` is found at the offset
`u * s0 + v * s1` from the first one.  The strides are multiples of the size of a number, which holds unless the array is a field of
a structured array; they may be zero or negative. -/
structure IsMatrix (A : PythonMatrix.Matrix α) (n m : ℕ) (M : ℕ → ℕ → α) : Prop where
  shape : A.shape = [n, m]
  layout : ∃ s0 s1 : ℤ, A.strides = [s0, s1] ∧ 8 ∣ s0 ∧ 8 ∣ s1 ∧
    ∀ u < n, ∀ v < m, |u * s0 + v * s1| < 2 ^ 63 ∧ A.memory (u * s0 + v * s1) = some (M u v)

/-- The Vietoris–Rips filtration of a matrix of distances between `n` points, up to dimension `d`: all non-empty sets of at most `d + 1`
points, points at zero and all other simplices at the largest distance of their points.  Only entries above the diagonal are used. -/
structure IsRips [LinearOrder α] [Zero α] (n : ℕ) (M : ℕ → ℕ → α) (d : ℕ) (K : Complex α) : Prop where
  once : WF K
  simplices : ∀ t : Finset ℕ, Has K t ↔ t.Nonempty ∧ #t ≤ d + 1 ∧ ∀ v ∈ t, v < n
  points : ∀ s ∈ K, #s.vset = 1 → s.data = 0
  largest : ∀ s ∈ K, 2 ≤ #s.vset → IsGreatest {y | ∃ u ∈ s.vset, ∃ v ∈ s.vset, u < v ∧ y = M u v} s.data

/-- The Vietoris–Rips complex at the scale `x`: the non-empty sets of at most `d + 1` points with distances of at most `x`. -/
def ripsAt [LinearOrder α] [Zero α] (n : ℕ) (M : ℕ → ℕ → α) (d : ℕ) (x : α) : Finset (Finset ℕ) :=
  {t ∈ (range n).powerset | t.Nonempty ∧ #t ≤ d + 1 ∧ 0 ≤ x ∧ ∀ u ∈ t, ∀ v ∈ t, u < v → M u v ≤ x}

/-- The number of non-empty subsets of at most `d + 1` of `n` points. -/
def ripsSize (n d : ℕ) : ℕ := ∑ k ∈ range (d + 1), n.choose (k + 1)

/-- The point that a row of a matrix with `d` columns describes. -/
def row (X : ℕ → ℕ → α) (d i : ℕ) : List α := (List.range d).map (X i)

/-- The maximum dimension of a complex of points with `d` coordinates: one more than that of the points, if none is given. -/
def ripsDimension (dimension d : ℕ) : ℕ := if dimension = 0 then d + 1 else dimension

end Aleph.Spec
