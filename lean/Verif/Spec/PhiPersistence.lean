import Verif.Model.PhiPersistence
import Verif.Spec.Conversions

/-!
# Specification vocabulary for intersection homology
-/

namespace Aleph.Spec

open Finset PhiPersistence

variable {α : Type}

/-- The value `p k` of a perversity with the given list of values: the list starts with `p 1`, for perversities of
Goresky and MacPherson with `p 2`; it is continued by zeros. -/
def pervValue : Perv → ℕ → ℤ
  | .general vs, k => vs.getD (k - 1) 0
  | .gm vs, k => ((vs.getD (k - 2) 0 : ℕ) : ℤ)

/-- The smallest codimension for which a perversity imposes a condition. -/
def firstCodim : Perv → ℕ
  | .general _ => 1
  | .gm _ => 2

/-- A set `σ` of vertices is allowable with respect to the strata `X` of a `d`-dimensional complex and the perversity
`p`: its faces in the stratum `X (d - k)` have at most the dimension `dim σ - k + p k`, for each `k`. -/
def Allowable (X : List (Complex α)) (p : Perv) (d : ℕ) (σ : Finset ℕ) : Prop :=
  ∀ k x, firstCodim p ≤ k → k ≤ d → X[d - k]? = some x →
    ∀ τ ∈ x, τ.vset ⊆ σ → (#τ.vset : ℤ) - 1 ≤ (#σ : ℤ) - 1 - k + pervValue p k

/-- A stratification of a complex of dimension `d`: non-empty complexes, at least one for each dimension below `d`, the
largest dimension being `d`; with a perversity of Goresky and MacPherson the two strata before the last one agree. -/
structure Stratification (X : List (Complex α)) (p : Perv) (d : ℕ) : Prop where
  wf : ∀ x ∈ X, WF x ∧ x ≠ []
  length : d ≤ X.length
  le : ∀ x ∈ X, ∀ s ∈ x, #s.vset ≤ d + 1
  ex : d = 0 ∨ ∃ x ∈ X, ∃ s ∈ x, #s.vset = d + 1
  original : (∃ vs, p = .gm vs) →
    ∃ Y A B C, X = Y ++ [A, B, C] ∧ A.map Simplex.vset = B.map Simplex.vset

/-- The pairs of intersection homology of an ordered complex whose first `s` simplices are the allowable ones: the
persistence pairs of allowable simplices, and the allowable simplices that neither destroy nor create with
respect to an allowable one. -/
def IsIntersectionPairing (L : Complex α) (s : ℕ) (p : List (ℕ × ℕ)) : Prop :=
  p.Nodup ∧ p.Pairwise pairLE ∧ ∀ i j, (i, j) ∈ p ↔ i < s ∧
    ((j < s ∧ PersPair (facets L) i j) ∨
      (j = idxMax ∧ (∀ i', ¬ PersPair (facets L) i' i) ∧ ∀ j' < s, ¬ PersPair (facets L) i j'))

/-- Chains of `d`-simplices among the first `t` ones. -/
def chainsBelow (L : Complex α) (t d : ℕ) : Finset (Finset ℕ) :=
  ({k ∈ range t | dimAt L k = d} : Finset ℕ).powerset

end Aleph.Spec
