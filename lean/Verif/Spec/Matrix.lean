import Verif.Model.Matrix
import Mathlib.Data.Finset.Basic
import Mathlib.Data.Finset.Card
import Mathlib.Data.Finset.Range
import Mathlib.Data.Finset.Union
import Mathlib.Data.Finset.Powerset
import Mathlib.Algebra.Ring.Parity

/-!
# Specification vocabulary for boundary matrices

Nothing here refers to the reduction algorithms.  A matrix is a family `D` of
finite sets of rows: `D j` is the set of rows of the non-zero entries of column
`j`, i.e. the boundary of the `j`-th simplex over the field with two elements.
A chain is a finite set of column indices.
-/

namespace Aleph.Spec

open Finset

/-- Non-zero rows of column `j` of a stored matrix. -/
def cols (r : Rep) (j : ℕ) : Finset ℕ := (r.data.getD j []).toFinset

/-- Boundary of the chain `c` modulo two: the rows that occur in an odd number of
the columns of `c`. -/
def chainBd (D : ℕ → Finset ℕ) (c : Finset ℕ) : Finset ℕ :=
  {i ∈ c.biUnion D | Odd #{k ∈ c | i ∈ D k}}

/-- `i` is the largest (youngest) element of `s`. -/
def MaxIs (s : Finset ℕ) (i : ℕ) : Prop := i ∈ s ∧ ∀ k ∈ s, k ≤ i

/-- Persistence pair: some chain on the simplices `0..j` has a boundary with youngest
simplex `i`, and no chain on the simplices before `j` has. -/
def PersPair (D : ℕ → Finset ℕ) (i j : ℕ) : Prop :=
  (∃ c ⊆ range (j + 1), MaxIs (chainBd D c) i) ∧
    ¬ ∃ c ⊆ range j, MaxIs (chainBd D c) i

/-- A stored matrix is valid: columns strictly ascending, all entries are valid
indices and each column has a recorded dimension. -/
structure Valid (r : Rep) : Prop where
  sorted : ∀ c ∈ r.data, c.Pairwise (· < ·)
  entries : ∀ c ∈ r.data, ∀ i ∈ c, i < r.data.length
  dims : r.dims.length = r.data.length

/-- Faces precede cofaces: all entries of column `j` are smaller than `j`. -/
def Filtered (r : Rep) : Prop := ∀ j, ∀ i ∈ cols r j, i < j

/-- Entries of a column have dimension one less than the column. -/
def Graded (r : Rep) : Prop :=
  ∀ j, ∀ i ∈ cols r j, r.dims.getD i 0 + 1 = r.dims.getD j 0

/-- The boundary of each boundary vanishes. -/
def Differential (r : Rep) : Prop := ∀ j, chainBd (cols r) (cols r j) = ∅

/-- No two non-empty columns have the same maximum index. -/
def Reduced (r : Rep) : Prop :=
  ∀ j k i, MaxIs (cols r j) i → MaxIs (cols r k) i → j = k

/-- `u` is a valid index that belongs to no persistence pair. -/
def Unpaired (D : ℕ → Finset ℕ) (n u : ℕ) : Prop :=
  u < n ∧ ∀ j, ¬ PersPair D u j ∧ ¬ PersPair D j u

/-- Indices of dimension `d`. -/
def ofDim (r : Rep) (d : ℕ) : Finset ℕ :=
  {k ∈ range r.data.length | r.dims.getD k 0 = d}

/-- The `d`-cycles: chains of `d`-dimensional simplices without boundary. -/
def cycles (r : Rep) (d : ℕ) : Finset (Finset ℕ) :=
  {c ∈ (ofDim r d).powerset | chainBd (cols r) c = ∅}

/-- The boundaries of the chains of `d`-dimensional simplices. -/
def boundariesOf (r : Rep) (d : ℕ) : Finset (Finset ℕ) :=
  (ofDim r d).powerset.image (chainBd (cols r))

end Aleph.Spec
