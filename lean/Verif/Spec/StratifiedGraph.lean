import Mathlib.Data.List.Basic
import Mathlib.Algebra.BigOperators.Group.List.Basic

/-!
# Graphs with strata
-/

namespace Aleph.Spec.Strata

/-- The first vertex of a stratum: vertices are numbered stratum by stratum. -/
def start (strata : List ℕ) (i : ℕ) : ℕ := (strata.take i).sum

/-- A vertex belongs to stratum number `i`. -/
def InStratum (strata : List ℕ) (i v : ℕ) : Prop := ∃ size, strata[i]? = some size ∧ start strata i ≤ v ∧ v < start strata i + size

/-- The first vertex belongs to stratum `i` and the second one to the next stratum. -/
def Consecutive (strata : List ℕ) (i u v : ℕ) : Prop := InStratum strata i u ∧ InStratum strata (i + 1) v

/-- The number of pairs of vertices of consecutive strata before stratum `i`. -/
def before (strata : List ℕ) (i : ℕ) : ℕ := ((List.range i).map fun l => (strata[l]?).getD 0 * (strata[l + 1]?).getD 0).sum

/-- The number of such a pair if all pairs are enumerated. -/
def edgeNumber (strata : List ℕ) (i u v : ℕ) : ℕ := before strata i + ((u - start strata i) * (strata[i + 1]?).getD 0 + (v - start strata (i + 1)))

end Aleph.Spec.Strata
