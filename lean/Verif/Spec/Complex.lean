import Verif.Model.Complex
import Mathlib.Data.Finset.Card

/-!
# Specification vocabulary for simplices and simplicial complexes

A simplex is determined by its finite set of vertices `vset`.
-/

namespace Aleph

open Finset

variable {α : Type}

/-- The vertex set of a simplex. -/
def Simplex.vset (s : Simplex α) : Finset ℕ := s.vertices.toFinset

/-- The normal form of vertex lists: strictly descending. -/
def Normal (vs : List ℕ) : Prop := vs.Pairwise (· > ·)

instance (vs : List ℕ) : Decidable (Normal vs) := by unfold Normal; infer_instance

/-- Simplices passed to a call are in normal form, as produced by the constructors. -/
def Op.NormalArgs : Complex.Op α → Prop
  | .pushBack s => Normal s.vertices
  | .insertRange l => ∀ s ∈ l, Normal s.vertices
  | .replace _ s => Normal s.vertices
  | _ => True

namespace Spec

/-- A well-formed complex: only non-empty simplices in normal form, pairwise distinct. -/
structure WF (K : Complex α) : Prop where
  normal : ∀ s ∈ K, Normal s.vertices
  nonempty : ∀ s ∈ K, s.vertices ≠ []
  distinct : (K.map (·.vertices)).Nodup

/-- The vertex sets of the simplices of a complex. -/
def sets (K : Complex α) : Finset (Finset ℕ) := (K.map Simplex.vset).toFinset

/-- A complex contains each non-empty subset of its simplices. -/
def FaceClosed (K : Complex α) : Prop :=
  ∀ s ∈ K, ∀ t ⊆ s.vset, t.Nonempty → ∃ u ∈ K, u.vset = t

/-- Filtration order: a simplex never precedes one of its proper faces. -/
def FacesFirst (K : Complex α) : Prop :=
  K.Pairwise fun s t => ¬ t.vset ⊂ s.vset

/-- Data is monotone: faces do not exceed cofaces. -/
def Monotone [LE α] (K : Complex α) : Prop :=
  ∀ s ∈ K, ∀ t ∈ K, s.vset ⊆ t.vset → s.data ≤ t.data

/-- A comparator (with possible exception) is a strict total order on the distinct
simplices satisfying `S`. -/
structure StrictTotalOn (S : Simplex α → Prop) (cmp : Simplex α → Simplex α → Option Bool) :
    Prop where
  defined : ∀ s t, S s → S t → (cmp s t).isSome
  irrefl : ∀ s, S s → cmp s s ≠ some true
  trans : ∀ s t u, S s → S t → S u → cmp s t = some true → cmp t u = some true →
    cmp s u = some true
  total : ∀ s t, S s → S t → s.vset ≠ t.vset → cmp s t = some true ∨ cmp t s = some true

end Spec

end Aleph
