import Verif.Spec.VietorisRipsExample
import Verif.Spec.LevelAnalysis
import Verif.Spec.Witness

/-!
# Specification: persistence diagrams of witness complexes
-/

namespace Aleph.Spec

open Finset

variable {α : Type} [LinearOrder α] [Zero α] [Add α]

open Classical in
/-- The witness complex: the non-empty sets of at most `k + 1` landmarks, any two of which have a witness.  Landmarks are given by their positions. -/
noncomputable def witnessComplex (N : ℕ) (dist : ℕ → ℕ → α) (landmarks : List ℕ) (nu : ℕ) (R : α) (k : ℕ) : Finset (Finset ℕ) :=
  {t ∈ (range landmarks.length).powerset | t.Nonempty ∧ #t ≤ k + 1 ∧ ∀ u ∈ t, ∀ v ∈ t, u < v → ∃ i < N, ∃ y, IsWitness dist landmarks nu R i u v y}

open Classical in
/-- The part of the witness complex at a scale, where only witnesses count whose distances from both landmarks do not exceed the scale. -/
noncomputable def witnessAt (N : ℕ) (dist : ℕ → ℕ → α) (landmarks : List ℕ) (nu : ℕ) (R : α) (k : ℕ) (x : α) : Finset (Finset ℕ) :=
  {t ∈ (range landmarks.length).powerset | 0 ≤ x ∧ t.Nonempty ∧ #t ≤ k + 1 ∧
    ∀ u ∈ t, ∀ v ∈ t, u < v → ∃ i < N, ∃ y ≤ x, IsWitness dist landmarks nu R i u v y}

/-- Landmarks that are chosen one by one, such that each one except for the first one is as far away from those before it as possible. -/
def IsMaxMin {α : Type} [LinearOrder α] (N : ℕ) (dist : ℕ → ℕ → α) (landmarks : List ℕ) : Prop :=
  ∀ m a, 0 < m → landmarks[m]? = some a → ∃ x, IsDistanceTo dist (landmarks.take m) a x ∧ ∀ i < N, ∀ y, IsDistanceTo dist (landmarks.take m) i y → y ≤ x

end Aleph.Spec
