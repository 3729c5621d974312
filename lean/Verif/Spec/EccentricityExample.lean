import Verif.Spec.DataDescriptors
import Verif.Spec.Graphs
import Verif.Spec.LevelAnalysis
import Verif.Spec.VietorisRipsExample

/-!
# Specification: persistence diagrams of point clouds with values
-/

namespace Aleph.Spec

open Finset

variable {α : Type}

/-- What the diagrams of a complex with values at its vertices are: they describe how the complex grows, when a simplex is present as soon as all its vertices are. -/
structure IsStarAnalysis [LinearOrder α] (inf : α) (f : ℕ → α) (S : Finset (Finset ℕ)) (Es : List (ℕ × List (α × α))) : Prop where
  levels : IsLevelAnalysis inf (fun x => {t ∈ S | ∀ v ∈ t, f v ≤ x}) S Es
  values : ∀ E ∈ Es, ∀ p ∈ E.2, (∃ v, {v} ∈ S ∧ p.1 = f v) ∧ (p.2 = inf ∨ ∃ v, {v} ∈ S ∧ p.2 = f v)

/-- Values of `n` points, one for the smallest one of the numbers `e`, zero for the largest one, and linear in between; the value is `lo` if all numbers are equal. -/
def IsInverted (lo : ℝ) (n : ℕ) (e f : ℕ → ℝ) : Prop :=
  ∃ least largest, IsLeast {x | ∃ i < n, x = e i} least ∧ IsGreatest {x | ∃ i < n, x = e i} largest ∧
    ∀ i < n, (least < largest → f i * (largest - least) = largest - e i) ∧ (least = largest → f i = lo)

/-- An optional argument that is a number. -/
def IsOptionalNumber (stoul : List Char → Option ℕ) (default : ℕ) (word : Option (List Char)) (k : ℕ) : Prop :=
  (word = none → k = default) ∧ ∀ w, word = some w → stoul w = some k

/-- An optional argument is a letter, in upper or lower case, possibly surrounded by whitespace. -/
def IsLetter (word : Option (List Char)) (small capital : Char) : Prop := ∃ w, word = some w ∧ (Stripped w [small] ∨ Stripped w [capital])

end Aleph.Spec
