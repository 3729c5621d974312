import Mathlib.Analysis.SpecialFunctions.Log.Base
import Mathlib.Algebra.BigOperators.Group.Finset.Basic

/-!
# Image patches

The processing of high-contrast patches of images (Lee, Pedersen and Mumford; Carlsson et al.).
-/

namespace Aleph.Spec.Patches

noncomputable section

/-- The decimal logarithms of the intensities of a patch, with zero in place of the logarithm of zero. -/
def logarithms (patch : List ℝ) : List ℝ := patch.map fun x => if x = 0 then 0 else Real.logb 10 x

/-- The mean is subtracted from all numbers. -/
def centred (l : List ℝ) : List ℝ := l.map fun x => x - l.sum / (l.length : ℝ)

/-- The number in row `i` and column `j` of a patch with `n` columns. -/
def pixel (p : List ℝ) (n i j : ℕ) : ℝ := (p[n * i + j]?).getD 0

/-- The square of the contrast norm: all squared differences of pixels that are next to each other in a row or in a column, each pair counted once. -/
def squaredContrast (p : List ℝ) : ℝ :=
  let n := Nat.sqrt p.length
  (∑ i ∈ Finset.range n, ∑ j ∈ Finset.range (n - 1), (pixel p n i j - pixel p n i (j + 1)) ^ 2) +
    ∑ i ∈ Finset.range (n - 1), ∑ j ∈ Finset.range n, (pixel p n i j - pixel p n (i + 1) j) ^ 2

/-- The logarithms of the intensities without their mean. -/
def prepared (patch : List ℝ) : List ℝ := centred (logarithms patch)

/-- What the tool divides a patch by: twice the *square* of the contrast norm, if it is positive. -/
def scaled (p : List ℝ) : List ℝ := if 0 < squaredContrast p then p.map fun x => x / (2 * squaredContrast p) else p

/-- The sum of the squares of some numbers, where each intermediate result is rounded down, and is less than `2 ^ 31`. -/
inductive TruncatedSum : ℕ → List ℝ → ℕ → Prop
  | nil (s : ℕ) : TruncatedSum s [] s
  | cons (s v t : ℕ) (x : ℝ) (l : List ℝ) (low : (v : ℝ) ≤ s + x ^ 2) (high : (s : ℝ) + x ^ 2 < v + 1) (range : v < 2147483648) (rest : TruncatedSum v l t) : TruncatedSum s (x :: l) t

/-- What the tool makes of a patch: the scaled patch is divided by the square root of the truncated sum of its squares. -/
def IsProcessed (patch out : List ℝ) : Prop :=
  ∃ s, TruncatedSum 0 (scaled (prepared patch)) s ∧ 0 < s ∧ out = (scaled (prepared patch)).map fun x => x / √(s : ℝ)

/-- The number of patches whose squared contrast is the given number. -/
def countContrast (patches : List (List ℝ)) (v : ℝ) : ℕ := open Classical in (patches.filter fun p => decide (squaredContrast (prepared p) = v)).length

/-- At least one more than four fifths of the patches share the smallest contrast. -/
def MostlyFlat (patches : List (List ℝ)) : Prop :=
  ∃ v, (∀ p ∈ patches, v ≤ squaredContrast (prepared p)) ∧ 4 * patches.length + 5 ≤ 5 * countContrast patches v

end

end Aleph.Spec.Patches
