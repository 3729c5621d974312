import Verif.Spec.Entropy
import Mathlib.Algebra.Order.BigOperators.Group.List
import Mathlib.Algebra.BigOperators.Ring.List
import Mathlib.Tactic.FieldSimp
import Mathlib.Tactic.Linarith
import Mathlib.Tactic.Positivity

/-!
# Properties of the Shannon entropy
-/

namespace Aleph

open Spec

theorem sum_map_div (w : List ℝ) (S : ℝ) : (w.map fun x => x / S).sum = w.sum / S := by
  induction w with
  | nil => simp
  | cons a w ih => rw [List.map_cons, List.sum_cons, ih, List.sum_cons, add_div]

theorem shannon_perm {w w' : List ℝ} (h : w.Perm w') : shannon w = shannon w' := by
  unfold shannon
  rw [h.sum_eq, (h.map _).sum_eq]

theorem shannon_scale (w : List ℝ) {c : ℝ} (hc : c ≠ 0) : shannon (w.map fun x => c * x) = shannon w := by
  unfold shannon
  rw [List.sum_map_mul_left, List.map_map]
  simp only [List.map_id']
  congr 3
  funext x
  simp only [Function.comp]
  rw [mul_div_mul_left _ _ hc]

theorem sum_filter_ne_zero (w : List ℝ) (f : ℝ → ℝ) (hf : f 0 = 0) : ((w.filter fun x => x ≠ 0).map f).sum = (w.map f).sum := by
  induction w with
  | nil => rfl
  | cons a w ih =>
    by_cases ha : a = 0
    · subst ha
      simp [hf] at ih ⊢
      exact ih
    · rw [List.filter_cons_of_pos (by simpa using ha), List.map_cons, List.sum_cons, ih, List.map_cons, List.sum_cons]

/-- Weights that are zero do not matter. -/
theorem shannon_filter (w : List ℝ) : shannon (w.filter fun x => x ≠ 0) = shannon w := by
  have h := sum_filter_ne_zero w id rfl
  simp only [List.map_id] at h
  unfold shannon
  rw [h, sum_filter_ne_zero w (fun x => x / w.sum * Real.logb 2 (x / w.sum)) (by simp)]

theorem shannon_eq (w : List ℝ) : shannon w = (w.map fun x => -(x / w.sum * Real.log (x / w.sum))).sum / Real.log 2 := by
  unfold shannon
  rw [← sum_map_div, List.map_map, List.sum_neg, List.map_map]
  congr 2
  funext x
  simp only [Function.comp, Real.logb]
  ring

theorem term_le {n q : ℝ} (hn : 0 < n) (hq : 0 ≤ q) : -(q * Real.log q) ≤ 1 / n - q + q * Real.log n := by
  rcases hq.eq_or_lt with rfl | hq
  · simp; positivity
  · have h := Real.log_le_sub_one_of_pos (x := 1 / (n * q)) (by positivity)
    rw [one_div, Real.log_inv, Real.log_mul hn.ne' hq.ne'] at h
    have h2 := mul_le_mul_of_nonneg_left h hq.le
    have h3 : q * ((n * q)⁻¹ - 1) = 1 / n - q := by field_simp
    rw [h3] at h2
    linarith

theorem term_lt {n q : ℝ} (hn : 0 < n) (hq : 0 ≤ q) (hne : q ≠ 1 / n) :
    -(q * Real.log q) < 1 / n - q + q * Real.log n := by
  rcases hq.eq_or_lt with rfl | hq
  · simp; positivity
  · have h := Real.log_lt_sub_one_of_pos (x := 1 / (n * q)) (by positivity) (by
      intro he
      rw [div_eq_one_iff_eq (by positivity)] at he
      exact hne (by rw [he]; field_simp))
    rw [one_div, Real.log_inv, Real.log_mul hn.ne' hq.ne'] at h
    have h2 := mul_lt_mul_of_pos_left h hq
    have h3 : q * ((n * q)⁻¹ - 1) = 1 / n - q := by field_simp
    rw [h3] at h2
    linarith

theorem bound_sum (w : List ℝ) (hS : 0 < w.sum) (hne : w ≠ []) :
    (w.map fun x => 1 / (w.length : ℝ) - x / w.sum + x / w.sum * Real.log w.length).sum = Real.log w.length := by
  have h1 : ∀ (v : List ℝ) (c S L : ℝ), (v.map fun x => c - x / S + x / S * L).sum = v.length * c - v.sum / S + v.sum / S * L := by
    intro v c S L
    induction v with
    | nil => simp
    | cons a v ih =>
      rw [List.map_cons, List.sum_cons, ih, List.length_cons, List.sum_cons]
      push_cast
      ring
  rw [h1, div_self hS.ne']
  have : (w.length : ℝ) ≠ 0 := by
    rw [Nat.cast_ne_zero]
    exact fun h => hne (List.length_eq_zero_iff.1 h)
  field_simp
  ring

/-- The entropy is at most the logarithm of the number of weights. -/
theorem shannon_le (w : List ℝ) (h0 : ∀ x ∈ w, 0 ≤ x) (hS : 0 < w.sum) : shannon w ≤ Real.logb 2 w.length := by
  have hne : w ≠ [] := by rintro rfl; simp at hS
  have hn : (0 : ℝ) < w.length := by exact_mod_cast List.length_pos_iff.2 hne
  rw [shannon_eq, Real.logb, div_le_div_iff_of_pos_right (Real.log_pos (by norm_num)), ← bound_sum w hS hne]
  apply List.sum_le_sum
  intro x hx
  exact term_le hn (div_nonneg (h0 x hx) hS.le)

/-- Equality holds exactly if all weights are equal. -/
theorem shannon_eq_log_iff (w : List ℝ) (h0 : ∀ x ∈ w, 0 ≤ x) (hS : 0 < w.sum) :
    shannon w = Real.logb 2 w.length ↔ ∀ x ∈ w, ∀ y ∈ w, x = y := by
  have hne : w ≠ [] := by rintro rfl; simp at hS
  have hn : (0 : ℝ) < w.length := by exact_mod_cast List.length_pos_iff.2 hne
  have h2 : (0 : ℝ) < Real.log 2 := Real.log_pos (by norm_num)
  constructor
  · intro h
    have key : ∀ x ∈ w, x / w.sum = 1 / w.length := by
      by_contra hc
      push Not at hc
      obtain ⟨x, hx, hne'⟩ := hc
      rw [shannon_eq, Real.logb, div_left_inj' h2.ne', ← bound_sum w hS hne] at h
      refine absurd h (ne_of_lt ?_)
      apply List.sum_lt_sum
      · intro y hy
        exact term_le hn (div_nonneg (h0 y hy) hS.le)
      · exact ⟨x, hx, term_lt hn (div_nonneg (h0 x hx) hS.le) hne'⟩
    intro x hx y hy
    have := (key x hx).trans (key y hy).symm
    rwa [div_left_inj' hS.ne'] at this
  · intro h
    obtain ⟨a, ha⟩ := List.exists_mem_of_ne_nil w hne
    have hw : w = List.replicate w.length a := List.eq_replicate_iff.2 ⟨rfl, fun x hx => h x hx a ha⟩
    have hs : w.sum = w.length * a := by
      conv_lhs => rw [hw]
      rw [List.sum_replicate, nsmul_eq_mul]
    have ha0 : a ≠ 0 := by
      rintro rfl
      rw [hs, mul_zero] at hS
      exact lt_irrefl _ hS
    have hq : a / w.sum = 1 / w.length := by
      rw [hs]; field_simp
    unfold shannon
    have hm : (w.map fun x => x / w.sum * Real.logb 2 (x / w.sum)) = List.replicate w.length (1 / (w.length : ℝ) * Real.logb 2 (1 / w.length)) := by
      rw [List.eq_replicate_iff]
      refine ⟨by simp, ?_⟩
      intro y hy
      obtain ⟨x, hx, rfl⟩ := List.mem_map.1 hy
      rw [h x hx a ha, hq]
    rw [hm, List.sum_replicate, nsmul_eq_mul, one_div, Real.logb_inv]
    field_simp

theorem quotient_le_one (w : List ℝ) (h0 : ∀ x ∈ w, 0 ≤ x) {x : ℝ} (hx : x ∈ w) : x ≤ w.sum := List.single_le_sum h0 x hx

/-- The entropy is not negative. -/
theorem shannon_nonneg (w : List ℝ) (h0 : ∀ x ∈ w, 0 ≤ x) : 0 ≤ shannon w := by
  rw [shannon_eq]
  apply div_nonneg _ (Real.log_pos (by norm_num)).le
  apply List.sum_nonneg
  intro y hy
  obtain ⟨x, hx, rfl⟩ := List.mem_map.1 hy
  have hS : 0 ≤ w.sum := List.sum_nonneg h0
  have h1 : x / w.sum ≤ 1 := div_le_one_of_le₀ (quotient_le_one w h0 hx) hS
  have h2 : 0 ≤ x / w.sum := div_nonneg (h0 x hx) hS
  have := Real.log_nonpos h2 h1
  nlinarith

/-- The entropy is zero exactly if there is only one weight that is not zero. -/
theorem shannon_eq_zero_iff (w : List ℝ) (h0 : ∀ x ∈ w, 0 ≤ x) (hS : 0 < w.sum) :
    shannon w = 0 ↔ (w.filter fun x => x ≠ 0).length = 1 := by
  have h2 : (0 : ℝ) < Real.log 2 := Real.log_pos (by norm_num)
  rw [← shannon_filter]
  have hsum : (w.filter fun x => x ≠ 0).sum = w.sum := by
    have := sum_filter_ne_zero w id rfl
    simpa using this
  have hpos : ∀ x ∈ w.filter (fun x => x ≠ 0), 0 < x := by
    intro x hx
    rw [List.mem_filter] at hx
    exact lt_of_le_of_ne (h0 x hx.1) (Ne.symm (by simpa using hx.2))
  rw [← hsum] at hS
  generalize (w.filter fun x => x ≠ 0) = v at *
  clear hsum h0 w
  constructor
  · intro h
    match v with
    | [] => simp at hS
    | [_] => rfl
    | a :: b :: v =>
      exfalso
      rw [shannon_eq, div_eq_zero_iff] at h
      rcases h with h | h
      · have hnn : ∀ y ∈ (a :: b :: v).map (fun x => -(x / (a :: b :: v).sum * Real.log (x / (a :: b :: v).sum))), 0 ≤ y := by
          intro y hy
          obtain ⟨x, hx, rfl⟩ := List.mem_map.1 hy
          have h1 : x / (a :: b :: v).sum ≤ 1 :=
            div_le_one_of_le₀ (quotient_le_one _ (fun x hx => (hpos x hx).le) hx) hS.le
          have h2 : 0 ≤ x / (a :: b :: v).sum := div_nonneg (hpos x hx).le hS.le
          have := Real.log_nonpos h2 h1
          nlinarith
        have h3 := List.single_le_sum hnn _ (List.mem_map_of_mem (List.mem_cons_self (a := a) (l := b :: v)))
        rw [h] at h3
        have ha := hpos a (by simp)
        have hb := hpos b (by simp)
        have hv : 0 ≤ v.sum := List.sum_nonneg fun x hx => (hpos x (by simp [hx])).le
        have hq0 : 0 < a / (a :: b :: v).sum := div_pos ha hS
        have hq1 : a / (a :: b :: v).sum < 1 := by
          rw [div_lt_one hS]
          simp only [List.sum_cons]
          linarith
        have := mul_pos_of_neg_of_neg (Real.log_neg hq0 hq1) (neg_lt_zero.2 hq0)
        linarith
      · exact h2.ne' h
  · intro h
    obtain ⟨a, rfl⟩ := List.length_eq_one_iff.1 h
    have ha := hpos a (by simp)
    simp [shannon, ha.ne']

end Aleph
