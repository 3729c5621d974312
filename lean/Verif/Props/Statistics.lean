import Verif.Model.Statistics
import Verif.Spec.Statistics
import Mathlib.Algebra.Order.BigOperators.Group.List
import Mathlib.Algebra.Order.BigOperators.Ring.Finset
import Mathlib.Algebra.BigOperators.Fin
import Mathlib.Algebra.BigOperators.Ring.List
import Mathlib.Tactic.Linarith
import Mathlib.Tactic.LinearCombination
import Mathlib.Tactic.FieldSimp
import Mathlib.Tactic.Ring
import Mathlib.Tactic.Positivity

/-!
# C85: statistics
-/

namespace Aleph.Statistics

open Spec

theorem foldl_sum {β : Type} (f : β → ℝ) (l : List β) (a : ℝ) : l.foldl (fun s x => s + f x) a = a + (l.map f).sum := by
  induction l generalizing a with
  | nil => simp
  | cons x l ih => rw [List.foldl_cons, ih, List.map_cons, List.sum_cons, add_assoc]

theorem foldl_sum2 {β : Type} (f g : β → ℝ) (l : List β) (a b : ℝ) :
    l.foldl (fun (s : ℝ × ℝ) x => (s.1 + f x, s.2 + g x)) (a, b) = (a + (l.map f).sum, b + (l.map g).sum) := by
  induction l generalizing a b with
  | nil => simp
  | cons x l ih => rw [List.foldl_cons, ih, List.map_cons, List.sum_cons, List.map_cons, List.sum_cons, add_assoc, add_assoc]

theorem sum_affine {β : Type} (f : β → ℝ) (a b : ℝ) (l : List β) : (l.map fun x => a * f x + b).sum = a * (l.map f).sum + b * l.length := by
  induction l with
  | nil => simp
  | cons x l ih =>
    rw [List.map_cons, List.sum_cons, ih, List.map_cons, List.sum_cons, List.length_cons]
    push_cast
    ring

theorem sum_comb {β : Type} (f g : β → ℝ) (a b : ℝ) (l : List β) :
    (l.map fun x => a * f x + b * g x).sum = a * (l.map f).sum + b * (l.map g).sum := by
  induction l with
  | nil => simp
  | cons x l ih => simp only [List.map_cons, List.sum_cons, ih]; ring

theorem sum_nonneg {β : Type} (f : β → ℝ) (l : List β) (h : ∀ x ∈ l, 0 ≤ f x) : 0 ≤ (l.map f).sum :=
  List.sum_nonneg (by simpa using h)

theorem sum_zero_iff {β : Type} (f : β → ℝ) (l : List β) (h : ∀ x ∈ l, 0 ≤ f x) : (l.map f).sum = 0 ↔ ∀ x ∈ l, f x = 0 := by
  induction l with
  | nil => simp
  | cons y l ih =>
    have h1 := h y (by simp)
    have h2 := sum_nonneg f l fun x hx => h x (by simp [hx])
    have ih := ih fun x hx => h x (by simp [hx])
    rw [List.map_cons, List.sum_cons]
    constructor
    · intro h0 x hx
      rcases List.mem_cons.1 hx with rfl | hx
      · linarith
      · exact ih.1 (by linarith) x hx
    · intro h0
      rw [h0 y (by simp), ih.2 fun x hx => h0 x (by simp [hx]), add_zero]

theorem cauchy {β : Type} (f g : β → ℝ) (l : List β) :
    (l.map fun x => f x * g x).sum ^ 2 ≤ (l.map fun x => f x ^ 2).sum * (l.map fun x => g x ^ 2).sum := by
  have h := Finset.sum_mul_sq_le_sq_mul_sq Finset.univ (fun i : Fin l.length => f l[i.val]) (fun i => g l[i.val])
  rw [Fin.sum_univ_fun_getElem l fun x => f x * g x, Fin.sum_univ_fun_getElem l fun x => f x ^ 2,
    Fin.sum_univ_fun_getElem l fun x => g x ^ 2] at h
  exact h

theorem length_pos {l : List ℝ} (h : l ≠ []) : (0 : ℝ) < l.length := by
  have := List.length_pos_iff.2 h
  exact_mod_cast this

theorem mean_spec {l : List ℝ} (h : l ≠ []) : mean l * l.length = l.sum := by
  unfold mean
  have := length_pos h
  field_simp

theorem sampleMean_some {l : List ℝ} (h : l ≠ []) : sampleMean l = some (mean l) := by
  unfold sampleMean mean
  rw [if_neg h, foldl_sum (fun x => x), zero_add, List.map_id']

/-- C85. The mean: the quotient of sum and size, undefined only for empty ranges. -/
theorem _root_.Aleph.C85_mean (l : List ℝ) : (l = [] → sampleMean l = none) ∧ (l ≠ [] → sampleMean l = some (mean l) ∧
    (∀ a b, (∀ x ∈ l, a ≤ x ∧ x ≤ b) → a ≤ mean l ∧ mean l ≤ b) ∧
    (∀ c, (l.map fun x => (x - mean l) ^ 2).sum ≤ (l.map fun x => (x - c) ^ 2).sum)) := by
  constructor
  · rintro rfl; rfl
  · intro h
    have hn := length_pos h
    have hm := mean_spec h
    refine ⟨sampleMean_some h, ?_, ?_⟩
    · intro a b hab
      have h1 := sum_nonneg (fun x => x - a) l fun x hx => by linarith [(hab x hx).1]
      have h2 := sum_nonneg (fun x => b - x) l fun x hx => by linarith [(hab x hx).2]
      have e1 := sum_affine (fun x : ℝ => x) 1 (-a) l
      have e2 := sum_affine (fun x : ℝ => x) (-1) b l
      simp only [one_mul, List.map_id', neg_mul] at e1 e2
      simp only [sub_eq_add_neg] at h1
      rw [e1] at h1
      rw [show (fun x => b - x) = fun x => -x + b by funext x; ring, e2] at h2
      constructor
      · by_contra hc
        push Not at hc
        nlinarith
      · by_contra hc
        push Not at hc
        nlinarith
    · intro c
      have e1 := sum_comb (fun x => (x - mean l) ^ 2) (fun x => 2 * (mean l - c) * x + (c ^ 2 - mean l ^ 2)) 1 1 l
      rw [sum_affine (fun x : ℝ => x)] at e1
      simp only [one_mul, List.map_id'] at e1
      rw [show (fun x => (x - c) ^ 2) = fun x => (x - mean l) ^ 2 + (2 * (mean l - c) * x + (c ^ 2 - mean l ^ 2)) by funext x; ring, e1, ← hm]
      nlinarith [mul_nonneg hn.le (sq_nonneg (mean l - c))]

/-- C85. Change of units. -/
theorem _root_.Aleph.C85_mean_affine (l : List ℝ) (a b : ℝ) :
    sampleMean (l.map fun x => a * x + b) = (sampleMean l).map fun m => a * m + b := by
  by_cases h : l = []
  · subst h; rfl
  · have h2 : l.map (fun x => a * x + b) ≠ [] := by simpa using h
    rw [sampleMean_some h, sampleMean_some h2, Option.map_some]
    have hn := length_pos h
    unfold mean
    rw [sum_affine (fun x : ℝ => x), List.map_id', List.length_map]
    congr 1
    field_simp

theorem mean_affine {l : List ℝ} (h : l ≠ []) (a b : ℝ) : mean (l.map fun x => a * x + b) = a * mean l + b := by
  have h2 : l.map (fun x => a * x + b) ≠ [] := by simpa using h
  have := C85_mean_affine l a b
  rw [sampleMean_some h, sampleMean_some h2, Option.map_some] at this
  exact Option.some.inj this

theorem moment_affine {l : List ℝ} (h : l ≠ []) (a b : ℝ) (k : ℕ) : moment k (l.map fun x => a * x + b) = a ^ k * moment k l := by
  unfold moment
  rw [mean_affine h, List.map_map, List.length_map]
  have : ((fun x => (x - (a * mean l + b)) ^ k) ∘ fun x => a * x + b) = fun x => a ^ k * (x - mean l) ^ k := by
    funext x
    simp only [Function.comp_apply]
    rw [← mul_pow]
    congr 1
    ring
  rw [this]
  have := sum_affine (fun x => (x - mean l) ^ k) (a ^ k) 0 l
  simp only [add_zero, zero_mul] at this
  rw [this, mul_div_assoc]

theorem sq_sum_zero {l : List ℝ} : (l.map fun x => (x - mean l) ^ 2).sum = 0 ↔ Constant l := by
  rw [sum_zero_iff _ _ fun x _ => sq_nonneg _]
  constructor
  · intro h x hx y hy
    have h1 := pow_eq_zero_iff (two_ne_zero) |>.1 (h x hx)
    have h2 := pow_eq_zero_iff (two_ne_zero) |>.1 (h y hy)
    linarith
  · intro h x hx
    have hne : l ≠ [] := List.ne_nil_of_mem hx
    have := ((C85_mean l).2 hne).2.1 x x fun y hy => by rw [h y hy x hx]; exact ⟨le_rfl, le_rfl⟩
    rw [le_antisymm this.2 this.1, sub_self]
    norm_num

theorem variance_some {l : List ℝ} (h : 2 ≤ l.length) : sampleVariance l = some (variance l) := by
  have hne : l ≠ [] := by rintro rfl; simp at h
  unfold sampleVariance
  rw [if_neg (by simp [hne]; omega), sampleMean_some hne]
  simp only [Option.bind_eq_bind, Option.bind_some]
  rw [foldl_sum (fun d => (d - mean l) * (d - mean l)), zero_add]
  unfold variance
  have : (fun d => (d - mean l) * (d - mean l)) = fun d => (d - mean l) ^ 2 := by funext d; ring
  rw [this, Nat.cast_sub (by omega), Nat.cast_one, one_div_mul_eq_div]

/-- C85. The variance: undefined for less than two values; not negative, and zero if and only if all values are equal; the mean square of all
differences, divided by two.  The standard deviation is its square root. -/
theorem _root_.Aleph.C85_variance (l : List ℝ) :
    (l.length < 2 → sampleVariance l = none ∧ sampleStandardDeviation l = none) ∧
    (2 ≤ l.length → sampleVariance l = some (variance l) ∧ 0 ≤ variance l ∧ (variance l = 0 ↔ Constant l) ∧
      variance l = (l.map fun x => (l.map fun y => (x - y) ^ 2).sum).sum / (2 * l.length * (l.length - 1)) ∧
      ∃ s, sampleStandardDeviation l = some s ∧ 0 ≤ s ∧ s * s = variance l) := by
  constructor
  · intro h
    have h1 : sampleVariance l = none := by
      unfold sampleVariance
      rw [if_pos]
      rcases l with _ | ⟨x, _ | ⟨y, l⟩⟩
      · exact Or.inl rfl
      · exact Or.inr rfl
      · simp at h
    exact ⟨h1, by unfold sampleStandardDeviation; rw [h1]; rfl⟩
  · intro h
    have hne : l ≠ [] := by rintro rfl; simp at h
    have hn : (0 : ℝ) < (l.length : ℝ) - 1 := by
      have : (2 : ℝ) ≤ l.length := by exact_mod_cast h
      linarith
    have h0 : 0 ≤ variance l := div_nonneg (sum_nonneg _ _ fun _ _ => sq_nonneg _) hn.le
    refine ⟨variance_some h, h0, ?_, ?_, √(variance l), ?_, Real.sqrt_nonneg _, Real.mul_self_sqrt h0⟩
    · unfold variance
      rw [div_eq_zero_iff, ← sq_sum_zero]
      constructor
      · rintro (h | h)
        · exact h
        · exact absurd h hn.ne'
      · exact Or.inl
    · set m := mean l with hm
      set V := (l.map fun x => (x - m) ^ 2).sum with hV
      have hN := length_pos hne
      have h1 : (l.map fun x => x - m).sum = 0 := by
        have := sum_affine (fun x : ℝ => x) 1 (-m) l
        simp only [one_mul, List.map_id'] at this
        simp only [sub_eq_add_neg]
        rw [this, ← mean_spec hne]
        ring
      have h2 : ∀ x, (l.map fun y => (x - y) ^ 2).sum = l.length * (x - m) ^ 2 + V := by
        intro x
        have e1 := sum_comb (fun y => (y - m) ^ 2) (fun y => -2 * (x - m) * (y - m) + (x - m) ^ 2) 1 1 l
        rw [sum_affine (fun y : ℝ => y - m), h1] at e1
        simp only [one_mul, mul_zero, zero_add] at e1
        rw [show (fun y => (x - y) ^ 2) = fun y => (y - m) ^ 2 + (-2 * (x - m) * (y - m) + (x - m) ^ 2) by funext y; ring, e1]
        ring
      simp only [h2]
      rw [sum_affine (fun x => (x - m) ^ 2)]
      unfold variance
      rw [← hm, ← hV]
      field_simp
      ring
    · unfold sampleStandardDeviation
      rw [variance_some h, Option.map_some]

theorem variance_affine {l : List ℝ} (h : l ≠ []) (a b : ℝ) : variance (l.map fun x => a * x + b) = a ^ 2 * variance l := by
  have := moment_affine h a b 2
  unfold moment at this
  unfold variance
  rw [List.length_map] at *
  have hn := length_pos h
  rw [← mul_div_assoc, div_left_inj' hn.ne'] at this
  rw [this, mul_div_assoc]

/-- C85. Change of units. -/
theorem _root_.Aleph.C85_variance_affine (l : List ℝ) (a b : ℝ) :
    sampleVariance (l.map fun x => a * x + b) = (sampleVariance l).map fun v => a ^ 2 * v := by
  by_cases h : 2 ≤ l.length
  · rw [variance_some h, variance_some (by rw [List.length_map]; exact h), variance_affine (by rintro rfl; simp at h)]
    rfl
  · rw [((C85_variance l).1 (by omega)).1, ((C85_variance _).1 (by rw [List.length_map]; omega)).1]
    rfl

/-- C85. The covariance: undefined for less than two values, an exception for samples of different sizes; symmetric, bilinear, and bounded by
the variances. -/
theorem _root_.Aleph.C85_covariance (l m : List ℝ) :
    (l.length < 2 ∨ m.length < 2 → sampleCovariance l m = .ok none) ∧
    (2 ≤ l.length → 2 ≤ m.length → l.length ≠ m.length → sampleCovariance l m = .error ()) ∧
    (2 ≤ l.length → l.length = m.length → sampleCovariance l m = .ok (some (covariance l m)) ∧
      covariance m l = covariance l m ∧ covariance l l = variance l ∧
      (∀ a b, covariance (l.map fun x => a * x + b) m = a * covariance l m) ∧
      covariance l m ^ 2 ≤ variance l * variance m) := by
  have hlt : ∀ l : List ℝ, l.length < 2 → l = [] ∨ l.length = 1 := by
    intro l h
    rcases l with _ | ⟨x, _ | ⟨y, l⟩⟩
    · exact Or.inl rfl
    · exact Or.inr rfl
    · simp at h
  have hge : ∀ l : List ℝ, 2 ≤ l.length → l ≠ [] ∧ l.length ≠ 1 := by
    intro l h
    exact ⟨by rintro rfl; simp at h, by omega⟩
  refine ⟨?_, ?_, ?_⟩
  · intro h
    unfold sampleCovariance
    rw [if_pos]
    rcases h with h | h
    · rcases hlt l h with h | h
      · exact Or.inl h
      · exact Or.inr (Or.inr (Or.inl h))
    · rcases hlt m h with h | h
      · exact Or.inr (Or.inl h)
      · exact Or.inr (Or.inr (Or.inr h))
  · intro h1 h2 h3
    unfold sampleCovariance
    rw [if_neg, if_pos h3]
    rintro (h | h | h | h)
    · exact (hge l h1).1 h
    · exact (hge m h2).1 h
    · exact (hge l h1).2 h
    · exact (hge m h2).2 h
  · intro h1 h2
    obtain ⟨hl, hl1⟩ := hge l h1
    obtain ⟨hm, hm1⟩ := hge m (h2 ▸ h1)
    have hn : (0 : ℝ) < (l.length : ℝ) - 1 := by
      have : (2 : ℝ) ≤ l.length := by exact_mod_cast h1
      linarith
    refine ⟨?_, ?_, ?_, ?_, ?_⟩
    · unfold sampleCovariance
      rw [if_neg (by rintro (h | h | h | h) <;> contradiction), if_neg (by simpa using h2), sampleMean_some hl, sampleMean_some hm]
      simp only [Option.bind_eq_bind, Option.bind_some]
      rw [foldl_sum (fun p : ℝ × ℝ => (p.1 - mean l) * (p.2 - mean m)), zero_add, Nat.cast_sub (by omega), Nat.cast_one]
      rfl
    · unfold covariance
      rw [← List.zip_swap l m, List.map_map, h2]
      congr 3
      funext p
      simp only [Function.comp_apply, Prod.fst_swap, Prod.snd_swap]
      ring
    · unfold covariance variance
      congr 2
      have hz : ∀ l : List ℝ, l.zip l = l.map fun x => (x, x) := by
        intro l
        induction l with
        | nil => rfl
        | cons x l ih => simp [ih]
      rw [hz, List.map_map]
      congr 1
      funext x
      simp only [Function.comp_apply]
      ring
    · intro a b
      unfold covariance
      rw [mean_affine hl, List.zip_map_left, List.map_map, List.length_map, ← mul_div_assoc]
      congr 1
      have := sum_affine (fun p : ℝ × ℝ => (p.1 - mean l) * (p.2 - mean m)) a 0 (l.zip m)
      simp only [add_zero, zero_mul] at this
      rw [← this]
      congr 2
      funext p
      simp only [Function.comp_apply, Prod.map_fst, Prod.map_snd, id]
      ring
    · have hf : l.map (fun x => (x - mean l) ^ 2) = (l.zip m).map fun p => (p.1 - mean l) ^ 2 := by
        have := congrArg (List.map fun x => (x - mean l) ^ 2) (List.map_fst_zip (l₁ := l) (l₂ := m) h2.le)
        rw [List.map_map] at this
        exact this.symm
      have hs : m.map (fun x => (x - mean m) ^ 2) = (l.zip m).map fun p => (p.2 - mean m) ^ 2 := by
        have := congrArg (List.map fun x => (x - mean m) ^ 2) (List.map_snd_zip (l₁ := l) (l₂ := m) h2.ge)
        rw [List.map_map] at this
        exact this.symm
      unfold covariance variance
      rw [div_pow, div_mul_div_comm, ← h2, ← sq, hf, hs]
      gcongr
      exact cauchy (fun p : ℝ × ℝ => p.1 - mean l) (fun p => p.2 - mean m) (l.zip m)

theorem moment2_zero {l : List ℝ} (h : l ≠ []) : moment 2 l = 0 ↔ Constant l := by
  unfold moment
  rw [div_eq_zero_iff, ← sq_sum_zero]
  constructor
  · rintro (h1 | h1)
    · exact h1
    · exact absurd h1 (length_pos h).ne'
  · exact Or.inl

theorem moment2_nonneg (l : List ℝ) : 0 ≤ moment 2 l := div_nonneg (sum_nonneg _ _ fun _ _ => sq_nonneg _) (Nat.cast_nonneg _)

open Classical in
theorem skewness_eq {l : List ℝ} (h : l ≠ []) :
    sampleSkewness l = if Constant l then none else some (moment 3 l / moment 2 l ^ ((3 : ℝ) / 2)) := by
  unfold sampleSkewness
  rw [sampleMean_some h]
  simp only [Option.bind_eq_bind, Option.bind_some]
  rw [foldl_sum2 (fun x => (x - mean l) ^ 3) (fun x => (x - mean l) * (x - mean l)), zero_add, zero_add]
  have : (fun d => (d - mean l) * (d - mean l)) = fun d => (d - mean l) ^ 2 := by funext d; ring
  simp only [this]
  have h2 : (l.map fun x => (x - mean l) ^ 2).sum / (l.length : ℝ) = moment 2 l := rfl
  have h3 : (l.map fun x => (x - mean l) ^ 3).sum / (l.length : ℝ) = moment 3 l := rfl
  rw [h2, h3]
  apply if_congr _ rfl rfl
  rw [Real.rpow_eq_zero (moment2_nonneg l) (by norm_num), moment2_zero h]

open Classical in
theorem kurtosis_eq {l : List ℝ} (h : l ≠ []) :
    sampleKurtosis l = if Constant l then none else some (moment 4 l / moment 2 l ^ 2 - 3) := by
  unfold sampleKurtosis
  rw [sampleMean_some h]
  simp only [Option.bind_eq_bind, Option.bind_some]
  rw [foldl_sum2 (fun x => (x - mean l) ^ 4) (fun x => (x - mean l) ^ 2), zero_add, zero_add]
  have h2 : (l.map fun x => (x - mean l) ^ 2).sum / (l.length : ℝ) = moment 2 l := rfl
  have h3 : (l.map fun x => (x - mean l) ^ 4).sum / (l.length : ℝ) = moment 4 l := rfl
  simp only [h2, h3, ← sq]
  apply if_congr _ rfl rfl
  rw [pow_eq_zero_iff two_ne_zero, moment2_zero h]

/-- C85. Skewness and excess kurtosis are the standardised third and fourth moments.  They are undefined if and only if all values are equal (in
particular, for empty ranges). -/
theorem _root_.Aleph.C85_shape (l : List ℝ) :
    (Constant l → sampleSkewness l = none ∧ sampleKurtosis l = none) ∧
    (¬Constant l → 0 < moment 2 l ∧ sampleSkewness l = some (moment 3 l / moment 2 l ^ ((3 : ℝ) / 2)) ∧
      sampleKurtosis l = some (moment 4 l / moment 2 l ^ 2 - 3)) := by
  constructor
  · intro h
    by_cases hl : l = []
    · subst hl; exact ⟨rfl, rfl⟩
    · rw [skewness_eq hl, kurtosis_eq hl, if_pos h, if_pos h]
      exact ⟨rfl, rfl⟩
  · intro h
    have hl : l ≠ [] := by
      rintro rfl
      exact h (by simp [Constant])
    rw [skewness_eq hl, kurtosis_eq hl, if_neg h, if_neg h]
    exact ⟨lt_of_le_of_ne (moment2_nonneg l) (Ne.symm (mt (moment2_zero hl).1 h)), rfl, rfl⟩

theorem constant_affine {l : List ℝ} {a : ℝ} (ha : a ≠ 0) (b : ℝ) : Constant (l.map fun x => a * x + b) ↔ Constant l := by
  unfold Constant
  simp only [List.forall_mem_map]
  constructor
  · intro h x hx y hy
    have := h x hx y hy
    simpa [ha] using this
  · intro h x hx y hy
    rw [h x hx y hy]

/-- C85. Skewness and kurtosis do not depend on units; the skewness changes its sign if the values do. -/
theorem _root_.Aleph.C85_shape_affine (l : List ℝ) (a b : ℝ) (ha : a ≠ 0) :
    (sampleSkewness (l.map fun x => a * x + b) = if 0 < a then sampleSkewness l else (sampleSkewness l).map fun s => -s) ∧
    sampleKurtosis (l.map fun x => a * x + b) = sampleKurtosis l := by
  by_cases h : Constant l
  · have h2 := (constant_affine (l := l) ha b).2 h
    rw [((C85_shape l).1 h).1, ((C85_shape l).1 h).2, ((C85_shape _).1 h2).1, ((C85_shape _).1 h2).2]
    refine ⟨?_, rfl⟩
    split <;> rfl
  · have h2 := mt (constant_affine (l := l) ha b).1 h
    have hl : l ≠ [] := by
      rintro rfl
      exact h (by simp [Constant])
    obtain ⟨hp, hs, hk⟩ := (C85_shape l).2 h
    obtain ⟨hp', hs', hk'⟩ := (C85_shape _).2 h2
    rw [hs, hk, hs', hk', moment_affine hl, moment_affine hl, moment_affine hl]
    have hpow : (a ^ 2 * moment 2 l) ^ ((3 : ℝ) / 2) = |a| ^ 3 * moment 2 l ^ ((3 : ℝ) / 2) := by
      rw [Real.mul_rpow (sq_nonneg a) hp.le]
      congr 1
      rw [← sq_abs, ← Real.rpow_natCast, ← Real.rpow_mul (abs_nonneg a), ← Real.rpow_natCast]
      norm_num
    have hne : moment 2 l ^ ((3 : ℝ) / 2) ≠ 0 := (Real.rpow_pos_of_pos hp _).ne'
    constructor
    · rw [hpow]
      by_cases ha' : 0 < a
      · rw [if_pos ha', abs_of_pos ha', mul_div_mul_left _ _ (pow_ne_zero 3 ha)]
      · rw [if_neg ha', abs_of_nonpos (not_lt.1 ha'), Option.map_some]
        congr 1
        field_simp
    · congr 2
      rw [mul_pow, ← pow_mul, mul_div_mul_left _ _ (pow_ne_zero _ ha)]

/-- C85. The inequality of Pearson: the kurtosis is bounded below by the square of the skewness minus two; in particular it is never less
than minus two. -/
theorem _root_.Aleph.C85_pearson (l : List ℝ) (s k : ℝ) (hs : sampleSkewness l = some s) (hk : sampleKurtosis l = some k) :
    s ^ 2 - 2 ≤ k ∧ -2 ≤ k := by
  have hc : ¬Constant l := by
    intro h
    rw [((C85_shape l).1 h).1] at hs
    exact absurd hs (by simp)
  have hl : l ≠ [] := by
    rintro rfl
    exact hc (by simp [Constant])
  obtain ⟨hp, hs', hk'⟩ := (C85_shape l).2 hc
  rw [hs'] at hs
  rw [hk'] at hk
  have hs := (Option.some.inj hs).symm
  have hk := (Option.some.inj hk).symm
  have hn := length_pos hl
  set m := mean l with hm
  set S2 := (l.map fun x => (x - m) ^ 2).sum with hS2
  set S3 := (l.map fun x => (x - m) ^ 3).sum with hS3
  set S4 := (l.map fun x => (x - m) ^ 4).sum with hS4
  have h2 : moment 2 l = S2 / l.length := rfl
  have h3 : moment 3 l = S3 / l.length := rfl
  have h4 : moment 4 l = S4 / l.length := rfl
  have h1 : (l.map fun x => x - m).sum = 0 := by
    have := sum_affine (fun x : ℝ => x) 1 (-m) l
    simp only [one_mul, List.map_id'] at this
    simp only [sub_eq_add_neg]
    rw [this, ← mean_spec hl]
    ring
  -- the covariance of `d` and `d ^ 2 - moment 2`
  have hcs := cauchy (fun x => x - m) (fun x => (x - m) ^ 2 - moment 2 l) l
  have e1 : (l.map fun x => (x - m) * ((x - m) ^ 2 - moment 2 l)).sum = S3 := by
    have := sum_comb (fun x => (x - m) ^ 3) (fun x => x - m) 1 (-moment 2 l) l
    rw [h1, mul_zero, add_zero, one_mul] at this
    rw [← hS3] at this
    rw [← this]
    congr 2
    funext x
    ring
  have e2 : (l.map fun x => ((x - m) ^ 2 - moment 2 l) ^ 2).sum = S4 - moment 2 l ^ 2 * l.length := by
    have := sum_comb (fun x => (x - m) ^ 4) (fun x => -2 * moment 2 l * (x - m) ^ 2 + moment 2 l ^ 2) 1 1 l
    rw [sum_affine (fun x => (x - m) ^ 2), one_mul, one_mul, ← hS4, ← hS2] at this
    rw [show (fun x => ((x - m) ^ 2 - moment 2 l) ^ 2) = fun x => 1 * (x - m) ^ 4 + 1 * (-2 * moment 2 l * (x - m) ^ 2 + moment 2 l ^ 2) by
      funext x; ring, this]
    have : S2 = moment 2 l * l.length := by rw [h2]; field_simp
    rw [this]
    ring
  rw [e1, e2, ← hS2] at hcs
  have hS2' : S2 = moment 2 l * l.length := by rw [h2]; field_simp
  have hS3' : S3 = moment 3 l * l.length := by rw [h3]; field_simp
  have hS4' : S4 = moment 4 l * l.length := by rw [h4]; field_simp
  rw [hS2', hS3', hS4'] at hcs
  have key : moment 3 l ^ 2 ≤ moment 2 l * (moment 4 l - moment 2 l ^ 2) := by
    have : moment 3 l ^ 2 * (l.length : ℝ) ^ 2 ≤ moment 2 l * (moment 4 l - moment 2 l ^ 2) * (l.length : ℝ) ^ 2 := by nlinarith
    exact le_of_mul_le_mul_right this (by positivity)
  have hpow : (moment 2 l ^ ((3 : ℝ) / 2)) ^ 2 = moment 2 l ^ 3 := by
    rw [← Real.rpow_natCast, ← Real.rpow_mul hp.le, ← Real.rpow_natCast]
    norm_num
  have hmain : s ^ 2 - 2 ≤ k := by
    rw [hs, hk, div_pow, hpow]
    have h5 : moment 3 l ^ 2 / moment 2 l ^ 3 ≤ moment 4 l / moment 2 l ^ 2 - 1 := by
      rw [div_le_iff₀ (by positivity)]
      have : (moment 4 l / moment 2 l ^ 2 - 1) * moment 2 l ^ 3 = moment 2 l * (moment 4 l - moment 2 l ^ 2) := by field_simp
      rw [this]
      exact key
    linarith
  exact ⟨hmain, by nlinarith [sq_nonneg s]⟩

/-- The values `0, 1, 5` are not all equal; their mean is two. -/
example : ¬Constant [0, 1, 5] ∧ sampleMean [0, 1, 5] = some 2 ∧ sampleVariance [0, 1, 5] = some 7 := by
  refine ⟨fun h => ?_, ?_, ?_⟩
  · have := h 0 (by simp) 1 (by simp)
    norm_num at this
  · rw [sampleMean_some (by simp)]; norm_num [mean]
  · rw [variance_some (by simp)]; norm_num [variance, mean]

end Aleph.Statistics
