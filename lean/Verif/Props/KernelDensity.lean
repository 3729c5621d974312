import Verif.Model.KernelDensity
import Mathlib.Analysis.SpecialFunctions.Gaussian.FourierTransform
import Mathlib.Analysis.SpecialFunctions.Integrals.Basic
import Mathlib.MeasureTheory.Measure.Haar.NormedSpace

/-!
# Properties of kernel density estimation
-/

namespace Aleph.KernelDensity

open MeasureTheory

theorem foldl_sum {X : Type} (g : X → ℝ) (l : List X) (a : ℝ) : l.foldl (fun v p => v + g p) a = a + (l.map g).sum := by
  induction l generalizing a with
  | nil => simp
  | cons p l ih => rw [List.foldl_cons, ih, List.map_cons, List.sum_cons, add_assoc]

/-- C101. The estimate is the mean of the kernel at the rescaled distances to all data points, divided by the volume of the bandwidth.  It does not
depend on the order of the data points. -/
theorem _root_.Aleph.C101_estimate {X E : Type} (h : ℝ) (d : ℕ) (kernel : ℝ → ℝ) (norm : E → ℝ) (difference : X → X → E) (data : List X) (x : X) :
    (h ≠ 0 → data ≠ [] → estimate h d kernel norm difference data x =
      some ((data.map fun p => kernel (norm (difference p x) / h)).sum / (h ^ d * data.length))) ∧
    (h = 0 ∨ data = [] → estimate h d kernel norm difference data x = none) ∧
    ∀ data', data'.Perm data → estimate h d kernel norm difference data' x = estimate h d kernel norm difference data x := by
  have key : ∀ data : List X, h ≠ 0 → data ≠ [] → estimate h d kernel norm difference data x =
      some ((data.map fun p => kernel (norm (difference p x) / h)).sum / (h ^ d * data.length)) := by
    intro data h0 hne
    unfold estimate
    rw [if_neg (by tauto), foldl_sum, zero_add, Real.rpow_natCast]
    simp only [div_div]
  have key2 : ∀ data : List X, h = 0 ∨ data = [] → estimate h d kernel norm difference data x = none := by
    intro data hor
    unfold estimate
    rw [if_pos hor]
  refine ⟨key data, key2 data, ?_⟩
  intro data' hp
  by_cases hor : h = 0 ∨ data = []
  · rw [key2 data hor, key2 data']
    rcases hor with h0 | rfl
    · exact Or.inl h0
    · exact Or.inr hp.eq_nil
  · push Not at hor
    rw [key data hor.1 hor.2, key data' hor.1 (fun e => hor.2 (by subst e; exact hp.symm.eq_nil)), hp.length_eq, (hp.map _).sum_eq]

/-- Integral of the estimate in a space of dimension `d`. -/
theorem integral_estimate {V : Type} [NormedAddCommGroup V] [InnerProductSpace ℝ V] [FiniteDimensional ℝ V] [MeasurableSpace V] [BorelSpace V]
    (kernel : V → ℝ) (h : ℝ) (hh : 0 < h) (data : List V) (hd : data ≠ []) (hint : Integrable kernel) :
    Integrable (fun x => (data.map fun p => kernel (h⁻¹ • (p - x))).sum / (h ^ (Module.finrank ℝ V) * data.length)) ∧
    ∫ x, (data.map fun p => kernel (h⁻¹ • (p - x))).sum / (h ^ (Module.finrank ℝ V) * data.length) = ∫ x, kernel x := by
  have h1 : ∀ p : V, Integrable fun x => kernel (h⁻¹ • (p - x)) := by
    intro p
    have := (integrable_comp_smul_iff volume kernel (inv_ne_zero hh.ne')).2 hint
    exact this.comp_sub_left p
  have h2 : ∀ p : V, ∫ x, kernel (h⁻¹ • (p - x)) = h ^ Module.finrank ℝ V * ∫ x, kernel x := by
    intro p
    rw [integral_sub_left_eq_self (fun y => kernel (h⁻¹ • y)) volume p, Measure.integral_comp_inv_smul_of_nonneg _ _ hh.le, smul_eq_mul]
  have h3 : ∀ l : List V, Integrable (fun x => (l.map fun p => kernel (h⁻¹ • (p - x))).sum) ∧
      ∫ x, (l.map fun p => kernel (h⁻¹ • (p - x))).sum = l.length * (h ^ Module.finrank ℝ V * ∫ x, kernel x) := by
    intro l
    induction l with
    | nil => simp
    | cons p l ih =>
      simp only [List.map_cons, List.sum_cons]
      refine ⟨(h1 p).add ih.1, ?_⟩
      rw [integral_add (h1 p) ih.1, h2, ih.2, List.length_cons]
      push_cast
      ring
  refine ⟨(h3 data).1.div_const _, ?_⟩
  rw [integral_div, (h3 data).2]
  have : (data.length : ℝ) ≠ 0 := by
    simpa using hd
  have := pow_ne_zero (Module.finrank ℝ V) hh.ne'
  field_simp

theorem gaussian_eq (sigma x : ℝ) : gaussian sigma x = 1 / (Real.sqrt (2 * Real.pi) * sigma) * Real.exp (-(1 / (2 * sigma ^ 2)) * x ^ 2) := by
  unfold gaussian
  congr 2
  by_cases h : sigma = 0
  · subst h
    simp
  · field_simp
    norm_num
    ring

theorem gaussian_integral {sigma : ℝ} (hs : 0 < sigma) : Integrable (gaussian sigma) ∧ ∫ x, gaussian sigma x = 1 := by
  have hb : 0 < 1 / (2 * sigma ^ 2) := by positivity
  have e : gaussian sigma = fun x => 1 / (Real.sqrt (2 * Real.pi) * sigma) * Real.exp (-(1 / (2 * sigma ^ 2)) * x ^ 2) := by
    funext x
    exact gaussian_eq sigma x
  rw [e]
  refine ⟨(integrable_exp_neg_mul_sq hb).const_mul _, ?_⟩
  rw [integral_const_mul, integral_gaussian]
  have : Real.pi / (1 / (2 * sigma ^ 2)) = (2 * Real.pi) * sigma ^ 2 := by
    field_simp
  rw [this, Real.sqrt_mul (show 0 ≤ 2 * Real.pi by positivity) (sigma ^ 2), Real.sqrt_sq hs.le]
  have := Real.sqrt_pos.2 (show 0 < 2 * Real.pi by positivity)
  field_simp

theorem epanechnikov_integral : Integrable epanechnikov ∧ ∫ x, epanechnikov x = 1 := by
  have e : epanechnikov = (Set.Icc (-1 : ℝ) 1).indicator fun x => 0.75 * (1 - x * x) := by
    funext x
    unfold epanechnikov
    by_cases h : |x| ≤ 1
    · rw [if_pos h, Set.indicator_of_mem]
      exact abs_le.1 h
    · rw [if_neg h, Set.indicator_of_notMem]
      exact fun h' => h (abs_le.2 h')
  rw [e]
  have hc : Continuous fun x : ℝ => (0.75 : ℝ) * (1 - x * x) := by fun_prop
  refine ⟨(hc.integrableOn_Icc).integrable_indicator measurableSet_Icc, ?_⟩
  rw [integral_indicator measurableSet_Icc, integral_Icc_eq_integral_Ioc, ← intervalIntegral.integral_of_le (by norm_num)]
  have : ∀ x : ℝ, (0.75 : ℝ) * (1 - x * x) = 0.75 - 0.75 * x ^ 2 := by
    intro x
    ring
  simp only [this]
  rw [intervalIntegral.integral_sub (by simp) (by exact (Continuous.intervalIntegrable (by fun_prop) _ _)), intervalIntegral.integral_const_mul, integral_pow]
  norm_num

theorem gaussian_nonneg {sigma : ℝ} (hs : 0 < sigma) (x : ℝ) : 0 ≤ gaussian sigma x := by
  unfold gaussian
  positivity

theorem epanechnikov_nonneg (x : ℝ) : 0 ≤ epanechnikov x := by
  unfold epanechnikov
  split_ifs with h
  · have := abs_le.1 h
    have : x * x ≤ 1 := by nlinarith
    linarith
  · exact le_refl _

/-- C101. For data on the real line, the estimates with both kernels are probability densities. -/
theorem _root_.Aleph.C101_univariate (h : ℝ) (hh : 0 < h) (data : List ℝ) (hd : data ≠ []) (kernel : ℝ → ℝ)
    (hk : (∃ sigma, 0 < sigma ∧ kernel = gaussian sigma) ∨ kernel = epanechnikov) :
    ∃ f : ℝ → ℝ, (∀ x, estimate h 1 kernel identity (fun a b => a - b) data x = some (f x)) ∧ (∀ x, 0 ≤ f x) ∧ Integrable f ∧ ∫ x, f x = 1 := by
  have hk' : (∀ x, 0 ≤ kernel x) ∧ Integrable kernel ∧ ∫ x, kernel x = 1 := by
    rcases hk with ⟨sigma, hs, rfl⟩ | rfl
    · exact ⟨gaussian_nonneg hs, gaussian_integral hs⟩
    · exact ⟨epanechnikov_nonneg, epanechnikov_integral⟩
  have h1 := integral_estimate kernel h hh data hd hk'.2.1
  simp only [Module.finrank_self, smul_eq_mul] at h1
  refine ⟨_, fun x => ?_, ?_, h1.1, h1.2.trans hk'.2.2⟩
  · rw [(C101_estimate h 1 kernel identity (fun a b => a - b) data x).1 hh.ne' hd]
    congr 4
    funext p
    rw [identity, div_eq_inv_mul]
  · intro x
    refine div_nonneg (List.sum_nonneg ?_) (by positivity)
    intro y hy
    obtain ⟨p, _, rfl⟩ := List.mem_map.1 hy
    exact hk'.1 _

/-- C101. For data in a space of dimension `d`, the estimate with the Gaussian kernel has the integral `(2 π σ²) ^ ((d - 1) / 2)`.  Missing: the
integral should be one in all dimensions. -/
theorem _root_.Aleph.C101_multivariate_partial {V : Type} [NormedAddCommGroup V] [InnerProductSpace ℝ V] [FiniteDimensional ℝ V] [MeasurableSpace V]
    [BorelSpace V] (h : ℝ) (hh : 0 < h) (sigma : ℝ) (hs : 0 < sigma) (data : List V) (hd : data ≠ []) :
    ∃ f : V → ℝ, (∀ x, estimate h (Module.finrank ℝ V) (gaussian sigma) (fun v : V => ‖v‖) (fun a b => a - b) data x = some (f x)) ∧ (∀ x, 0 ≤ f x) ∧
      ∫ x, f x = (2 * Real.pi * sigma ^ 2) ^ (((Module.finrank ℝ V : ℝ) - 1) / 2) ∧
      (sigma = 1 → (∫ x, f x = 1 ↔ Module.finrank ℝ V = 1)) := by
  have hb : 0 < 1 / (2 * sigma ^ 2) := by positivity
  have hI : ∫ v : V, gaussian sigma ‖v‖ = (2 * Real.pi * sigma ^ 2) ^ (((Module.finrank ℝ V : ℝ) - 1) / 2) := by
    simp only [gaussian_eq]
    rw [integral_const_mul, GaussianFourier.integral_rexp_neg_mul_sq_norm hb]
    have e1 : Real.pi / (1 / (2 * sigma ^ 2)) = 2 * Real.pi * sigma ^ 2 := by field_simp
    have e2 : Real.sqrt (2 * Real.pi) * sigma = (2 * Real.pi * sigma ^ 2) ^ (1 / 2 : ℝ) := by
      rw [← Real.sqrt_eq_rpow, Real.sqrt_mul (show 0 ≤ 2 * Real.pi by positivity) (sigma ^ 2), Real.sqrt_sq hs.le]
    rw [e1, e2, one_div, ← Real.rpow_neg (by positivity), ← Real.rpow_add (by positivity)]
    congr 1
    ring
  have hint : Integrable fun v : V => gaussian sigma ‖v‖ := by
    by_contra hni
    rw [integral_undef hni] at hI
    exact (Real.rpow_pos_of_pos (show 0 < 2 * Real.pi * sigma ^ 2 by positivity) _).ne hI
  have h1 := integral_estimate (fun v : V => gaussian sigma ‖v‖) h hh data hd hint
  refine ⟨_, fun x => ?_, ?_, h1.2.trans hI, ?_⟩
  · rw [(C101_estimate h _ (gaussian sigma) _ _ data x).1 hh.ne' hd]
    congr 4
    funext p
    rw [norm_smul, norm_inv, Real.norm_of_nonneg hh.le, div_eq_inv_mul]
  · intro x
    refine div_nonneg (List.sum_nonneg ?_) (by positivity)
    intro y hy
    obtain ⟨p, _, rfl⟩ := List.mem_map.1 hy
    exact gaussian_nonneg hs _
  · rintro rfl
    rw [h1.2.trans hI, one_pow, mul_one]
    have hpi : 1 < 2 * Real.pi := by
      have := Real.two_le_pi
      linarith
    constructor
    · intro h
      have h' := congrArg Real.log h
      rw [Real.log_rpow (by positivity), Real.log_one, mul_eq_zero, or_iff_left (Real.log_pos hpi).ne'] at h'
      have : (Module.finrank ℝ V : ℝ) = 1 := by linarith
      exact_mod_cast this
    · intro h
      rw [h]
      simp

example : ∃ f : ℝ → ℝ, (∀ x, estimate 2 1 epanechnikov identity (fun a b => a - b) [1, 5, 5, 7] x = some (f x)) ∧ ∫ x, f x = 1 := by
  obtain ⟨f, h1, _, _, h2⟩ := C101_univariate 2 (by norm_num) [1, 5, 5, 7] (by simp) epanechnikov (Or.inr rfl)
  exact ⟨f, h1, h2⟩

end Aleph.KernelDensity
