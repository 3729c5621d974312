import Mathlib.Data.Matrix.Mul
import Mathlib.LinearAlgebra.Matrix.Symmetric
import Mathlib.Analysis.Normed.Module.FiniteDimension
import Mathlib.Topology.Order.Compact
import Mathlib.Topology.Algebra.Module.FiniteDimension
import Mathlib.Topology.Instances.Matrix
import Mathlib.Tactic.Linarith
import Mathlib.Tactic.FieldSimp
import Mathlib.Tactic.Ring

/-!
# Minimisation of quadratic forms
-/

namespace Aleph.Pencil

open Matrix

variable {ι : Type} [Fintype ι]

theorem form_smul (S : Matrix ι ι ℝ) (t : ℝ) (u : ι → ℝ) : (t • u) ⬝ᵥ (S *ᵥ (t • u)) = t ^ 2 * (u ⬝ᵥ (S *ᵥ u)) := by
  rw [mulVec_smul, smul_dotProduct, dotProduct_smul, smul_eq_mul, smul_eq_mul]
  ring

theorem form_symm {S : Matrix ι ι ℝ} (hS : S.IsSymm) (u v : ι → ℝ) : u ⬝ᵥ (S *ᵥ v) = v ⬝ᵥ (S *ᵥ u) := by
  rw [dotProduct_mulVec, ← mulVec_transpose, hS, dotProduct_comm]

theorem form_add {S : Matrix ι ι ℝ} (hS : S.IsSymm) (u v : ι → ℝ) (t : ℝ) :
    (u + t • v) ⬝ᵥ (S *ᵥ (u + t • v)) = u ⬝ᵥ (S *ᵥ u) + 2 * t * (v ⬝ᵥ (S *ᵥ u)) + t ^ 2 * (v ⬝ᵥ (S *ᵥ v)) := by
  rw [mulVec_add, add_dotProduct, dotProduct_add, dotProduct_add, mulVec_smul, smul_dotProduct, dotProduct_smul, smul_dotProduct, dotProduct_smul, form_symm hS u v]
  simp only [smul_eq_mul]
  ring

/-- A zero of a positive semidefinite form belongs to its kernel. -/
theorem kernel {S : Matrix ι ι ℝ} (hS : S.IsSymm) (h : ∀ u, 0 ≤ u ⬝ᵥ (S *ᵥ u)) {u : ι → ℝ} (hu : u ⬝ᵥ (S *ᵥ u) = 0) : S *ᵥ u = 0 := by
  by_contra hne
  set g := S *ᵥ u with hg
  have hpos : 0 < g ⬝ᵥ g := by
    have h0 : 0 ≤ g ⬝ᵥ g := Finset.sum_nonneg fun i _ => mul_self_nonneg _
    rcases h0.lt_or_eq with h1 | h1
    · exact h1
    · exfalso
      apply hne
      funext i
      exact mul_self_eq_zero.1 ((Finset.sum_eq_zero_iff_of_nonneg fun i _ => mul_self_nonneg _).1 h1.symm i (Finset.mem_univ i))
  have key : ∀ t : ℝ, 0 ≤ 2 * t * (g ⬝ᵥ g) + t ^ 2 * (g ⬝ᵥ (S *ᵥ g)) := by
    intro t
    have := h (u + t • g)
    rw [form_add hS, hu, ← hg] at this
    linarith
  set b := g ⬝ᵥ (S *ᵥ g)
  have hb : 0 ≤ b := h g
  have := key (-(g ⬝ᵥ g) / (b + 1))
  have hb1 : 0 < b + 1 := by linarith
  have e : 2 * (-(g ⬝ᵥ g) / (b + 1)) * (g ⬝ᵥ g) + (-(g ⬝ᵥ g) / (b + 1)) ^ 2 * b = -((g ⬝ᵥ g) ^ 2 * (b + 2)) / (b + 1) ^ 2 := by
    field_simp
    ring
  rw [e] at this
  have : 0 < (g ⬝ᵥ g) ^ 2 * (b + 2) / (b + 1) ^ 2 := by positivity
  have e2 : -((g ⬝ᵥ g) ^ 2 * (b + 2)) / (b + 1) ^ 2 = -((g ⬝ᵥ g) ^ 2 * (b + 2) / (b + 1) ^ 2) := by ring
  linarith

theorem continuous_form (S : Matrix ι ι ℝ) : Continuous fun u : ι → ℝ => u ⬝ᵥ (S *ᵥ u) := by
  unfold dotProduct mulVec dotProduct
  fun_prop

/-- A positive definite form attains its minimum under a quadratic constraint, and the minimum is an eigenvalue of the pencil. -/
theorem minimum {S C : Matrix ι ι ℝ} (hS : S.IsSymm) (hC : C.IsSymm) (hpos : ∀ u, u ≠ 0 → 0 < u ⬝ᵥ (S *ᵥ u)) (hex : ∃ u, 0 < u ⬝ᵥ (C *ᵥ u)) :
    ∃ (μ : ℝ) (u : ι → ℝ), 0 < μ ∧ u ≠ 0 ∧ S *ᵥ u = μ • (C *ᵥ u) ∧ u ⬝ᵥ (C *ᵥ u) = 1 ∧ ∀ v, v ⬝ᵥ (C *ᵥ v) = 1 → μ ≤ v ⬝ᵥ (S *ᵥ v) := by
  obtain ⟨w, hw⟩ := hex
  have hw1 : ((Real.sqrt (w ⬝ᵥ (C *ᵥ w)))⁻¹ • w) ⬝ᵥ (C *ᵥ ((Real.sqrt (w ⬝ᵥ (C *ᵥ w)))⁻¹ • w)) = 1 := by
    rw [form_smul, inv_pow, Real.sq_sqrt hw.le, inv_mul_cancel₀ hw.ne']
  set w1 := (Real.sqrt (w ⬝ᵥ (C *ᵥ w)))⁻¹ • w
  have hw0 : w1 ≠ 0 := by
    intro h
    rw [h] at hw1
    simp at hw1
  -- a lower bound
  obtain ⟨ε, hε, hlow⟩ : ∃ ε > 0, ∀ u : ι → ℝ, ε * ‖u‖ ^ 2 ≤ u ⬝ᵥ (S *ᵥ u) := by
    have hne : (Metric.sphere (0 : ι → ℝ) 1).Nonempty := by
      refine ⟨‖w1‖⁻¹ • w1, ?_⟩
      rw [mem_sphere_zero_iff_norm, norm_smul, norm_inv, norm_norm, inv_mul_cancel₀ (norm_ne_zero_iff.2 hw0)]
    obtain ⟨m, hm, hmin⟩ := (isCompact_sphere (0 : ι → ℝ) 1).exists_isMinOn hne (continuous_form S).continuousOn
    have hm1 : ‖m‖ = 1 := mem_sphere_zero_iff_norm.1 hm
    refine ⟨m ⬝ᵥ (S *ᵥ m), hpos m (by intro h; rw [h, norm_zero] at hm1; exact zero_ne_one hm1), fun u => ?_⟩
    by_cases hu : u = 0
    · rw [hu]; simp
    · have hn : ‖u‖ ≠ 0 := norm_ne_zero_iff.2 hu
      have h1 := hmin (a := ‖u‖⁻¹ • u) (by rw [mem_sphere_zero_iff_norm, norm_smul, norm_inv, norm_norm, inv_mul_cancel₀ hn])
      have h2 : m ⬝ᵥ (S *ᵥ m) ≤ (‖u‖⁻¹) ^ 2 * (u ⬝ᵥ (S *ᵥ u)) := by
        rw [← form_smul]
        exact h1
      have h3 := mul_le_mul_of_nonneg_right h2 (sq_nonneg ‖u‖)
      have e : (‖u‖⁻¹) ^ 2 * (u ⬝ᵥ (S *ᵥ u)) * ‖u‖ ^ 2 = u ⬝ᵥ (S *ᵥ u) := by
        field_simp
      rwa [e] at h3
  -- existence of a minimum
  have hcomp : IsCompact {u : ι → ℝ | u ⬝ᵥ (C *ᵥ u) = 1 ∧ u ⬝ᵥ (S *ᵥ u) ≤ w1 ⬝ᵥ (S *ᵥ w1)} := by
    refine Metric.isCompact_of_isClosed_isBounded ?_ ?_
    · exact (isClosed_eq (continuous_form C) continuous_const).inter (isClosed_le (continuous_form S) continuous_const)
    · refine (Metric.isBounded_closedBall (x := (0 : ι → ℝ)) (r := Real.sqrt ((w1 ⬝ᵥ (S *ᵥ w1)) / ε))).subset ?_
      rintro u ⟨_, hu⟩
      rw [mem_closedBall_zero_iff]
      refine Real.le_sqrt_of_sq_le ?_
      rw [le_div_iff₀ hε, mul_comm]
      exact (hlow u).trans hu
  obtain ⟨m, hm, hmin⟩ := hcomp.exists_isMinOn ⟨w1, hw1, le_rfl⟩ (continuous_form S).continuousOn
  have hm0 : m ≠ 0 := by
    intro h
    have := hm.1
    rw [h] at this
    simp at this
  have hmu : ∀ v, v ⬝ᵥ (C *ᵥ v) = 1 → m ⬝ᵥ (S *ᵥ m) ≤ v ⬝ᵥ (S *ᵥ v) := by
    intro v hv
    by_cases h : v ⬝ᵥ (S *ᵥ v) ≤ w1 ⬝ᵥ (S *ᵥ w1)
    · exact hmin (a := v) ⟨hv, h⟩
    · exact hm.2.trans (not_le.1 h).le
  refine ⟨m ⬝ᵥ (S *ᵥ m), m, hpos m hm0, hm0, ?_, hm.1, hmu⟩
  -- the multiplier
  set μ := m ⬝ᵥ (S *ᵥ m)
  have hμ : 0 < μ := hpos m hm0
  have hform : ∀ u, u ⬝ᵥ ((S - μ • C) *ᵥ u) = u ⬝ᵥ (S *ᵥ u) - μ * (u ⬝ᵥ (C *ᵥ u)) := by
    intro u
    rw [sub_mulVec, dotProduct_sub, smul_mulVec, dotProduct_smul, smul_eq_mul]
  have hpsd : ∀ u, 0 ≤ u ⬝ᵥ ((S - μ • C) *ᵥ u) := by
    intro u
    rw [hform]
    by_cases hu : u = 0
    · rw [hu]; simp
    · by_cases hc : 0 < u ⬝ᵥ (C *ᵥ u)
      · have h1 := hmu ((Real.sqrt (u ⬝ᵥ (C *ᵥ u)))⁻¹ • u) (by rw [form_smul, inv_pow, Real.sq_sqrt hc.le, inv_mul_cancel₀ hc.ne'])
        rw [form_smul, inv_pow, Real.sq_sqrt hc.le] at h1
        have h2 := mul_le_mul_of_nonneg_right h1 hc.le
        have e : (u ⬝ᵥ (C *ᵥ u))⁻¹ * (u ⬝ᵥ (S *ᵥ u)) * (u ⬝ᵥ (C *ᵥ u)) = u ⬝ᵥ (S *ᵥ u) := by
          field_simp
        rw [e] at h2
        linarith
      · have h1 := hpos u hu
        have h2 : μ * (u ⬝ᵥ (C *ᵥ u)) ≤ 0 := mul_nonpos_of_nonneg_of_nonpos hμ.le (not_lt.1 hc)
        linarith
  have hker := kernel (S := S - μ • C) (by rw [Matrix.IsSymm, transpose_sub, transpose_smul, hS, hC]) hpsd (u := m) (by rw [hform, hm.1]; simp [μ])
  rw [sub_mulVec, smul_mulVec, sub_eq_zero] at hker
  exact hker

end Aleph.Pencil
