import Mathlib.Analysis.SpecialFunctions.Exponential
import Mathlib.Data.Nat.Choose.Sum
import Mathlib.Algebra.BigOperators.Field
import Mathlib.Tactic.FieldSimp
import Mathlib.Tactic.LinearCombination

/-!
# The Gaussian is strictly positive definite in the plane

Weighted points are pairs of a weight and a point.
-/

namespace Aleph.Gaussian

noncomputable section

abbrev Weighted := List (ℝ × (ℝ × ℝ))

def gauss (c : ℝ) (p q : ℝ × ℝ) : ℝ := Real.exp (-((p.1 - q.1) ^ 2 + (p.2 - q.2) ^ 2) / c)

def form (c : ℝ) (L M : Weighted) : ℝ :=
  (L.map fun u => (M.map fun v => u.1 * v.1 * gauss c u.2 v.2).sum).sum

/-- A linear functional on functions. -/
def apply (c : ℝ) (L : Weighted) (f : ℝ × ℝ → ℝ) : ℝ :=
  (L.map fun u => u.1 * Real.exp (-(u.2.1 ^ 2 + u.2.2 ^ 2) / c) * f u.2).sum

def moment (c : ℝ) (L : Weighted) (i j : ℕ) : ℝ := apply c L fun p => p.1 ^ i * p.2 ^ j

def term (c : ℝ) (L M : Weighted) (n : ℕ) : ℝ :=
  (2 / c) ^ n / (n.factorial : ℝ) *
    ∑ k ∈ Finset.range (n + 1), (n.choose k : ℝ) * (moment c L k (n - k) * moment c M k (n - k))

theorem term_cons_left (c : ℝ) (u) (L M : Weighted) (n : ℕ) :
    term c (u :: L) M n = term c [u] M n + term c L M n := by
  unfold term
  rw [← mul_add, ← Finset.sum_add_distrib]
  congr 1
  apply Finset.sum_congr rfl
  intro k _
  simp only [moment, apply, List.map_cons, List.sum_cons, List.map_nil, List.sum_nil]
  ring

theorem term_cons_right (c : ℝ) (u) (L M : Weighted) (n : ℕ) :
    term c L (u :: M) n = term c L [u] n + term c L M n := by
  unfold term
  rw [← mul_add, ← Finset.sum_add_distrib]
  congr 1
  apply Finset.sum_congr rfl
  intro k _
  simp only [moment, apply, List.map_cons, List.sum_cons, List.map_nil, List.sum_nil]
  ring

theorem hasSum_single (c : ℝ) (u v : ℝ × (ℝ × ℝ)) :
    HasSum (term c [u] [v]) (u.1 * v.1 * gauss c u.2 v.2) := by
  obtain ⟨a, x, y⟩ := u
  obtain ⟨b, z, w⟩ := v
  have h : HasSum (fun n : ℕ => (2 / c * (x * z + y * w)) ^ n / (n.factorial : ℝ)) (Real.exp (2 / c * (x * z + y * w))) := by
    rw [Real.exp_eq_exp_ℝ]
    exact NormedSpace.expSeries_div_hasSum_exp _
  have h2 := h.mul_left (a * Real.exp (-(x ^ 2 + y ^ 2) / c) * (b * Real.exp (-(z ^ 2 + w ^ 2) / c)))
  have e1 : a * Real.exp (-(x ^ 2 + y ^ 2) / c) * (b * Real.exp (-(z ^ 2 + w ^ 2) / c)) *
      Real.exp (2 / c * (x * z + y * w)) = a * b * gauss c (x, y) (z, w) := by
    have : gauss c (x, y) (z, w) =
        Real.exp (-(x ^ 2 + y ^ 2) / c) * Real.exp (-(z ^ 2 + w ^ 2) / c) * Real.exp (2 / c * (x * z + y * w)) := by
      rw [← Real.exp_add, ← Real.exp_add]
      unfold gauss
      congr 1
      simp only
      ring
    rw [this]; ring
  rw [← e1]
  refine (congrArg (fun f => HasSum f _) (funext fun n => ?_)).mpr h2
  have h3 : (x * z + y * w) ^ n = ∑ k ∈ Finset.range (n + 1), (n.choose k : ℝ) * ((x ^ k * y ^ (n - k)) * (z ^ k * w ^ (n - k))) := by
    rw [add_pow]
    apply Finset.sum_congr rfl
    intro k _
    rw [mul_pow, mul_pow]; ring
  rw [mul_pow, h3]
  unfold term
  rw [Finset.mul_sum, Finset.mul_sum, Finset.sum_div, Finset.mul_sum]
  apply Finset.sum_congr rfl
  intro k _
  simp only [moment, apply, List.map_cons, List.map_nil, List.sum_cons, List.sum_nil]
  ring

theorem term_nil_left (c : ℝ) (M : Weighted) : term c [] M = fun _ => 0 := by
  funext n; simp [term, moment, apply]

theorem term_nil_right (c : ℝ) (L : Weighted) : term c L [] = fun _ => 0 := by
  funext n; simp [term, moment, apply]

theorem hasSum_form (c : ℝ) (L M : Weighted) : HasSum (term c L M) (form c L M) := by
  induction L with
  | nil => rw [term_nil_left]; simp [form, hasSum_zero]
  | cons u L ih =>
    have h : term c (u :: L) M = fun n => term c [u] M n + term c L M n := funext fun n => term_cons_left c u L M n
    rw [h]
    have h2 : form c (u :: L) M = form c [u] M + form c L M := by simp [form]
    rw [h2]
    refine HasSum.add ?_ ih
    clear h h2 ih
    induction M with
    | nil => rw [term_nil_right]; simp [form, hasSum_zero]
    | cons v M ih =>
      have h : term c [u] (v :: M) = fun n => term c [u] [v] n + term c [u] M n :=
        funext fun n => term_cons_right c v [u] M n
      rw [h]
      have h2 : form c [u] (v :: M) = form c [u] [v] + form c [u] M := by simp [form]
      rw [h2]
      refine HasSum.add ?_ ih
      simpa [form] using hasSum_single c u v

theorem term_nonneg {c : ℝ} (hc : 0 < c) (L : Weighted) (n : ℕ) : 0 ≤ term c L L n := by
  unfold term
  refine mul_nonneg (by positivity) (Finset.sum_nonneg fun k _ => mul_nonneg (by positivity) (mul_self_nonneg _))

theorem form_nonneg {c : ℝ} (hc : 0 < c) (L : Weighted) : 0 ≤ form c L L :=
  (hasSum_form c L L).nonneg (term_nonneg hc L)

theorem moment_eq_zero {c : ℝ} (hc : 0 < c) (L : Weighted) (h : form c L L = 0) (i j : ℕ) : moment c L i j = 0 := by
  have h1 := hasSum_form c L L
  rw [h, hasSum_zero_iff_of_nonneg (fun n => term_nonneg hc L n)] at h1
  have h2 := congrFun h1 (i + j)
  unfold term at h2
  simp only [Pi.zero_apply] at h2
  have h3 : ∑ k ∈ Finset.range (i + j + 1), ((i + j).choose k : ℝ) *
      (moment c L k (i + j - k) * moment c L k (i + j - k)) = 0 := by
    rcases mul_eq_zero.1 h2 with h | h
    · exfalso
      have : 0 < (2 / c) ^ (i + j) / ((i + j).factorial : ℝ) := by positivity
      linarith
    · exact h
  rw [Finset.sum_eq_zero_iff_of_nonneg (fun k _ => mul_nonneg (by positivity) (mul_self_nonneg _))] at h3
  have h4 := h3 i (Finset.mem_range.2 (by omega))
  rw [Nat.add_sub_cancel_left] at h4
  rcases mul_eq_zero.1 h4 with h | h
  · exfalso
    have : 0 < (i + j).choose i := Nat.choose_pos (by omega)
    have : (0 : ℝ) < ((i + j).choose i : ℝ) := by exact_mod_cast this
    linarith
  · exact mul_self_eq_zero.1 h

/-- The total weight of a point. -/
def total (L : Weighted) (p : ℝ × ℝ) : ℝ := (L.map fun u => if u.2 = p then u.1 else 0).sum

theorem sum_by_total (L : Weighted) (f : ℝ × ℝ → ℝ) (S : Finset (ℝ × ℝ)) (hS : ∀ u ∈ L, u.2 ∈ S) :
    (L.map fun u => u.1 * f u.2).sum = ∑ p ∈ S, total L p * f p := by
  induction L with
  | nil => simp [total]
  | cons u L ih =>
    rw [List.map_cons, List.sum_cons, ih fun v hv => hS v (List.mem_cons_of_mem _ hv)]
    have : ∀ p, total (u :: L) p = (if u.2 = p then u.1 else 0) + total L p := fun p => by simp [total]
    simp only [this, add_mul, Finset.sum_add_distrib, ite_mul, zero_mul]
    rw [Finset.sum_ite_eq, if_pos (hS u List.mem_cons_self)]

theorem apply_eq (c : ℝ) (L : Weighted) (f : ℝ × ℝ → ℝ) (S : Finset (ℝ × ℝ)) (hS : ∀ u ∈ L, u.2 ∈ S) :
    apply c L f = ∑ p ∈ S, total L p * (Real.exp (-(p.1 ^ 2 + p.2 ^ 2) / c) * f p) := by
  rw [← sum_by_total L _ S hS]
  unfold apply
  congr 1
  apply List.map_congr_left
  intro u _
  ring

/-- Vanishes exactly at the given points. -/
def vanish (R : List (ℝ × ℝ)) (p : ℝ × ℝ) : ℝ := (R.map fun r => (p.1 - r.1) ^ 2 + (p.2 - r.2) ^ 2).prod

theorem vanish_eq_zero (R : List (ℝ × ℝ)) (p : ℝ × ℝ) : vanish R p = 0 ↔ p ∈ R := by
  unfold vanish
  rw [List.prod_eq_zero_iff, List.mem_map]
  constructor
  · rintro ⟨r, hr, h⟩
    have h1 : p.1 - r.1 = 0 := by nlinarith [sq_nonneg (p.1 - r.1), sq_nonneg (p.2 - r.2)]
    have h2 : p.2 - r.2 = 0 := by nlinarith [sq_nonneg (p.1 - r.1), sq_nonneg (p.2 - r.2)]
    have : p = r := Prod.ext (by linarith) (by linarith)
    exact this ▸ hr
  · intro h
    exact ⟨p, h, by ring⟩

theorem apply_add (c : ℝ) (L : Weighted) (f g : ℝ × ℝ → ℝ) : apply c L (fun p => f p + g p) = apply c L f + apply c L g := by
  unfold apply
  rw [← List.sum_map_add]
  congr 1
  apply List.map_congr_left
  intro u _
  ring

theorem apply_smul (c a : ℝ) (L : Weighted) (f : ℝ × ℝ → ℝ) : apply c L (fun p => a * f p) = a * apply c L f := by
  unfold apply
  rw [← List.sum_map_mul_left]
  congr 1
  apply List.map_congr_left
  intro u _
  ring

theorem apply_vanish (c : ℝ) (L : Weighted) (h : ∀ i j, moment c L i j = 0) (R : List (ℝ × ℝ)) :
    ∀ i j, apply c L (fun p => p.1 ^ i * p.2 ^ j * vanish R p) = 0 := by
  induction R with
  | nil => intro i j; simpa [vanish, moment] using h i j
  | cons r R ih =>
    intro i j
    have e : (fun p : ℝ × ℝ => p.1 ^ i * p.2 ^ j * vanish (r :: R) p) = fun p =>
        p.1 ^ (i + 2) * p.2 ^ j * vanish R p + ((-2 * r.1) * (p.1 ^ (i + 1) * p.2 ^ j * vanish R p) +
        (p.1 ^ i * p.2 ^ (j + 2) * vanish R p + ((-2 * r.2) * (p.1 ^ i * p.2 ^ (j + 1) * vanish R p) +
        (r.1 ^ 2 + r.2 ^ 2) * (p.1 ^ i * p.2 ^ j * vanish R p)))) := by
      funext p
      have : vanish (r :: R) p = ((p.1 - r.1) ^ 2 + (p.2 - r.2) ^ 2) * vanish R p := by simp [vanish]
      rw [this]; ring
    rw [e, apply_add, apply_add, apply_add, apply_add, apply_smul, apply_smul, apply_smul, ih, ih, ih, ih, ih]
    ring

/-- Strict positive definiteness. -/
theorem form_eq_zero_iff {c : ℝ} (hc : 0 < c) (L : Weighted) : form c L L = 0 ↔ ∀ p, total L p = 0 := by
  constructor
  · intro h p
    have hm := moment_eq_zero hc L h
    set S : Finset (ℝ × ℝ) := insert p (L.map (·.2)).toFinset with hS
    have hmem : ∀ u ∈ L, u.2 ∈ S := fun u hu => by
      rw [hS]; exact Finset.mem_insert_of_mem (List.mem_toFinset.2 (List.mem_map_of_mem hu))
    have h1 := apply_vanish c L hm (S.erase p).toList 0 0
    rw [apply_eq c L _ S hmem, Finset.sum_eq_single p] at h1
    · have h2 : vanish (S.erase p).toList p ≠ 0 := by
        rw [Ne, vanish_eq_zero]; simp
      rcases mul_eq_zero.1 h1 with h | h
      · exact h
      · exfalso
        rcases mul_eq_zero.1 h with h | h
        · exact (Real.exp_pos _).ne' h
        · simp at h; exact h2 h
    · intro q hq hne
      have : vanish (S.erase p).toList q = 0 := by
        rw [vanish_eq_zero]; simp [hq, hne]
      rw [this]; ring
    · intro h; exact absurd (Finset.mem_insert_self _ _) h
  · intro h
    have h1 := hasSum_form c L L
    have h2 : term c L L = fun _ => 0 := by
      funext n
      unfold term
      have : ∀ i j, moment c L i j = 0 := fun i j => by
        unfold moment
        rw [apply_eq c L _ (L.map (·.2)).toFinset fun u hu => List.mem_toFinset.2 (List.mem_map_of_mem hu)]
        exact Finset.sum_eq_zero fun p _ => by rw [h p]; ring
      simp [this]
    rw [h2] at h1
    exact h1.unique hasSum_zero

/-! ### Bilinearity -/

theorem form_append_left (c : ℝ) (L L' M : Weighted) : form c (L ++ L') M = form c L M + form c L' M := by
  simp [form]

theorem form_append_right (c : ℝ) (L M M' : Weighted) : form c L (M ++ M') = form c L M + form c L M' := by
  unfold form
  rw [← List.sum_map_add]
  simp

/-- Scaled weights. -/
def scale (a : ℝ) (L : Weighted) : Weighted := L.map fun u => (a * u.1, u.2)

theorem form_scale_left (c a : ℝ) (L M : Weighted) : form c (scale a L) M = a * form c L M := by
  simp only [form, scale, List.map_map]
  rw [← List.sum_map_mul_left]
  congr 1
  apply List.map_congr_left
  intro u _
  simp only [Function.comp]
  rw [← List.sum_map_mul_left]
  congr 1
  apply List.map_congr_left
  intro v _
  ring

theorem form_comm (c : ℝ) (L M : Weighted) : form c L M = form c M L := by
  have h1 := hasSum_form c L M
  have h2 : term c L M = term c M L := by
    funext n
    unfold term
    congr 1
    exact Finset.sum_congr rfl fun k _ => by ring
  rw [h2] at h1
  exact h1.unique (hasSum_form c M L)

theorem form_scale_right (c a : ℝ) (L M : Weighted) : form c L (scale a M) = a * form c L M := by
  rw [form_comm, form_scale_left, form_comm]

/-- The triangle inequality for a symmetric function on three objects that comes from a positive semidefinite form. -/
theorem triangle_of_form {dd ee ff de df ef : ℝ}
    (h : ∀ a b c : ℝ, 0 ≤ a ^ 2 * dd + b ^ 2 * ee + c ^ 2 * ff + 2 * a * b * de + 2 * a * c * df + 2 * b * c * ef) :
    Real.sqrt (dd + ff - 2 * df) ≤ Real.sqrt (dd + ee - 2 * de) + Real.sqrt (ee + ff - 2 * ef) := by
  have h1 : 0 ≤ dd + ee - 2 * de := by have := h 1 (-1) 0; linarith
  have h2 : 0 ≤ ee + ff - 2 * ef := by have := h 0 1 (-1); linarith
  set A := dd + ee - 2 * de with hA
  set B := ee + ff - 2 * ef with hB
  set C := de - df - ee + ef with hC
  have hq : ∀ t : ℝ, 0 ≤ A + 2 * t * C + t ^ 2 * B := fun t => by
    have := h 1 (t - 1) (-t)
    rw [hA, hB, hC]
    linarith
  have hcs : C ≤ Real.sqrt A * Real.sqrt B := by
    by_cases hC0 : C ≤ 0
    · exact hC0.trans (by positivity)
    · push Not at hC0
      rw [← Real.sqrt_mul h1]
      refine Real.le_sqrt_of_sq_le ?_
      by_cases hB0 : B = 0
      · exfalso
        have := hq (-(A + 1) / (2 * C))
        have e : A + 2 * (-(A + 1) / (2 * C)) * C + (-(A + 1) / (2 * C)) ^ 2 * B = -1 := by
          rw [hB0]; field_simp; ring
        linarith
      · have hBp : 0 < B := lt_of_le_of_ne h2 (Ne.symm hB0)
        have := hq (-C / B)
        have e : A + 2 * (-C / B) * C + (-C / B) ^ 2 * B = A - C ^ 2 / B := by field_simp; ring
        rw [e, sub_nonneg, div_le_iff₀ hBp] at this
        exact this
  rw [Real.sqrt_le_left (by positivity)]
  have e1 := Real.sq_sqrt h1
  have e2 := Real.sq_sqrt h2
  have : dd + ff - 2 * df = A + B + 2 * C := by rw [hA, hB, hC]; ring
  rw [this]
  nlinarith

end

end Aleph.Gaussian
