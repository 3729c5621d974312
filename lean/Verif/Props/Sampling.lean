import Verif.Model.Sampling
import Verif.Spec.Sampling
import Verif.Props.PointCloud
import Mathlib.MeasureTheory.Measure.Lebesgue.Basic
import Mathlib.MeasureTheory.Measure.Prod
import Mathlib.MeasureTheory.Measure.Lebesgue.VolumeOfBalls

/-!
# C122, C123: samples of spheres and tori
-/

namespace Aleph.Sampling

open MeasureTheory

theorem fill_spec (position : ℝ × ℝ → List ℝ) (h3 : ∀ a, (position a).length = 3) :
    ∀ (angles : List (ℝ × ℝ)) (i : ℕ) (pc : PointCloud ℝ) (rows : List (List ℝ)), pc.Has rows → pc.d = 3 → i + angles.length = rows.length →
    ∃ pc', fill position i pc angles = some pc' ∧ pc'.d = 3 ∧ pc'.Has (rows.take i ++ angles.map position) := by
  intro angles
  induction angles with
  | nil =>
    intro i pc rows h hd hl
    simp only [List.length_nil, Nat.add_zero] at hl
    exact ⟨pc, rfl, hd, by simpa [hl] using h⟩
  | cons a angles ih =>
    intro i pc rows h hd hl
    simp only [List.length_cons] at hl
    obtain ⟨h1, h2⟩ := C71_set pc rows h i (position a)
    simp only [fill]
    cases hs : pc.set i (position a) with
    | none =>
      exfalso
      rcases h1.1 hs with h' | h'
      · omega
      · exact h' (by rw [h3, hd])
    | some pc' =>
      obtain ⟨h4, h5⟩ := h2 pc' hs
      obtain ⟨pc'', h6, h7, h8⟩ := ih (i + 1) pc' (rows.set i (position a)) h5 (by rw [h4, hd]) (by rw [List.length_set]; omega)
      refine ⟨pc'', h6, h7, ?_⟩
      have hi : i < rows.length := by omega
      have : (rows.set i (position a)).take (i + 1) = rows.take i ++ [position a] := by
        rw [List.set_eq_take_append_cons_drop, if_pos hi, List.take_append, List.length_take, min_eq_left hi.le, Nat.add_sub_cancel_left,
          List.take_take, min_eq_right (by omega)]
        simp
      rw [this] at h8
      simpa using h8

theorem make_spec (position : ℝ × ℝ → List ℝ) (h3 : ∀ a, (position a).length = 3) (angles : List (ℝ × ℝ)) :
    ∃ pc, fill position 0 (PointCloud.make angles.length 3) angles = some pc ∧ pc.n = angles.length ∧ pc.d = 3 ∧
      ∀ i, pc.get i = angles[i]?.map position := by
  obtain ⟨pc, h1, h2, h4⟩ := fill_spec position h3 angles 0 _ _ (C71_new (α := ℝ) angles.length 3).1 rfl (by simp)
  refine ⟨pc, h1, ?_, h2, fun i => ?_⟩
  · have := h4.1
    simpa using this
  · rw [C71_get pc _ h4]
    simp

/-- C122. The point cloud has one point for each pair of angles, and all points are on the sphere with the given centre and radius. -/
theorem _root_.Aleph.C122_sphere (angles : List (ℝ × ℝ)) (r x0 y0 z0 : ℝ) :
    ∃ pc, makeSphere angles r x0 y0 z0 = some pc ∧ pc.n = angles.length ∧ pc.d = 3 ∧
      ∀ i < angles.length, ∃ x y z, pc.get i = some [x, y, z] ∧ (x - x0) ^ 2 + (y - y0) ^ 2 + (z - z0) ^ 2 = r ^ 2 := by
  obtain ⟨pc, h1, h2, h3, h4⟩ := make_spec (spherePosition r x0 y0 z0) (fun _ => rfl) angles
  refine ⟨pc, h1, h2, h3, fun i hi => ⟨_, _, _, by rw [h4, List.getElem?_eq_getElem hi]; rfl, ?_⟩⟩
  have e1 := Real.sin_sq_add_cos_sq angles[i].1
  have e2 := Real.sin_sq_add_cos_sq angles[i].2
  linear_combination (r ^ 2 * Real.sin angles[i].2 ^ 2) * e1 + r ^ 2 * e2

/-- Polar coordinates. -/
theorem polar (x y : ℝ) : ∃ θ, 0 ≤ θ ∧ θ < 2 * Real.pi ∧ Real.sqrt (x ^ 2 + y ^ 2) * Real.cos θ = x ∧ Real.sqrt (x ^ 2 + y ^ 2) * Real.sin θ = y := by
  have hn : ‖(⟨x, y⟩ : ℂ)‖ = Real.sqrt (x ^ 2 + y ^ 2) := by
    rw [Complex.norm_def, Complex.normSq_mk]; ring_nf
  have hc := Complex.norm_mul_cos_arg (⟨x, y⟩ : ℂ)
  have hs := Complex.norm_mul_sin_arg (⟨x, y⟩ : ℂ)
  rw [hn] at hc hs
  have h1 := Complex.neg_pi_lt_arg (⟨x, y⟩ : ℂ)
  have h2 := Complex.arg_le_pi (⟨x, y⟩ : ℂ)
  have hp := Real.pi_pos
  by_cases h0 : 0 ≤ Complex.arg ⟨x, y⟩
  · exact ⟨_, h0, by linarith, hc, hs⟩
  · push Not at h0
    exact ⟨Complex.arg ⟨x, y⟩ + 2 * Real.pi, by linarith, by linarith, by rw [Real.cos_add_two_pi]; exact hc, by rw [Real.sin_add_two_pi]; exact hs⟩

/-- C122. Every point of the sphere is obtained for some angles in the ranges of the samples. -/
theorem _root_.Aleph.C122_onto (r x0 y0 z0 x y z : ℝ) (hr : 0 < r) (h : (x - x0) ^ 2 + (y - y0) ^ 2 + (z - z0) ^ 2 = r ^ 2) :
    ∃ θ φ, 0 ≤ θ ∧ θ < 2 * Real.pi ∧ 0 ≤ φ ∧ φ ≤ Real.pi ∧
      ∃ pc, makeSphere [(θ, φ)] r x0 y0 z0 = some pc ∧ pc.get 0 = some [x, y, z] := by
  obtain ⟨θ, h1, h2, h3, h4⟩ := polar (x - x0) (y - y0)
  have hz : (z - z0) ^ 2 ≤ r ^ 2 := by nlinarith [sq_nonneg (x - x0), sq_nonneg (y - y0)]
  have hz' := abs_le_of_sq_le_sq' hz hr.le
  have hcos : Real.cos (Real.arccos ((z - z0) / r)) = (z - z0) / r :=
    Real.cos_arccos (by rw [le_div_iff₀ hr]; linarith [hz'.1]) (by rw [div_le_iff₀ hr]; linarith [hz'.2])
  have hsin : r * Real.sin (Real.arccos ((z - z0) / r)) = Real.sqrt ((x - x0) ^ 2 + (y - y0) ^ 2) := by
    rw [Real.sin_arccos]
    nth_rw 1 [← Real.sqrt_sq hr.le]
    rw [← Real.sqrt_mul (sq_nonneg r)]
    congr 1
    field_simp
    linarith
  refine ⟨θ, Real.arccos ((z - z0) / r), h1, h2, Real.arccos_nonneg _, Real.arccos_le_pi _, ?_⟩
  obtain ⟨pc, p1, p2, p3, p4⟩ := make_spec (spherePosition r x0 y0 z0) (fun _ => rfl) [(θ, Real.arccos ((z - z0) / r))]
  refine ⟨pc, p1, ?_⟩
  rw [p4]
  simp only [List.getElem?_cons_zero, Option.map_some, spherePosition, Option.some.injEq, List.cons.injEq, and_true]
  refine ⟨?_, ?_, ?_⟩
  · rw [mul_right_comm, hsin, h3]; ring
  · rw [mul_right_comm, hsin, h4]; ring
  · rw [hcos]; field_simp; ring

/-- C122. The samples are as many pairs of angles as requested, in the ranges of longitude and of the angle to the axis. -/
theorem _root_.Aleph.C122_angles (draw : ℕ → ℝ) (hdraw : ∀ i, 0 < draw i ∧ draw i < 1) (n : ℕ) :
    (sphereSampling draw n).length = n ∧
    ∀ a ∈ sphereSampling draw n, 0 < a.1 ∧ a.1 < 2 * Real.pi ∧ 0 < a.2 ∧ a.2 < Real.pi := by
  refine ⟨by simp [sphereSampling], ?_⟩
  intro a ha
  simp only [sphereSampling, List.mem_map] at ha
  obtain ⟨i, _, rfl⟩ := ha
  have hp := Real.pi_pos
  have h1 := hdraw (2 * i)
  have h2 := hdraw (2 * i + 1)
  refine ⟨by have := mul_pos (mul_pos two_pos hp) h1.1; exact this, ?_, ?_, ?_⟩
  · show 2 * Real.pi * draw (2 * i) < 2 * Real.pi
    nlinarith
  · show 0 < Real.arccos (1 - 2 * draw (2 * i + 1))
    rw [Real.arccos_pos]; linarith
  · show Real.arccos (1 - 2 * draw (2 * i + 1)) < Real.pi
    refine lt_of_le_of_ne (Real.arccos_le_pi _) ?_
    rw [ne_eq, Real.arccos_eq_pi]
    linarith

theorem volume_Ioo_inter_Icc {l u a b : ℝ} (ha : l ≤ a) (hb : b ≤ u) : volume (Set.Ioo l u ∩ Set.Icc a b) = ENNReal.ofReal (b - a) := by
  apply le_antisymm
  · exact (measure_mono Set.inter_subset_right).trans (by rw [Real.volume_Icc])
  · rw [← Real.volume_Ioo]
    refine measure_mono fun x hx => ⟨⟨lt_of_le_of_lt ha hx.1, lt_of_lt_of_le hx.2 hb⟩, hx.1.le, hx.2.le⟩

theorem arccos_mem_iff {v φ₁ φ₂ : ℝ} (hv : v ∈ Set.Ioo (0 : ℝ) 1) (h1 : 0 ≤ φ₁) (h2 : φ₂ ≤ Real.pi) (h12 : φ₁ ≤ φ₂) :
    Real.arccos (1 - 2 * v) ∈ Set.Icc φ₁ φ₂ ↔ v ∈ Set.Icc ((1 - Real.cos φ₁) / 2) ((1 - Real.cos φ₂) / 2) := by
  have hc : Real.cos (Real.arccos (1 - 2 * v)) = 1 - 2 * v := Real.cos_arccos (by linarith [hv.2]) (by linarith [hv.1])
  have hm := Real.strictAntiOn_cos
  have e1 : φ₁ ≤ Real.arccos (1 - 2 * v) ↔ 1 - 2 * v ≤ Real.cos φ₁ := by
    rw [← hm.le_iff_ge ⟨Real.arccos_nonneg _, Real.arccos_le_pi _⟩ ⟨h1, h12.trans h2⟩, hc]
  have e2 : Real.arccos (1 - 2 * v) ≤ φ₂ ↔ Real.cos φ₂ ≤ 1 - 2 * v := by
    rw [← hm.le_iff_ge ⟨h1.trans h12, h2⟩ ⟨Real.arccos_nonneg _, Real.arccos_le_pi _⟩, hc]
  rw [Set.mem_Icc, Set.mem_Icc, e1, e2]
  constructor <;> rintro ⟨a, b⟩ <;> constructor <;> linarith

theorem sphereArea_eq (r α β φ₁ φ₂ : ℝ) : Spec.sphereArea r α β φ₁ φ₂ = (β - α) * (r ^ 2 * (Real.cos φ₁ - Real.cos φ₂)) := by
  simp only [Spec.sphereArea]
  rw [intervalIntegral.integral_const_mul, integral_sin, intervalIntegral.integral_const, smul_eq_mul]

/-- C122. The samples are uniform with respect to the area of the sphere: if both random numbers are uniform in the unit interval, then the probability
that the sample is in a part of the sphere is the fraction of the area of this part. -/
theorem _root_.Aleph.C122_uniform (r α β φ₁ φ₂ : ℝ) (hr : 0 < r) (hα : 0 ≤ α) (hαβ : α ≤ β) (hβ : β ≤ 2 * Real.pi) (h1 : 0 ≤ φ₁) (h12 : φ₁ ≤ φ₂)
    (h2 : φ₂ ≤ Real.pi) :
    volume {w : ℝ × ℝ | w.1 ∈ Set.Ioo 0 1 ∧ w.2 ∈ Set.Ioo 0 1 ∧
      ∀ a ∈ sphereSampling (fun i => if i = 0 then w.1 else w.2) 1, a.1 ∈ Set.Icc α β ∧ a.2 ∈ Set.Icc φ₁ φ₂} =
    ENNReal.ofReal (Spec.sphereArea r α β φ₁ φ₂ / Spec.sphereArea r 0 (2 * Real.pi) 0 Real.pi) := by
  have hp := Real.pi_pos
  have hset : {w : ℝ × ℝ | w.1 ∈ Set.Ioo 0 1 ∧ w.2 ∈ Set.Ioo 0 1 ∧
      ∀ a ∈ sphereSampling (fun i => if i = 0 then w.1 else w.2) 1, a.1 ∈ Set.Icc α β ∧ a.2 ∈ Set.Icc φ₁ φ₂} =
      (Set.Ioo 0 1 ∩ Set.Icc (α / (2 * Real.pi)) (β / (2 * Real.pi))) ×ˢ
        (Set.Ioo 0 1 ∩ Set.Icc ((1 - Real.cos φ₁) / 2) ((1 - Real.cos φ₂) / 2)) := by
    ext ⟨u, v⟩
    simp only [sphereSampling, List.range_one, List.map_cons, List.map_nil, List.mem_singleton, forall_eq, Set.mem_prod, Set.mem_inter_iff, Set.mem_ofPred_eq,
      mul_zero, zero_add, if_true, one_ne_zero, if_false]
    have hu : 2 * Real.pi * u ∈ Set.Icc α β ↔ u ∈ Set.Icc (α / (2 * Real.pi)) (β / (2 * Real.pi)) := by
      rw [Set.mem_Icc, Set.mem_Icc, div_le_iff₀ (by positivity), le_div_iff₀ (by positivity), mul_comm u]
    constructor
    · rintro ⟨a, b, c, d⟩
      exact ⟨⟨a, hu.1 c⟩, b, (arccos_mem_iff b h1 h2 h12).1 d⟩
    · rintro ⟨⟨a, c⟩, b, d⟩
      exact ⟨a, b, hu.2 c, (arccos_mem_iff b h1 h2 h12).2 d⟩
  rw [hset, Measure.volume_eq_prod, Measure.prod_prod, volume_Ioo_inter_Icc (by positivity) (by rw [div_le_one (by positivity)]; exact hβ),
    volume_Ioo_inter_Icc (by linarith [Real.cos_le_one φ₁]) (by linarith [Real.neg_one_le_cos φ₂]),
    ← ENNReal.ofReal_mul (by rw [← sub_div]; exact div_nonneg (by linarith) (by positivity)), sphereArea_eq, sphereArea_eq]
  congr 1
  rw [Real.cos_zero, Real.cos_pi]
  field_simp
  ring

/-- Hypotheses of C122: the upper half of the sphere and half of the range of longitudes have a quarter of the area. -/
example : Spec.sphereArea 2 0 Real.pi 0 (Real.pi / 2) / Spec.sphereArea 2 0 (2 * Real.pi) 0 Real.pi = 1 / 4 := by
  rw [sphereArea_eq, sphereArea_eq, Real.cos_zero, Real.cos_pi, Real.cos_pi_div_two]
  have := Real.pi_pos
  field_simp
  ring

/-! ### C123: torus -/

/-- C123. The point cloud has one point for each pair of angles, and all points are on the torus: their distance to the circle with radius `R` is `|r|`, if the
tube does not reach the axis. -/
theorem _root_.Aleph.C123_torus (angles : List (ℝ × ℝ)) (R r : ℝ) :
    ∃ pc, makeTorus angles R r = some pc ∧ pc.n = angles.length ∧ pc.d = 3 ∧
      ∀ i < angles.length, ∃ x y z, pc.get i = some [x, y, z] ∧ (x ^ 2 + y ^ 2 + z ^ 2 + R ^ 2 - r ^ 2) ^ 2 = 4 * R ^ 2 * (x ^ 2 + y ^ 2) ∧
        (|r| ≤ R → (Real.sqrt (x ^ 2 + y ^ 2) - R) ^ 2 + z ^ 2 = r ^ 2) := by
  obtain ⟨pc, h1, h2, h3, h4⟩ := make_spec (torusPosition R r) (fun _ => rfl) angles
  refine ⟨pc, h1, h2, h3, fun i hi => ⟨_, _, _, by rw [h4, List.getElem?_eq_getElem hi]; rfl, ?_⟩⟩
  have e1 := Real.sin_sq_add_cos_sq angles[i].1
  have e2 := Real.sin_sq_add_cos_sq angles[i].2
  have e3 : ((R + r * Real.cos angles[i].1) * Real.cos angles[i].2) ^ 2 + ((R + r * Real.cos angles[i].1) * Real.sin angles[i].2) ^ 2 =
      (R + r * Real.cos angles[i].1) ^ 2 := by linear_combination (R + r * Real.cos angles[i].1) ^ 2 * e2
  rw [e3]
  have e4 : Real.sin angles[i].1 ^ 2 = 1 - Real.cos angles[i].1 ^ 2 := by linarith
  constructor
  · rw [mul_pow r, e4]; ring
  · intro hR
    have h0 : 0 ≤ R + r * Real.cos angles[i].1 := by
      have : |r * Real.cos angles[i].1| ≤ R := by
        rw [abs_mul]
        calc |r| * |Real.cos angles[i].1| ≤ |r| * 1 := mul_le_mul_of_nonneg_left (Real.abs_cos_le_one _) (abs_nonneg _)
          _ ≤ R := by rw [mul_one]; exact hR
      linarith [(abs_le.1 this).1]
    rw [Real.sqrt_sq h0, mul_pow r, e4]; ring

/-- C123. Every point of the torus is obtained for some angles. -/
theorem _root_.Aleph.C123_onto (R r x y z : ℝ) (hr : 0 < r) (h : (Real.sqrt (x ^ 2 + y ^ 2) - R) ^ 2 + z ^ 2 = r ^ 2) :
    ∃ θ ψ, 0 ≤ θ ∧ θ < 2 * Real.pi ∧ 0 ≤ ψ ∧ ψ < 2 * Real.pi ∧ ∃ pc, makeTorus [(θ, ψ)] R r = some pc ∧ pc.get 0 = some [x, y, z] := by
  obtain ⟨ψ, h1, h2, h3, h4⟩ := polar x y
  obtain ⟨θ, g1, g2, g3, g4⟩ := polar (Real.sqrt (x ^ 2 + y ^ 2) - R) z
  rw [h, Real.sqrt_sq hr.le] at g3 g4
  obtain ⟨pc, p1, p2, p3, p4⟩ := make_spec (torusPosition R r) (fun _ => rfl) [(θ, ψ)]
  refine ⟨θ, ψ, g1, g2, h1, h2, pc, p1, ?_⟩
  rw [p4]
  simp only [List.getElem?_cons_zero, Option.map_some, torusPosition, Option.some.injEq, List.cons.injEq, and_true]
  rw [g3, g4, add_sub_cancel]
  exact ⟨h3, h4, rfl⟩

open Classical in
theorem torusLoop_spec (R r : ℝ) (x y psi : ℕ → ℝ) (n : ℕ) : ∀ (rounds i : ℕ) (angles : List (ℝ × ℝ)), angles.length ≤ n →
    let accepted := (List.range' i rounds).filter fun j => decide (y j < torusDensity R r (x j))
    torusLoop R r x y psi n rounds i angles = if n ≤ angles.length + accepted.length then
      some (angles ++ ((accepted.take (n - angles.length)).zipIdx angles.length).map fun t => (x t.1, psi t.2)) else none := by
  intro rounds
  induction rounds with
  | zero =>
    intro i angles hl
    simp only [torusLoop, List.range'_zero, List.filter_nil, List.length_nil, Nat.add_zero, List.take_nil, List.zipIdx_nil, List.map_nil, List.append_nil]
    split
    · rw [if_neg (by omega)]
    · rw [if_pos (by omega)]
  | succ rounds ih =>
    intro i angles hl
    simp only [torusLoop]
    by_cases hn : angles.length < n
    · rw [if_pos hn, List.range'_succ]
      by_cases ha : y i < torusDensity R r (x i)
      · rw [if_pos ha, ih (i + 1) _ (by rw [List.length_append]; simpa using hn)]
        simp only [List.filter_cons, ha, decide_true, if_true, List.length_append, List.length_cons, List.length_nil]
        have e : n - angles.length = n - (angles.length + 1) + 1 := by omega
        rw [e, List.take_succ_cons, List.zipIdx_cons, List.map_cons]
        congr 1
        · simp only [eq_iff_iff]; omega
        · simp
      · rw [if_neg ha, ih (i + 1) _ hl]
        simp [ha]
    · rw [if_neg hn, if_pos (by omega)]
      have e : n - angles.length = 0 := by omega
      simp [e]

open Classical in
/-- C123. Rejection sampling returns the first `n` angles that are accepted, each with an angle around the axis of its own, as soon as there are enough of them;
it never returns more or fewer than `n` pairs.  An angle is accepted if the second random number is smaller than the density. -/
theorem _root_.Aleph.C123_rejection (R r : ℝ) (n : ℕ) (x y psi : ℕ → ℝ) (rounds : ℕ) :
    let accepted := (List.range rounds).filter fun j => decide (y j < (1 + r / R * Real.cos (x j)) / (2 * Real.pi))
    (n ≤ accepted.length → ∃ angles, torusRejectionSampling R r n x y psi rounds = some angles ∧ angles.length = n ∧
      ∀ j < n, ∃ k, accepted[j]? = some k ∧ angles[j]? = some (x k, psi j)) ∧
    (accepted.length < n → torusRejectionSampling R r n x y psi rounds = none) := by
  intro accepted
  have h := torusLoop_spec R r x y psi n rounds 0 [] (by simp)
  simp only [List.length_nil, Nat.zero_add, Nat.sub_zero, List.nil_append, ← List.range_eq_range'] at h
  have hacc : List.filter (fun j => decide (y j < torusDensity R r (x j))) (List.range rounds) = accepted := rfl
  rw [hacc] at h
  constructor
  · intro hn
    refine ⟨_, by rw [torusRejectionSampling, h, if_pos hn], ?_, ?_⟩
    · rw [List.length_map, List.length_zipIdx, List.length_take]
      exact min_eq_left hn
    · intro j hj
      have hj' : j < accepted.length := by omega
      refine ⟨accepted[j], List.getElem?_eq_getElem hj', ?_⟩
      rw [List.getElem?_map, List.getElem?_zipIdx, List.getElem?_take, if_pos hj]
      rw [List.getElem?_eq_getElem hj']
      simp
  · intro hn
    rw [torusRejectionSampling, h, if_neg (by have : accepted.length < n := hn; exact not_le.2 this)]

theorem torusArea_eq (R r a b α β : ℝ) : Spec.torusArea R r a b α β = (β - α) * (r * ∫ θ in a..b, (R + r * Real.cos θ)) := by
  simp only [Spec.torusArea]
  rw [intervalIntegral.integral_const_mul, intervalIntegral.integral_const, smul_eq_mul]

/-- C123. The angles around the tube are accepted according to the area of the torus: if the two random numbers are uniform in their ranges, the probability that an
accepted angle is in an interval is the fraction of the area of this part of the torus. -/
theorem _root_.Aleph.C123_uniform (R r a b psi : ℝ) (hr : 0 < r) (hrR : r ≤ R) (ha : 0 ≤ a) (hab : a ≤ b) (hb : b ≤ 2 * Real.pi) :
    volume {w : ℝ × ℝ | w.1 ∈ Set.Ico 0 (2 * Real.pi) ∧ w.2 ∈ Set.Ico 0 (1 / Real.pi) ∧
      ∃ θ ∈ Set.Icc a b, torusRejectionSampling R r 1 (fun _ => w.1) (fun _ => w.2) (fun _ => psi) 1 = some [(θ, psi)]} =
    ENNReal.ofReal (Spec.torusArea R r a b 0 (2 * Real.pi) / Spec.torusArea R r 0 (2 * Real.pi) 0 (2 * Real.pi)) := by
  have hp := Real.pi_pos
  have hR : 0 < R := lt_of_lt_of_le hr hrR
  have hq : r / R ≤ 1 := by rw [div_le_one hR]; exact hrR
  have hq0 : 0 < r / R := by positivity
  have hf0 : ∀ t, 0 ≤ torusDensity R r t := by
    intro t
    simp only [torusDensity]
    refine div_nonneg ?_ (by positivity)
    nlinarith [Real.neg_one_le_cos t, Real.cos_le_one t]
  have hf1 : ∀ t, torusDensity R r t ≤ 1 / Real.pi := by
    intro t
    simp only [torusDensity]
    rw [div_le_div_iff₀ (by positivity) hp]
    nlinarith [Real.neg_one_le_cos t, Real.cos_le_one t, mul_le_mul_of_nonneg_right hq hp.le, mul_nonneg hq0.le (sub_nonneg.2 (Real.cos_le_one t)), hp]
  have hfc : Continuous (torusDensity R r) := by
    unfold torusDensity
    fun_prop
  have hrun : ∀ w : ℝ × ℝ, ∀ θ, torusRejectionSampling R r 1 (fun _ => w.1) (fun _ => w.2) (fun _ => psi) 1 = some [(θ, psi)] ↔
      w.2 < torusDensity R r w.1 ∧ θ = w.1 := by
    intro w θ
    by_cases h : w.2 < torusDensity R r w.1 <;> simp [torusRejectionSampling, torusLoop, h, eq_comm]
  have hreg : ∀ s, MeasurableSet s → s ⊆ Set.Icc a b →
      volume (regionBetween (fun _ => 0) (torusDensity R r) s) = ENNReal.ofReal (∫ t in s, torusDensity R r t) := by
    intro s hs hsub
    rw [Measure.volume_eq_prod, volume_regionBetween_eq_integral]
    · simp
    · exact integrableOn_zero
    · exact (hfc.continuousOn.integrableOn_Icc).mono_set hsub
    · exact hs
    · exact fun t _ => hf0 t
  have hint : ∫ t in a..b, torusDensity R r t = Spec.torusArea R r a b 0 (2 * Real.pi) / Spec.torusArea R r 0 (2 * Real.pi) 0 (2 * Real.pi) := by
    rw [torusArea_eq, torusArea_eq]
    have e1 : ∀ t, torusDensity R r t = (R + r * Real.cos t) * (1 / (2 * Real.pi * R)) := by
      intro t
      simp only [torusDensity]
      field_simp
    simp only [e1]
    rw [intervalIntegral.integral_mul_const]
    have e2 : ∫ t in (0 : ℝ)..(2 * Real.pi), (R + r * Real.cos t) = 2 * Real.pi * R := by
      rw [intervalIntegral.integral_add (by simp) ((Continuous.intervalIntegrable (by fun_prop) _ _)), intervalIntegral.integral_const_mul, integral_cos]
      simp
    rw [e2]
    field_simp
  rw [← hint]
  apply le_antisymm
  · refine (measure_mono (t := regionBetween (fun _ => 0) (torusDensity R r) (Set.Icc a b) ∪ Set.univ ×ˢ {0}) ?_).trans ?_
    · rintro w ⟨_, h2, θ, h3, h4⟩
      obtain ⟨h5, rfl⟩ := (hrun w θ).1 h4
      rcases eq_or_lt_of_le h2.1 with h0 | h0
      · right; exact ⟨trivial, h0.symm⟩
      · left; exact ⟨h3, h0, h5⟩
    · refine (measure_union_le _ _).trans ?_
      rw [hreg _ measurableSet_Icc subset_rfl, Measure.volume_eq_prod, Measure.prod_prod, Real.volume_singleton, mul_zero, add_zero,
        integral_Icc_eq_integral_Ioc, intervalIntegral.integral_of_le hab]
  · rw [intervalIntegral.integral_of_le hab, integral_Ioc_eq_integral_Ioo, ← hreg _ measurableSet_Ioo Set.Ioo_subset_Icc_self]
    refine measure_mono ?_
    rintro w ⟨h1, h2⟩
    exact ⟨⟨ha.trans h1.1.le, lt_of_lt_of_le h1.2 hb⟩, ⟨h2.1.le, lt_of_lt_of_le h2.2 (hf1 _)⟩, w.1, ⟨h1.1.le, h1.2.le⟩, (hrun w w.1).2 ⟨h2.2, rfl⟩⟩

/-- Hypotheses of C123: half of the angles around the tube, on the outer side, have more than half of the area. -/
example : Spec.torusArea 2 1 0 (Real.pi / 2) 0 (2 * Real.pi) / Spec.torusArea 2 1 0 (2 * Real.pi) 0 (2 * Real.pi) = (Real.pi + 1) / (4 * Real.pi) := by
  have hp := Real.pi_pos
  have e : ∀ b : ℝ, ∫ t in (0 : ℝ)..b, ((2 : ℝ) + 1 * Real.cos t) = 2 * b + Real.sin b := by
    intro b
    rw [intervalIntegral.integral_add (by simp) ((Continuous.intervalIntegrable (by fun_prop) _ _)), intervalIntegral.integral_const_mul, integral_cos]
    simp [mul_comm]
  rw [torusArea_eq, torusArea_eq, e, e, Real.sin_pi_div_two, Real.sin_two_pi]
  field_simp
  ring

end Aleph.Sampling
