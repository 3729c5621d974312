import Verif.Props.PiecewiseLinear
import Mathlib.MeasureTheory.Integral.IntervalIntegral.FundThmCalculus
import Mathlib.Analysis.Calculus.Deriv.Pow
import Mathlib.Analysis.Calculus.Deriv.Mul

/-!
# Integrals of piecewise linear functions (C42)
-/

namespace Aleph

open Spec Pl MeasureTheory

namespace Pl

theorem integral_pow_affine (m c : ℝ) (p : ℕ) (x1 x2 : ℝ) :
    ∫ x in x1..x2, (m * x + c) ^ p =
      (if m = 0 then c ^ p * x2 else (m * x2 + c) ^ (p + 1) / (m * ((p : ℝ) + 1))) -
        (if m = 0 then c ^ p * x1 else (m * x1 + c) ^ (p + 1) / (m * ((p : ℝ) + 1))) := by
  by_cases hm : m = 0
  · subst hm
    simp
    ring
  · rw [if_neg hm, if_neg hm]
    have hp : ((p : ℝ) + 1) ≠ 0 := by positivity
    refine intervalIntegral.integral_eq_sub_of_hasDerivAt (f := fun x => (m * x + c) ^ (p + 1) / (m * ((p : ℝ) + 1))) ?_ ?_
    · intro x _
      have h1 : HasDerivAt (fun x => m * x + c) m x := by
        simpa using ((hasDerivAt_id x).const_mul m).add_const c
      have h2 := (h1.pow (p + 1)).div_const (m * ((p : ℝ) + 1))
      refine h2.congr_deriv ?_
      push_cast
      field_simp
    · exact (by fun_prop : Continuous fun x => (m * x + c) ^ p).intervalIntegrable _ _

theorem segment_integral {u v : ℝ × ℝ} (h : u.1 < v.1) (hs : 0 ≤ u.2 * v.2) (p : ℕ) (F : ℝ → ℝ)
    (hF : ∀ x, u.1 ≤ x → x ≤ v.1 → (F x - u.2) * (v.1 - u.1) = (v.2 - u.2) * (x - u.1)) :
    IntervalIntegrable (fun x => |F x| ^ p) volume u.1 v.1 ∧ ∫ x in u.1..v.1, |F x| ^ p = segment p u v := by
  obtain ⟨x1, y1⟩ := u
  obtain ⟨x2, y2⟩ := v
  simp only at h hs hF ⊢
  have hd : x2 - x1 ≠ 0 := sub_ne_zero.2 (ne_of_gt h)
  have hd0 : 0 < x2 - x1 := sub_pos.2 h
  obtain ⟨m, hm⟩ : ∃ m, m = (y2 - y1) / (x2 - x1) := ⟨_, rfl⟩
  obtain ⟨c, hc⟩ : ∃ c, c = y1 - m * x1 := ⟨_, rfl⟩
  have hFm : ∀ x ∈ Set.uIcc x1 x2, F x = m * x + c := by
    intro x hx
    rw [Set.uIcc_of_le h.le] at hx
    have := hF x hx.1 hx.2
    rw [hc, hm]
    field_simp
    linear_combination this
  have hcont : Continuous fun x => |m * x + c| ^ p := by fun_prop
  have hcongr : Set.EqOn (fun x => |m * x + c| ^ p) (fun x => |F x| ^ p) (Set.uIcc x1 x2) := by
    intro x hx
    simp only [hFm x hx]
  constructor
  · refine (hcont.intervalIntegrable x1 x2).congr ?_
    intro x hx
    exact hcongr (Set.uIoc_subset_uIcc hx)
  · rw [← intervalIntegral.integral_congr hcongr]
    have hseg : segment p (x1, y1) (x2, y2) = |∫ x in x1..x2, (m * x + c) ^ p| := by
      rw [integral_pow_affine, segment]
      simp only [← hm, ← hc]
    rw [hseg]
    -- the sign is constant
    have hy1 : y1 = m * x1 + c := by rw [hc]; ring
    have hy2 : y2 = m * x2 + c := by rw [hc, hm]; field_simp; ring
    have hsign : ∃ e : ℝ, |e| = 1 ∧ ∀ x ∈ Set.uIcc x1 x2, m * x + c = e * |m * x + c| := by
      have hcomb : ∀ x, (m * x + c) * (x2 - x1) = y1 * (x2 - x) + y2 * (x - x1) := by
        intro x
        rw [hy1, hy2]
        ring
      have hcases : (0 ≤ y1 ∧ 0 ≤ y2) ∨ (y1 ≤ 0 ∧ y2 ≤ 0) := by
        rcases lt_trichotomy y1 0 with h1 | h1 | h1
        · right
          exact ⟨h1.le, le_of_not_gt fun h2 => absurd (mul_neg_of_neg_of_pos h1 h2) (not_lt_of_ge hs)⟩
        · rcases le_total 0 y2 with h2 | h2
          · exact .inl ⟨h1.symm.le, h2⟩
          · exact .inr ⟨h1.le, h2⟩
        · left
          exact ⟨h1.le, le_of_not_gt fun h2 => absurd (mul_neg_of_pos_of_neg h1 h2) (not_lt_of_ge hs)⟩
      rcases hcases with ⟨h1, h2⟩ | ⟨h1, h2⟩
      · refine ⟨1, by simp, ?_⟩
        intro x hx
        rw [Set.uIcc_of_le h.le] at hx
        have : 0 ≤ (m * x + c) * (x2 - x1) := by
          rw [hcomb]
          exact add_nonneg (mul_nonneg h1 (sub_nonneg.2 hx.2)) (mul_nonneg h2 (sub_nonneg.2 hx.1))
        rw [abs_of_nonneg (nonneg_of_mul_nonneg_left this hd0), one_mul]
      · refine ⟨-1, by simp, ?_⟩
        intro x hx
        rw [Set.uIcc_of_le h.le] at hx
        have : (m * x + c) * (x2 - x1) ≤ 0 := by
          rw [hcomb]
          exact add_nonpos (mul_nonpos_of_nonpos_of_nonneg h1 (sub_nonneg.2 hx.2))
            (mul_nonpos_of_nonpos_of_nonneg h2 (sub_nonneg.2 hx.1))
        rw [abs_of_nonpos (nonpos_of_mul_nonpos_left this hd0)]
        ring
    obtain ⟨e, he, hsign⟩ := hsign
    have h1 : ∫ x in x1..x2, (m * x + c) ^ p = e ^ p * ∫ x in x1..x2, |m * x + c| ^ p := by
      rw [← intervalIntegral.integral_const_mul]
      refine intervalIntegral.integral_congr ?_
      intro x hx
      simp only
      conv_lhs => rw [hsign x hx]
      rw [mul_pow]
    have h2 : 0 ≤ ∫ x in x1..x2, |m * x + c| ^ p :=
      intervalIntegral.integral_nonneg h.le fun x _ => by positivity
    rw [h1, abs_mul, abs_pow, he, one_pow, one_mul, abs_of_nonneg h2]

theorem sum_segments {f : Fn ℝ} (hf : Ascending f) (hs : NoSignChange f) (p : ℕ) :
    ∀ (l pre : Fn ℝ) (u : ℝ × ℝ), f = pre ++ u :: l →
      IntervalIntegrable (fun x => |eval f x| ^ p) volume u.1 ((u :: l).getLast (by simp)).1 ∧
      ∫ x in u.1..((u :: l).getLast (by simp)).1, |eval f x| ^ p =
        ((pairs (u :: l)).map fun e => segment p e.1 e.2).sum := by
  intro l
  induction l with
  | nil =>
    intro pre u _
    simp [pairs]
  | cons v l ih =>
    intro pre u h
    obtain ⟨h1, h2⟩ := ih (pre ++ [u]) v (by rw [h]; simp)
    have hn : Neighbours f u v := (pairs_neighbours hf).1 (mem_pairs.2 ⟨pre, l, h⟩)
    obtain ⟨h3, h4⟩ := segment_integral hn.2.2.1 (hs u v hn) p (eval f) fun x hx1 hx2 => eval_segment hf hn hx1 hx2
    have hlast : (u :: v :: l).getLast (by simp) = (v :: l).getLast (by simp) := List.getLast_cons (by simp)
    have hpairs : pairs (u :: v :: l) = (u, v) :: pairs (v :: l) := rfl
    rw [hlast, hpairs, List.map_cons, List.sum_cons, ← h2, ← h4]
    exact ⟨h3.trans h1, (intervalIntegral.integral_add_adjacent_intervals h3 h1).symm⟩

end Pl

/-- C42. For a natural exponent `p` of at least one, `integral` calculates the integral of the `p`-th power of the absolute value of
the function over the real numbers, followed by the final root, if the function does not change its sign between neighbours.
`C42_construction` and `C42_distance` show that this holds for constructed functions and for differences. -/
theorem C42_integral (f : Fn ℝ) (hf : Ascending f) (hs : NoSignChange f) (hne : f ≠ []) (p : ℕ) (hp : p ≠ 0) (root : ℝ → ℝ) :
    Pl.integral root p f = root (∫ x, |eval f x| ^ p) := by
  obtain ⟨u, l, rfl⟩ := List.exists_cons_of_ne_nil hne
  obtain ⟨-, h2⟩ := sum_segments hf hs p l [] u rfl
  have hk : ∀ (es : List ((ℝ × ℝ) × (ℝ × ℝ))) (k : Kahan ℝ), k.c = 0 →
      (es.foldl (fun norm e => norm.add (segment p e.1 e.2)) k).sum = k.sum + (es.map fun e => segment p e.1 e.2).sum := by
    intro es
    induction es with
    | nil => intro k _; simp
    | cons e es ih =>
      intro k hk
      obtain ⟨k1, k2⟩ := kahan_step k hk (.add (segment p e.1 e.2))
      rw [List.foldl_cons, ih (k.add (segment p e.1 e.2)) k1]
      have : (k.add (segment p e.1 e.2)).sum = k.sum + segment p e.1 e.2 := k2
      rw [this, List.map_cons, List.sum_cons, add_assoc]
  have hle : u.1 ≤ ((u :: l).getLast (by simp)).1 := by
    rcases List.mem_cons.1 (List.getLast_mem (l := u :: l) (by simp)) with h | h
    · rw [h]
    · exact ((List.pairwise_cons.1 hf).1 _ h).le
  rw [Pl.integral, if_neg (by simp), hk _ _ rfl, ← h2]
  have hzero : ∀ x, x ∉ Set.Icc u.1 ((u :: l).getLast (by simp)).1 → |eval (u :: l) x| ^ p = 0 := by
    intro x hx
    have hd : ¬InDomain (u :: l) x := by
      rintro ⟨⟨a, ha, ha'⟩, ⟨b, hb, hb'⟩⟩
      apply hx
      constructor
      · rcases List.mem_cons.1 ha with rfl | ha
        · exact ha'
        · exact le_trans ((List.pairwise_cons.1 hf).1 a ha).le ha'
      · refine le_trans hb' ?_
        have hsplit := List.dropLast_append_getLast (l := u :: l) (by simp)
        have hf' := hf
        rw [Ascending, ← hsplit, List.pairwise_append] at hf'
        rw [← hsplit] at hb
        rcases List.mem_append.1 hb with hb | hb
        · exact (hf'.2.2 b hb _ (by simp)).le
        · rw [List.mem_singleton.1 hb]
    rw [eval_eq_of hf (.inr (.inr ⟨hd, rfl⟩)), abs_zero, zero_pow hp]
  rw [intervalIntegral.integral_of_le hle, ← integral_Icc_eq_integral_Ioc,
    setIntegral_eq_integral_of_forall_compl_eq_zero hzero]
  simp [Kahan.init]

/-- C42. The integral of a constructed function, in terms of the function through the given points. -/
theorem C42_constructed_integral (l : List (ℝ × ℝ)) (hnd : (l.map Prod.fst).Nodup) (hne : l ≠ []) (p : ℕ) (hp : p ≠ 0)
    (root : ℝ → ℝ) : ∃ f, construct l = some f ∧ Pl.integral root p f = root (∫ x, |eval f x| ^ p) := by
  obtain ⟨f, h1, h2, h3, h4, -⟩ := (C42_construction l).1 hnd
  refine ⟨f, h1, C42_integral f h2 h3 ?_ p hp root⟩
  rintro rfl
  obtain ⟨q, hq⟩ := List.exists_mem_of_ne_nil l hne
  exact absurd (h4 q hq) (by simp)

/-- C42. The integral of a difference is the distance of both functions with respect to the `p`-norm. -/
theorem C42_lp_distance (f g : Fn ℝ) (hf : Ascending f) (hg : Ascending g) (hdom : ∀ x, InDomain f x ↔ InDomain g x)
    (hne : f ≠ []) (p : ℕ) (hp : p ≠ 0) (root : ℝ → ℝ) :
    Pl.integral root p (sub f g) = root (∫ x, |eval f x - eval g x| ^ p) := by
  obtain ⟨h1, h2⟩ := C42_distance f g hf hg hdom
  have hasc : Ascending (sub f g) := apply_ascending _ f g
  have habs := (C42_abs (sub f g) hasc h1).2.2
  have hne' : sub f g ≠ [] := by
    obtain ⟨q, hq⟩ := List.exists_mem_of_ne_nil f hne
    have := grid_apply (fun a b : ℝ => a - b) (merged_subset_grid ((mem_merged f g q.1).2 (.inl ⟨q, hq, rfl⟩)))
    intro h0
    have h0' : apply (fun a b => a - b) f g = [] := h0
    rw [h0'] at this
    cases this
  rw [C42_integral (sub f g) hasc h1 hne' p hp root]
  congr 2
  funext x
  rw [← habs, h2]

example : let f : Fn ℝ := [(0, 0), (2, 2)]; let g : Fn ℝ := [(0, 1), (2, 1)]
    Ascending f ∧ Ascending g ∧ (∀ x, InDomain f x ↔ InDomain g x) ∧ f ≠ [] := by
  refine ⟨by simp [Ascending], by simp [Ascending], fun x => by simp [InDomain], by simp⟩

end Aleph
