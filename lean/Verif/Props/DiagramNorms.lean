import Verif.Model.DiagramNorms
import Verif.Props.Kahan
import Mathlib.Analysis.SpecialFunctions.Pow.Asymptotics
import Mathlib.Analysis.SpecialFunctions.Pow.Continuity
import Mathlib.Algebra.Order.BigOperators.Group.List
import Mathlib.Data.List.Dedup

/-!
# C66, C67: norms and persistence values of diagrams
-/

namespace Aleph

open DiagramNorms

/-! ### C66: norms -/

theorem kahan_foldl {α β : Type} [Field α] (f : β → α) (l : List β) :
    ∀ k : Kahan α, k.c = 0 → (l.foldl (fun r p => r.add (f p)) k).sum = k.sum + (l.map f).sum := by
  induction l with
  | nil => intro k _; simp
  | cons a l ih =>
    intro k hk
    have h := kahan_step k hk (.add (f a))
    rw [List.foldl_cons, ih (k.add (f a)) h.1]
    have h2 : (k.add (f a)).sum = k.sum + f a := h.2
    rw [h2, List.map_cons, List.sum_cons, add_assoc]

/-- C66. The total persistence is the sum of the powers of the persistence values, weighted by the absolute creation values on
demand.  It does not depend on the order of the points, is additive, and points on the diagonal do not matter (for a non-zero
exponent). -/
theorem C66_total_persistence (D E : Diagram ℝ) (k : ℝ) :
    totalPersistence D k false = (D.points.map fun p => |p.2 - p.1| ^ k).sum ∧
    totalPersistence D k true = (D.points.map fun p => |p.1| * |p.2 - p.1| ^ k).sum ∧
    (D.points.Perm E.points → ∀ w, totalPersistence D k w = totalPersistence E k w) ∧
    (∀ w, totalPersistence (D.merge E) k w = totalPersistence D k w + totalPersistence E k w) ∧
    (k ≠ 0 → ∀ w, totalPersistence D.removeDiagonal k w = totalPersistence D k w) := by
  have key : ∀ (D : Diagram ℝ) (w : Bool), totalPersistence D k w =
      (D.points.map fun p => (if w then |p.1| else 1) * |p.2 - p.1| ^ k).sum := by
    intro D w
    cases w
    · simp only [totalPersistence, Bool.not_false, if_true, Bool.false_eq_true, if_false, one_mul]
      rw [kahan_foldl (fun p : ℝ × ℝ => |persistence p| ^ k) D.points _ rfl]
      simp [Kahan.init, persistence]
    · simp only [totalPersistence, Bool.not_true, Bool.false_eq_true, if_false, if_true]
      rw [kahan_foldl (fun p : ℝ × ℝ => |p.1| * |persistence p| ^ k) D.points _ rfl]
      simp [Kahan.init, persistence]
  refine ⟨by simp [key], by simp [key], ?_, ?_, ?_⟩
  · intro h w
    rw [key, key]
    exact (h.map _).sum_eq
  · intro w
    simp [key, Diagram.merge]
  · intro hk w
    rw [key, key]
    unfold Diagram.removeDiagonal
    simp only
    induction D.points with
    | nil => simp
    | cons p l ih =>
      by_cases hp : p.1 = p.2
      · rw [List.filter_cons_of_neg (by simp [hp]), ih, List.map_cons, List.sum_cons, hp, sub_self, abs_zero,
          Real.zero_rpow hk, mul_zero, zero_add]
      · rw [List.filter_cons_of_pos (by simp [hp]), List.map_cons, List.sum_cons, ih, List.map_cons, List.sum_cons]

theorem maxElement_spec (l : List ℝ) : ∀ m, (maxElement m l = m ∨ maxElement m l ∈ l) ∧ m ≤ maxElement m l ∧
    ∀ x ∈ l, x ≤ maxElement m l := by
  induction l with
  | nil => intro m; simp [maxElement]
  | cons x l ih =>
    intro m
    unfold maxElement
    split
    · next h =>
      obtain ⟨h1, h2, h3⟩ := ih x
      refine ⟨Or.inr ?_, h.le.trans h2, ?_⟩
      · rcases h1 with h1 | h1
        · rw [h1]; exact List.mem_cons_self
        · exact List.mem_cons_of_mem _ h1
      · intro y hy
        rcases List.mem_cons.1 hy with rfl | hy
        · exact h2
        · exact h3 y hy
    · next h =>
      obtain ⟨h1, h2, h3⟩ := ih m
      refine ⟨h1.imp id (List.mem_cons_of_mem _), h2, ?_⟩
      intro y hy
      rcases List.mem_cons.1 hy with rfl | hy
      · exact (not_lt.1 h).trans h2
      · exact h3 y hy

/-- C66. The infinity norm is the largest absolute persistence value, and zero for the empty diagram. -/
theorem C66_infinity_norm (D : Diagram ℝ) :
    (D.points = [] → infinityNorm D = 0) ∧
    (D.points ≠ [] → IsGreatest {x | ∃ p ∈ D.points, x = |p.2 - p.1|} (infinityNorm D)) := by
  constructor
  · intro h; simp [infinityNorm, h]
  · intro h
    unfold infinityNorm
    cases hp : D.points with
    | nil => exact absurd hp h
    | cons p l =>
      simp only [List.map_cons]
      obtain ⟨h1, h2, h3⟩ := maxElement_spec (l.map fun p => |persistence p|) |persistence p|
      constructor
      · rcases h1 with h1 | h1
        · exact ⟨p, List.mem_cons_self, h1⟩
        · obtain ⟨q, hq, he⟩ := List.mem_map.1 h1
          exact ⟨q, List.mem_cons_of_mem _ hq, he.symm⟩
      · rintro x ⟨q, hq, rfl⟩
        rcases List.mem_cons.1 hq with rfl | hq
        · exact h2
        · exact h3 _ (List.mem_map_of_mem hq)

theorem infinityNorm_nonneg (D : Diagram ℝ) : 0 ≤ infinityNorm D := by
  by_cases h : D.points = []
  · rw [(C66_infinity_norm D).1 h]
  · obtain ⟨p, _, hp⟩ := ((C66_infinity_norm D).2 h).1
    rw [hp]; exact abs_nonneg _

theorem le_infinityNorm (D : Diagram ℝ) {p : ℝ × ℝ} (hp : p ∈ D.points) : |p.2 - p.1| ≤ infinityNorm D :=
  ((C66_infinity_norm D).2 (List.ne_nil_of_mem hp)).2 ⟨p, hp, rfl⟩

theorem total_bounds (D : Diagram ℝ) {p : ℝ} (hp : 0 < p) :
    infinityNorm D ^ p ≤ totalPersistence D p false ∧
    totalPersistence D p false ≤ D.points.length * infinityNorm D ^ p := by
  rw [(C66_total_persistence D D p).1]
  have hnn : ∀ x ∈ D.points.map fun q => |q.2 - q.1| ^ p, 0 ≤ x := by
    intro x hx
    obtain ⟨q, _, rfl⟩ := List.mem_map.1 hx
    exact Real.rpow_nonneg (abs_nonneg _) _
  constructor
  · by_cases h : D.points = []
    · rw [(C66_infinity_norm D).1 h, Real.zero_rpow hp.ne']
      exact List.sum_nonneg hnn
    · obtain ⟨q, hq, he⟩ := ((C66_infinity_norm D).2 h).1
      rw [he]
      exact List.single_le_sum hnn _ (List.mem_map.2 ⟨q, hq, rfl⟩)
  · have := List.sum_le_card_nsmul (D.points.map fun q => |q.2 - q.1| ^ p) (infinityNorm D ^ p) (by
      intro x hx
      obtain ⟨q, hq, rfl⟩ := List.mem_map.1 hx
      exact Real.rpow_le_rpow (abs_nonneg _) (le_infinityNorm D hq) hp.le)
    simpa using this

/-- C66. For a positive exponent the `p`-norm of a diagram is the `p`-norm of its persistence values: it is non-negative, zero
exactly for diagrams whose points lie on the diagonal, absolutely homogeneous, its `p`-th power is the total persistence, and it
lies between the infinity norm and the infinity norm times the `p`-th root of the number of points.  The exponent zero is
rejected. -/
theorem C66_p_norm (D : Diagram ℝ) (p : ℝ) (hp : 0 < p) :
    (∀ w, pNorm D 0 w = none) ∧
    ∃ x, pNorm D p false = some x ∧ 0 ≤ x ∧ (x = 0 ↔ ∀ q ∈ D.points, q.1 = q.2) ∧
      x ^ p = (D.points.map fun q => |q.2 - q.1| ^ p).sum ∧
      infinityNorm D ≤ x ∧ x ≤ (D.points.length : ℝ) ^ (1 / p) * infinityNorm D ∧
      ∀ c : ℝ, pNorm ⟨D.dimension, D.points.map fun q => (c * q.1, c * q.2)⟩ p false = some (|c| * x) := by
  refine ⟨fun w => by simp [pNorm], ?_⟩
  have h1 := (C66_total_persistence D D p).1
  obtain ⟨h2, h3⟩ := total_bounds D hp
  have h0 : 0 ≤ totalPersistence D p false := le_trans (Real.rpow_nonneg (infinityNorm_nonneg D) _) h2
  have hpp : (1 / p) * p = 1 := by field_simp
  refine ⟨totalPersistence D p false ^ (1 / p), by simp [pNorm, hp.ne'], Real.rpow_nonneg h0 _, ?_, ?_, ?_, ?_, ?_⟩
  · rw [Real.rpow_eq_zero h0 (by positivity)]
    constructor
    · intro he q hq
      have : infinityNorm D ^ p ≤ 0 := he ▸ h2
      have h4 : infinityNorm D ^ p = 0 := le_antisymm this (Real.rpow_nonneg (infinityNorm_nonneg D) _)
      rw [Real.rpow_eq_zero (infinityNorm_nonneg D) hp.ne'] at h4
      have h5 := le_infinityNorm D hq
      rw [h4] at h5
      have := abs_eq_zero.1 (le_antisymm h5 (abs_nonneg _))
      linarith
    · intro h
      rw [h1]
      have : (D.points.map fun q => |q.2 - q.1| ^ p) = D.points.map fun _ => (0 : ℝ) := by
        apply List.map_congr_left
        intro q hq
        rw [h q hq, sub_self, abs_zero, Real.zero_rpow hp.ne']
      rw [this]; simp
  · rw [← Real.rpow_mul h0, hpp, Real.rpow_one, h1]
  · calc infinityNorm D = (infinityNorm D ^ p) ^ (1 / p) := by
          rw [← Real.rpow_mul (infinityNorm_nonneg D), mul_one_div_cancel hp.ne', Real.rpow_one]
      _ ≤ _ := Real.rpow_le_rpow (Real.rpow_nonneg (infinityNorm_nonneg D) _) h2 (by positivity)
  · calc _ ≤ (D.points.length * infinityNorm D ^ p) ^ (1 / p) := Real.rpow_le_rpow h0 h3 (by positivity)
      _ = _ := by
        rw [Real.mul_rpow (by positivity) (Real.rpow_nonneg (infinityNorm_nonneg D) _),
          ← Real.rpow_mul (infinityNorm_nonneg D), mul_one_div_cancel hp.ne', Real.rpow_one]
  · intro c
    have : totalPersistence ⟨D.dimension, D.points.map fun q => (c * q.1, c * q.2)⟩ p false =
        |c| ^ p * totalPersistence D p false := by
      rw [h1, (C66_total_persistence ⟨D.dimension, D.points.map fun q => (c * q.1, c * q.2)⟩ D p).1,
        List.map_map, ← List.sum_map_mul_left]
      congr 1
      apply List.map_congr_left
      intro q _
      simp only [Function.comp]
      rw [← mul_sub, abs_mul, Real.mul_rpow (abs_nonneg _) (abs_nonneg _)]
    simp only [pNorm, hp.ne', if_false]
    rw [this, Real.mul_rpow (by positivity) h0, ← Real.rpow_mul (abs_nonneg _), mul_one_div_cancel hp.ne',
      Real.rpow_one]

/-- C66. The infinity norm is the limit of the `p`-norms. -/
theorem C66_limit (D : Diagram ℝ) :
    Filter.Tendsto (fun p : ℝ => (pNorm D p false).getD 0) Filter.atTop (nhds (infinityNorm D)) := by
  by_cases h : D.points = []
  · rw [(C66_infinity_norm D).1 h]
    refine tendsto_const_nhds.congr' ?_
    filter_upwards [Filter.eventually_gt_atTop 0] with p hp
    obtain ⟨x, h1, h2, h3, _⟩ := (C66_p_norm D p hp).2
    rw [h1]
    exact (h3.2 (by simp [h])).symm
  · have hn : 0 < (D.points.length : ℝ) := by
      exact_mod_cast List.length_pos_of_ne_nil h
    have hlim : Filter.Tendsto (fun p : ℝ => (D.points.length : ℝ) ^ (1 / p) * infinityNorm D) Filter.atTop
        (nhds (infinityNorm D)) := by
      have h1 : Filter.Tendsto (fun p : ℝ => (D.points.length : ℝ) ^ (1 / p)) Filter.atTop (nhds 1) := by
        have h2 : Filter.Tendsto (fun p : ℝ => 1 / p) Filter.atTop (nhds 0) := by
          simpa using tendsto_inv_atTop_zero (𝕜 := ℝ)
        have h3 := (_root_.Real.continuousAt_const_rpow (b := 0) hn.ne').tendsto.comp h2
        simpa [Function.comp_def] using h3
      simpa using h1.mul_const (infinityNorm D)
    refine tendsto_of_tendsto_of_tendsto_of_le_of_le' tendsto_const_nhds hlim ?_ ?_
    · filter_upwards [Filter.eventually_gt_atTop 0] with p hp
      obtain ⟨x, h1, _, _, _, h5, _⟩ := (C66_p_norm D p hp).2
      rw [h1]; exact h5
    · filter_upwards [Filter.eventually_gt_atTop 0] with p hp
      obtain ⟨x, h1, _, _, _, _, h6, _⟩ := (C66_p_norm D p hp).2
      rw [h1]; exact h6

/-! ### C67: persistence values -/

section Extraction

variable {α : Type} [Field α] [LinearOrder α]

omit [Field α] in
theorem pointBefore_iff (p q : α × α) :
    pointBefore p q = true ↔ p.1 < q.1 ∨ (p.1 = q.1 ∧ p.2 < q.2) := by
  unfold pointBefore
  split
  · next h => simp [h]
  · next h => simp [h]

omit [Field α] in
theorem pointBefore_total (p q : α × α) (h : pointBefore p q = false) (h' : pointBefore q p = false) : p = q := by
  have h1 := mt (pointBefore_iff p q).2 (by simp [h])
  have h2 := mt (pointBefore_iff q p).2 (by simp [h'])
  push Not at h1 h2
  have e1 : p.1 = q.1 := le_antisymm h2.1 h1.1
  exact Prod.ext e1 (le_antisymm (h2.2 e1.symm) (h1.2 e1))

omit [Field α] in
theorem pointBefore_trans (p q r : α × α) (h : pointBefore p q = true) (h' : pointBefore q r = true) :
    pointBefore p r = true := by
  rw [pointBefore_iff] at *
  rcases h with h | ⟨h1, h2⟩ <;> rcases h' with h' | ⟨h3, h4⟩
  · exact Or.inl (h.trans h')
  · exact Or.inl (h3 ▸ h)
  · exact Or.inl (h1 ▸ h')
  · exact Or.inr ⟨h1.trans h3, h2.trans h4⟩

omit [Field α] in
theorem uniqueCopy_spec (l : List (α × α)) (hl : l.Pairwise fun p q => pointBefore q p = false) :
    (uniqueCopy l).Pairwise (fun p q => pointBefore p q = true) ∧ ∀ p, p ∈ uniqueCopy l ↔ p ∈ l := by
  fun_induction uniqueCopy l with
  | case1 => simp
  | case2 p => simp
  | case3 p l ih =>
    obtain ⟨h1, h2⟩ := ih (List.pairwise_cons.1 hl).2
    refine ⟨h1, fun q => ?_⟩
    rw [h2]; simp
  | case4 p q l hne ih =>
    obtain ⟨g1, g2⟩ := List.pairwise_cons.1 hl
    obtain ⟨h1, h2⟩ := ih g2
    refine ⟨List.pairwise_cons.2 ⟨fun r hr => ?_, h1⟩, fun r => ?_⟩
    · rw [h2] at hr
      have hpq : pointBefore p q = true := by
        by_contra hn
        exact hne (pointBefore_total p q (by simpa using hn) (g1 q List.mem_cons_self))
      rcases List.mem_cons.1 hr with rfl | hr'
      · exact hpq
      · by_cases he : q = r
        · exact he ▸ hpq
        · have : pointBefore q r = true := by
            by_contra hn
            exact he (pointBefore_total q r (by simpa using hn) ((List.pairwise_cons.1 g2).1 r hr'))
          exact pointBefore_trans _ _ _ hpq this
    · rw [List.mem_cons, h2]; simp only [List.mem_cons]

omit [Field α] in
theorem sorted_points (l : List (α × α)) :
    (l.insertionSort fun p q => pointBefore q p = false).Pairwise fun p q => pointBefore q p = false := by
  have : Std.Total (fun p q : α × α => pointBefore q p = false) := ⟨fun p q => by
    by_contra h
    push Not at h
    simp only [ne_eq, Bool.not_eq_false] at h
    have := pointBefore_trans _ _ _ h.1 h.2
    rw [pointBefore_iff] at this
    simp at this⟩
  have : IsTrans (α × α) (fun p q => pointBefore q p = false) := ⟨fun p q r h1 h2 => by
    by_contra h
    simp only [Bool.not_eq_false] at h
    by_cases hq : pointBefore p q = true
    · have := pointBefore_trans _ _ _ h hq
      rw [this] at h2; cases h2
    · have := pointBefore_total p q (by simpa using hq) h1
      subst this
      rw [h] at h2; cases h2⟩
  exact List.pairwise_insertionSort _ _

omit [LinearOrder α] in
/-- Sum over a list grouped by its distinct elements. -/
theorem sum_by_count {β : Type} [b : BEq β] [LawfulBEq β] (f : β → α) (ps l : List β) (hn : ps.Nodup) (h : ∀ p, p ∈ ps ↔ p ∈ l) :
    (ps.map fun p => (l.count p : α) * f p).sum = (l.map f).sum := by
  classical
  have hb : b = instBEqOfDecidableEq := lawful_beq_subsingleton _ _
  subst hb
  have h1 : (ps.map fun p => (l.count p : α) * f p).sum = ∑ p ∈ ps.toFinset, (l.count p : α) * f p :=
    (List.sum_toFinset _ hn).symm
  have h2 : ps.toFinset = l.toFinset := by ext p; simp [h]
  rw [h1, h2, Finset.sum_list_map_count]
  simp [nsmul_eq_mul]

/-- C67. `weightedPersistence` writes one value for each distinct point, in lexicographic order of the points: its
multiplicity divided by the number of points, times its persistence.  The result does not depend on the order of the points, and
the sum of the values is the mean persistence. -/
theorem C67_weighted_persistence [CharZero α] (D : Diagram α) :
    ∃ ps : List (α × α), (ps.Pairwise fun p q => p.1 < q.1 ∨ (p.1 = q.1 ∧ p.2 < q.2)) ∧
      (∀ p, p ∈ ps ↔ p ∈ D.points) ∧
      weightedPersistence D =
        ps.map (fun p => (D.points.count p : α) / (D.points.length : α) * (p.2 - p.1)) ∧
      (D.points ≠ [] →
        (weightedPersistence D).sum = (D.points.map fun p => p.2 - p.1).sum / (D.points.length : α)) := by
  set s := D.points.insertionSort fun p q => pointBefore q p = false with hs
  have hp : s.Perm D.points := List.perm_insertionSort _ _
  obtain ⟨h1, h2⟩ := uniqueCopy_spec s (sorted_points D.points)
  have hv : weightedPersistence D =
      (uniqueCopy s).map (fun p => (D.points.count p : α) / (D.points.length : α) * (p.2 - p.1)) := by
    unfold weightedPersistence
    simp only [← hs, hp.length_eq, persistence]
    apply List.map_congr_left
    intro p _
    rw [hp.count_eq]
  refine ⟨uniqueCopy s, h1.imp fun h => (pointBefore_iff _ _).1 h, fun p => by rw [h2, hp.mem_iff], hv, ?_⟩
  intro h0
  have hl : (D.points.length : α) ≠ 0 := by
    simpa using h0
  rw [hv, eq_div_iff hl, ← List.sum_map_mul_right,
    ← sum_by_count (fun p : α × α => p.2 - p.1) (uniqueCopy s) D.points ?_ fun p => by rw [h2, hp.mem_iff]]
  · congr 1
    apply List.map_congr_left
    intro p _
    field_simp
  · refine h1.imp ?_
    rintro a b h rfl
    rw [pointBefore_iff] at h
    simp at h

/-- C67. `persistence` writes the persistence value of each point, in the order of the diagram. -/
theorem C67_persistence (D : Diagram ℝ) :
    (persistenceValues D false).length = D.points.length ∧ (persistenceValues D true).length = D.points.length ∧
    ∀ (i : ℕ) (p : ℝ × ℝ), D.points[i]? = some p → (persistenceValues D false)[i]? = some (p.2 - p.1) ∧
      (persistenceValues D true)[i]? = some |p.2 - p.1| := by
  refine ⟨by simp [persistenceValues], by simp [persistenceValues], fun i p h => ?_⟩
  simp [persistenceValues, h, persistence]

example : weightedPersistence (⟨0, [(1, 3), (0, 5), (1, 3), (1, 1)]⟩ : Diagram ℚ) = [5 / 4, 0, 1] := by
  decide +kernel

end Extraction

example : pNorm ⟨0, [(1, 4), (2, 6)]⟩ 2 false = some 5 := by
  obtain ⟨x, h1, h2, _, h4, _⟩ := (C66_p_norm ⟨0, [(1, 4), (2, 6)]⟩ 2 (by norm_num)).2
  rw [h1]
  have : x ^ (2 : ℝ) = 25 := by rw [h4]; norm_num
  rw [Real.rpow_two] at this
  have h5 : x = 5 := by nlinarith
  rw [h5]

end Aleph
