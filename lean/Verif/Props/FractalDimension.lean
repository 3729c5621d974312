import Verif.Model.FractalDimension
import Verif.Spec.FractalDimension
import Verif.Props.Statistics
import Verif.Props.RandomGraph
import Verif.Props.NearestNeighbours
import Mathlib.Tactic.LinearCombination

/-!
# Properties of the correlation dimension
-/

namespace Aleph.FractalDimension

open Spec

section Integral

/-- The number of entries with keys up to `t`. -/
noncomputable def below (m : List (ℝ × ℕ)) (t : ℝ) : ℕ := (m.map fun e => if e.1 ≤ t then e.2 else 0).sum

theorem below_increment (x : ℝ) (m : List (ℝ × ℕ)) (t : ℝ) : below (increment x m) t = below m t + if x ≤ t then 1 else 0 := by
  induction m with
  | nil => simp [increment, below]
  | cons e m ih =>
    obtain ⟨y, c⟩ := e
    rw [increment]
    unfold below at *
    split_ifs with h1 h3 h2 h3 h3 <;> simp only [List.map_cons, List.sum_cons] at *
    · simp [*]; omega
    · simp [*]
    · subst h2; simp [*]; omega
    · subst h2; simp [*]
    · rw [ih]; simp [*]; omega
    · rw [ih]; simp [*]

theorem mem_increment (x : ℝ) (m : List (ℝ × ℕ)) (t : ℝ) : t ∈ (increment x m).map Prod.fst ↔ t = x ∨ t ∈ m.map Prod.fst := by
  induction m with
  | nil => simp [increment]
  | cons e m ih =>
    obtain ⟨y, c⟩ := e
    rw [increment]
    split_ifs with h1 h2
    · simp
    · subst h2; simp
    · rw [List.map_cons, List.mem_cons, ih, List.map_cons, List.mem_cons]
      tauto

theorem increment_sorted (x : ℝ) (m : List (ℝ × ℕ)) (h : (m.map Prod.fst).Pairwise (· < ·)) : ((increment x m).map Prod.fst).Pairwise (· < ·) := by
  induction m with
  | nil => simp [increment]
  | cons e m ih =>
    obtain ⟨y, c⟩ := e
    rw [List.map_cons, List.pairwise_cons] at h
    rw [increment]
    split_ifs with h1 h2
    · rw [List.map_cons, List.pairwise_cons, List.map_cons, List.pairwise_cons]
      refine ⟨?_, h⟩
      intro z hz
      rcases List.mem_cons.1 hz with rfl | hz
      · exact h1
      · exact h1.trans (h.1 z hz)
    · rw [List.map_cons, List.pairwise_cons]
      exact h
    · rw [List.map_cons, List.pairwise_cons]
      refine ⟨?_, ih h.2⟩
      intro z hz
      rcases (mem_increment x m z).1 hz with rfl | hz
      · exact lt_of_le_of_ne (not_lt.1 h1) (Ne.symm h2)
      · exact h.1 z hz

theorem distances_spec (dist : ℕ → ℕ → ℝ) (l : List (ℕ × ℕ)) (m : List (ℝ × ℕ)) (hm : (m.map Prod.fst).Pairwise (· < ·)) :
    ((l.foldl (fun m q => increment (dist q.1 q.2) m) m).map Prod.fst).Pairwise (· < ·) ∧
    (∀ t, t ∈ (l.foldl (fun m q => increment (dist q.1 q.2) m) m).map Prod.fst ↔ t ∈ m.map Prod.fst ∨ ∃ q ∈ l, dist q.1 q.2 = t) ∧
    ∀ t, below (l.foldl (fun m q => increment (dist q.1 q.2) m) m) t = below m t + l.countP fun q => decide (dist q.1 q.2 ≤ t) := by
  induction l generalizing m with
  | nil => exact ⟨hm, by simp, by simp⟩
  | cons q l ih =>
    obtain ⟨h1, h2, h3⟩ := ih (increment (dist q.1 q.2) m) (increment_sorted _ _ hm)
    rw [List.foldl_cons]
    refine ⟨h1, ?_, ?_⟩
    · intro t
      rw [h2, mem_increment]
      constructor
      · rintro ((rfl | h) | ⟨r, hr, rfl⟩)
        · exact Or.inr ⟨q, by simp, rfl⟩
        · exact Or.inl h
        · exact Or.inr ⟨r, by simp [hr], rfl⟩
      · rintro (h | ⟨r, hr, rfl⟩)
        · exact Or.inl (Or.inr h)
        · rcases List.mem_cons.1 hr with rfl | hr
          · exact Or.inl (Or.inl rfl)
          · exact Or.inr ⟨r, hr, rfl⟩
    · intro t
      rw [h3, below_increment, List.countP_cons]
      by_cases h : dist q.1 q.2 ≤ t
      · simp [h]; omega
      · simp [h]

theorem below_zero {m : List (ℝ × ℕ)} {t : ℝ} (h : ∀ e ∈ m, t < e.1) : below m t = 0 := by
  unfold below
  rw [List.sum_eq_zero]
  intro x hx
  obtain ⟨e, he, rfl⟩ := List.mem_map.1 hx
  exact if_neg (not_le.2 (h e he))

theorem integralLoop_eq (n seen : ℕ) (m : List (ℝ × ℕ)) (hm : (m.map Prod.fst).Pairwise (· < ·)) :
    integralLoop n seen m = (m.filter fun e => decide (0 < e.1)).map fun e =>
      (e.1, ((seen + below m e.1 : ℕ) : ℝ) / (((n * (n - 1) : ℕ) : ℝ) * 0.5)) := by
  induction m generalizing seen with
  | nil => rfl
  | cons e m ih =>
    obtain ⟨d, c⟩ := e
    rw [List.map_cons, List.pairwise_cons] at hm
    have hlt : ∀ e ∈ m, d < e.1 := fun e he => hm.1 _ (List.mem_map_of_mem he)
    have htail : (m.filter fun e => decide (0 < e.1)).map (fun e =>
        (e.1, ((seen + c + below m e.1 : ℕ) : ℝ) / (((n * (n - 1) : ℕ) : ℝ) * 0.5))) =
        (m.filter fun e => decide (0 < e.1)).map fun e =>
        (e.1, ((seen + below ((d, c) :: m) e.1 : ℕ) : ℝ) / (((n * (n - 1) : ℕ) : ℝ) * 0.5)) := by
      refine List.map_congr_left fun e he => ?_
      have := hlt e (List.mem_filter.1 he).1
      have hb : below ((d, c) :: m) e.1 = c + below m e.1 := by
        unfold below
        rw [List.map_cons, List.sum_cons, if_pos this.le]
      rw [hb, add_assoc]
    have hhead : below ((d, c) :: m) d = c := by
      have h0 := below_zero hlt
      unfold below at *
      rw [List.map_cons, List.sum_cons, if_pos le_rfl, h0, add_zero]
    rw [integralLoop, ih _ hm.2, htail]
    by_cases hd : 0 < d
    · rw [if_pos hd, List.filter_cons_of_pos (by simpa using hd), List.map_cons, hhead]
    · rw [if_neg hd, List.filter_cons_of_neg (by simpa using hd)]

theorem choose_two_real (n : ℕ) : ((n * (n - 1) : ℕ) : ℝ) * 0.5 = (n.choose 2 : ℝ) := by
  have h : 2 * n.choose 2 = n * (n - 1) := by
    rw [Nat.choose_two_right]
    exact Nat.mul_div_cancel' (Nat.even_mul_pred_self n).two_dvd
  rw [← h]
  push_cast
  ring

theorem integral_eq (n : ℕ) (dist : ℕ → ℕ → ℝ) :
    ∃ m : List (ℝ × ℕ), (m.map Prod.fst).Pairwise (· < ·) ∧ (∀ t, t ∈ m.map Prod.fst ↔ ∃ q ∈ vertexPairs n, dist q.1 q.2 = t) ∧
      correlationDimensionIntegral n dist = ((m.filter fun e => decide (0 < e.1)).map Prod.fst,
        (m.filter fun e => decide (0 < e.1)).map fun e => pairFraction n dist e.1) := by
  classical
  obtain ⟨h1, h2, h3⟩ := distances_spec dist (DataDescriptors.pairs n) [] List.Pairwise.nil
  refine ⟨distances n dist, h1, ?_, ?_⟩
  · intro t
    unfold distances
    rw [h2, RandomGraph.vertexPairs_eq]
    simp only [List.map_nil, List.not_mem_nil, false_or, List.mem_toFinset]
    rfl
  · unfold correlationDimensionIntegral
    simp only
    rw [integralLoop_eq n 0 (distances n dist) h1, List.map_map, List.map_map]
    congr 1
    refine List.map_congr_left fun e _ => ?_
    simp only [Function.comp_apply]
    unfold pairFraction
    rw [choose_two_real, zero_add]
    congr 2
    unfold distances
    rw [h3]
    have hp : DataDescriptors.pairs n = RandomGraph.pairList n := rfl
    rw [hp, List.countP_eq_length_filter, ← List.toFinset_card_of_nodup ((RandomGraph.pairList_nodup n).filter _), List.toFinset_filter,
      ← RandomGraph.vertexPairs_eq]
    simp [below]

/-- C94. The sequence contains every positive distance exactly once, in ascending order, with the fraction of all pairs whose distance is not
greater. -/
theorem _root_.Aleph.C94_integral (n : ℕ) (dist : ℕ → ℕ → ℝ) :
    (correlationDimensionIntegral n dist).1.Pairwise (· < ·) ∧
    (∀ t, t ∈ (correlationDimensionIntegral n dist).1 ↔ 0 < t ∧ ∃ q ∈ vertexPairs n, dist q.1 q.2 = t) ∧
    (correlationDimensionIntegral n dist).2 = (correlationDimensionIntegral n dist).1.map (pairFraction n dist) := by
  obtain ⟨m, h1, h2, h3⟩ := integral_eq n dist
  rw [h3]
  refine ⟨?_, ?_, ?_⟩
  · exact h1.sublist (List.filter_sublist.map _)
  · intro t
    simp only [List.mem_map, List.mem_filter, decide_eq_true_eq]
    rw [← h2, List.mem_map]
    constructor
    · rintro ⟨e, ⟨he, hp⟩, rfl⟩
      exact ⟨hp, e, he, rfl⟩
    · rintro ⟨hp, e, he, rfl⟩
      exact ⟨e, ⟨he, hp⟩, rfl⟩
  · simp only
    rw [List.map_map]
    rfl

theorem card_vertexPairs (n : ℕ) : (vertexPairs n).card = n.choose 2 := by
  rw [← RandomGraph.length_pairList]
  unfold RandomGraph.pairList
  rw [List.length_flatMap]
  have h : (List.range n).map (fun i => ((RandomGraph.others n i).map fun j => (i, j)).length) = (List.range n).map fun i => n - 1 - i := by
    refine List.map_congr_left fun i _ => ?_
    rw [List.length_map]
    unfold RandomGraph.others
    rw [List.length_range']
    omega
  rw [h, Nat.choose_two_right, ← Finset.sum_range_id, ← Finset.sum_range_reflect, ← List.sum_toFinset _ List.nodup_range, List.toFinset_range]

/-- C94. The fractions are positive, at most one, strictly increasing, and the last one is one. -/
theorem _root_.Aleph.C94_fractions (n : ℕ) (dist : ℕ → ℕ → ℝ) :
    (correlationDimensionIntegral n dist).2.Pairwise (· < ·) ∧ (∀ y ∈ (correlationDimensionIntegral n dist).2, 0 < y ∧ y ≤ 1) ∧
    ((correlationDimensionIntegral n dist).2 ≠ [] → (correlationDimensionIntegral n dist).2.getLast? = some 1) := by
  classical
  obtain ⟨h1, h2, h3⟩ := C94_integral n dist
  have hpos : ∀ t ∈ (correlationDimensionIntegral n dist).1, (0 : ℝ) < (n.choose 2 : ℝ) := by
    intro t ht
    obtain ⟨_, q, hq, _⟩ := (h2 t).1 ht
    rw [← card_vertexPairs]
    exact_mod_cast Finset.card_pos.2 ⟨q, hq⟩
  have hle : ∀ t, ((vertexPairs n).filter fun q => dist q.1 q.2 ≤ t).card ≤ n.choose 2 := by
    intro t
    rw [← card_vertexPairs]
    exact Finset.card_filter_le _ _
  refine ⟨?_, ?_, ?_⟩
  · rw [h3, List.pairwise_map]
    refine h1.imp_of_mem ?_
    intro s t _ ht hst
    unfold pairFraction
    refine div_lt_div_of_pos_right ?_ (hpos t ht)
    rw [Nat.cast_lt]
    refine Finset.card_lt_card ⟨?_, ?_⟩
    · intro q hq
      rw [Finset.mem_filter] at hq ⊢
      exact ⟨hq.1, hq.2.trans hst.le⟩
    · intro hsub
      obtain ⟨_, q, hq, he⟩ := (h2 t).1 ht
      have := hsub (Finset.mem_filter.2 ⟨hq, he.le⟩)
      rw [Finset.mem_filter, he] at this
      exact absurd this.2 (not_le.2 hst)
  · intro y hy
    rw [h3] at hy
    obtain ⟨t, ht, rfl⟩ := List.mem_map.1 hy
    obtain ⟨_, q, hq, he⟩ := (h2 t).1 ht
    unfold pairFraction
    constructor
    · refine div_pos ?_ (hpos t ht)
      exact_mod_cast Finset.card_pos.2 ⟨q, Finset.mem_filter.2 ⟨hq, he.le⟩⟩
    · rw [div_le_one (hpos t ht)]
      exact_mod_cast hle t
  · intro hne
    rw [h3] at hne ⊢
    rw [List.getLast?_map]
    have hne' : (correlationDimensionIntegral n dist).1 ≠ [] := fun h => hne (by rw [h]; rfl)
    rw [List.getLast?_eq_getLast_of_ne_nil hne', Option.map_some, Option.some_inj]
    set t := (correlationDimensionIntegral n dist).1.getLast hne' with ht
    have htm : t ∈ (correlationDimensionIntegral n dist).1 := List.getLast_mem hne'
    have hall : ∀ q ∈ vertexPairs n, dist q.1 q.2 ≤ t := by
      intro q hq
      by_cases h0 : 0 < dist q.1 q.2
      · have hm := (h2 _).2 ⟨h0, q, hq, rfl⟩
        rw [← List.dropLast_append_getLast hne'] at hm h1
        rcases List.mem_append.1 hm with hm | hm
        · exact ((List.pairwise_append.1 h1).2.2 _ hm _ (by rw [ht]; simp)).le
        · rw [List.mem_singleton] at hm
          exact hm.le
      · exact (not_lt.1 h0).trans ((h2 t).1 htm).1.le
    unfold pairFraction
    rw [Finset.filter_true_of_mem hall, card_vertexPairs, div_self (hpos t htm).ne']

end Integral

section Regression

theorem residual_sum (l : List (ℝ × ℝ)) (a k mx my : ℝ) :
    (l.map fun p => ((p.2 - my) - a * (p.1 - mx) + k) ^ 2).sum =
      (l.map fun p => (p.2 - my) ^ 2).sum + a ^ 2 * (l.map fun p => (p.1 - mx) ^ 2).sum + l.length * k ^ 2
        - 2 * a * (l.map fun p => (p.1 - mx) * (p.2 - my)).sum + 2 * k * (l.map fun p => p.2 - my).sum - 2 * a * k * (l.map fun p => p.1 - mx).sum := by
  induction l with
  | nil => simp
  | cons p l ih =>
    simp only [List.map_cons, List.sum_cons, List.length_cons, Nat.cast_add, Nat.cast_one]
    rw [ih]
    ring

theorem sum_dev {l : List ℝ} (h : l ≠ []) : (l.map fun x => x - mean l).sum = 0 := by
  have := Statistics.sum_affine (fun x : ℝ => x) 1 (-mean l) l
  simp only [one_mul, List.map_id'] at this
  simp only [sub_eq_add_neg]
  rw [this, ← Statistics.mean_spec h]
  ring

/-- The covariance divided by the variance is the unique slope of a line of best fit. -/
theorem slope_unique {X Y : List ℝ} (h2 : 2 ≤ X.length) (hl : X.length = Y.length) (hc : ¬Constant X) (D : ℝ) :
    IsRegressionSlope X Y D ↔ D = covariance X Y / variance X := by
  have hX : X ≠ [] := by rintro rfl; simp at h2
  have hY : Y ≠ [] := by rintro rfl; simp only [List.length_nil] at hl; omega
  have hn : (0 : ℝ) < (X.length : ℝ) - 1 := by
    have : (2 : ℝ) ≤ X.length := by exact_mod_cast h2
    linarith
  obtain ⟨_, hv0, hvz, _⟩ := (C85_variance X).2 h2
  have hvar : 0 < variance X := lt_of_le_of_ne hv0 fun h => hc (hvz.1 h.symm)
  set l := X.zip Y with hldef
  have hlen : l.length = X.length := by rw [hldef, List.length_zip, ← hl, min_self]
  have hfst : l.map Prod.fst = X := List.map_fst_zip hl.le
  have hsnd : l.map Prod.snd = Y := List.map_snd_zip hl.ge
  have hmapf : ∀ f : ℝ → ℝ, (l.map fun p => f p.1) = X.map f := by
    intro f
    conv_rhs => rw [← hfst, List.map_map]
    rfl
  have hmaps : ∀ f : ℝ → ℝ, (l.map fun p => f p.2) = Y.map f := by
    intro f
    conv_rhs => rw [← hsnd, List.map_map]
    rfl
  set Sxx := (X.map fun x => (x - mean X) ^ 2).sum with hSxx
  set Sxy := (l.map fun p => (p.1 - mean X) * (p.2 - mean Y)).sum with hSxy
  set Syy := (Y.map fun x => (x - mean Y) ^ 2).sum with hSyy
  have hR : ∀ a b, squaredResiduals X Y a b = Syy + a ^ 2 * Sxx + X.length * (mean Y - a * mean X - b) ^ 2 - 2 * a * Sxy := by
    intro a b
    have := residual_sum l a (mean Y - a * mean X - b) (mean X) (mean Y)
    rw [hmapf fun x => (x - mean X) ^ 2, hmaps fun x => (x - mean Y) ^ 2, hmapf fun x => x - mean X, hmaps fun x => x - mean Y, sum_dev hX,
      sum_dev hY, hlen, ← hSxx, ← hSyy, ← hSxy] at this
    unfold squaredResiduals
    rw [← hldef]
    have he : (fun p : ℝ × ℝ => (p.2 - (a * p.1 + b)) ^ 2) =
        fun p => (p.2 - mean Y - a * (p.1 - mean X) + (mean Y - a * mean X - b)) ^ 2 := by
      funext p
      ring
    rw [he, this]
    ring
  have hxx : 0 < Sxx := by
    have : Sxx = variance X * ((X.length : ℝ) - 1) := by
      unfold variance
      rw [div_mul_cancel₀ _ hn.ne']
    rw [this]
    positivity
  have hD : covariance X Y / variance X = Sxy / Sxx := by
    unfold covariance variance
    rw [← hldef, ← hSxy, ← hSxx]
    field_simp
  rw [hD]
  set D0 := Sxy / Sxx with hD0
  have hDS : Sxy = D0 * Sxx := by rw [hD0, div_mul_cancel₀ _ hxx.ne']
  have hR0 : squaredResiduals X Y D0 (mean Y - D0 * mean X) = Syy - D0 ^ 2 * Sxx := by
    rw [hR, hDS]
    ring
  have hRd : ∀ a b, squaredResiduals X Y a b = (Syy - D0 ^ 2 * Sxx) + (a - D0) ^ 2 * Sxx + X.length * (mean Y - a * mean X - b) ^ 2 := by
    intro a b
    rw [hR, hDS]
    ring
  constructor
  · rintro ⟨b, hb⟩
    have h := hb D0 (mean Y - D0 * mean X)
    rw [hR0, hRd] at h
    have h1 : 0 ≤ (X.length : ℝ) * (mean Y - D * mean X - b) ^ 2 := by positivity
    have h3 : (D - D0) ^ 2 * Sxx ≤ 0 := by linarith
    have h4 : (D - D0) ^ 2 ≤ 0 := by
      by_contra hc
      push Not at hc
      have := mul_pos hc hxx
      linarith
    have h5 : (D - D0) ^ 2 = 0 := le_antisymm h4 (sq_nonneg _)
    have := pow_eq_zero_iff (two_ne_zero) |>.1 h5
    linarith
  · intro h
    rw [h]
    refine ⟨mean Y - D0 * mean X, fun a b => ?_⟩
    rw [hR0, hRd a b]
    have h1 : 0 ≤ (X.length : ℝ) * (mean Y - a * mean X - b) ^ 2 := by positivity
    have h3 : 0 ≤ (a - D0) ^ 2 * Sxx := by positivity
    linarith

theorem logs {x : List ℝ} (h : ∀ t ∈ x, 0 < t) : x.mapM log = some (x.map Real.log) := by
  refine mapM_eq_some _ _ _ fun t ht => ?_
  unfold log
  rw [if_pos (h t ht)]

theorem constant_log {x : List ℝ} (h : ∀ t ∈ x, 0 < t) : Constant (x.map Real.log) ↔ Constant x := by
  constructor
  · intro hc s hs t ht
    exact Real.log_injOn_pos (h s hs) (h t ht) (hc _ (List.mem_map_of_mem hs) _ (List.mem_map_of_mem ht))
  · intro hc a ha b hb
    obtain ⟨s, hs, rfl⟩ := List.mem_map.1 ha
    obtain ⟨t, ht, rfl⟩ := List.mem_map.1 hb
    rw [hc s hs t ht]

/-- C95. The dimension is the slope of the unique line of best fit in the log-log plot.  Sequences of different lengths throw an exception; less
than two values, or only one abscissa, result in an undefined value. -/
theorem _root_.Aleph.C95_dimension (x y : List ℝ) :
    (x.length ≠ y.length → correlationDimension x y = .error ()) ∧
    (x.length = y.length → (∀ t ∈ x, 0 < t) → (∀ t ∈ y, 0 < t) →
      (x.length < 2 ∨ Constant x → correlationDimension x y = .ok none) ∧
      (2 ≤ x.length → ¬Constant x → ∃ D, correlationDimension x y = .ok (some D) ∧
        ∀ D', IsRegressionSlope (x.map Real.log) (y.map Real.log) D' ↔ D' = D)) := by
  constructor
  · intro h
    unfold correlationDimension
    rw [if_pos h]
  intro hl hx hy
  have hun : correlationDimension x y = (do
      let cov ← Statistics.sampleCovariance (x.map Real.log) (y.map Real.log)
      let var := Statistics.sampleVariance (x.map Real.log)
      .ok do
        let cov ← cov
        let var ← var
        if var = 0 then none else some (cov / var)) := by
    unfold correlationDimension
    rw [if_neg (by simpa using hl), logs hx, logs hy]
  have hll : (x.map Real.log).length = (y.map Real.log).length := by rw [List.length_map, List.length_map, hl]
  rw [hun]
  by_cases h2 : 2 ≤ x.length
  · have h2' : 2 ≤ (x.map Real.log).length := by rw [List.length_map]; exact h2
    rw [((C85_covariance _ _).2.2 h2' hll).1, Statistics.variance_some h2']
    obtain ⟨_, _, hvz, _⟩ := (C85_variance _).2 h2'
    constructor
    · rintro (h | h)
      · omega
      · have := hvz.2 ((constant_log hx).2 h)
        show Except.ok _ = _
        simp [this]
    · intro _ hc
      have hc' : ¬Constant (x.map Real.log) := fun h => hc ((constant_log hx).1 h)
      refine ⟨covariance (x.map Real.log) (y.map Real.log) / variance (x.map Real.log), ?_, fun D' => slope_unique h2' hll hc' D'⟩
      show Except.ok _ = _
      have hv : variance (x.map Real.log) ≠ 0 := fun h => hc' (hvz.1 h)
      simp [hv]
  · have h2' : (x.map Real.log).length < 2 := by rw [List.length_map]; omega
    rw [(C85_covariance _ _).1 (Or.inl h2')]
    exact ⟨fun _ => rfl, fun h => absurd h h2⟩

/-- C95. Values that follow a power law have its exponent as dimension. -/
theorem _root_.Aleph.C95_power_law (x : List ℝ) (hx : ∀ t ∈ x, 0 < t) (h2 : 2 ≤ x.length) (hc : ¬Constant x) (C D : ℝ) (hC : 0 < C) :
    correlationDimension x (x.map fun t => C * t ^ D) = .ok (some D) := by
  have hpos : ∀ t ∈ x.map fun t => C * t ^ D, 0 < t := by
    intro t ht
    obtain ⟨s, hs, rfl⟩ := List.mem_map.1 ht
    exact mul_pos hC (Real.rpow_pos_of_pos (hx s hs) D)
  obtain ⟨D', h3, h4⟩ := ((C95_dimension x (x.map fun t => C * t ^ D)).2 (by simp) hx hpos).2 h2 hc
  rw [h3, (h4 D).1]
  refine ⟨Real.log C, fun a b => ?_⟩
  have h0 : squaredResiduals (x.map Real.log) ((x.map fun t => C * t ^ D).map Real.log) D (Real.log C) = 0 := by
    unfold squaredResiduals
    rw [List.map_map, List.zip_map', List.map_map, List.sum_eq_zero]
    intro r hr
    obtain ⟨t, ht, rfl⟩ := List.mem_map.1 hr
    simp only [Function.comp_apply]
    rw [Real.log_mul hC.ne' (Real.rpow_pos_of_pos (hx t ht) D).ne', Real.log_rpow (hx t ht)]
    ring
  rw [h0]
  unfold squaredResiduals
  exact Statistics.sum_nonneg _ _ fun _ _ => sq_nonneg _

theorem residual_shift (x y : List ℝ) (s t a b : ℝ) :
    squaredResiduals (x.map fun v => s + v) (y.map fun v => t + v) a b = squaredResiduals x y a (b + a * s - t) := by
  unfold squaredResiduals
  rw [List.zip_map, List.map_map]
  congr 1
  refine List.map_congr_left fun p _ => ?_
  simp only [Function.comp_apply, Prod.map_fst, Prod.map_snd]
  ring

/-- C95. The dimension does not depend on the units. -/
theorem _root_.Aleph.C95_scaling (x y : List ℝ) (hx : ∀ t ∈ x, 0 < t) (hy : ∀ t ∈ y, 0 < t) (s t : ℝ) (hs : 0 < s) (ht : 0 < t) :
    correlationDimension (x.map fun v => s * v) (y.map fun v => t * v) = correlationDimension x y := by
  obtain ⟨h1, h2⟩ := C95_dimension x y
  obtain ⟨h1', h2'⟩ := C95_dimension (x.map fun v => s * v) (y.map fun v => t * v)
  by_cases hl : x.length = y.length
  · have hx' : ∀ u ∈ x.map fun v => s * v, 0 < u := by
      intro u hu
      obtain ⟨v, hv, rfl⟩ := List.mem_map.1 hu
      exact mul_pos hs (hx v hv)
    have hy' : ∀ u ∈ y.map fun v => t * v, 0 < u := by
      intro u hu
      obtain ⟨v, hv, rfl⟩ := List.mem_map.1 hu
      exact mul_pos ht (hy v hv)
    have hcc : Constant (x.map fun v => s * v) ↔ Constant x := by
      have := Statistics.constant_affine (l := x) hs.ne' 0
      simpa using this
    obtain ⟨a1, a2⟩ := h2 hl hx hy
    obtain ⟨a1', a2'⟩ := h2' (by simpa using hl) hx' hy'
    by_cases hb : x.length < 2 ∨ Constant x
    · rw [a1 hb, a1' (by rw [hcc, List.length_map]; exact hb)]
    · push Not at hb
      obtain ⟨D, e1, e2⟩ := a2 hb.1 hb.2
      obtain ⟨D', e1', e2'⟩ := a2' (by simpa using hb.1) (by rw [hcc]; exact hb.2)
      rw [e1, e1']
      have hlog : (x.map fun v => s * v).map Real.log = (x.map Real.log).map fun v => Real.log s + v := by
        rw [List.map_map, List.map_map]
        refine List.map_congr_left fun v hv => ?_
        simp only [Function.comp_apply]
        exact Real.log_mul hs.ne' (hx v hv).ne'
      have hlog' : (y.map fun v => t * v).map Real.log = (y.map Real.log).map fun v => Real.log t + v := by
        rw [List.map_map, List.map_map]
        refine List.map_congr_left fun v hv => ?_
        simp only [Function.comp_apply]
        exact Real.log_mul ht.ne' (hy v hv).ne'
      rw [hlog, hlog'] at e2'
      obtain ⟨b, hb'⟩ := (e2 D).2 rfl
      have : D = D' := by
        refine (e2' D).1 ⟨b - D * Real.log s + Real.log t, fun a c => ?_⟩
        rw [residual_shift, residual_shift]
        have : b - D * Real.log s + Real.log t + D * Real.log s - Real.log t = b := by ring
        rw [this]
        exact hb' _ _
      rw [this]
  · rw [h1 hl, h1' (by simpa using hl)]

theorem strict_unique {l l' : List ℝ} (h : l.Pairwise (· < ·)) (h' : l'.Pairwise (· < ·)) (he : ∀ t, t ∈ l ↔ t ∈ l') : l = l' := by
  have hp : l.Perm l' := (List.perm_ext_iff_of_nodup (h.imp ne_of_lt) (h'.imp ne_of_lt)).2 he
  exact hp.eq_of_pairwise (le := (· < ·)) (fun a b _ _ h1 h2 => absurd h2 (not_lt.2 h1.le)) h h'

/-- C95. The dimension of a point cloud does not change if the point cloud is scaled. -/
theorem _root_.Aleph.C95_scaled_points (n : ℕ) (dist : ℕ → ℕ → ℝ) (s : ℝ) (hs : 0 < s) :
    correlationDimension (correlationDimensionIntegral n fun i j => s * dist i j).1 (correlationDimensionIntegral n fun i j => s * dist i j).2 =
      correlationDimension (correlationDimensionIntegral n dist).1 (correlationDimensionIntegral n dist).2 := by
  obtain ⟨a1, a2, a3⟩ := C94_integral n dist
  obtain ⟨b1, b2, b3⟩ := C94_integral n fun i j => s * dist i j
  have hx : (correlationDimensionIntegral n fun i j => s * dist i j).1 = (correlationDimensionIntegral n dist).1.map fun v => s * v := by
    refine strict_unique b1 ?_ ?_
    · rw [List.pairwise_map]
      exact a1.imp fun h => mul_lt_mul_of_pos_left h hs
    · intro t
      rw [b2, List.mem_map]
      constructor
      · rintro ⟨h0, q, hq, rfl⟩
        exact ⟨_, (a2 _).2 ⟨(mul_pos_iff_of_pos_left hs).1 h0, q, hq, rfl⟩, rfl⟩
      · rintro ⟨v, hv, rfl⟩
        obtain ⟨h0, q, hq, rfl⟩ := (a2 v).1 hv
        exact ⟨mul_pos hs h0, q, hq, rfl⟩
  have hf : ∀ v, pairFraction n (fun i j => s * dist i j) (s * v) = pairFraction n dist v := by
    intro v
    unfold pairFraction
    simp only [mul_le_mul_iff_right₀ hs]
  have hy : (correlationDimensionIntegral n fun i j => s * dist i j).2 = (correlationDimensionIntegral n dist).2.map fun v => 1 * v := by
    rw [b3, hx, a3, List.map_map, List.map_map]
    refine List.map_congr_left fun v _ => ?_
    simp only [Function.comp_apply, one_mul]
    exact hf v
  rw [hx, hy]
  exact C95_scaling _ _ (fun t ht => ((a2 t).1 ht).1) (fun y hy => ((C94_fractions n dist).2.1 y hy).1) s 1 hs one_pos

/-- Points of a plane: the number of points grows with the square of the distance. -/
example : correlationDimension [1, 2, 3] ([1, 2, 3].map fun t => 5 * t ^ (2 : ℝ)) = .ok (some 2) := by
  refine C95_power_law _ ?_ (by simp) ?_ 5 2 (by norm_num)
  · intro t ht
    simp only [List.mem_cons, List.not_mem_nil, or_false] at ht
    rcases ht with rfl | rfl | rfl <;> norm_num
  · intro h
    have := h 1 (by simp) 2 (by simp)
    norm_num at this

end Regression

end Aleph.FractalDimension
