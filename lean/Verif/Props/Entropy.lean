import Verif.Model.Entropy
import Verif.Spec.Entropy
import Verif.Lemmas.Shannon
import Verif.Props.Kahan
import Verif.Props.NearestNeighbours
import Verif.Props.MatrixReader
import Verif.Props.AdjacencyMatrixReader

/-!
# C78, C79: entropies of persistence diagrams
-/

namespace Aleph.Entropy

open Spec

/-! ### Persistent entropy -/

theorem accumulate_eq (l : List ℝ) : Kahan.accumulateSorted l 0 = l.sum := by
  rw [(C49_accumulate_sorted l l (List.Perm.refl _) 0).1, zero_add]

theorem persistentEntropy_some (D : Diagram ℝ)
    (h : ∀ p ∈ D.points, 0 < (p.2 - p.1) / (D.points.map fun p => p.2 - p.1).sum) :
    persistentEntropy D = some (shannon (D.points.map fun p => p.2 - p.1)) := by
  unfold persistentEntropy
  have hp : (DiagramNorms.persistence : ℝ × ℝ → ℝ) = fun p => p.2 - p.1 := rfl
  simp only [accumulate_eq, hp]
  rw [mapM_eq_some _ (fun v => v / (D.points.map fun p => p.2 - p.1).sum *
    Real.logb 2 (v / (D.points.map fun p => p.2 - p.1).sum))]
  · simp only [Option.map_some]
    rfl
  · intro v hv
    obtain ⟨p, hp, rfl⟩ := List.mem_map.1 hv
    have hpos := h p hp
    have hne : (D.points.map fun p => p.2 - p.1).sum ≠ 0 := by
      intro h0
      rw [h0, div_zero] at hpos
      exact lt_irrefl _ hpos
    simp only [quotient, if_neg hne, Option.bind_some, stdTerm, if_pos hpos]

theorem persistentEntropy_none (D : Diagram ℝ) (p : ℝ × ℝ) (hp : p ∈ D.points)
    (h : (p.2 - p.1) / (D.points.map fun p => p.2 - p.1).sum ≤ 0) : persistentEntropy D = none := by
  unfold persistentEntropy
  have hpe : (DiagramNorms.persistence : ℝ × ℝ → ℝ) = fun p => p.2 - p.1 := rfl
  simp only [accumulate_eq, hpe]
  rw [MatrixReader.mapM_none]
  · rfl
  · refine ⟨p.2 - p.1, List.mem_map_of_mem (f := fun p : ℝ × ℝ => p.2 - p.1) hp, ?_⟩
    by_cases h0 : (D.points.map fun p => p.2 - p.1).sum = 0
    · simp [quotient, h0]
    · simp only [quotient, if_neg h0, Option.bind_some, stdTerm, if_neg (not_lt.2 h)]

theorem sign_cases (D : Diagram ℝ) :
    (∀ p ∈ D.points, 0 < (p.2 - p.1) / (D.points.map fun p => p.2 - p.1).sum) ↔
    (∀ p ∈ D.points, p.1 < p.2) ∨ (∀ p ∈ D.points, p.2 < p.1) := by
  constructor
  · intro h
    rcases lt_or_ge 0 (D.points.map fun p => p.2 - p.1).sum with h0 | h0
    · left
      intro p hp
      have h1 := h p hp
      rw [div_pos_iff_of_pos_right h0] at h1
      linarith
    · right
      intro p hp
      have h1 := h p hp
      rcases h0.eq_or_lt with h0 | h0
      · rw [h0, div_zero] at h1
        exact absurd h1 (lt_irrefl _)
      · rcases div_pos_iff.1 h1 with h2 | h2 <;> linarith [h2.1, h2.2]
  · rintro (h | h) p hp
    · apply div_pos (sub_pos.2 (h p hp))
      apply List.sum_pos
      · intro v hv
        obtain ⟨q, hq, rfl⟩ := List.mem_map.1 hv
        exact sub_pos.2 (h q hq)
      · exact List.ne_nil_of_mem (List.mem_map_of_mem hp)
    · apply div_pos_of_neg_of_neg (sub_neg.2 (h p hp))
      have : 0 < (D.points.map fun p => -(p.2 - p.1)).sum := by
        apply List.sum_pos
        · intro v hv
          obtain ⟨q, hq, rfl⟩ := List.mem_map.1 hv
          simpa using h q hq
        · exact List.ne_nil_of_mem (List.mem_map_of_mem hp)
      have hneg : (D.points.map fun p => -(p.2 - p.1)).sum = -(D.points.map fun p => p.2 - p.1).sum := by
        rw [List.sum_neg, List.map_map]; rfl
      rw [hneg] at this
      linarith

theorem shannon_abs (D : Diagram ℝ) (h : (∀ p ∈ D.points, p.1 < p.2) ∨ (∀ p ∈ D.points, p.2 < p.1)) :
    shannon (D.points.map fun p => p.2 - p.1) = shannon (D.points.map fun p => |p.2 - p.1|) := by
  rcases h with h | h
  · congr 1
    apply List.map_congr_left
    intro p hp
    rw [abs_of_pos (sub_pos.2 (h p hp))]
  · rw [← shannon_scale _ (c := -1) (by norm_num), List.map_map]
    congr 1
    apply List.map_congr_left
    intro p hp
    simp only [Function.comp]
    rw [abs_of_neg (sub_neg.2 (h p hp))]
    ring

/-- C78. The persistent entropy of a diagram whose points are all above the diagonal (or all below) is the Shannon entropy of the absolute
persistence values.  In all other cases the result is not a number.

Missing: points on the diagonal should not contribute; see `C78_diagonal_wrong`. -/
theorem _root_.Aleph.C78_entropy_partial (D : Diagram ℝ) :
    (((∀ p ∈ D.points, p.1 < p.2) ∨ (∀ p ∈ D.points, p.2 < p.1)) →
      persistentEntropy D = some (shannon (D.points.map fun p => |p.2 - p.1|))) ∧
    (¬ ((∀ p ∈ D.points, p.1 < p.2) ∨ (∀ p ∈ D.points, p.2 < p.1)) → persistentEntropy D = none) := by
  constructor
  · intro h
    rw [persistentEntropy_some D ((sign_cases D).2 h), shannon_abs D h]
  · intro h
    rw [← sign_cases] at h
    push Not at h
    obtain ⟨p, hp, h⟩ := h
    exact persistentEntropy_none D p hp h

/-- C78. The persistent entropy lies between zero and the logarithm of the number of points.  It is zero only for a single point, and
maximal exactly if all points have the same persistence. -/
theorem _root_.Aleph.C78_bounds (D : Diagram ℝ) (hne : D.points ≠ [])
    (h : (∀ p ∈ D.points, p.1 < p.2) ∨ (∀ p ∈ D.points, p.2 < p.1)) :
    ∃ H, persistentEntropy D = some H ∧ 0 ≤ H ∧ H ≤ Real.logb 2 D.points.length ∧ (H = 0 ↔ D.points.length = 1) ∧
      (H = Real.logb 2 D.points.length ↔ ∀ p ∈ D.points, ∀ q ∈ D.points, |p.2 - p.1| = |q.2 - q.1|) := by
  have h0 : ∀ x ∈ D.points.map (fun p => |p.2 - p.1|), 0 < x := by
    intro x hx
    obtain ⟨p, hp, rfl⟩ := List.mem_map.1 hx
    rw [abs_pos, sub_ne_zero]
    rcases h with h | h
    · exact (h p hp).ne'
    · exact (h p hp).ne
  have hS : 0 < (D.points.map (fun p => |p.2 - p.1|)).sum := List.sum_pos _ h0 (by simpa using hne)
  refine ⟨_, (C78_entropy_partial D).1 h, shannon_nonneg _ fun x hx => (h0 x hx).le, ?_, ?_, ?_⟩
  · have := shannon_le _ (fun x hx => (h0 x hx).le) hS
    simpa using this
  · rw [shannon_eq_zero_iff _ (fun x hx => (h0 x hx).le) hS, List.filter_eq_self.2, List.length_map]
    intro x hx
    simpa using (h0 x hx).ne'
  · have := shannon_eq_log_iff _ (fun x hx => (h0 x hx).le) hS
    rw [List.length_map] at this
    rw [this]
    constructor
    · intro h p hp q hq
      exact h _ (List.mem_map_of_mem (f := fun p : ℝ × ℝ => |p.2 - p.1|) hp) _
        (List.mem_map_of_mem (f := fun p : ℝ × ℝ => |p.2 - p.1|) hq)
    · intro h x hx y hy
      obtain ⟨p, hp, rfl⟩ := List.mem_map.1 hx
      obtain ⟨q, hq, rfl⟩ := List.mem_map.1 hy
      exact h p hp q hq

/-- C78. The persistent entropy depends neither on the order of the points, nor on shifts and scaling. -/
theorem _root_.Aleph.C78_invariant (D E : Diagram ℝ) (a b : ℝ) (ha : a ≠ 0)
    (h : E.points.Perm (D.points.map fun p => (a * p.1 + b, a * p.2 + b))) : persistentEntropy E = persistentEntropy D := by
  have hperm := h.map fun p : ℝ × ℝ => p.2 - p.1
  rw [List.map_map] at hperm
  have hf : ((fun p : ℝ × ℝ => p.2 - p.1) ∘ fun p : ℝ × ℝ => (a * p.1 + b, a * p.2 + b)) = fun p => a * (p.2 - p.1) := by
    funext p
    simp only [Function.comp]
    ring
  rw [hf] at hperm
  have hsum : (E.points.map fun p => p.2 - p.1).sum = a * (D.points.map fun p => p.2 - p.1).sum := by
    rw [hperm.sum_eq, List.sum_map_mul_left]
  have hq : ∀ p : ℝ × ℝ, ((a * p.2 + b) - (a * p.1 + b)) / (E.points.map fun p => p.2 - p.1).sum =
      (p.2 - p.1) / (D.points.map fun p => p.2 - p.1).sum := by
    intro p
    rw [hsum, show (a * p.2 + b) - (a * p.1 + b) = a * (p.2 - p.1) by ring, mul_div_mul_left _ _ ha]
  by_cases hD : ∀ p ∈ D.points, 0 < (p.2 - p.1) / (D.points.map fun p => p.2 - p.1).sum
  · rw [persistentEntropy_some D hD, persistentEntropy_some E]
    · rw [shannon_perm hperm]
      have := shannon_scale (D.points.map fun p => p.2 - p.1) ha
      rw [List.map_map] at this
      exact congrArg some this
    · intro p hp
      obtain ⟨q, hq', rfl⟩ := List.mem_map.1 (h.mem_iff.1 hp)
      simp only [hq]
      exact hD q hq'
  · push Not at hD
    obtain ⟨p, hp, hle⟩ := hD
    rw [persistentEntropy_none D p hp hle, persistentEntropy_none E (a * p.1 + b, a * p.2 + b)]
    · exact h.mem_iff.2 (List.mem_map_of_mem hp)
    · simp only [hq]
      exact hle

/-- C78 (violated). A single point on the diagonal makes the persistent entropy NaN, although points of zero persistence have
probability zero. -/
theorem _root_.Aleph.C78_diagonal_wrong (D : Diagram ℝ) (p : ℝ × ℝ) (hp : p ∈ D.points) (h : p.1 = p.2) :
    persistentEntropy D = none :=
  persistentEntropy_none D p hp (by rw [h]; simp)

/-- Four bars of equal length: two bits. -/
example : persistentEntropy ⟨0, [(0, 1), (1, 2), (2, 3), (3, 4)]⟩ = some 2 := by
  obtain ⟨H, h1, _, _, _, h2⟩ := C78_bounds ⟨0, [(0, 1), (1, 2), (2, 3), (3, 4)]⟩ (by simp) (Or.inl (by
    intro p hp
    fin_cases hp <;> norm_num))
  rw [h1, h2.2]
  · have : ((4 : ℕ) : ℝ) = 2 ^ (2 : ℝ) := by norm_num
    rw [List.length_cons, List.length_cons, List.length_cons, List.length_singleton]
    rw [show 1 + 1 + 1 + 1 = 4 from rfl, this, Real.logb_rpow (by norm_num) (by norm_num)]
  · intro p hp q hq
    fin_cases hp <;> fin_cases hq <;> norm_num

/-! ### Entropy of nearest neighbours -/

theorem distance_eq (D : Diagram ℝ) (i j : ℕ) (hi : i < D.points.length) (hj : j < D.points.length) :
    distance (makePointCloud D false) i j =
      √((D.points[i].1 - D.points[j].1) ^ 2 + (D.points[i].2 - D.points[j].2) ^ 2) := by
  unfold distance makePointCloud Distances.euclidean
  rw [List.getElem?_map, List.getElem?_map, List.getElem?_eq_getElem hi, List.getElem?_eq_getElem hj]
  simp only [Option.map_some, Option.getD_some, Bool.false_eq_true, if_false, Distances.single]
  congr 1
  ring

/-- C79. The entropy of nearest neighbours of a diagram with at least two points is the Shannon entropy of the squares of the
distances of the points to their nearest neighbours (which are proportional to the areas).  It is not a number if each point coincides
with another one.  A diagram with a single point leads to undefined behaviour. -/
theorem _root_.Aleph.C79_nearest_neighbours (sort : (ℕ → ℕ → Bool) → List ℕ → List ℕ) (hs : IsStdSort sort) (D : Diagram ℝ) :
    (D.points = [] → nearestNeighbourAreaEntropy sort D = some (some 0)) ∧
    (D.points.length = 1 → nearestNeighbourAreaEntropy sort D = none) ∧
    ∀ r : List ℝ, 2 ≤ D.points.length → r.length = D.points.length →
      (∀ (i : ℕ) (h1 : i < r.length) (h2 : i < D.points.length), IsLeast {x | ∃ (j : ℕ) (hj : j < D.points.length), j ≠ i ∧
        x = √((D.points[i].1 - D.points[j].1) ^ 2 + (D.points[i].2 - D.points[j].2) ^ 2)} r[i]) →
      ((∀ x ∈ r, x = 0) → nearestNeighbourAreaEntropy sort D = some none) ∧
      ((∃ x ∈ r, x ≠ 0) → nearestNeighbourAreaEntropy sort D = some (some (shannon (r.map fun x => x ^ 2)))) := by
  have hlen : (makePointCloud D false).length = D.points.length := by simp [makePointCloud]
  refine ⟨?_, ?_, ?_⟩
  · intro h
    unfold nearestNeighbourAreaEntropy
    simp only [hlen, h, List.length_nil]
    simp [NearestNeighbours.neighbourSearch, Kahan.accumulateSorted, Kahan.init]
  · intro h
    unfold nearestNeighbourAreaEntropy
    simp only [hlen]
    rw [C61_too_many sort _ _ 2 (by omega), if_neg (by omega)]
    rfl
  · intro r h2 hr hleast
    obtain ⟨res, hres, hresl, hspec⟩ := C61_k_nearest sort hs D.points.length (distance (makePointCloud D false)) 2 h2
    have hnn : res.mapM (fun r => r.2[1]?) = some r := by
      have hall : ∀ (i : ℕ) (h1 : i < res.length) (h3 : i < r.length), (res[i]).2[1]? = some r[i] := by
        intro i h1 h3
        have hi : i < D.points.length := by omega
        obtain ⟨k1, k2, k3, k4, k5, k6⟩ := hspec i h1
        generalize res[i] = e at *
        obtain ⟨ids, ds⟩ := e
        simp only at k1 k2 k3 k4 k5 k6 ⊢
        obtain ⟨a, b, rfl⟩ := List.length_eq_two.1 k1
        subst k4
        simp only [List.map_cons, List.map_nil, List.getElem?_cons_succ, List.getElem?_cons_zero, Option.some.injEq]
        have ha : a < D.points.length := k3 a (by simp)
        have hb : b < D.points.length := k3 b (by simp)
        have hab : a ≠ b := by simpa using k2
        have hle : distance (makePointCloud D false) i a ≤ distance (makePointCloud D false) i b := by simpa using k5
        have hnonneg : ∀ j, 0 ≤ distance (makePointCloud D false) i j := fun j => Real.sqrt_nonneg _
        have hself : distance (makePointCloud D false) i i = 0 := by
          rw [distance_eq D i i hi hi]; simp
        refine IsLeast.unique ?_ (hleast i h3 hi)
        have hzero : distance (makePointCloud D false) i b = 0 → ∃ c, c < D.points.length ∧ c ≠ i ∧
            distance (makePointCloud D false) i c = 0 := by
          intro h0
          by_cases hbi : b = i
          · refine ⟨a, ha, fun h => hab (h.trans hbi.symm), ?_⟩
            exact le_antisymm (hle.trans h0.le) (hnonneg a)
          · exact ⟨b, hb, hbi, h0⟩
        by_cases hai : a = i
        · have hbi : b ≠ i := fun h => hab (hai.trans h.symm)
          constructor
          · exact ⟨b, hb, hbi, distance_eq D i b hi hb⟩
          · rintro x ⟨j, hj, hji, rfl⟩
            rw [← distance_eq D i j hi hj]
            by_cases hjb : j = b
            · rw [hjb]
            · exact k6 b (by simp) j hj (by simp [hai, hji, hjb])
        · have hb0 : distance (makePointCloud D false) i b = 0 := by
            by_cases hbi : b = i
            · rw [hbi]; exact hself
            · refine le_antisymm ?_ (hnonneg b)
              rw [← hself]
              exact k6 b (by simp) i hi (by simp [Ne.symm hai, Ne.symm hbi])
          obtain ⟨c, hc, hci, hc0⟩ := hzero hb0
          rw [hb0]
          constructor
          · exact ⟨c, hc, hci, by rw [← distance_eq D i c hi hc]; exact hc0.symm⟩
          · rintro x ⟨j, hj, hji, rfl⟩
            exact Real.sqrt_nonneg _
      have hlen' : res.length = r.length := by omega
      rw [mapM_eq_some (fun r : List ℕ × List ℝ => r.2[1]?) (fun r => r.2[1]?.getD 0)]
      · congr 1
        apply List.ext_getElem (by simpa using hlen')
        intro i h1 h3
        rw [List.getElem_map, hall i (by simpa using h1) h3]
        rfl
      · intro e he
        obtain ⟨i, hi, rfl⟩ := List.getElem_of_mem he
        rw [hall i hi (by omega)]
        rfl
    have hmain : nearestNeighbourAreaEntropy sort D =
        some (((r.map fun x => x * x * 2 * Real.pi).mapM fun area =>
          (quotient area (r.map fun x => x * x * 2 * Real.pi).sum).bind term).map fun l => -l.sum) := by
      unfold nearestNeighbourAreaEntropy
      simp only [hlen, hres, accumulate_eq]
      simp only [Option.bind_eq_bind, Option.bind_some, hnn]
    have hsum : (r.map fun x => x * x * 2 * Real.pi).sum = 2 * Real.pi * (r.map fun x => x ^ 2).sum := by
      rw [← List.sum_map_mul_left]
      congr 2
      funext x
      ring
    rw [hmain]
    constructor
    · intro hall
      congr 1
      have hx : (0 : ℝ) ∈ (r.map fun x => x * x * 2 * Real.pi) := by
        cases r with
        | nil => simp at hr; omega
        | cons x r =>
          rw [hall x (by simp)]
          simp
      rw [MatrixReader.mapM_none]
      · rfl
      · refine ⟨0, hx, ?_⟩
        have : (r.map fun x => x * x * 2 * Real.pi).sum = 0 := by
          apply List.sum_eq_zero
          intro y hy
          obtain ⟨x, hx, rfl⟩ := List.mem_map.1 hy
          rw [hall x hx]; simp
        rw [this]
        simp [quotient]
    · rintro ⟨x, hx, hx0⟩
      have hpos : 0 < (r.map fun x => x ^ 2).sum := by
        have h1 := List.single_le_sum (l := r.map fun x => x ^ 2) (by
          intro y hy
          obtain ⟨z, _, rfl⟩ := List.mem_map.1 hy
          positivity) _ (List.mem_map_of_mem hx)
        have : 0 < x ^ 2 := by positivity
        linarith
      have hne : (r.map fun x => x * x * 2 * Real.pi).sum ≠ 0 := by
        rw [hsum]
        have := Real.pi_pos
        positivity
      rw [mapM_eq_some _ (fun a => a / (r.map fun x => x * x * 2 * Real.pi).sum *
        Real.logb 2 (a / (r.map fun x => x * x * 2 * Real.pi).sum))]
      · simp only [Option.map_some]
        have := shannon_scale (r.map fun x => x ^ 2) (c := 2 * Real.pi) (by have := Real.pi_pos; positivity)
        have hf : ((fun x => 2 * Real.pi * x) ∘ fun x : ℝ => x ^ 2) = fun x => x * x * 2 * Real.pi := by
          funext x; simp only [Function.comp]; ring
        rw [List.map_map, hf] at this
        rw [← this]
        rfl
      · intro v hv
        simp only [quotient, if_neg hne, Option.bind_some]
        obtain ⟨y, _, rfl⟩ := List.mem_map.1 hv
        by_cases hy : y * y * 2 * Real.pi / (r.map fun x => x * x * 2 * Real.pi).sum = 0
        · simp [term, hy]
        · have h1 : 0 < y * y * 2 * Real.pi / (r.map fun x => x * x * 2 * Real.pi).sum := by
            refine lt_of_le_of_ne ?_ (Ne.symm hy)
            rw [hsum]
            have := Real.pi_pos
            have := hpos.le
            exact div_nonneg (mul_nonneg (mul_nonneg (mul_self_nonneg y) (by norm_num)) (by linarith)) (by positivity)
          simp only [term, if_neg hy, stdTerm, if_pos h1]

/-- C79. The entropy of nearest neighbours lies between zero and the logarithm of the number of points. -/
theorem _root_.Aleph.C79_bounds (sort : (ℕ → ℕ → Bool) → List ℕ → List ℕ) (hs : IsStdSort sort) (D : Diagram ℝ) (H : ℝ)
    (hne : D.points ≠ []) (h : nearestNeighbourAreaEntropy sort D = some (some H)) : 0 ≤ H ∧ H ≤ Real.logb 2 D.points.length := by
  obtain ⟨_, h1, h2⟩ := C79_nearest_neighbours sort hs D
  have hlen : 2 ≤ D.points.length := by
    have := List.length_pos_iff.2 hne
    by_contra hc
    rw [h1 (by omega)] at h
    cases h
  have hex : ∀ i : Fin D.points.length, ∃ x, IsLeast {x | ∃ (j : ℕ) (hj : j < D.points.length), j ≠ i.1 ∧
      x = √((D.points[i.1].1 - D.points[j].1) ^ 2 + (D.points[i.1].2 - D.points[j].2) ^ 2)} x := by
    intro i
    let S := (Finset.univ.filter fun j : Fin D.points.length => j ≠ i).image fun j =>
      √((D.points[i.1].1 - D.points[j.1].1) ^ 2 + (D.points[i.1].2 - D.points[j.1].2) ^ 2)
    have hS : S.Nonempty := by
      rw [Finset.image_nonempty]
      by_cases h0 : i.1 = 0
      · exact ⟨⟨1, by omega⟩, by simp [Fin.ext_iff, h0]⟩
      · exact ⟨⟨0, by omega⟩, by simp [Fin.ext_iff]; omega⟩
    refine ⟨S.min' hS, ?_, ?_⟩
    · obtain ⟨j, hj, he⟩ := Finset.mem_image.1 (S.min'_mem hS)
      rw [Finset.mem_filter] at hj
      exact ⟨j.1, j.2, fun h => hj.2 (Fin.ext h), he.symm⟩
    · rintro x ⟨j, hj, hji, rfl⟩
      apply S.min'_le
      rw [Finset.mem_image]
      exact ⟨⟨j, hj⟩, by simp [Fin.ext_iff, hji], rfl⟩
  choose f hf using hex
  have h3 := h2 (List.ofFn f) hlen (by simp) (by
    intro i h1 h2
    rw [List.getElem_ofFn]
    exact hf ⟨i, h2⟩)
  by_cases hz : ∀ x ∈ List.ofFn f, x = 0
  · rw [h3.1 hz] at h
    cases h
  · push Not at hz
    rw [h3.2 hz] at h
    simp only [Option.some.injEq] at h
    subst h
    have h0 : ∀ x ∈ (List.ofFn f).map (fun x => x ^ 2), 0 ≤ x := by
      intro y hy
      obtain ⟨z, _, rfl⟩ := List.mem_map.1 hy
      positivity
    have hpos : 0 < ((List.ofFn f).map fun x => x ^ 2).sum := by
      obtain ⟨x, hx, hx0⟩ := hz
      have h1 := List.single_le_sum h0 _ (List.mem_map_of_mem hx)
      have : 0 < x ^ 2 := by positivity
      linarith
    refine ⟨shannon_nonneg _ h0, ?_⟩
    have := shannon_le _ h0 hpos
    simpa using this

/-! ### Entropy of a grid -/

theorem cells_eq {β : Type} (N : ℕ) (idx : β → ℕ) (step : List ℕ → β → Option (List ℕ))
    (hstep : ∀ cells p, cells.length = N → idx p < N → step cells p = some (cells.modify (idx p) (· + 1)))
    (l : List β) (hl : ∀ p ∈ l, idx p < N) : ∀ g : ℕ → ℕ, l.foldlM step ((List.range N).map g) =
      some ((List.range N).map fun k => g k + l.countP fun p => idx p = k) := by
  induction l with
  | nil => intro g; simp
  | cons p l ih =>
    intro g
    rw [List.foldlM_cons, hstep _ p (by simp) (hl p (by simp))]
    have hm : ((List.range N).map g).modify (idx p) (· + 1) = (List.range N).map fun k => g k + if idx p = k then 1 else 0 := by
      apply List.ext_getElem (by simp)
      intro k h1 h2
      rw [List.getElem_modify]
      simp only [List.getElem_map, List.getElem_range]
      split <;> simp
    rw [hm]
    simp only [Option.bind_eq_bind, Option.bind_some]
    rw [ih fun q hq => hl q (by simp [hq])]
    congr 2
    funext k
    rw [List.countP_cons]
    simp only [decide_eq_true_eq]
    omega

theorem index_eq {n : ℕ} (hn : n ≠ 0) {x0 x1 : ℝ} (h : x0 < x1) (x : ℝ) : index n x0 x1 x = some (gridCell n x0 x1 x) := by
  unfold index gridCell
  rw [if_neg (by linarith [h] : ¬ x1 - x0 = 0)]
  split
  · next h1 => subst h1; simp
  · next h1 =>
    congr 2
    have h2 : ((n - 1 : ℕ) : ℝ) = (n : ℝ) - 1 := by
      rw [Nat.cast_sub (by omega)]; simp
    have h3 : x1 - x0 ≠ 0 := by linarith
    have h4 : (n : ℝ) - 1 ≠ 0 := by
      rw [← h2, Nat.cast_ne_zero]
      omega
    rw [h2]
    field_simp

theorem gridCell_lt {n : ℕ} (hn : n ≠ 0) {x0 x1 x : ℝ} (h : x0 < x1) (h0 : x0 ≤ x) (h1 : x ≤ x1) : gridCell n x0 x1 x < n := by
  unfold gridCell
  have hn' : (1 : ℝ) ≤ n := by exact_mod_cast Nat.one_le_iff_ne_zero.2 hn
  have h2 : ((n : ℝ) - 1) * (x - x0) / (x1 - x0) ≤ n - 1 := by
    rw [div_le_iff₀ (by linarith)]
    apply mul_le_mul_of_nonneg_left <;> linarith
  rw [Nat.floor_lt (by apply div_nonneg _ (by linarith); apply mul_nonneg <;> linarith)]
  linarith

theorem gridCell_scale (n : ℕ) (x0 x1 x c : ℝ) (hc : c ≠ 0) : gridCell n (c * x0) (c * x1) (c * x) = gridCell n x0 x1 x := by
  unfold gridCell
  congr 1
  rw [← mul_sub, ← mul_sub, mul_left_comm, mul_div_mul_left _ _ hc]

theorem least_image {l : List ℝ} {a : ℝ} {t : List ℝ} (hl : l = a :: t) {lo hi : ℝ} (hlo : IsLeast {v | v ∈ l} lo)
    (hhi : IsGreatest {v | v ∈ l} hi) : minmax a t = (lo, hi) := by
  have h := AdjacencyMatrixReader.minmax_spec t a
  have hset : {v | v = a ∨ v ∈ t} = {v | v ∈ l} := by ext v; simp [hl]
  rw [hset] at h
  exact Prod.ext (h.1.unique hlo) (h.2.unique hhi)

theorem sum_countP {β : Type} (N : ℕ) (idx : β → ℕ) (l : List β) (hl : ∀ p ∈ l, idx p < N) :
    ((List.range N).map fun k => l.countP fun p => idx p = k).sum = l.length := by
  induction l with
  | nil => simp
  | cons p l ih =>
    have h1 : ((List.range N).map fun k => (p :: l).countP fun p => idx p = k) =
        (List.range N).map fun k => (l.countP fun p => idx p = k) + if idx p = k then 1 else 0 := by
      apply List.map_congr_left
      intro k _
      rw [List.countP_cons]
      simp
    rw [h1, List.sum_map_add, ih fun q hq => hl q (by simp [hq]), List.length_cons]
    congr 1
    have h2 : ∀ M, ((List.range M).map fun k => if idx p = k then 1 else 0).sum = if idx p < M then 1 else 0 := by
      intro M
      induction M with
      | zero => simp
      | succ M ihM =>
        rw [List.range_succ, List.map_append, List.sum_append, ihM]
        simp only [List.map_cons, List.map_nil, List.sum_cons, List.sum_nil]
        split <;> split <;> split <;> omega
    rw [h2, if_pos (hl p (by simp))]

/-- C79. The entropy of a grid with `n` cells in each direction is the Shannon entropy of the numbers of points per cell.  Cells are taken along
the axes of the diagram: columns by destruction values, rows by creation values.  Each point lies in exactly one cell. -/
theorem _root_.Aleph.C79_grid (D : Diagram ℝ) (n : ℕ) (hn : n ≠ 0) (c0 c1 d0 d1 : ℝ) (hc0 : IsLeast {v | v ∈ D.points.map (·.1)} c0)
    (hc1 : IsGreatest {v | v ∈ D.points.map (·.1)} c1) (hd0 : IsLeast {v | v ∈ D.points.map (·.2)} d0)
    (hd1 : IsGreatest {v | v ∈ D.points.map (·.2)} d1) (hc : c0 < c1) (hd : d0 < d1) :
    let counts := (List.range (n * n)).map fun k => D.points.countP fun p =>
      gridCell n d0 d1 p.2 = k % n ∧ gridCell n (-c1) (-c0) (-p.1) = k / n
    counts.sum = D.points.length ∧ ∃ H, gridEntropy D n = some (some H) ∧ H = shannon (counts.map fun c : ℕ => (c : ℝ)) ∧
      0 ≤ H ∧ H ≤ 2 * Real.logb 2 n := by
  intro counts
  have hs2 : (0 : ℝ) < √2 := by positivity
  have hX : ((makePointCloud D true).map fun p => 0.5 * √2 * p.head?.getD 0 + 0.5 * √2 * p.getLast?.getD 0) =
      D.points.map fun p => √2 * p.2 := by
    unfold makePointCloud
    rw [List.map_map]
    apply List.map_congr_left
    intro p _
    simp
    ring
  have hY : ((makePointCloud D true).map fun p => -0.5 * √2 * p.head?.getD 0 + 0.5 * √2 * p.getLast?.getD 0) =
      D.points.map fun p => √2 * -p.1 := by
    unfold makePointCloud
    rw [List.map_map]
    apply List.map_congr_left
    intro p _
    simp
    ring
  have hne : D.points ≠ [] := by
    intro h
    have := hc0.1
    rw [h] at this
    simp at this
  obtain ⟨p0, P, hP⟩ := List.exists_cons_of_ne_nil hne
  have hlen : (makePointCloud D true).length = D.points.length := by simp [makePointCloud]
  have hmx : minmax (√2 * p0.2) (P.map fun p => √2 * p.2) = (√2 * d0, √2 * d1) := by
    apply least_image (l := D.points.map fun p => √2 * p.2) (by rw [hP]; rfl)
    · constructor
      · obtain ⟨p, hp, he⟩ := List.mem_map.1 hd0.1
        exact List.mem_map.2 ⟨p, hp, by rw [← he]⟩
      · intro v hv
        obtain ⟨p, hp, rfl⟩ := List.mem_map.1 hv
        exact mul_le_mul_of_nonneg_left (hd0.2 (List.mem_map_of_mem hp)) hs2.le
    · constructor
      · obtain ⟨p, hp, he⟩ := List.mem_map.1 hd1.1
        exact List.mem_map.2 ⟨p, hp, by rw [← he]⟩
      · intro v hv
        obtain ⟨p, hp, rfl⟩ := List.mem_map.1 hv
        exact mul_le_mul_of_nonneg_left (hd1.2 (List.mem_map_of_mem hp)) hs2.le
  have hmy : minmax (√2 * -p0.1) (P.map fun p => √2 * -p.1) = (√2 * -c1, √2 * -c0) := by
    apply least_image (l := D.points.map fun p => √2 * -p.1) (by rw [hP]; rfl)
    · constructor
      · obtain ⟨p, hp, he⟩ := List.mem_map.1 hc1.1
        exact List.mem_map.2 ⟨p, hp, by rw [← he]⟩
      · intro v hv
        obtain ⟨p, hp, rfl⟩ := List.mem_map.1 hv
        exact mul_le_mul_of_nonneg_left (neg_le_neg (hc1.2 (List.mem_map_of_mem hp))) hs2.le
    · constructor
      · obtain ⟨p, hp, he⟩ := List.mem_map.1 hc0.1
        exact List.mem_map.2 ⟨p, hp, by rw [← he]⟩
      · intro v hv
        obtain ⟨p, hp, rfl⟩ := List.mem_map.1 hv
        exact mul_le_mul_of_nonneg_left (neg_le_neg (hc0.2 (List.mem_map_of_mem hp))) hs2.le
  have hi : ∀ p ∈ D.points, gridCell n d0 d1 p.2 < n := fun p hp =>
    gridCell_lt hn hd (hd0.2 (List.mem_map_of_mem hp)) (hd1.2 (List.mem_map_of_mem hp))
  have hj : ∀ p ∈ D.points, gridCell n (-c1) (-c0) (-p.1) < n := fun p hp =>
    gridCell_lt hn (neg_lt_neg hc) (neg_le_neg (hc1.2 (List.mem_map_of_mem hp))) (neg_le_neg (hc0.2 (List.mem_map_of_mem hp)))
  have hidx : ∀ p ∈ D.points, gridCell n (-c1) (-c0) (-p.1) * n + gridCell n d0 d1 p.2 < n * n := by
    intro p hp
    have h1 := hi p hp
    have h2 := hj p hp
    calc _ < gridCell n (-c1) (-c0) (-p.1) * n + n := by omega
      _ = (gridCell n (-c1) (-c0) (-p.1) + 1) * n := by ring
      _ ≤ n * n := Nat.mul_le_mul_right n h2
  have hcounts : counts = (List.range (n * n)).map fun k => D.points.countP fun p =>
      gridCell n (-c1) (-c0) (-p.1) * n + gridCell n d0 d1 p.2 = k := by
    apply List.map_congr_left
    intro k _
    apply List.countP_congr
    intro p hp
    have h1 := hi p hp
    simp only [decide_eq_true_eq]
    constructor
    · rintro ⟨h2, h3⟩
      rw [h2, h3, mul_comm]
      exact Nat.div_add_mod k n
    · intro h
      have hn' : 0 < n := Nat.pos_of_ne_zero hn
      rw [← h]
      constructor
      · rw [mul_comm, Nat.mul_add_mod, Nat.mod_eq_of_lt h1]
      · rw [Nat.add_div_of_dvd_right (Dvd.intro_left _ rfl), Nat.mul_div_cancel _ hn', Nat.div_eq_of_lt h1, add_zero]
  have hsum : counts.sum = D.points.length := by
    rw [hcounts]
    exact sum_countP (n * n) _ D.points hidx
  refine ⟨hsum, ?_⟩
  have hcells : ((D.points.map fun p => √2 * p.2).zip (D.points.map fun p => √2 * -p.1)).foldlM (fun cells p => do
      let i ← index n (√2 * d0) (√2 * d1) p.1
      let j ← index n (√2 * -c1) (√2 * -c0) p.2
      increment n cells i j) (List.replicate (n * n) 0) = some counts := by
    rw [List.zip_map', List.foldlM_map]
    have h0 : List.replicate (n * n) 0 = (List.range (n * n)).map fun _ => 0 := by simp
    rw [h0, cells_eq (n * n) (fun p : ℝ × ℝ => gridCell n (-c1) (-c0) (-p.1) * n + gridCell n d0 d1 p.2), hcounts]
    · simp
    · intro cells p hl hlt
      simp only
      rw [index_eq hn (mul_lt_mul_of_pos_left hd hs2), index_eq hn (mul_lt_mul_of_pos_left (neg_lt_neg hc) hs2),
        gridCell_scale _ _ _ _ _ hs2.ne', gridCell_scale _ _ _ _ _ hs2.ne']
      simp only [Option.bind_eq_bind, Option.bind_some, increment, hl, if_pos hlt]
    · exact hidx
  have hpos : (0 : ℝ) < D.points.length := by exact_mod_cast List.length_pos_iff.2 hne
  have hcast : (counts.map fun c : ℕ => (c : ℝ)).sum = D.points.length := by
    rw [← hsum]
    have : ∀ l : List ℕ, (l.map fun c : ℕ => (c : ℝ)).sum = ((l.sum : ℕ) : ℝ) := by
      intro l
      induction l with
      | nil => simp
      | cons a l ih => rw [List.map_cons, List.sum_cons, ih, List.sum_cons]; push_cast; ring
    exact this counts
  have hnn : ∀ x ∈ counts.map (fun c : ℕ => (c : ℝ)), 0 ≤ x := by
    intro x hx
    obtain ⟨c, _, rfl⟩ := List.mem_map.1 hx
    positivity
  refine ⟨_, ?_, rfl, shannon_nonneg _ hnn, ?_⟩
  · unfold gridEntropy
    simp only [hX, hY]
    rw [hP] at hcells
    rw [hP]
    simp only [List.map_cons] at hcells ⊢
    simp only [hmx, hmy]
    rw [hcells]
    simp only [Option.bind_eq_bind, Option.bind_some, hlen, accumulate_eq]
    rw [mapM_eq_some _ (fun c : ℕ => (c : ℝ) / D.points.length * Real.logb 2 ((c : ℝ) / D.points.length))]
    · unfold shannon
      rw [hcast, List.map_map (l := counts)]
      rfl
    · intro c _
      by_cases hc0 : c = 0
      · subst hc0; simp
      · rw [if_pos hc0]
        have h1 : (0 : ℝ) < (c : ℝ) / D.points.length := div_pos (by exact_mod_cast Nat.pos_of_ne_zero hc0) hpos
        simp only [quotient, if_neg hpos.ne', Option.bind_some, term, if_neg h1.ne', stdTerm, if_pos h1]
  · have h1 := shannon_le _ hnn (by rw [hcast]; exact hpos)
    have h2 : (counts.map fun c : ℕ => (c : ℝ)).length = n * n := by simp [counts]
    rw [h2] at h1
    refine h1.trans (le_of_eq ?_)
    push_cast
    rw [Real.logb_mul (by exact_mod_cast hn) (by exact_mod_cast hn)]
    ring

/-- C79. If all creation values or all destruction values are equal, or if there are no cells, a diagram with points leads to undefined
behaviour; the entropy of an empty diagram is zero. -/
theorem _root_.Aleph.C79_grid_degenerate (D : Diagram ℝ) (n : ℕ) :
    (D.points = [] → gridEntropy D n = some (some 0)) ∧
    (D.points ≠ [] → n = 0 ∨ (∀ p ∈ D.points, ∀ q ∈ D.points, p.1 = q.1) ∨ (∀ p ∈ D.points, ∀ q ∈ D.points, p.2 = q.2) →
      gridEntropy D n = none) := by
  constructor
  · intro h
    unfold gridEntropy
    simp [makePointCloud, h]
  · intro hne h
    have hX : ((makePointCloud D true).map fun p => 0.5 * √2 * p.head?.getD 0 + 0.5 * √2 * p.getLast?.getD 0) =
        D.points.map fun p => √2 * p.2 := by
      unfold makePointCloud
      rw [List.map_map]
      apply List.map_congr_left
      intro p _
      simp
      ring
    have hY : ((makePointCloud D true).map fun p => -0.5 * √2 * p.head?.getD 0 + 0.5 * √2 * p.getLast?.getD 0) =
        D.points.map fun p => √2 * -p.1 := by
      unfold makePointCloud
      rw [List.map_map]
      apply List.map_congr_left
      intro p _
      simp
      ring
    obtain ⟨p0, P, hP⟩ := List.exists_cons_of_ne_nil hne
    have hconst : ∀ (a : ℝ) (l : List ℝ), (∀ x ∈ l, x = a) → minmax a l = (a, a) := by
      intro a l hl
      have := AdjacencyMatrixReader.minmax_spec l a
      have hset : {v | v = a ∨ v ∈ l} = {a} := by
        ext v
        constructor
        · rintro (h | h)
          · exact h
          · exact hl v h
        · rintro rfl
          exact Or.inl rfl
      rw [hset] at this
      exact Prod.ext (this.1.unique isLeast_singleton) (this.2.unique isGreatest_singleton)
    have hsame : ∀ a x : ℝ, index n a a x = none := by
      intro a x
      simp [index]
    unfold gridEntropy
    simp only [hX, hY, hP, List.map_cons, List.zip_cons_cons, List.foldlM_cons]
    rcases h with rfl | h | h
    · have hinc : ∀ i j, increment 0 (List.replicate (0 * 0) 0) i j = none := by
        intro i j
        simp [increment]
      simp only [hinc, Option.bind_eq_bind]
      cases index 0 (minmax (√2 * p0.2) (P.map fun p => √2 * p.2)).1 (minmax (√2 * p0.2) (P.map fun p => √2 * p.2)).2 (√2 * p0.2) with
      | none => rfl
      | some i =>
        cases index 0 (minmax (√2 * -p0.1) (P.map fun p => √2 * -p.1)).1 (minmax (√2 * -p0.1) (P.map fun p => √2 * -p.1)).2
          (√2 * -p0.1) <;> rfl
    · rw [hconst (√2 * -p0.1) (P.map fun p => √2 * -p.1) (by
        intro x hx
        obtain ⟨p, hp, rfl⟩ := List.mem_map.1 hx
        rw [h p (by rw [hP]; simp [hp]) p0 (by rw [hP]; simp)])]
      simp only [hsame, Option.bind_eq_bind, Option.bind_none]
      cases index n (minmax (√2 * p0.2) (P.map fun p => √2 * p.2)).1 (minmax (√2 * p0.2) (P.map fun p => √2 * p.2)).2 (√2 * p0.2) <;>
        rfl
    · rw [hconst (√2 * p0.2) (P.map fun p => √2 * p.2) (by
        intro x hx
        obtain ⟨p, hp, rfl⟩ := List.mem_map.1 hx
        rw [h p (by rw [hP]; simp [hp]) p0 (by rw [hP]; simp)])]
      simp only [hsame, Option.bind_eq_bind, Option.bind_none]

/-- The hypotheses of `C79_grid` and `C79_nearest_neighbours` are satisfiable. -/
example : IsLeast {v | v ∈ ([(0, 1), (1, 3)] : List (ℝ × ℝ)).map (·.1)} 0 ∧ IsGreatest {v | v ∈ ([(0, 1), (1, 3)] : List (ℝ × ℝ)).map (·.1)} 1 ∧
    IsLeast {v | v ∈ ([(0, 1), (1, 3)] : List (ℝ × ℝ)).map (·.2)} 1 ∧
    IsGreatest {v | v ∈ ([(0, 1), (1, 3)] : List (ℝ × ℝ)).map (·.2)} 3 := by
  refine ⟨⟨by simp, ?_⟩, ⟨by simp, ?_⟩, ⟨by simp, ?_⟩, ⟨by simp, ?_⟩⟩ <;>
  · intro v hv
    simp at hv
    rcases hv with rfl | rfl <;> norm_num

end Aleph.Entropy
