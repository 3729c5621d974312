import Verif.Props.DataDensities

/-!
# Properties of mean shift smoothing
-/

namespace Aleph.DataDescriptors

open Spec

theorem weight_eq {d : ℝ} (h : 0 ≤ d) : weight d = inverseSquare d := by
  unfold weight inverseSquare
  rcases h.lt_or_eq with h | h
  · rw [if_pos h, if_neg h.ne', sq]
  · rw [← h, if_neg (lt_irrefl _), if_pos rfl]

theorem inverseSquare_pos {d : ℝ} (h : 0 ≤ d) : 0 < inverseSquare d := by
  unfold inverseSquare
  split_ifs with h1
  · exact one_pos
  · have : 0 < d := lt_of_le_of_ne h (Ne.symm h1)
    positivity

theorem smooth_fold (data : List ℝ) (l : List (ℕ × ℝ)) (h : ∀ e ∈ l, e.1 < data.length) (s : Kahan ℝ × Kahan ℝ) (h1 : s.1.c = 0) (h2 : s.2.c = 0) :
    ∃ s', l.foldlM (fun (s : Kahan ℝ × Kahan ℝ) e => do
      let x ← data[e.1]?
      let w := weight e.2
      some (s.1.add (x * w), s.2.add w)) s = some s' ∧ s'.1.sum = s.1.sum + (l.map fun e => data.getD e.1 0 * weight e.2).sum ∧
      s'.2.sum = s.2.sum + (l.map fun e => weight e.2).sum := by
  induction l generalizing s with
  | nil => exact ⟨s, rfl, by simp, by simp⟩
  | cons e l ih =>
    have he := h e (by simp)
    rw [List.foldlM_cons, List.getElem?_eq_getElem he]
    simp only [Option.bind_eq_bind, Option.bind_some]
    obtain ⟨a1, a2⟩ := kahan_add h1 (data[e.1] * weight e.2)
    obtain ⟨b1, b2⟩ := kahan_add h2 (weight e.2)
    obtain ⟨s', c1, c2, c3⟩ := ih (fun e' he' => h e' (by simp [he'])) (s.1.add (data[e.1] * weight e.2), s.2.add (weight e.2)) a1 b1
    refine ⟨s', c1, ?_, ?_⟩
    · rw [c2, a2, List.map_cons, List.sum_cons, List.getD_eq_getElem _ _ he, add_assoc]
    · rw [c3, b2, List.map_cons, List.sum_cons, add_assoc]

theorem zip_map_self {β : Type} (f : ℕ → β) (l : List ℕ) : l.zip (l.map f) = l.map fun j => (j, f j) := by
  induction l with
  | nil => rfl
  | cons x l ih => simp [ih]

theorem smoothValue_eq (data : List ℝ) (ids : List ℕ) (hn : ids.Nodup) (hne : ids ≠ []) (hr : ∀ j ∈ ids, j < data.length) (d : ℕ → ℝ)
    (hd : ∀ j, 0 ≤ d j) :
    ∃ x, smoothValue data (ids, ids.map d) = some x ∧
      x * ∑ j ∈ ids.toFinset, inverseSquare (d j) = ∑ j ∈ ids.toFinset, inverseSquare (d j) * data.getD j 0 := by
  have hpos : 0 < ∑ j ∈ ids.toFinset, inverseSquare (d j) := by
    refine Finset.sum_pos (fun j _ => inverseSquare_pos (hd j)) ?_
    rw [List.toFinset_nonempty_iff]
    exact hne
  unfold smoothValue
  simp only
  rw [zip_map_self]
  obtain ⟨s, h1, h2, h3⟩ := smooth_fold data (ids.map fun j => (j, d j)) (by
    intro e he
    obtain ⟨j, hj, rfl⟩ := List.mem_map.1 he
    exact hr j hj) (Kahan.init 0, Kahan.init 0) rfl rfl
  rw [h1]
  simp only [Option.bind_eq_bind, Option.bind_some]
  rw [List.map_map] at h2 h3
  have e2 : s.1.sum = ∑ j ∈ ids.toFinset, inverseSquare (d j) * data.getD j 0 := by
    rw [h2, List.sum_toFinset _ hn]
    simp only [Kahan.init, zero_add]
    congr 1
    refine List.map_congr_left fun j _ => ?_
    simp only [Function.comp_apply]
    rw [weight_eq (hd j), mul_comm]
  have e3 : s.2.sum = ∑ j ∈ ids.toFinset, inverseSquare (d j) := by
    rw [h3, List.sum_toFinset _ hn]
    simp only [Kahan.init, zero_add]
    congr 1
    refine List.map_congr_left fun j _ => ?_
    simp only [Function.comp_apply]
    rw [weight_eq (hd j)]
  rw [e3, if_neg hpos.ne']
  refine ⟨_, rfl, ?_⟩
  simp only [Kahan.div]
  rw [e2, div_mul_cancel₀ _ hpos.ne']

theorem smoothLoop_succ (nb : List (List ℕ × List ℝ)) (s : ℕ) (data : List ℝ) :
    smoothLoop nb (s + 1) data = (smoothLoop nb s data).bind (smoothStep nb) := by
  induction s generalizing data with
  | zero =>
    simp only [smoothLoop, Option.bind_some]
    cases smoothStep nb data <;> rfl
  | succ s ih =>
    conv_lhs => rw [smoothLoop]
    conv_rhs => rw [smoothLoop]
    rw [Option.bind_assoc]
    congr 1
    funext l
    exact ih l

theorem mapM_exists {β γ : Type} (f : β → Option γ) (P : β → γ → Prop) : ∀ l : List β, (∀ x ∈ l, ∃ y, f x = some y ∧ P x y) →
    ∃ l', l.mapM f = some l' ∧ List.Forall₂ P l l'
  | [], _ => ⟨[], rfl, .nil⟩
  | x :: l, h => by
    obtain ⟨y, h1, h2⟩ := h x (by simp)
    obtain ⟨l', h3, h4⟩ := mapM_exists f P l fun z hz => h z (by simp [hz])
    refine ⟨y :: l', ?_, .cons h2 h4⟩
    rw [List.mapM_cons, h1, h3]
    rfl

/-- C93. In each step, the value of each point is replaced by the mean of the values of its `k + 1` nearest points (including the point itself)
after the previous step, weighted with the inverse of the squared distance; the neighbours do not change. -/
theorem _root_.Aleph.C93_smoothing (sort : (ℕ → ℕ → Bool) → List ℕ → List ℕ) (hs : IsStdSort sort) (n : ℕ) (dist : ℕ → ℕ → ℝ)
    (hd : ∀ i j, 0 ≤ dist i j) (k : ℕ) (hk : k + 1 ≤ n) :
    ∃ T : ℕ → Finset ℕ, (∀ i < n, AreNearest n dist (k + 1) i (T i)) ∧
      ∀ data : List ℝ, data.length = n → ∃ f : ℕ → List ℝ, f 0 = data ∧ ∀ steps,
        meanShiftSmoothing sort n dist data k steps = some (f steps) ∧ (f steps).length = n ∧
        ∀ i < n, (f (steps + 1)).getD i 0 * ∑ j ∈ T i, inverseSquare (dist i j) = ∑ j ∈ T i, inverseSquare (dist i j) * (f steps).getD j 0 := by
  obtain ⟨res, h1, h2, h3⟩ := C61_k_nearest sort hs n dist (k + 1) hk
  refine ⟨fun i => match res[i]? with
    | some e => e.1.toFinset
    | none => ∅, ?_, ?_⟩
  · intro i hi
    have hi' : i < res.length := by omega
    obtain ⟨a1, a2, a3, a4, a5, a6⟩ := h3 i hi'
    simp only [List.getElem?_eq_getElem hi']
    refine ⟨?_, ?_, ?_⟩
    · intro j hj
      exact a3 j (List.mem_toFinset.1 hj)
    · rw [List.toFinset_card_of_nodup a2, a1]
    · intro a ha j hj hjn
      exact a6 a (List.mem_toFinset.1 ha) j hj fun h => hjn (List.mem_toFinset.2 h)
  · intro data hdata
    have hstep : ∀ data : List ℝ, data.length = n → ∃ l, smoothStep res data = some l ∧ l.length = n ∧ ∀ i (hi : i < res.length),
        l.getD i 0 * ∑ j ∈ res[i].1.toFinset, inverseSquare (dist i j) = ∑ j ∈ res[i].1.toFinset, inverseSquare (dist i j) * data.getD j 0 := by
      intro data hdata
      obtain ⟨l', h4, h5⟩ := mapM_exists (smoothValue data) (fun e x => ∀ i (hi : i < res.length), res[i] = e →
          x * ∑ j ∈ e.1.toFinset, inverseSquare (dist i j) = ∑ j ∈ e.1.toFinset, inverseSquare (dist i j) * data.getD j 0) res (by
        intro e he
        obtain ⟨i, hi, rfl⟩ := List.mem_iff_getElem.1 he
        obtain ⟨a1, a2, a3, a4, a5, a6⟩ := h3 i hi
        obtain ⟨x, h6, h7⟩ := smoothValue_eq data res[i].1 a2 (by intro h; rw [h] at a1; simp at a1) (by rw [hdata]; exact a3) (dist i) (hd i)
        refine ⟨x, by rw [← h6, ← a4], ?_⟩
        intro i' hi' e'
        have e4 := (h3 i' hi').2.2.2.1
        rw [e', a4] at e4
        have : ∀ j ∈ res[i].1.toFinset, dist i' j = dist i j := by
          intro j hj
          exact (List.map_inj_left.1 e4 j (List.mem_toFinset.1 hj)).symm
        rw [Finset.sum_congr rfl fun j hj => by rw [this j hj], h7]
        exact Finset.sum_congr rfl fun j hj => by rw [this j hj])
      have hlen := h5.length_eq
      refine ⟨l' ++ List.replicate (data.length - res.length) 0, ?_, ?_, ?_⟩
      · unfold smoothStep
        rw [h4]
        simp only [Option.bind_eq_bind, Option.bind_some]
        rw [if_neg (by omega)]
      · simp; omega
      · intro i hi
        have hi' : i < l'.length := by omega
        rw [List.getD_append _ _ _ _ hi', List.getD_eq_getElem _ _ hi']
        exact h5.get hi hi' i hi rfl
    have hloop : ∀ steps, ∃ l, smoothLoop res steps data = some l ∧ l.length = n := by
      intro steps
      induction steps with
      | zero => exact ⟨data, rfl, hdata⟩
      | succ s ih =>
        obtain ⟨l, h4, h5⟩ := ih
        obtain ⟨l', h6, h7, _⟩ := hstep l h5
        exact ⟨l', by rw [smoothLoop_succ, h4, Option.bind_some, h6], h7⟩
    choose f hf hflen using hloop
    refine ⟨f, ?_, ?_⟩
    · have := hf 0
      rw [smoothLoop] at this
      exact (Option.some_inj.1 this).symm
    · intro steps
      refine ⟨?_, hflen steps, ?_⟩
      · unfold meanShiftSmoothing
        rw [h1, Option.bind_some, hf]
      · intro i hi
        have hi' : i < res.length := by omega
        simp only [List.getElem?_eq_getElem hi']
        obtain ⟨l', h6, h7, h8⟩ := hstep (f steps) (hflen steps)
        have h9 := hf (steps + 1)
        rw [smoothLoop_succ, hf, Option.bind_some, h6, Option.some_inj] at h9
        rw [← h9]
        exact h8 i hi'

/-- C93. Smoothing does not leave the range of the values. -/
theorem _root_.Aleph.C93_range (sort : (ℕ → ℕ → Bool) → List ℕ → List ℕ) (hs : IsStdSort sort) (n : ℕ) (dist : ℕ → ℕ → ℝ)
    (hd : ∀ i j, 0 ≤ dist i j) (k : ℕ) (hk : k + 1 ≤ n) (data : List ℝ) (hn : data.length = n) (lo hi : ℝ) (hb : ∀ x ∈ data, lo ≤ x ∧ x ≤ hi)
    (steps : ℕ) : ∃ l, meanShiftSmoothing sort n dist data k steps = some l ∧ l.length = n ∧ ∀ x ∈ l, lo ≤ x ∧ x ≤ hi := by
  obtain ⟨T, hT, h⟩ := C93_smoothing sort hs n dist hd k hk
  obtain ⟨f, hf0, hf⟩ := h data hn
  refine ⟨f steps, (hf steps).1, (hf steps).2.1, ?_⟩
  induction steps with
  | zero => rw [hf0]; exact hb
  | succ s ih =>
    intro x hx
    obtain ⟨i, hi', rfl⟩ := List.mem_iff_getElem.1 hx
    have hin : i < n := by rw [← (hf (s + 1)).2.1]; exact hi'
    have he := (hf s).2.2 i hin
    rw [List.getD_eq_getElem _ _ hi'] at he
    have hpos : 0 < ∑ j ∈ T i, inverseSquare (dist i j) := by
      refine Finset.sum_pos (fun j _ => inverseSquare_pos (hd i j)) ?_
      rw [← Finset.card_pos, (hT i hin).card]
      omega
    have hmem : ∀ j ∈ T i, lo ≤ (f s).getD j 0 ∧ (f s).getD j 0 ≤ hi := by
      intro j hj
      have hjn : j < (f s).length := by rw [(hf s).2.1]; exact (hT i hin).range j hj
      rw [List.getD_eq_getElem _ _ hjn]
      exact ih _ (List.getElem_mem hjn)
    constructor
    · refine le_of_mul_le_mul_right ?_ hpos
      rw [he, mul_comm, Finset.sum_mul]
      exact Finset.sum_le_sum fun j hj => mul_le_mul_of_nonneg_left (hmem j hj).1 (inverseSquare_pos (hd i j)).le
    · refine le_of_mul_le_mul_right ?_ hpos
      rw [he, mul_comm hi, Finset.sum_mul]
      exact Finset.sum_le_sum fun j hj => mul_le_mul_of_nonneg_left (hmem j hj).2 (inverseSquare_pos (hd i j)).le

/-- C93. Smoothing commutes with changes of units of the values. -/
theorem _root_.Aleph.C93_affine (sort : (ℕ → ℕ → Bool) → List ℕ → List ℕ) (hs : IsStdSort sort) (n : ℕ) (dist : ℕ → ℕ → ℝ)
    (hd : ∀ i j, 0 ≤ dist i j) (k : ℕ) (hk : k + 1 ≤ n) (data : List ℝ) (hn : data.length = n) (a b : ℝ) (steps : ℕ) :
    meanShiftSmoothing sort n dist (data.map fun x => a * x + b) k steps =
      (meanShiftSmoothing sort n dist data k steps).map fun l => l.map fun x => a * x + b := by
  obtain ⟨T, hT, h⟩ := C93_smoothing sort hs n dist hd k hk
  obtain ⟨f, hf0, hf⟩ := h data hn
  obtain ⟨g, hg0, hg⟩ := h (data.map fun x => a * x + b) (by rw [List.length_map]; exact hn)
  rw [(hf steps).1, (hg steps).1, Option.map_some, Option.some_inj]
  induction steps with
  | zero => rw [hf0, hg0]
  | succ s ih =>
    apply List.ext_getElem
    · rw [List.length_map, (hf _).2.1, (hg _).2.1]
    intro i hi hi'
    have hin : i < n := by rw [← (hg (s + 1)).2.1]; exact hi
    have hif : i < (f (s + 1)).length := by rw [(hf _).2.1]; exact hin
    have e1 := (hf s).2.2 i hin
    have e2 := (hg s).2.2 i hin
    rw [List.getD_eq_getElem _ _ hif] at e1
    rw [List.getD_eq_getElem _ _ hi, ih] at e2
    rw [List.getElem_map]
    have hpos : 0 < ∑ j ∈ T i, inverseSquare (dist i j) := by
      refine Finset.sum_pos (fun j _ => inverseSquare_pos (hd i j)) ?_
      rw [← Finset.card_pos, (hT i hin).card]
      omega
    refine mul_right_cancel₀ hpos.ne' ?_
    rw [e2, add_mul, mul_assoc, e1, Finset.mul_sum, Finset.mul_sum, ← Finset.sum_add_distrib]
    refine Finset.sum_congr rfl fun j hj => ?_
    have hjn : j < (f s).length := by rw [(hf s).2.1]; exact (hT i hin).range j hj
    rw [List.getD_eq_getElem _ _ hjn, List.getD_eq_getElem _ _ (by rw [List.length_map]; exact hjn), List.getElem_map]
    ring

/-- C93. Smoothing with at least as many neighbours as points is undefined. -/
theorem _root_.Aleph.C93_too_many (sort : (ℕ → ℕ → Bool) → List ℕ → List ℕ) (n : ℕ) (dist : ℕ → ℕ → ℝ) (k : ℕ) (hk : n ≤ k) (hn : n ≠ 0)
    (data : List ℝ) (steps : ℕ) : meanShiftSmoothing sort n dist data k steps = none := by
  unfold meanShiftSmoothing
  rw [C61_too_many sort n dist (k + 1) (by omega), if_neg hn]
  rfl

/-- Three points and one neighbour. -/
example : ∃ sort : (ℕ → ℕ → Bool) → List ℕ → List ℕ, IsStdSort sort ∧
    ∃ l, meanShiftSmoothing sort 3 (fun i j => |(i : ℝ) - j|) [1, 5, 2] 1 4 = some l ∧ l.length = 3 ∧ ∀ x ∈ l, 1 ≤ x ∧ x ≤ 5 := by
  obtain ⟨sort, hs⟩ := exists_isStdSort ℕ
  refine ⟨sort, hs, C93_range sort hs 3 _ (fun _ _ => abs_nonneg _) 1 (by omega) _ rfl 1 5 ?_ 4⟩
  intro x hx
  simp only [List.mem_cons, List.not_mem_nil, or_false] at hx
  rcases hx with rfl | rfl | rfl <;> norm_num

end Aleph.DataDescriptors
