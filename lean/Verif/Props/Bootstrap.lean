import Verif.Model.Bootstrap
import Verif.Spec.Bootstrap
import Verif.Props.Statistics
import Verif.Props.Kahan
import Verif.Props.NearestNeighbours

/-!
# C86, C87: medians and bootstrap
-/

namespace Aleph.Bootstrap

open Spec

section Order

variable {α : Type} [LinearOrder α]

omit [LinearOrder α] in
theorem split_at {s : List α} {i : ℕ} {w : α} (h : s[i]? = some w) : i < s.length ∧ s = s.take i ++ w :: s.drop (i + 1) := by
  obtain ⟨hi, hw⟩ := List.getElem?_eq_some_iff.1 h
  refine ⟨hi, ?_⟩
  rw [← hw, List.cons_getElem_drop_succ, List.take_append_drop]

/-- Counts in a sorted list. -/
theorem sorted_counts {s : List α} (hs : s.Pairwise (· ≤ ·)) {i : ℕ} {w : α} (h : s[i]? = some w) :
    (s.countP fun x => decide (x < w)) ≤ i ∧ i + 1 ≤ (s.countP fun x => decide (x ≤ w)) ∧
    (s.countP fun x => decide (w < x)) + i + 1 ≤ s.length := by
  obtain ⟨hi, he⟩ := split_at h
  have hs' := hs
  rw [he, List.pairwise_append, List.pairwise_cons] at hs'
  obtain ⟨-, ⟨h2, -⟩, h3⟩ := hs'
  have hlt : (s.take i).length = i := by rw [List.length_take]; omega
  have hld : (s.drop (i + 1)).length + i + 1 = s.length := by rw [List.length_drop]; omega
  refine ⟨?_, ?_, ?_⟩
  · rw [he, List.countP_append]
    have : (w :: s.drop (i + 1)).countP (fun x => decide (x < w)) = 0 := by
      rw [List.countP_eq_zero]
      intro x hx
      rw [decide_eq_true_eq, not_lt]
      rcases List.mem_cons.1 hx with rfl | hx
      · exact le_rfl
      · exact h2 x hx
    have h4 := List.countP_le_length (p := fun x => decide (x < w)) (l := s.take i)
    omega
  · rw [he, List.countP_append, List.countP_cons]
    have : (s.take i).countP (fun x => decide (x ≤ w)) = i := by
      rw [List.countP_eq_length.2, hlt]
      intro x hx
      exact decide_eq_true (h3 x hx w (by simp))
    rw [this, if_pos (by simp)]
    omega
  · have hc : (s.countP fun x => decide (w < x)) ≤ (s.drop (i + 1)).length := by
      conv_lhs => rw [he]
      rw [List.countP_append, List.countP_cons]
      have : (s.take i).countP (fun x => decide (w < x)) = 0 := by
        rw [List.countP_eq_zero]
        intro x hx
        rw [decide_eq_true_eq, not_lt]
        exact h3 x hx w (by simp)
      rw [this, if_neg (by simp)]
      have := List.countP_le_length (p := fun x => decide (w < x)) (l := s.drop (i + 1))
      omega
    omega

theorem sorted_unique {s : List α} (hs : s.Pairwise (· ≤ ·)) {i : ℕ} {w v : α} (h : s[i]? = some w)
    (h1 : (s.countP fun x => decide (x < v)) ≤ i) (h2 : i < s.countP fun x => decide (x ≤ v)) : w = v := by
  obtain ⟨c1, c2, c3⟩ := sorted_counts hs h
  rcases lt_trichotomy w v with hlt | he | hgt
  · have := List.countP_mono_left (l := s) (p := fun x => decide (x ≤ w)) (q := fun x => decide (x < v)) (by
      intro x _ hx
      rw [decide_eq_true_eq] at *
      exact lt_of_le_of_lt hx hlt)
    omega
  · exact he
  · have := List.countP_mono_left (l := s) (p := fun x => decide (x ≤ v)) (q := fun x => decide (x < w)) (by
      intro x _ hx
      rw [decide_eq_true_eq] at *
      exact lt_of_le_of_lt hx hgt)
    omega

theorem nth_eq {nth : ℕ → List α → List α} (hnth : IsNthElement nth) {l s : List α} (hp : s.Perm l) (hs : s.Pairwise (· ≤ ·)) {m : ℕ}
    (hm : m < l.length) : (nth m l)[m]? = s[m]? := by
  have hperm := hnth.perm m l hm.le
  have hlen : m < (nth m l).length := by rw [hperm.length_eq]; exact hm
  obtain ⟨v, hv⟩ : ∃ v, (nth m l)[m]? = some v := ⟨_, List.getElem?_eq_getElem hlen⟩
  obtain ⟨w, hw⟩ : ∃ w, s[m]? = some w := ⟨_, List.getElem?_eq_getElem (by rw [hp.length_eq]; exact hm)⟩
  obtain ⟨h1, h2⟩ := hnth.split m l v hv
  obtain ⟨-, he⟩ := split_at hv
  rw [hv, hw]
  congr 1
  symm
  have hps : s.Perm (nth m l) := hp.trans hperm.symm
  have hdrop : (nth m l).drop m = v :: (nth m l).drop (m + 1) := by
    obtain ⟨hi, hw⟩ := List.getElem?_eq_some_iff.1 hv
    rw [← hw, List.cons_getElem_drop_succ]
  have hlt : ((nth m l).take m).length = m := by rw [List.length_take]; omega
  apply sorted_unique hs hw
  · rw [hps.countP_eq, he, List.countP_append]
    have : (v :: (nth m l).drop (m + 1)).countP (fun x => decide (x < v)) = 0 := by
      rw [List.countP_eq_zero]
      intro x hx
      rw [decide_eq_true_eq, not_lt]
      exact h2 x (hdrop ▸ hx)
    have h4 := List.countP_le_length (p := fun x => decide (x < v)) (l := (nth m l).take m)
    omega
  · rw [hps.countP_eq, he, List.countP_append, List.countP_cons]
    have : ((nth m l).take m).countP (fun x => decide (x ≤ v)) = m := by
      rw [List.countP_eq_length.2, hlt]
      intro x hx
      exact decide_eq_true (h1 x hx)
    rw [this, if_pos (by simp)]
    omega

end Order

section Median

variable {α : Type} [LinearOrder α] [Field α] [IsStrictOrderedRing α]

/-- C86. The median is the mean of the two middle elements of the sorted range (which coincide if the size is odd), for every implementation
of partial sorting.  It is undefined for empty ranges. -/
theorem _root_.Aleph.C86_median (nth : ℕ → List α → List α) (hnth : IsNthElement nth) (l : List α) :
    (l = [] → median nth l = none) ∧
    ∀ (s : List α) (a b : α), s.Perm l → s.Pairwise (· ≤ ·) → s[(l.length - 1) / 2]? = some a → s[l.length / 2]? = some b →
      median nth l = some ((a + b) / 2) := by
  constructor
  · rintro rfl
    unfold median
    have h := List.perm_nil.1 (hnth.perm 0 [] (by simp))
    simp [h]
  · intro s a b hp hs ha hb
    have hpos : 0 < l.length := by
      by_contra h
      have : s = [] := List.length_eq_zero_iff.1 (by rw [hp.length_eq]; omega)
      rw [this] at ha
      simp at ha
    unfold median
    have hmid : l.length / 2 < l.length := by omega
    simp only [nth_eq hnth hp hs hmid, hb, Option.bind_eq_bind, Option.bind_some]
    by_cases hodd : l.length % 2 ≠ 0
    · rw [if_pos hodd]
      have : (l.length - 1) / 2 = l.length / 2 := by omega
      rw [this, hb] at ha
      rw [Option.some.inj ha]
      congr 1
      ring
    · rw [if_neg hodd]
      have hperm := hnth.perm (l.length / 2) l hmid.le
      have hlen : l.length / 2 - 1 < (nth (l.length / 2) l).length := by rw [hperm.length_eq]; omega
      rw [nth_eq hnth (hp.trans hperm.symm) hs hlen, show l.length / 2 - 1 = (l.length - 1) / 2 by omega, ha]
      simp only [Option.bind_some]
      rw [add_comm]

theorem median_exists (nth : ℕ → List α → List α) (hnth : IsNthElement nth) (l : List α) (hl : l ≠ []) :
    ∃ (s : List α) (a b : α), s.Perm l ∧ s.Pairwise (· ≤ ·) ∧ s[(l.length - 1) / 2]? = some a ∧ s[l.length / 2]? = some b ∧
      median nth l = some ((a + b) / 2) := by
  have hp := List.perm_insertionSort (· ≤ ·) l
  have hs : (l.insertionSort (· ≤ ·)).Pairwise (· ≤ ·) := List.pairwise_insertionSort _ _
  have hpos := List.length_pos_iff.2 hl
  have h1 : (l.length - 1) / 2 < (l.insertionSort (· ≤ ·)).length := by rw [hp.length_eq]; omega
  have h2 : l.length / 2 < (l.insertionSort (· ≤ ·)).length := by rw [hp.length_eq]; omega
  exact ⟨_, _, _, hp, hs, List.getElem?_eq_getElem h1, List.getElem?_eq_getElem h2,
    (C86_median nth hnth l).2 _ _ _ hp hs (List.getElem?_eq_getElem h1) (List.getElem?_eq_getElem h2)⟩

/-- C86. At most half of the values are smaller than the median, and at most half of them are larger. -/
theorem _root_.Aleph.C86_half (nth : ℕ → List α → List α) (hnth : IsNthElement nth) (l : List α) (hl : l ≠ []) :
    ∃ m, median nth l = some m ∧ 2 * (l.countP fun x => decide (x < m)) ≤ l.length ∧
      2 * (l.countP fun x => decide (m < x)) ≤ l.length := by
  obtain ⟨s, a, b, hp, hs, ha, hb, hm⟩ := median_exists nth hnth l hl
  refine ⟨_, hm, ?_, ?_⟩
  · have h1 := (sorted_counts hs hb).1
    have h2 := List.countP_mono_left (l := l) (p := fun x => decide (x < (a + b) / 2)) (q := fun x => decide (x < b)) (by
      intro x _ hx
      rw [decide_eq_true_eq] at *
      have hab : a ≤ b := by
        rcases Nat.eq_or_lt_of_le (show (l.length - 1) / 2 ≤ l.length / 2 by omega) with he | hlt
        · rw [he, hb] at ha; exact (Option.some.inj ha).ge
        · obtain ⟨i1, e1⟩ := List.getElem?_eq_some_iff.1 ha
          obtain ⟨i2, e2⟩ := List.getElem?_eq_some_iff.1 hb
          rw [← e1, ← e2]
          exact List.pairwise_iff_getElem.1 hs _ _ i1 i2 hlt
      linarith)
    rw [hp.countP_eq] at h1
    omega
  · have h1 := (sorted_counts hs ha).2.2
    have h2 := List.countP_mono_left (l := l) (p := fun x => decide ((a + b) / 2 < x)) (q := fun x => decide (a < x)) (by
      intro x _ hx
      rw [decide_eq_true_eq] at *
      have hab : a ≤ b := by
        rcases Nat.eq_or_lt_of_le (show (l.length - 1) / 2 ≤ l.length / 2 by omega) with he | hlt
        · rw [he, hb] at ha; exact (Option.some.inj ha).ge
        · obtain ⟨i1, e1⟩ := List.getElem?_eq_some_iff.1 ha
          obtain ⟨i2, e2⟩ := List.getElem?_eq_some_iff.1 hb
          rw [← e1, ← e2]
          exact List.pairwise_iff_getElem.1 hs _ _ i1 i2 hlt
      linarith)
    rw [hp.countP_eq, hp.length_eq] at h1
    omega

/-- A sum over all elements is bounded below by counting. -/
theorem sum_ge_count (f : α → α) (p : α → Bool) (d : α) (l : List α) (h1 : ∀ x ∈ l, p x = false → d ≤ f x) (h2 : ∀ x ∈ l, p x = true → -d ≤ f x) :
    ((l.length : α) - 2 * (l.countP p : ℕ)) * d ≤ (l.map f).sum := by
  induction l with
  | nil => simp
  | cons x l ih =>
    have ih := ih (fun y hy => h1 y (by simp [hy])) fun y hy => h2 y (by simp [hy])
    rw [List.map_cons, List.sum_cons, List.countP_cons, List.length_cons]
    by_cases hx : p x = true
    · have := h2 x (by simp) hx
      rw [if_pos hx]
      push_cast
      linarith
    · have := h1 x (by simp) (by simpa using hx)
      rw [if_neg hx]
      push_cast
      linarith

/-- C86. The median minimises the sum of absolute deviations. -/
theorem _root_.Aleph.C86_optimal (nth : ℕ → List α → List α) (hnth : IsNthElement nth) (l : List α) (m : α) (hm : median nth l = some m) (c : α) :
    (l.map fun x => |x - m|).sum ≤ (l.map fun x => |x - c|).sum := by
  have hl : l ≠ [] := by
    intro h
    rw [(C86_median nth hnth l).1 h] at hm
    exact absurd hm (by simp)
  obtain ⟨m', hm', h1, h2⟩ := C86_half nth hnth l hl
  rw [hm] at hm'
  rw [← Option.some.inj hm'] at h1 h2
  have h1' : (2 : α) * (l.countP fun x => decide (x < m) : ℕ) ≤ l.length := by exact_mod_cast h1
  have h2' : (2 : α) * (l.countP fun x => decide (m < x) : ℕ) ≤ l.length := by exact_mod_cast h2
  have hsum : (l.map fun x => |x - c|).sum = (l.map fun x => |x - c| - |x - m|).sum + (l.map fun x => |x - m|).sum := by
    rw [← List.sum_map_add]
    congr 2
    funext x
    ring
  rw [hsum]
  have : 0 ≤ (l.map fun x => |x - c| - |x - m|).sum := by
    rcases le_total m c with hc | hc
    · refine le_trans ?_ (sum_ge_count (fun x => |x - c| - |x - m|) (fun x => decide (m < x)) (c - m) l ?_ ?_)
      · exact mul_nonneg (by linarith) (by linarith)
      · intro x _ hx
        have hx : x ≤ m := by simpa using hx
        show c - m ≤ |x - c| - |x - m|
        rw [abs_of_nonpos (by linarith), abs_of_nonpos (by linarith)]
        linarith
      · intro x _ _
        have := abs_sub_le x c m
        rw [abs_of_nonneg (show 0 ≤ c - m by linarith)] at this
        show -(c - m) ≤ |x - c| - |x - m|
        linarith
    · refine le_trans ?_ (sum_ge_count (fun x => |x - c| - |x - m|) (fun x => decide (x < m)) (m - c) l ?_ ?_)
      · exact mul_nonneg (by linarith) (by linarith)
      · intro x _ hx
        have hx : m ≤ x := by simpa using hx
        show m - c ≤ |x - c| - |x - m|
        rw [abs_of_nonneg (by linarith), abs_of_nonneg (by linarith)]
        linarith
      · intro x _ _
        have := abs_sub_le x c m
        rw [abs_of_nonpos (show c - m ≤ 0 by linarith)] at this
        show -(m - c) ≤ |x - c| - |x - m|
        linarith
  linarith

omit [Field α] [IsStrictOrderedRing α] in
/-- Sorting is an implementation of partial sorting. -/
theorem sort_isNthElement : IsNthElement fun (_ : ℕ) (l : List α) => l.insertionSort (· ≤ ·) := by
  refine ⟨fun m l _ => List.perm_insertionSort _ _, ?_⟩
  intro m l v hv
  have hs : (l.insertionSort (· ≤ ·)).Pairwise (· ≤ ·) := List.pairwise_insertionSort _ _
  obtain ⟨hi, he⟩ := split_at hv
  have hdrop : (l.insertionSort (· ≤ ·)).drop m = v :: (l.insertionSort (· ≤ ·)).drop (m + 1) := by
    obtain ⟨hi, hw⟩ := List.getElem?_eq_some_iff.1 hv
    rw [← hw, List.cons_getElem_drop_succ]
  rw [he, List.pairwise_append, List.pairwise_cons] at hs
  constructor
  · intro x hx
    exact hs.2.2 x hx v (by simp)
  · intro x hx
    rw [hdrop] at hx
    rcases List.mem_cons.1 hx with rfl | hx
    · exact le_rfl
    · exact hs.2.1.1 x hx

example : median (fun _ l => l.insertionSort (· ≤ ·)) [(4 : ℚ), 1, 8, 2] = some 3 := by decide +kernel

end Median

section Bootstrap

variable {α β : Type}

theorem resample_mapM {draw : ℕ → ℕ} {data : List α} (h : ∀ i, draw i < data.length) :
    ((List.range data.length).mapM fun i => data[draw i]?) = some (resample draw data) ∧ (resample draw data).length = data.length ∧
    ∀ x ∈ resample draw data, x ∈ data := by
  unfold resample
  have key : ∀ l : List ℕ, (l.mapM fun i => data[draw i]?) = some (l.filterMap fun i => data[draw i]?) ∧
      (l.filterMap fun i => data[draw i]?).length = l.length := by
    intro l
    induction l with
    | nil => exact ⟨rfl, rfl⟩
    | cons i l ih =>
      have hi : data[draw i]? = some (data[draw i]'(h i)) := List.getElem?_eq_getElem (h i)
      rw [List.mapM_cons, ih.1, List.filterMap_cons, hi]
      exact ⟨rfl, by simp [ih.2]⟩
  refine ⟨(key _).1, by rw [(key _).2, List.length_range], ?_⟩
  intro x hx
  obtain ⟨i, _, hi⟩ := List.mem_filterMap.1 hx
  exact List.mem_of_getElem? hi

/-- C87. The replicates are the values of the functor for samples of the same size as the data, drawn with replacement. -/
theorem _root_.Aleph.C87_replicates (draw : ℕ → ℕ → ℕ) (B : ℕ) (data : List α) (f : List α → β) :
    (data = [] → makeReplicates draw B data f = some []) ∧
    (InRange draw data → data ≠ [] → makeReplicates draw B data f = some ((List.range B).map fun k => f (resample (draw k) data)) ∧
      ∀ k, (resample (draw k) data).length = data.length ∧ ∀ x ∈ resample (draw k) data, x ∈ data) := by
  constructor
  · intro h
    unfold makeReplicates
    rw [if_pos h]
  · intro hr hne
    refine ⟨?_, fun k => (resample_mapM (hr k)).2⟩
    unfold makeReplicates
    rw [if_neg hne]
    apply mapM_eq_some
    intro k _
    rw [(resample_mapM (hr k)).1]
    rfl

/-- C87. All samples with replacement can occur. -/
theorem _root_.Aleph.C87_all_samples (data : List α) (hne : data ≠ []) (samples : List (List α))
    (hs : ∀ s ∈ samples, s.length = data.length ∧ ∀ x ∈ s, x ∈ data) (f : List α → β) :
    ∃ draw, InRange draw data ∧ makeReplicates draw samples.length data f = some (samples.map f) := by
  have hpos := List.length_pos_iff.2 hne
  have h1 : ∀ k i : ℕ, ∃ j : ℕ, j < data.length ∧ ∀ (s : List α) (x : α), samples[k]? = some s → s[i]? = some x → data[j]? = some x := by
    intro k i
    by_cases h : ∃ s x, samples[k]? = some s ∧ s[i]? = some x
    · obtain ⟨s, x, hk, hi⟩ := h
      have hx := (hs s (List.mem_of_getElem? hk)).2 x (List.mem_of_getElem? hi)
      obtain ⟨j, hj⟩ := List.mem_iff_getElem?.1 hx
      obtain ⟨hj', -⟩ := List.getElem?_eq_some_iff.1 hj
      refine ⟨j, hj', ?_⟩
      intro s' x' hk' hi'
      rw [hk] at hk'
      rw [← Option.some.inj hk', hi] at hi'
      rw [hj, hi']
    · exact ⟨0, hpos, fun s x hk hi => absurd ⟨s, x, hk, hi⟩ h⟩
  choose draw hd1 hd2 using h1
  refine ⟨draw, hd1, ?_⟩
  rw [((C87_replicates draw samples.length data f).2 hd1 hne).1]
  congr 1
  have h3 : ∀ k s, samples[k]? = some s → resample (draw k) data = s := by
    intro k s hk
    have hm := (resample_mapM (hd1 k)).1
    have hlen := (hs s (List.mem_of_getElem? hk)).1
    unfold resample
    have h5 : (List.range data.length).filterMap (fun i => data[draw k i]?) = (List.range data.length).filterMap fun i => s[i]? := by
      apply List.filterMap_congr
      intro i hi
      have hi := List.mem_range.1 hi
      have hi' : i < s.length := by omega
      rw [List.getElem?_eq_getElem hi', hd2 k i s _ hk (List.getElem?_eq_getElem hi')]
    rw [h5, ← hlen]
    have h6 : ∀ t : List α, (List.range t.length).filterMap (fun i => t[i]?) = t := by
      intro t
      induction t with
      | nil => rfl
      | cons x t ih =>
        rw [List.length_cons, List.range_succ_eq_map, List.filterMap_cons, List.filterMap_map]
        simp only [List.getElem?_cons_zero]
        congr 1
    exact h6 s
  apply List.ext_getElem?
  intro k
  rw [List.getElem?_map, List.getElem?_map]
  by_cases hk : k < samples.length
  · rw [List.getElem?_range hk, List.getElem?_eq_getElem hk, Option.map_some, Option.map_some, h3 k _ (List.getElem?_eq_getElem hk)]
  · rw [List.getElem?_eq_none (by simpa using hk), List.getElem?_eq_none (by simpa using hk)]
    rfl

theorem decrement_eq {n : ℕ} (h : 0 < n) : decrement n = n - 1 := by
  cases n with
  | zero => omega
  | succ n => rfl

theorem decrement_zero : decrement 0 ≠ 0 := by
  unfold decrement
  norm_num

/-- C87. The standard error is the standard deviation of the replicates; it is undefined for one replicate, and zero without replicates. -/
theorem _root_.Aleph.C87_standard_error (draw : ℕ → ℕ → ℕ) (B : ℕ) (hB : B < 2 ^ 32) (data : List α) (f : List α → ℝ) :
    (InRange draw data → data ≠ [] → 2 ≤ B →
      standardError draw B data f = some (√(variance ((List.range B).map fun k => f (resample (draw k) data))))) ∧
    (InRange draw data → B = 1 → standardError draw B data f = none) ∧
    (data = [] ∧ B ≠ 1 ∨ B = 0 → standardError draw B data f = some 0) := by
  have hacc : ∀ l : List ℝ, Kahan.accumulateSorted l 0 = l.sum := fun l => by
    rw [(C49_accumulate_sorted l l (List.Perm.refl _) 0).1, zero_add]
  refine ⟨?_, ?_, ?_⟩
  · intro hr hne h2
    have hrep := ((C87_replicates draw B data f).2 hr hne).1
    generalize hE : (List.range B).map (fun k => f (resample (draw k) data)) = E at hrep ⊢
    have hlen : E.length = B := by rw [← hE, List.length_map, List.length_range]
    have hd := decrement_eq (show 0 < B by omega)
    have hm : Kahan.accumulate E 0 / (B : ℝ) = mean E := by
      rw [C49_accumulate, zero_add]
      unfold mean
      rw [hlen]
    have hmap : (E.mapM fun e => (some (mean E)).map fun m => (m - e) * (m - e)) = some (E.map fun e => (mean E - e) * (mean E - e)) :=
      mapM_eq_some _ _ E fun e _ => rfl
    have hv : (E.map fun e => (mean E - e) * (mean E - e)).sum / ((B - 1 : ℕ) : ℝ) = variance E := by
      unfold variance
      rw [hlen, Nat.cast_sub (by omega), Nat.cast_one]
      have : (fun e => (mean E - e) * (mean E - e)) = fun e => (e - mean E) ^ 2 := by
        funext e
        ring
      rw [this]
    have hB0 : ¬B = 0 := by omega
    have hd0 : ¬B - 1 = 0 := by omega
    unfold standardError
    rw [hrep]
    simp only [Option.bind_eq_bind, Option.bind_some, if_neg hB0, hm, hmap, hd, if_neg hd0, hacc, hv]
  · intro hr h1
    subst h1
    unfold standardError
    have hd : decrement 1 = 0 := decrement_eq (by omega)
    simp only [Option.bind_eq_bind, hd, if_true]
    simp
  · intro h
    have hE : makeReplicates draw B data f = some [] := by
      by_cases hne : data = []
      · exact (C87_replicates draw B data f).1 hne
      · rcases h with h | h
        · exact absurd h.1 hne
        · subst h
          unfold makeReplicates
          rw [if_neg hne]
          rfl
    have hd : decrement B ≠ 0 := by
      rcases Nat.eq_zero_or_pos B with h0 | h0
      · exact h0 ▸ decrement_zero
      · rw [decrement_eq h0]
        rcases h with h | h <;> omega
    unfold standardError
    rw [hE]
    simp only [Option.bind_eq_bind, Option.bind_some, List.mapM_nil, Option.pure_def, hacc]
    rw [if_neg hd, List.sum_nil, zero_div, Real.sqrt_zero]

theorem index_eq {B : ℕ} (hB : B < 2 ^ 32) {a : ℝ} (h0 : 0 < a) (h1 : a ≤ 1) (hpos : 0 < B) :
    ∃ c : ℕ, index B a = some c ∧ c < B ∧ (B : ℝ) * a ≤ c + 1 ∧ (c : ℝ) < B * a := by
  have hBpos : (0 : ℝ) < B := by exact_mod_cast hpos
  have hc1 : 0 < ⌈(B : ℝ) * a⌉ := Int.ceil_pos.2 (mul_pos hBpos h0)
  have hc2 : ⌈(B : ℝ) * a⌉ ≤ B := by
    rw [Int.ceil_le]
    push_cast
    nlinarith
  refine ⟨(⌈(B : ℝ) * a⌉).toNat - 1, ?_, ?_, ?_, ?_⟩
  · unfold index
    rw [if_pos ⟨hc1.le, by omega⟩, decrement_eq (by omega)]
  · omega
  · have h3 := Int.le_ceil ((B : ℝ) * a)
    have h4 : ((((⌈(B : ℝ) * a⌉).toNat - 1 : ℕ) : ℤ) : ℝ) = ((⌈(B : ℝ) * a⌉ - 1 : ℤ) : ℝ) := by
      congr 1
      omega
    push_cast at h4 ⊢
    rw [h4]
    linarith
  · have h3 := Int.ceil_lt_add_one ((B : ℝ) * a)
    have h4 : ((((⌈(B : ℝ) * a⌉).toNat - 1 : ℕ) : ℤ) : ℝ) = ((⌈(B : ℝ) * a⌉ - 1 : ℤ) : ℝ) := by
      congr 1
      omega
    push_cast at h4 ⊢
    rw [h4]
    linarith

theorem index_none {B : ℕ} (hB : B < 2 ^ 32) {a : ℝ} (h0 : a ≤ 0) : index B a = none ∨ ∃ c, index B a = some c ∧ B ≤ c := by
  have hc : ⌈(B : ℝ) * a⌉ ≤ 0 := by
    rw [Int.ceil_le]
    push_cast
    exact mul_nonpos_of_nonneg_of_nonpos (Nat.cast_nonneg _) h0
  unfold index
  by_cases h : 0 ≤ ⌈(B : ℝ) * a⌉ ∧ ⌈(B : ℝ) * a⌉ < 2 ^ 32
  · right
    have : ⌈(B : ℝ) * a⌉ = 0 := le_antisymm hc h.1
    rw [if_pos h, this]
    refine ⟨decrement 0, rfl, ?_⟩
    simp only [decrement]
    omega
  · left
    rw [if_neg h]

/-- C87. The percentile interval at level `1 - alpha`: at most the fraction `alpha / 2` of the replicates lies on either side. -/
theorem _root_.Aleph.C87_percentile_partial (draw : ℕ → ℕ → ℕ) (B : ℕ) (hpos : 0 < B) (hB : B < 2 ^ 32) (a : ℝ) (h0 : 0 < a) (h1 : a ≤ 1)
    (data : List α) (hr : InRange draw data) (hne : data ≠ []) (f : List α → ℝ) :
    let E := (List.range B).map fun k => f (resample (draw k) data)
    ∃ lo hi, percentileConfidenceInterval draw B a data f = some (lo, hi) ∧ lo ≤ hi ∧ lo ∈ E ∧ hi ∈ E ∧
      ((E.countP fun e => decide (e < lo) : ℕ) : ℝ) < a / 2 * B ∧ a / 2 * B ≤ (E.countP fun e => decide (e ≤ lo) : ℕ) ∧
      ((E.countP fun e => decide (hi < e) : ℕ) : ℝ) ≤ a / 2 * B ∧ (1 - a / 2) * B ≤ (E.countP fun e => decide (e ≤ hi) : ℕ) ∧
      (1 - a) * B ≤ (E.countP fun e => decide (lo ≤ e ∧ e ≤ hi) : ℕ) := by
  intro E
  have hlen : E.length = B := by rw [List.length_map, List.length_range]
  have hp := List.perm_insertionSort (· ≤ ·) E
  have hs : (E.insertionSort (· ≤ ·)).Pairwise (· ≤ ·) := List.pairwise_insertionSort _ _
  obtain ⟨c, hc, hcB, hc1, hc2⟩ := index_eq hB (a := a / 2) (by linarith) (by linarith) hpos
  obtain ⟨d, hd, hdB, hd1, hd2⟩ := index_eq hB (a := 1 - a / 2) (by linarith) (by linarith) hpos
  have hBpos : (0 : ℝ) < B := by exact_mod_cast hpos
  have hlc : c < (E.insertionSort (· ≤ ·)).length := by rw [hp.length_eq, hlen]; exact hcB
  have hld : d < (E.insertionSort (· ≤ ·)).length := by rw [hp.length_eq, hlen]; exact hdB
  have hlo := List.getElem?_eq_getElem hlc
  have hhi := List.getElem?_eq_getElem hld
  obtain ⟨k1, k2, k3⟩ := sorted_counts hs hlo
  obtain ⟨j1, j2, j3⟩ := sorted_counts hs hhi
  rw [hp.countP_eq] at k1 k2 k3 j1 j2 j3
  rw [hp.length_eq, hlen] at k3 j3
  set lo := (E.insertionSort (· ≤ ·))[c]'hlc with hlodef
  set hi := (E.insertionSort (· ≤ ·))[d]'hld with hhidef
  have hcd : c ≤ d := by
    have : (c : ℝ) < d + 1 := by nlinarith
    have : c < d + 1 := by exact_mod_cast this
    omega
  have hle : lo ≤ hi := by
    rcases Nat.eq_or_lt_of_le hcd with he | hlt
    · simp only [hlodef, hhidef, he]; exact le_rfl
    · exact List.pairwise_iff_getElem.1 hs _ _ hlc hld hlt
  have e1 : ((E.countP fun e => decide (e < lo) : ℕ) : ℝ) < a / 2 * B := by
    have : ((E.countP fun e => decide (e < lo) : ℕ) : ℝ) ≤ c := by exact_mod_cast k1
    linarith
  have e3 : ((E.countP fun e => decide (hi < e) : ℕ) : ℝ) ≤ a / 2 * B := by
    have : ((E.countP fun e => decide (hi < e) : ℕ) : ℝ) + d + 1 ≤ B := by exact_mod_cast j3
    linarith
  refine ⟨lo, hi, ?_, hle, ?_, ?_, e1, ?_, e3, ?_, ?_⟩
  · unfold percentileConfidenceInterval
    rw [((C87_replicates draw B data f).2 hr hne).1]
    simp only [Option.bind_eq_bind, Option.bind_some, hc, hd]
    have hlo' : (((List.range B).map fun k => f (resample (draw k) data)).insertionSort (· ≤ ·))[c]? = some lo := hlo
    have hhi' : (((List.range B).map fun k => f (resample (draw k) data)).insertionSort (· ≤ ·))[d]? = some hi := hhi
    rw [hlo']
    simp only [Option.bind_some, hhi']
  · exact hp.mem_iff.1 (List.getElem_mem hlc)
  · exact hp.mem_iff.1 (List.getElem_mem hld)
  · have : ((c + 1 : ℕ) : ℝ) ≤ (E.countP fun e => decide (e ≤ lo) : ℕ) := by exact_mod_cast k2
    push_cast at this
    linarith
  · have : ((d + 1 : ℕ) : ℝ) ≤ (E.countP fun e => decide (e ≤ hi) : ℕ) := by exact_mod_cast j2
    push_cast at this
    linarith
  · have hcount : ∀ L : List ℝ, L.length ≤ (L.countP fun e => decide (lo ≤ e ∧ e ≤ hi)) + (L.countP fun e => decide (e < lo)) +
        (L.countP fun e => decide (hi < e)) := by
      intro L
      induction L with
      | nil => simp
      | cons x L ih =>
        simp only [List.countP_cons, List.length_cons, decide_eq_true_eq]
        rcases lt_or_ge x lo with h | h
        · rw [if_pos h]; omega
        · rcases lt_or_ge hi x with h' | h'
          · rw [if_pos h']; omega
          · rw [if_pos ⟨h, h'⟩]; omega
    have := hcount E
    rw [hlen] at this
    have : (B : ℝ) ≤ (E.countP fun e => decide (lo ≤ e ∧ e ≤ hi) : ℕ) + (E.countP fun e => decide (e < lo) : ℕ) +
        (E.countP fun e => decide (hi < e) : ℕ) := by exact_mod_cast this
    linarith

/-- C87. There is no interval at level one (`alpha` is zero), without data or without replicates: the program throws an exception. -/
theorem _root_.Aleph.C87_percentile_none (draw : ℕ → ℕ → ℕ) (B : ℕ) (hB : B < 2 ^ 32) (a : ℝ) (data : List α) (hr : InRange draw data)
    (f : List α → ℝ) (h : a ≤ 0 ∨ 2 ≤ a ∨ data = [] ∨ B = 0) : percentileConfidenceInterval draw B a data f = none := by
  obtain ⟨E, hE, hlen, hempty⟩ : ∃ E, makeReplicates draw B data f = some E ∧ E.length ≤ B ∧ (data = [] → E = []) := by
    by_cases hne : data = []
    · exact ⟨[], (C87_replicates draw B data f).1 hne, by simp, fun _ => rfl⟩
    · exact ⟨_, ((C87_replicates draw B data f).2 hr hne).1, by simp, fun h => absurd h hne⟩
  have hsort : (E.insertionSort (· ≤ ·)).length = E.length := (List.perm_insertionSort _ _).length_eq
  unfold percentileConfidenceInterval
  rw [hE]
  simp only [Option.bind_eq_bind, Option.bind_some]
  have hnil : E = [] → ∀ c : ℕ, (E.insertionSort (· ≤ ·))[c]? = none := by
    intro h c
    rw [h]
    simp
  have hout : ∀ x : ℝ, x ≤ 0 → ((index B x).bind fun c => (E.insertionSort (· ≤ ·))[c]?) = none := by
    intro x hx
    rcases index_none hB hx with h | ⟨c, h, hc⟩
    · rw [h]; rfl
    · rw [h, Option.bind_some, List.getElem?_eq_none (by omega)]
  rw [Option.bind_eq_none_iff]
  intro c hc
  rw [Option.bind_eq_none_iff]
  intro lo hlo
  rcases h with h | h | h | h
  · have := hout (a / 2) (by linarith)
    rw [hc, Option.bind_some, hlo] at this
    exact absurd this (by simp)
  · rw [Option.bind_eq_none_iff]
    intro d hd
    have := hout (1 - a / 2) (by linarith)
    rw [hd, Option.bind_some] at this
    rw [this]
    rfl
  · rw [hnil (hempty h) c] at hlo
    exact absurd hlo (by simp)
  · rw [hnil (List.length_eq_zero_iff.1 (by omega)) c] at hlo
    exact absurd hlo (by simp)

/-- C87. The basic interval is the percentile interval, reflected at the value for the original data. -/
theorem _root_.Aleph.C87_basic (draw : ℕ → ℕ → ℕ) (B : ℕ) (a : ℝ) (data : List α) (f : List α → ℝ) :
    basicConfidenceInterval draw B a data f =
      (percentileConfidenceInterval draw B a data f).map fun i => (2 * f data - i.2, 2 * f data - i.1) := by
  unfold basicConfidenceInterval percentileConfidenceInterval
  simp only [Option.bind_eq_bind, Option.map_bind, Function.comp_def, Option.map_some]

/-- C87. The interval with Student's distribution is centred at the value for the original data, but its level is `1 - 2 * alpha`, in contrast to
the other intervals. -/
theorem _root_.Aleph.C87_student_wrong (quantile : ℕ → ℝ → ℝ) (draw : ℕ → ℕ → ℕ) (B : ℕ) (h2 : 2 ≤ B) (hB : B < 2 ^ 32) (a : ℝ) (h0 : 0 < a)
    (h1 : a < 1) (data : List α) (hr : InRange draw data) (hd : 2 ≤ data.length) (f : List α → ℝ) (F : ℝ → ℝ)
    (hF : ∀ p, 0 < p → p < 1 → F (quantile (data.length - 1) p) = p)
    (hse : 0 < variance ((List.range B).map fun k => f (resample (draw k) data))) :
    ∃ lo hi se, studentConfidenceInterval quantile draw B a data f = some (lo, hi) ∧ standardError draw B data f = some se ∧ 0 < se ∧
      F ((f data - lo) / se) - F ((f data - hi) / se) = 1 - 2 * a ∧
      ((∀ p, quantile (data.length - 1) (1 - p) = -quantile (data.length - 1) p) → (lo + hi) / 2 = f data) := by
  have hne : data ≠ [] := by rintro rfl; simp at hd
  have hs := (C87_standard_error draw B hB data f).1 hr hne h2
  have hpos := Real.sqrt_pos.2 hse
  set se := √(variance ((List.range B).map fun k => f (resample (draw k) data))) with hsedef
  refine ⟨f data - quantile (data.length - 1) (1 - a) * se, f data - quantile (data.length - 1) a * se, se, ?_, hs, hpos, ?_, ?_⟩
  · unfold studentConfidenceInterval
    simp only [if_neg (show ¬data.length ≤ 1 by omega), hs, Option.bind_eq_bind, Option.bind_some]
  · rw [sub_sub_cancel, sub_sub_cancel, mul_div_assoc, mul_div_assoc, div_self hpos.ne', mul_one, mul_one, hF _ (by linarith) (by linarith),
      hF _ h0 h1]
    ring
  · intro hsym
    rw [hsym]
    ring

/-- Without random fluctuation: three replicates of the data itself. -/
example : makeReplicates (fun _ i => i % 3) 3 [(1 : ℚ), 2, 6] List.sum = some [9, 9, 9] ∧ InRange (fun _ i => i % 3) [(1 : ℚ), 2, 6] :=
  ⟨by decide +kernel, fun _ _ => Nat.mod_lt _ (by decide)⟩

end Bootstrap

end Aleph.Bootstrap
