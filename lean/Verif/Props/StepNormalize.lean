import Verif.Model.StepNormalize
import Verif.Props.StepFunction
import Mathlib.Algebra.Order.Field.Basic
import Mathlib.Algebra.Order.Ring.Rat
import Mathlib.Tactic.Linarith
import Mathlib.Tactic.Ring
import Mathlib.Tactic.NormNum

/-!
# C148: normalization of step functions
-/

namespace Aleph.Step

open Spec

variable {α : Type} [LinearOrder α] [Field α]

omit [Field α] in
theorem values_spec (f : Fn α) : (values f).Pairwise (· < ·) ∧ ∀ y, y ∈ values f ↔ ∃ e ∈ f, e.y = y := by
  have hp := List.perm_insertionSort (· ≤ ·) (image f).dedup
  constructor
  · have h1 : (values f).Pairwise (· ≤ ·) := List.pairwise_insertionSort _ _
    have h2 : (values f).Nodup := hp.nodup_iff.2 (image f).nodup_dedup
    exact h1.imp₂ (fun a b h1 h2 => lt_of_le_of_ne h1 h2) h2
  · intro y
    rw [values, hp.mem_iff, List.mem_dedup, image, List.mem_map]

omit [Field α] in
/-- If two values are different, the last element is the largest one. -/
theorem values_last {f : Fn α} {e e' : Interval α} (he : e ∈ f) (he' : e' ∈ f) (hne : e.y ≠ e'.y) :
    ((values f).isEmpty || (values f).length == 1) = false ∧ ∃ m, (values f).getLast? = some m ∧ (∃ d ∈ f, d.y = m) ∧ ∀ d ∈ f, d.y ≤ m := by
  obtain ⟨h1, h2⟩ := values_spec f
  have m1 := (h2 e.y).2 ⟨e, he, rfl⟩
  have m2 := (h2 e'.y).2 ⟨e', he', rfl⟩
  constructor
  · cases h : values f with
    | nil => rw [h] at m1; cases m1
    | cons x l =>
      cases l with
      | nil =>
        rw [h] at m1 m2
        exact absurd ((List.mem_singleton.1 m1).trans (List.mem_singleton.1 m2).symm) hne
      | cons y l => simp
  · rcases List.eq_nil_or_concat (values f) with h | ⟨l, m, h⟩
    · rw [h] at m1; cases m1
    · rw [List.concat_eq_append] at h
      refine ⟨m, by rw [h]; simp, (h2 m).1 (by rw [h]; simp), fun d hd => ?_⟩
      have := (h2 d.y).2 ⟨d, hd, rfl⟩
      rw [h] at this h1
      rcases List.mem_append.1 this with hm | hm
      · exact le_of_lt ((List.pairwise_append.1 h1).2.2 _ hm m (by simp))
      · exact le_of_eq (List.mem_singleton.1 hm)

omit [Field α] in
theorem map_map_interval (f : Fn α) (g h : α → α) : (f.map fun e => (⟨e.a, e.b, g e.y⟩ : Interval α)).map (fun e => (⟨e.a, e.b, h e.y⟩ : Interval α)) = f.map fun e => ⟨e.a, e.b, h (g e.y)⟩ := by
  rw [List.map_map]
  rfl

/-- **C148 (values).** For a function with different values, each value is divided by the largest one, then multiplied by the length of the new range, and its start is added; intervals remain.
This is impossible, and an exception is raised, if and only if the largest value is zero. -/
theorem _root_.Aleph.C148_values (f : Fn α) (hf : IsStepFunction f) (a b : α) (e e' : Interval α) (he : e ∈ f) (he' : e' ∈ f) (hne : e.y ≠ e'.y) :
    ∃ m, (∃ d ∈ f, d.y = m) ∧ (∀ d ∈ f, d.y ≤ m) ∧ (m = 0 → normalize f a b = none) ∧
      (m ≠ 0 → normalize f a b = some (f.map fun d => ⟨d.a, d.b, a + d.y / m * (b - a)⟩)) := by
  obtain ⟨h1, m, hm, h2, h3⟩ := values_last he he' hne
  refine ⟨m, h2, h3, ?_, ?_⟩
  · rintro rfl
    rw [normalize, h1, hm]
    simp [sdiv]
  · intro h0
    rw [normalize, h1, hm]
    have e0 : subScalar f 0 = f.map fun d => ⟨d.a, d.b, -0 + d.y⟩ := rebuild_eq hf _
    simp only [sub_zero, Bool.false_eq_true, if_false, sdiv, if_neg h0]
    have s1 : IsStepFunction (f.map fun d => (⟨d.a, d.b, -0 + d.y⟩ : Interval α)) := map_isStep hf _
    rw [e0]
    simp only [smul, addScalar]
    have s2 := map_isStep hf fun y => (-0 + y) * (1 / m)
    have s3 := map_isStep hf fun y => (-0 + y) * (1 / m) * (b - a)
    rw [rebuild_eq s1, map_map_interval f (fun y => -0 + y) fun y => y * (1 / m), rebuild_eq s2, map_map_interval f (fun y => (-0 + y) * (1 / m)) fun y => y * (b - a), rebuild_eq s3,
      map_map_interval f (fun y => (-0 + y) * (1 / m) * (b - a)) fun y => a + y]
    simp [div_eq_mul_inv]

variable [IsStrictOrderedRing α]

/-- **C148 (range).** If no value is negative and there are different values, the values of the normalized function are in the given range, and its end is attained.  Intervals remain, and the
order of values is preserved. -/
theorem _root_.Aleph.C148_range_partial (f : Fn α) (hf : IsStepFunction f) (a b : α) (hab : a ≤ b) (hpos : ∀ e ∈ f, 0 ≤ e.y) (e e' : Interval α) (he : e ∈ f) (he' : e' ∈ f) (hne : e.y ≠ e'.y) :
    ∃ g, normalize f a b = some g ∧ IsStepFunction g ∧ domain g = domain f ∧ (∀ d ∈ g, a ≤ d.y ∧ d.y ≤ b) ∧ (∃ d ∈ g, d.y = b) ∧
      (∀ x d, OnlyInterval f x d → a ≤ eval g x ∧ eval g x ≤ b) ∧
      (∀ x y d d', OnlyInterval f x d → OnlyInterval f y d' → eval f x ≤ eval f y → eval g x ≤ eval g y) := by
  obtain ⟨m, ⟨d, hd, hdm⟩, hmax, _, hn⟩ := C148_values f hf a b e e' he he' hne
  have hm : 0 < m := by
    rcases lt_or_gt_of_ne hne with h | h
    · exact lt_of_lt_of_le (lt_of_le_of_lt (hpos e he) h) (hmax e' he')
    · exact lt_of_lt_of_le (lt_of_le_of_lt (hpos e' he') h) (hmax e he)
  have hba : 0 ≤ b - a := sub_nonneg.2 hab
  have hmono : ∀ y z : α, y ≤ z → a + y / m * (b - a) ≤ a + z / m * (b - a) := by
    intro y z h
    have : y / m ≤ z / m := div_le_div_of_nonneg_right h hm.le
    have := mul_le_mul_of_nonneg_right this hba
    linarith
  have hb : a + m / m * (b - a) = b := by rw [div_self hm.ne']; ring
  have ha : a + 0 / m * (b - a) = a := by simp
  have hr : ∀ y, 0 ≤ y → y ≤ m → a ≤ a + y / m * (b - a) ∧ a + y / m * (b - a) ≤ b := by
    intro y h0 h1
    exact ⟨ha.symm.trans_le (hmono 0 y h0), (hmono y m h1).trans_eq hb⟩
  have hs := map_isStep hf fun y => a + y / m * (b - a)
  have hev : ∀ x c, OnlyInterval f x c → eval (f.map fun d => (⟨d.a, d.b, a + d.y / m * (b - a)⟩ : Interval α)) x = a + c.y / m * (b - a) := by
    rintro x c ⟨h1, h2, h3, h4⟩
    refine eval_only hs (e := ⟨c.a, c.b, a + c.y / m * (b - a)⟩) ⟨List.mem_map.2 ⟨c, h1, rfl⟩, h2, h3, ?_⟩
    intro c' hc' h5 h6
    obtain ⟨e', he', rfl⟩ := List.mem_map.1 hc'
    rw [h4 e' he' h5 h6]
  refine ⟨_, hn hm.ne', hs, by simp [domain, List.flatMap_map], ?_, ⟨_, List.mem_map.2 ⟨d, hd, rfl⟩, by rw [hdm]; exact hb⟩, ?_, ?_⟩
  · intro d hd
    obtain ⟨c, hc, rfl⟩ := List.mem_map.1 hd
    exact hr _ (hpos c hc) (hmax c hc)
  · intro x c hc
    rw [hev x c hc]
    exact hr _ (hpos c hc.1) (hmax c hc.1)
  · intro x y c c' hc hc' h
    rw [hev x c hc, hev y c' hc']
    rw [eval_only hf hc, eval_only hf hc'] at h
    exact hmono _ _ h

omit [IsStrictOrderedRing α] in
/-- **C148 (one value).** The code violates the property: a function with at most one value remains as it is, even if this value is not in the range. -/
theorem _root_.Aleph.C148_constant (f : Fn α) (a b : α) (h : ∀ e ∈ f, ∀ e' ∈ f, e.y = e'.y) : normalize f a b = some f := by
  have : ((values f).isEmpty || (values f).length == 1) = true := by
    obtain ⟨h1, h2⟩ := values_spec f
    cases hv : values f with
    | nil => rfl
    | cons x l =>
      cases l with
      | nil => rfl
      | cons y l =>
        rw [hv] at h1
        have hlt : x < y := (List.pairwise_cons.1 h1).1 y (by simp)
        obtain ⟨e, he, rfl⟩ := (h2 x).1 (by rw [hv]; simp)
        obtain ⟨e', he', rfl⟩ := (h2 y).1 (by rw [hv]; simp)
        exact absurd (h e he e' he') hlt.ne
  rw [normalize, this]
  rfl

/-- **C148 (negative values).** The code violates the property: values that are smaller than zero become smaller than the start of the range if there are positive values; if the largest value is zero, an exception is
raised; if all values are negative, their order is reversed, and none except for the largest one is in the range. -/
theorem _root_.Aleph.C148_negative (f : Fn α) (hf : IsStepFunction f) (a b : α) (hab : a < b) (e e' : Interval α) (he : e ∈ f) (he' : e' ∈ f) (hneg : e.y < 0) (hne : e.y < e'.y) :
    (0 < e'.y → ∃ g, normalize f a b = some g ∧ ∃ d ∈ g, d.a = e.a ∧ d.b = e.b ∧ d.y < a) ∧
      (e'.y = 0 → (∀ d ∈ f, d.y ≤ 0) → normalize f a b = none) ∧
      ((∀ d ∈ f, d.y < 0) → ∃ g, normalize f a b = some g ∧ (∃ d ∈ g, d.a = e.a ∧ d.b = e.b ∧ b < d.y) ∧
        ∃ d ∈ g, ∃ d' ∈ g, d.a = e.a ∧ d.b = e.b ∧ d'.a = e'.a ∧ d'.b = e'.b ∧ d'.y < d.y) := by
  obtain ⟨m, ⟨d, hd, hdm⟩, hmax, h0, hn⟩ := C148_values f hf a b e e' he he' hne.ne
  have hba : 0 < b - a := sub_pos.2 hab
  refine ⟨fun h => ?_, fun h hall => ?_, fun h => ?_⟩
  · have hm : 0 < m := lt_of_lt_of_le h (hmax e' he')
    refine ⟨_, hn hm.ne', _, List.mem_map.2 ⟨e, he, rfl⟩, rfl, rfl, ?_⟩
    have := mul_neg_of_neg_of_pos (div_neg_of_neg_of_pos hneg hm) hba
    show a + e.y / m * (b - a) < a
    linarith
  · refine h0 (le_antisymm ?_ ?_)
    · rw [← hdm]; exact hall d hd
    · rw [← h]; exact hmax e' he'
  · have hm : m < 0 := by rw [← hdm]; exact h d hd
    have hlt : ∀ y z : α, y < z → a + z / m * (b - a) < a + y / m * (b - a) := by
      intro y z hyz
      have := mul_lt_mul_of_pos_right (div_lt_div_of_neg_of_lt hm hyz) hba
      linarith
    have hb : a + m / m * (b - a) = b := by rw [div_self hm.ne]; ring
    refine ⟨_, hn hm.ne, ⟨_, List.mem_map.2 ⟨e, he, rfl⟩, rfl, rfl, ?_⟩, _, List.mem_map.2 ⟨e, he, rfl⟩, _, List.mem_map.2 ⟨e', he', rfl⟩, rfl, rfl, rfl, rfl, hlt _ _ hne⟩
    exact hb.symm.trans_lt (hlt _ _ (lt_of_lt_of_le hne (hmax e' he')))

omit [IsStrictOrderedRing α] in
/-- **C148 (outside).** The code violates the property: outside of all intervals, the normalized function remains zero, even if zero is not in the range. -/
theorem _root_.Aleph.C148_outside (f : Fn α) (hf : IsStepFunction f) (a b : α) (e e' : Interval α) (he : e ∈ f) (he' : e' ∈ f) (hne : e.y ≠ e'.y) (g : Fn α) (hg : normalize f a b = some g) (x : α)
    (hx : Outside f x) : eval g x = 0 := by
  obtain ⟨m, _, _, h0, hn⟩ := C148_values f hf a b e e' he he' hne
  by_cases hm : m = 0
  · rw [h0 hm] at hg; cases hg
  · rw [hn hm] at hg
    obtain rfl := Option.some.inj hg
    refine eval_outside (map_isStep hf fun y => a + y / m * (b - a)) ?_
    intro c hc
    obtain ⟨d, hd, rfl⟩ := List.mem_map.1 hc
    exact hx d hd

/-! ### Examples -/

theorem step_example : IsStepFunction [⟨0, 1, 2⟩, ⟨1, 3, 4⟩, ⟨(5 : ℚ), 6, 1⟩] := ⟨by decide +kernel, by decide +kernel⟩

example : normalize [⟨0, 1, 2⟩, ⟨1, 3, 4⟩, ⟨(5 : ℚ), 6, 1⟩] 0 10 = some [⟨0, 1, 5⟩, ⟨1, 3, 10⟩, ⟨5, 6, 5 / 2⟩] := by decide +kernel
example := C148_range_partial _ step_example 0 10 (by norm_num) (by decide +kernel) ⟨0, 1, 2⟩ ⟨1, 3, 4⟩ (by simp) (by simp) (by norm_num)
example : normalize [⟨0, 1, 7⟩, ⟨(5 : ℚ), 6, 7⟩] 0 1 = some [⟨0, 1, 7⟩, ⟨5, 6, 7⟩] := C148_constant _ _ _ (by decide +kernel)
example : normalize [⟨0, 1, -2⟩, ⟨(5 : ℚ), 6, -1⟩] 0 1 = some [⟨0, 1, 2⟩, ⟨5, 6, 1⟩] := by decide +kernel
example : normalize [⟨0, 1, -2⟩, ⟨(5 : ℚ), 6, 0⟩] 0 1 = none := by decide +kernel
example : normalize [⟨0, 1, -2⟩, ⟨(5 : ℚ), 6, 2⟩] 0 1 = some [⟨0, 1, -1⟩, ⟨5, 6, 1⟩] := by decide +kernel

end Aleph.Step
