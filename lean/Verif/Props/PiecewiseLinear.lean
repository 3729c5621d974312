import Verif.Spec.PiecewiseLinear
import Verif.Props.Kahan
import Mathlib.Data.List.TakeWhile
import Mathlib.Algebra.Order.Field.Basic
import Mathlib.Tactic.Ring
import Mathlib.Tactic.FieldSimp
import Mathlib.Tactic.Linarith
import Mathlib.Tactic.LinearCombination

/-!
# Piecewise linear functions (C42)
-/

set_option linter.unusedSectionVars false

namespace Aleph

open Spec

variable {α : Type}

namespace Pl

section Order

variable [LinearOrder α]

theorem mem_mapInsert {p : α × α} {f : Fn α} {q : α × α} (h : q ∈ mapInsert p f) : q = p ∨ q ∈ f := by
  induction f with
  | nil => left; simpa [mapInsert] using h
  | cons c f ih =>
    rw [mapInsert] at h
    split at h
    · simpa using h
    · split at h
      · rcases List.mem_cons.1 h with h | h
        · right; simp [h]
        · rcases ih h with h | h
          · exact .inl h
          · right; simp [h]
      · exact .inr h

theorem mem_mapInsert_old {p : α × α} {f : Fn α} {q : α × α} (h : q ∈ f) : q ∈ mapInsert p f := by
  induction f with
  | nil => cases h
  | cons c f ih =>
    rw [mapInsert]
    split
    · exact List.mem_cons_of_mem _ h
    · split
      · rcases List.mem_cons.1 h with h | h
        · simp [h]
        · exact List.mem_cons_of_mem _ (ih h)
      · exact h

theorem mem_mapInsert_new {p : α × α} {f : Fn α} (h : ∀ q ∈ f, q.1 ≠ p.1) : p ∈ mapInsert p f := by
  induction f with
  | nil => simp [mapInsert]
  | cons c f ih =>
    rw [mapInsert]
    split
    · simp
    · next h1 =>
      rw [if_pos (lt_of_le_of_ne (le_of_not_gt h1) (h c (by simp)))]
      exact List.mem_cons_of_mem _ (ih fun q hq => h q (by simp [hq]))

theorem mapInsert_ascending {p : α × α} {f : Fn α} (hf : Ascending f) : Ascending (mapInsert p f) := by
  unfold Ascending at *
  induction f with
  | nil => simp [mapInsert]
  | cons c f ih =>
    rw [List.pairwise_cons] at hf
    rw [mapInsert]
    split
    · next h =>
      refine List.pairwise_cons.2 ⟨?_, List.pairwise_cons.2 hf⟩
      intro q hq
      rcases List.mem_cons.1 hq with rfl | hq
      · exact h
      · exact lt_trans h (hf.1 q hq)
    · split
      · next h =>
        refine List.pairwise_cons.2 ⟨?_, ih hf.2⟩
        intro q hq
        rcases mem_mapInsert hq with rfl | hq
        · exact h
        · exact hf.1 q hq
      · exact List.pairwise_cons.2 hf

theorem mem_setInsert {x y : α} {l : List α} : y ∈ setInsert x l ↔ y = x ∨ y ∈ l := by
  induction l with
  | nil => simp [setInsert]
  | cons c l ih =>
    rw [setInsert]
    split
    · simp
    · split
      · rw [List.mem_cons, ih, List.mem_cons]; tauto
      · next h1 h2 =>
        have : c = x := le_antisymm (le_of_not_gt h1) (le_of_not_gt h2)
        subst this
        simp

theorem setInsert_sorted {x : α} {l : List α} (h : l.Pairwise (· < ·)) : (setInsert x l).Pairwise (· < ·) := by
  induction l with
  | nil => simp [setInsert]
  | cons c l ih =>
    rw [List.pairwise_cons] at h
    rw [setInsert]
    split
    · next h1 =>
      refine List.pairwise_cons.2 ⟨?_, List.pairwise_cons.2 h⟩
      intro q hq
      rcases List.mem_cons.1 hq with rfl | hq
      · exact h1
      · exact lt_trans h1 (h.1 q hq)
    · split
      · next h2 =>
        refine List.pairwise_cons.2 ⟨?_, ih h.2⟩
        intro q hq
        rcases mem_setInsert.1 hq with rfl | hq
        · exact h2
        · exact h.1 q hq
      · exact List.pairwise_cons.2 h

theorem foldl_setInsert_mem {β : Type} (k : β → α) (l : List β) (s : List α) (y : α) :
    y ∈ l.foldl (fun s b => setInsert (k b) s) s ↔ (∃ b ∈ l, y = k b) ∨ y ∈ s := by
  induction l generalizing s with
  | nil => simp
  | cons b l ih =>
    rw [List.foldl_cons, ih, mem_setInsert]
    simp only [List.mem_cons, exists_eq_or_imp]
    rw [← or_assoc, or_comm (a := ∃ b ∈ l, y = k b)]

theorem foldl_setInsert_sorted {β : Type} (k : β → α) (l : List β) (s : List α) (hs : s.Pairwise (· < ·)) :
    (l.foldl (fun s b => setInsert (k b) s) s).Pairwise (· < ·) := by
  induction l generalizing s with
  | nil => exact hs
  | cons b l ih => exact ih _ (setInsert_sorted hs)

theorem mem_merged (f g : Fn α) (x : α) : x ∈ merged f g ↔ (∃ p ∈ f, x = p.1) ∨ ∃ p ∈ g, x = p.1 := by
  rw [merged, foldl_setInsert_mem, foldl_setInsert_mem]
  simp only [List.not_mem_nil, or_false]
  exact or_comm

theorem merged_sorted (f g : Fn α) : (merged f g).Pairwise (· < ·) :=
  foldl_setInsert_sorted _ _ _ (foldl_setInsert_sorted _ _ _ List.Pairwise.nil)

/-- Two different points with the same first coordinate do not occur. -/
theorem ascending_unique {f : Fn α} (hf : Ascending f) {p q : α × α} (hp : p ∈ f) (hq : q ∈ f) (h : p.1 = q.1) : p = q := by
  have : (f.map Prod.fst).Nodup := by
    rw [List.Nodup, List.pairwise_map]
    exact hf.imp fun h => ne_of_lt h
  exact List.inj_on_of_nodup_map this hp hq h

theorem mem_pairs {β : Type} {l : List β} {p q : β} : (p, q) ∈ pairs l ↔ ∃ a b, l = a ++ p :: q :: b := by
  induction l with
  | nil => simp [pairs]
  | cons c l ih =>
    cases l with
    | nil =>
      simp only [pairs, List.tail_cons, List.zip_nil_right, List.not_mem_nil, false_iff, not_exists]
      intro a b h
      have := congrArg List.length h
      simp at this
      omega
    | cons d l =>
      have hp : pairs (c :: d :: l) = (c, d) :: pairs (d :: l) := rfl
      rw [hp, List.mem_cons, ih]
      constructor
      · rintro (h | ⟨a, b, h⟩)
        · cases h; exact ⟨[], l, rfl⟩
        · exact ⟨c :: a, b, by rw [h]; rfl⟩
      · rintro ⟨a, b, h⟩
        cases a with
        | nil => left; simp at h; rw [h.1, h.2.1]
        | cons a0 a => right; exact ⟨a, b, by simp at h; exact h.2⟩

theorem pairs_neighbours {f : Fn α} (hf : Ascending f) {p q : α × α} : (p, q) ∈ pairs f ↔ Neighbours f p q := by
  rw [mem_pairs]
  constructor
  · rintro ⟨a, b, rfl⟩
    unfold Ascending at hf
    rw [List.pairwise_append, List.pairwise_cons, List.pairwise_cons] at hf
    obtain ⟨-, ⟨h1, h2, -⟩, h3⟩ := hf
    refine ⟨by simp, by simp, h1 q (by simp), ?_⟩
    intro r hr
    simp only [List.mem_append, List.mem_cons] at hr
    rcases hr with hr | rfl | rfl | hr
    · exact .inl (h3 r hr p (by simp)).le
    · exact .inl le_rfl
    · exact .inr le_rfl
    · exact .inr (h2 r hr).le
  · rintro ⟨hp, hq, hpq, h⟩
    obtain ⟨a, c, rfl⟩ := List.append_of_mem hp
    unfold Ascending at hf
    rw [List.pairwise_append, List.pairwise_cons] at hf
    obtain ⟨-, ⟨h1, h2⟩, h3⟩ := hf
    cases c with
    | nil =>
      rcases List.mem_append.1 hq with hq | hq
      · exact absurd (h3 q hq p (by simp)) (not_lt_of_gt hpq)
      · rw [List.mem_singleton.1 hq] at hpq
        exact absurd hpq (lt_irrefl _)
    | cons d c =>
      refine ⟨a, c, ?_⟩
      have hd : q.1 ≤ d.1 := (h d (by simp)).resolve_left (not_le_of_gt (h1 d (by simp)))
      have : q = d := by
        rcases List.mem_append.1 hq with hq | hq
        · exact absurd (h3 q hq p (by simp)) (not_lt_of_gt hpq)
        · rcases List.mem_cons.1 hq with rfl | hq
          · exact absurd hpq (lt_irrefl _)
          · rcases List.mem_cons.1 hq with rfl | hq
            · rfl
            · exact absurd ((List.pairwise_cons.1 h2).1 q hq) (not_lt_of_ge hd)
      rw [this]

end Order

section Field

variable [LinearOrder α] [Field α] [IsStrictOrderedRing α]

theorem eval_value {f : Fn α} (hf : Ascending f) (x : α) : ValueAt f x (eval f x) := by
  have hsplit := List.takeWhile_append_dropWhile (p := fun p : α × α => decide (p.1 < x)) (l := f)
  rw [eval]
  split
  · next h =>
    right; right
    refine ⟨?_, rfl⟩
    rintro ⟨-, q, hq, hxq⟩
    rw [h, List.append_nil] at hsplit
    rw [← hsplit] at hq
    have := List.mem_takeWhile_imp hq
    simp only [decide_eq_true_eq] at this
    exact absurd this (not_lt_of_ge hxq)
  · next right rest h =>
    have hr : ¬right.1 < x := by
      have := List.head_dropWhile_not (fun p : α × α => decide (p.1 < x)) (l := f) (by rw [h]; simp)
      simpa [h] using this
    have hrm : right ∈ f := by rw [← hsplit, h]; simp
    split
    · next h1 =>
      right; right
      refine ⟨?_, rfl⟩
      rintro ⟨⟨p, hp, hpx⟩, -⟩
      cases f with
      | nil => cases hp
      | cons c f =>
        have hc : c.1 ≤ x := by
          rcases List.mem_cons.1 hp with rfl | hp
          · exact hpx
          · exact le_trans ((List.pairwise_cons.1 hf).1 p hp).le hpx
        rw [List.takeWhile_cons_of_pos (by simpa using hc)] at h1
        simp at h1
    · next h1 =>
      split
      · next h2 =>
        left
        rw [← h2]
        exact hrm
      · next h2 =>
        have hxr : x < right.1 := lt_of_le_of_ne (le_of_not_gt hr) (Ne.symm h2)
        split
        · next left hl =>
          have hlm : left ∈ f.takeWhile fun p => decide (p.1 < x) := List.mem_of_getLast? hl
          have hlx : left.1 < x := by simpa using List.mem_takeWhile_imp hlm
          obtain ⟨a, ha⟩ : ∃ a, (f.takeWhile fun p => decide (p.1 < x)) = a ++ [left] :=
            List.getLast?_eq_some_iff.1 hl
          right; left
          refine ⟨left, right, ?_, hlx, hxr, ?_⟩
          · refine (pairs_neighbours hf).1 (mem_pairs.2 ⟨a, rest, ?_⟩)
            rw [← hsplit, ha, h]
            simp
          · have : right.1 - left.1 ≠ 0 := sub_ne_zero.2 (ne_of_gt (lt_trans hlx hxr))
            rw [lerp]
            field_simp
            ring
        · next hl =>
          exfalso
          rw [List.getLast?_eq_none_iff] at hl
          rw [hl, h, List.nil_append] at hsplit
          rw [← hsplit, List.takeWhile_cons_of_neg (by simpa using hxr)] at h1
          exact h1 rfl

omit [IsStrictOrderedRing α] in
theorem value_unique {f : Fn α} (hf : Ascending f) {x y y' : α} (h : ValueAt f x y) (h' : ValueAt f x y') : y = y' := by
  have hdom : ∀ z, (x, z) ∈ f → InDomain f x := fun z hz => ⟨⟨_, hz, le_rfl⟩, ⟨_, hz, le_rfl⟩⟩
  have hdom2 : ∀ p q, Neighbours f p q → p.1 < x → x < q.1 → InDomain f x :=
    fun p q h h1 h2 => ⟨⟨p, h.1, h1.le⟩, ⟨q, h.2.1, h2.le⟩⟩
  have hno : ∀ z p q, (x, z) ∈ f → Neighbours f p q → p.1 < x → x < q.1 → False := by
    intro z p q hz hn h1 h2
    rcases hn.2.2.2 _ hz with h | h
    · exact absurd h1 (not_lt_of_ge h)
    · exact absurd h2 (not_lt_of_ge h)
  rcases h with h | ⟨p, q, hn, h1, h2, h3⟩ | ⟨h1, h2⟩
  · rcases h' with h' | ⟨p', q', hn', h1', h2', h3'⟩ | ⟨h1', h2'⟩
    · have := ascending_unique hf h h' rfl
      exact congrArg Prod.snd this
    · exact (hno _ _ _ h hn' h1' h2').elim
    · exact absurd (hdom _ h) h1'
  · rcases h' with h' | ⟨p', q', hn', h1', h2', h3'⟩ | ⟨h1', h2'⟩
    · exact (hno _ _ _ h' hn h1 h2).elim
    · have hp : p = p' := by
        refine ascending_unique hf hn.1 hn'.1 (le_antisymm ?_ ?_)
        · exact (hn'.2.2.2 p hn.1).resolve_right fun h => absurd (lt_trans h1 h2') (not_lt_of_ge h)
        · exact (hn.2.2.2 p' hn'.1).resolve_right fun h => absurd (lt_trans h1' h2) (not_lt_of_ge h)
      have hq : q = q' := by
        refine ascending_unique hf hn.2.1 hn'.2.1 (le_antisymm ?_ ?_)
        · exact (hn.2.2.2 q' hn'.2.1).resolve_left fun h => absurd (lt_trans h1 h2') (not_lt_of_ge h)
        · exact (hn'.2.2.2 q hn.2.1).resolve_left fun h => absurd (lt_trans h1' h2) (not_lt_of_ge h)
      subst hp hq
      rw [← h3'] at h3
      have := mul_right_cancel₀ (sub_ne_zero.2 (ne_of_gt hn.2.2.1)) h3
      exact sub_left_injective this
    · exact absurd (hdom2 _ _ hn h1 h2) h1'
  · rcases h' with h' | ⟨p', q', hn', h1', h2', h3'⟩ | ⟨h1', h2'⟩
    · exact absurd (hdom _ h') h1
    · exact absurd (hdom2 _ _ hn' h1' h2') h1
    · rw [h2, h2']

theorem eval_eq_of {f : Fn α} (hf : Ascending f) {x y : α} (h : ValueAt f x y) : eval f x = y :=
  value_unique hf (eval_value hf x) h

theorem eval_mem {f : Fn α} (hf : Ascending f) {p : α × α} (h : p ∈ f) : eval f p.1 = p.2 := eval_eq_of hf (.inl h)

/-- Between neighbours, end points included, the function is affine. -/
theorem eval_segment {f : Fn α} (hf : Ascending f) {p q : α × α} (h : Neighbours f p q) {x : α} (h1 : p.1 ≤ x) (h2 : x ≤ q.1) :
    (eval f x - p.2) * (q.1 - p.1) = (q.2 - p.2) * (x - p.1) := by
  rcases eq_or_lt_of_le h1 with rfl | h1
  · rw [eval_mem hf h.1]; ring
  · rcases eq_or_lt_of_le h2 with rfl | h2
    · rw [eval_mem hf h.2.1]
    · have hv : ValueAt f x (lerp x p.1 p.2 q.1 q.2) := by
        right; left
        refine ⟨p, q, h, h1, h2, ?_⟩
        have : q.1 - p.1 ≠ 0 := sub_ne_zero.2 (ne_of_gt h.2.2.1)
        rw [lerp]
        field_simp
        ring
      rw [eval_eq_of hf hv, lerp]
      have : q.1 - p.1 ≠ 0 := sub_ne_zero.2 (ne_of_gt h.2.2.1)
      field_simp
      ring

/-- A function is affine on an interval of its domain without points in its interior. -/
theorem eval_affine {f : Fn α} (hf : Ascending f) {a b : α} (hab : a < b) (ha : InDomain f a) (hb : InDomain f b)
    (hno : ∀ p ∈ f, p.1 ≤ a ∨ b ≤ p.1) : ∃ m, ∀ x, a ≤ x → x ≤ b → eval f x = eval f a + m * (x - a) := by
  have hm1 : a < (a + b) / 2 := by linarith
  have hm2 : (a + b) / 2 < b := by linarith
  have : ∃ p q, Neighbours f p q ∧ p.1 ≤ a ∧ b ≤ q.1 := by
    rcases eval_value hf ((a + b) / 2) with h | ⟨p, q, hn, h1, h2, -⟩ | ⟨h, -⟩
    · rcases hno _ h with h | h
      · exact absurd hm1 (not_lt_of_ge h)
      · exact absurd hm2 (not_lt_of_ge h)
    · refine ⟨p, q, hn, (hno p hn.1).resolve_right fun h => ?_, (hno q hn.2.1).resolve_left fun h => ?_⟩
      · exact absurd (lt_trans h1 hm2) (not_lt_of_ge h)
      · exact absurd (lt_trans hm1 h2) (not_lt_of_ge h)
    · exfalso
      obtain ⟨p, hp, h1⟩ := ha.1
      obtain ⟨q, hq, h2⟩ := hb.2
      exact h ⟨⟨p, hp, by linarith⟩, ⟨q, hq, by linarith⟩⟩
  obtain ⟨p, q, hn, hp, hq⟩ := this
  refine ⟨(q.2 - p.2) / (q.1 - p.1), ?_⟩
  intro x hx1 hx2
  have hd : q.1 - p.1 ≠ 0 := sub_ne_zero.2 (ne_of_gt hn.2.2.1)
  have e1 := eval_segment hf hn (x := x) (by linarith) (by linarith)
  have e2 := eval_segment hf hn (x := a) (by linarith) (by linarith)
  field_simp
  linear_combination e1 - e2

/-- Points on the graph may be added. -/
theorem eval_refine {f g : Fn α} (hf : Ascending f) (hg : Ascending g) (hsub : ∀ p ∈ f, p ∈ g)
    (hon : ∀ p ∈ g, InDomain f p.1 ∧ eval f p.1 = p.2) (x : α) : eval g x = eval f x := by
  refine eval_eq_of hg ?_
  rcases eval_value hg x with h | ⟨p, q, hn, h1, h2, -⟩ | ⟨h, -⟩
  · left
    have := (hon _ h).2
    simp only at this
    rwa [this]
  · right; left
    refine ⟨p, q, hn, h1, h2, ?_⟩
    obtain ⟨m, hm⟩ := eval_affine hf hn.2.2.1 (hon p hn.1).1 (hon q hn.2.1).1 fun r hr => hn.2.2.2 r (hsub r hr)
    have e1 := hm x h1.le h2.le
    have e2 := hm q.1 hn.2.2.1.le le_rfl
    rw [(hon p hn.1).2] at e1 e2
    rw [(hon q hn.2.1).2] at e2
    rw [e1, e2]
    ring
  · right; right
    refine ⟨h, ?_⟩
    refine eval_eq_of hf (.inr (.inr ⟨?_, rfl⟩))
    rintro ⟨⟨p, hp, h1⟩, ⟨q, hq, h2⟩⟩
    exact h ⟨⟨p, hsub p hp, h1⟩, ⟨q, hsub q hq, h2⟩⟩

theorem crossing_ratio {a b : α} (h : a * b < 0) : 0 < a / (a - b) ∧ a / (a - b) < 1 := by
  rcases mul_neg_iff.1 h with ⟨h1, h2⟩ | ⟨h1, h2⟩
  · have : 0 < a - b := by linarith
    exact ⟨div_pos h1 this, (div_lt_one this).2 (by linarith)⟩
  · have : a - b < 0 := by linarith
    exact ⟨div_pos_of_neg_of_neg h1 this, (div_lt_one_of_neg this).2 (by linarith)⟩

theorem mem_crossings {f : Fn α} (hf : Ascending f) {z : α} :
    z ∈ crossings f ↔ ∃ p q, Neighbours f p q ∧ p.2 * q.2 < 0 ∧ z = p.1 + p.2 / (p.2 - q.2) * (q.1 - p.1) := by
  have alg : ∀ x0 y0 x1 y1 : α, x0 < x1 → y0 * y1 < 0 →
      -(y0 - (y1 - y0) / (x1 - x0) * x0) / ((y1 - y0) / (x1 - x0)) = x0 + y0 / (y0 - y1) * (x1 - x0) := by
    intro x0 y0 x1 y1 h1 h2
    have h3 : x1 - x0 ≠ 0 := sub_ne_zero.2 (ne_of_gt h1)
    have h4 : y0 ≠ y1 := by
      rintro rfl
      exact absurd (mul_self_nonneg y0) (not_le_of_gt h2)
    have h5 : y1 - y0 ≠ 0 := sub_ne_zero.2 h4.symm
    have h6 : y0 - y1 ≠ 0 := sub_ne_zero.2 h4
    field_simp
    ring
  rw [crossings, List.mem_filterMap]
  constructor
  · rintro ⟨⟨⟨x0, y0⟩, ⟨x1, y1⟩⟩, he, h⟩
    have hn := (pairs_neighbours hf).1 he
    simp only at h
    split at h
    · next hlt =>
      refine ⟨_, _, hn, hlt, ?_⟩
      rw [← Option.some.inj h]
      exact alg _ _ _ _ hn.2.2.1 hlt
    · cases h
  · rintro ⟨⟨x0, y0⟩, ⟨x1, y1⟩, hn, hlt, rfl⟩
    refine ⟨((x0, y0), (x1, y1)), (pairs_neighbours hf).2 hn, ?_⟩
    simp only at hlt ⊢
    rw [if_pos hlt]
    exact congrArg some (alg _ _ _ _ hn.2.2.1 hlt)

theorem crossing_between {x0 y0 x1 y1 : α} (h : x0 < x1) (hy : y0 * y1 < 0) :
    x0 < x0 + y0 / (y0 - y1) * (x1 - x0) ∧ x0 + y0 / (y0 - y1) * (x1 - x0) < x1 := by
  obtain ⟨h1, h2⟩ := crossing_ratio hy
  have h3 : 0 < x1 - x0 := sub_pos.2 h
  have h4 := mul_pos h1 h3
  have h5 := mul_lt_mul_of_pos_right h2 h3
  exact ⟨by linarith, by linarith⟩

theorem insertIntersectionPoints_spec {f : Fn α} (hf : Ascending f) :
    Ascending (insertIntersectionPoints f) ∧ NoSignChange (insertIntersectionPoints f) ∧
      (∀ p ∈ f, p ∈ insertIntersectionPoints f) ∧ ∀ x, eval (insertIntersectionPoints f) x = eval f x := by
  have hfold : ∀ (zs : List α) (g : Fn α), Ascending g →
      Ascending (zs.foldl (fun f x => mapInsert (x, 0) f) g) ∧
      (∀ p ∈ g, p ∈ zs.foldl (fun f x => mapInsert (x, 0) f) g) ∧
      (∀ p ∈ zs.foldl (fun f x => mapInsert (x, 0) f) g, p ∈ g ∨ p.1 ∈ zs ∧ p.2 = 0) ∧
      ∀ z ∈ zs, ∃ p ∈ zs.foldl (fun f x => mapInsert (x, 0) f) g, p.1 = z := by
    intro zs
    induction zs with
    | nil => intro g hg; exact ⟨hg, fun p hp => hp, fun p hp => .inl hp, by simp⟩
    | cons z zs ih =>
      intro g hg
      obtain ⟨h1, h2, h3, h4⟩ := ih (mapInsert (z, 0) g) (mapInsert_ascending hg)
      refine ⟨h1, fun p hp => h2 p (mem_mapInsert_old hp), ?_, ?_⟩
      · intro p hp
        rcases h3 p hp with h | ⟨h, h'⟩
        · rcases mem_mapInsert h with rfl | h
          · exact .inr ⟨by simp, rfl⟩
          · exact .inl h
        · exact .inr ⟨by simp [h], h'⟩
      · intro w hw
        rcases List.mem_cons.1 hw with rfl | hw
        · by_cases hex : ∃ q ∈ g, q.1 = w
          · obtain ⟨q, hq, hqw⟩ := hex
            exact ⟨q, h2 q (mem_mapInsert_old hq), hqw⟩
          · push Not at hex
            exact ⟨(w, 0), h2 _ (mem_mapInsert_new hex), rfl⟩
        · exact h4 w hw
  obtain ⟨h1, h2, h3, h4⟩ := hfold (crossings f) f hf
  refine ⟨h1, ?_, h2, ?_⟩
  · intro p q hn
    by_contra hneg
    have hlt := lt_of_not_ge hneg
    have hp : p ∈ f := by
      rcases h3 p hn.1 with h | ⟨-, h⟩
      · exact h
      · rw [h, zero_mul] at hlt; exact absurd hlt (lt_irrefl _)
    have hq : q ∈ f := by
      rcases h3 q hn.2.1 with h | ⟨-, h⟩
      · exact h
      · rw [h, mul_zero] at hlt; exact absurd hlt (lt_irrefl _)
    have hnf : Neighbours f p q := ⟨hp, hq, hn.2.2.1, fun r hr => hn.2.2.2 r (h2 r hr)⟩
    obtain ⟨r, hr, hrz⟩ := h4 _ ((mem_crossings hf).2 ⟨p, q, hnf, hlt, rfl⟩)
    obtain ⟨hb1, hb2⟩ := crossing_between hn.2.2.1 hlt
    rw [← hrz] at hb1 hb2
    rcases hn.2.2.2 r hr with h | h
    · exact absurd hb1 (not_lt_of_ge h)
    · exact absurd hb2 (not_lt_of_ge h)
  · intro x
    refine eval_refine hf h1 h2 ?_ x
    intro p hp
    rcases h3 p hp with h | ⟨h, h'⟩
    · exact ⟨⟨⟨p, h, le_rfl⟩, ⟨p, h, le_rfl⟩⟩, eval_mem hf h⟩
    · obtain ⟨a, b, hn, hlt, hz⟩ := (mem_crossings hf).1 h
      obtain ⟨hb1, hb2⟩ := crossing_between hn.2.2.1 hlt
      rw [← hz] at hb1 hb2
      refine ⟨⟨⟨a, hn.1, hb1.le⟩, ⟨b, hn.2.1, hb2.le⟩⟩, ?_⟩
      refine eval_eq_of hf (.inr (.inl ⟨a, b, hn, hb1, hb2, ?_⟩))
      have : a.2 - b.2 ≠ 0 := by
        intro h0
        rw [sub_eq_zero.1 h0] at hlt
        exact absurd (mul_self_nonneg b.2) (not_le_of_gt hlt)
      rw [h', hz]
      field_simp
      ring

omit [IsStrictOrderedRing α] in
theorem construct_base (l : List (α × α)) (g : Fn α) (hg : Ascending g)
    (hnd : (l.map Prod.fst).Nodup) (hdis : ∀ p ∈ l, ∀ q ∈ g, q.1 ≠ p.1) :
    ∃ f, l.foldlM (fun (f : Fn α) p => if f.any fun q => q.1 = p.1 then none else some (mapInsert p f)) g = some f ∧
      Ascending f ∧ ∀ p, p ∈ f ↔ p ∈ l ∨ p ∈ g := by
  induction l generalizing g with
  | nil => exact ⟨g, rfl, hg, by simp⟩
  | cons c l ih =>
    rw [List.map_cons, List.nodup_cons] at hnd
    have hc : (g.any fun q => decide (q.1 = c.1)) = false := by
      rw [List.any_eq_false]
      intro q hq
      simpa using hdis c (by simp) q hq
    obtain ⟨f, h1, h2, h3⟩ := ih (mapInsert c g) (mapInsert_ascending hg) hnd.2 (by
      intro p hp q hq
      rcases mem_mapInsert hq with rfl | hq
      · intro h
        exact hnd.1 (List.mem_map.2 ⟨p, hp, h.symm⟩)
      · exact hdis p (by simp [hp]) q hq)
    refine ⟨f, ?_, h2, ?_⟩
    · rw [List.foldlM_cons, hc]
      exact h1
    · intro p
      rw [h3]
      constructor
      · rintro (h | h)
        · simp [h]
        · rcases mem_mapInsert h with rfl | h
          · simp
          · simp [h]
      · rintro (h | h)
        · rcases List.mem_cons.1 h with rfl | h
          · exact .inr (mem_mapInsert_new (hdis p (by simp)))
          · exact .inl h
        · exact .inr (mem_mapInsert_old h)

end Field

end Pl

open Pl

section

variable [LinearOrder α] [Field α] [IsStrictOrderedRing α]

/-- C42. A function constructed from points with distinct first coordinates, in any order, is the piecewise linear function
through these points.  Points with equal first coordinates raise an exception. -/
theorem C42_construction (l : List (α × α)) :
    ((l.map Prod.fst).Nodup → ∃ f, construct l = some f ∧ Ascending f ∧ NoSignChange f ∧
      (∀ p ∈ l, p ∈ f) ∧ ∀ x, ValueAt l x (eval f x)) ∧
    (¬(l.map Prod.fst).Nodup → construct l = none) := by
  constructor
  · intro h
    obtain ⟨f, h1, h2, h3⟩ := construct_base l [] List.Pairwise.nil h (by simp)
    obtain ⟨k1, k2, k3, k4⟩ := insertIntersectionPoints_spec h2
    refine ⟨insertIntersectionPoints f, by rw [construct, h1]; rfl, k1, k2, ?_, ?_⟩
    · intro p hp
      exact k3 p ((h3 p).2 (.inl hp))
    · intro x
      rw [k4]
      have hm : ∀ p, p ∈ f ↔ p ∈ l := fun p => by rw [h3]; simp
      have := eval_value h2 x
      unfold ValueAt Neighbours InDomain at *
      simpa only [hm] using this
  · intro h
    have key : ∀ (l : List (α × α)) (g : Fn α), ¬((l.map Prod.fst).Nodup ∧ ∀ p ∈ l, ∀ q ∈ g, q.1 ≠ p.1) →
        l.foldlM (fun (f : Fn α) p => if f.any fun q => q.1 = p.1 then none else some (mapInsert p f)) g = none := by
      intro l
      induction l with
      | nil => intro g h; simp at h
      | cons c l ih =>
        intro g h
        rw [List.foldlM_cons]
        by_cases hc : (g.any fun q => decide (q.1 = c.1)) = true
        · rw [if_pos hc]; rfl
        · rw [if_neg hc]
          refine ih (mapInsert c g) ?_
          rintro ⟨h1, h2⟩
          apply h
          have hcg : ∀ q ∈ g, q.1 ≠ c.1 := by
            intro q hq h'
            exact hc (List.any_eq_true.2 ⟨q, hq, by simpa using h'⟩)
          refine ⟨?_, ?_⟩
          · rw [List.map_cons, List.nodup_cons]
            refine ⟨?_, h1⟩
            intro hm
            obtain ⟨p, hp, hpc⟩ := List.mem_map.1 hm
            exact h2 p hp c (mem_mapInsert_new hcg) hpc.symm
          · intro p hp q hq
            rcases List.mem_cons.1 hp with rfl | hp
            · exact hcg q hq
            · exact h2 p hp q (mem_mapInsert_old hq)
    rw [construct, key l [] (fun h' => h h'.1)]
    rfl

/-- C42. Evaluation yields the value of the piecewise linear function, and there is only one such value. -/
theorem C42_evaluation (f : Fn α) (hf : Ascending f) (x y : α) : eval f x = y ↔ ValueAt f x y :=
  ⟨fun h => h ▸ eval_value hf x, eval_eq_of hf⟩


namespace Pl

omit [IsStrictOrderedRing α] in
theorem merged_points {f g : Fn α} {a b : α} (h : (a, b) ∈ pairs (merged f g)) :
    a ∈ merged f g ∧ b ∈ merged f g ∧ a < b ∧ ∀ x ∈ merged f g, x ≤ a ∨ b ≤ x := by
  obtain ⟨l, r, he⟩ := mem_pairs.1 h
  have hs := merged_sorted f g
  rw [he, List.pairwise_append, List.pairwise_cons, List.pairwise_cons] at hs
  obtain ⟨-, ⟨h1, h2, -⟩, h3⟩ := hs
  refine ⟨by rw [he]; simp, by rw [he]; simp, h1 b (by simp), ?_⟩
  intro x hx
  rw [he] at hx
  simp only [List.mem_append, List.mem_cons] at hx
  rcases hx with hx | rfl | rfl | hx
  · exact .inl (h3 x hx a (by simp)).le
  · exact .inl le_rfl
  · exact .inr le_rfl
  · exact .inr (h2 x hx).le

/-- The intersection of two segments over the same interval, in terms of the differences at the end points. -/
theorem intersection_eq {x0 x1 : α} (h : x0 < x1) (y0 y1 y2 y3 : α) :
    let t := (y0 - y2) / ((y0 - y2) - (y1 - y3))
    intersection x0 y0 x1 y1 x0 y2 x1 y3 = if 0 ≤ t ∧ t ≤ 1 then x0 + t * (x1 - x0) else x0 := by
  intro t
  have hne : x1 - x0 ≠ 0 := sub_ne_zero.2 (ne_of_gt h)
  have hden : -(x1 - x0) * (y1 - y0) + (x1 - x0) * (y3 - y2) = (x1 - x0) * ((y0 - y2) - (y1 - y3)) := by ring
  have hs : (-(y1 - y0) * (x0 - x0) + (x1 - x0) * (y0 - y2)) / (-(x1 - x0) * (y1 - y0) + (x1 - x0) * (y3 - y2)) = t := by
    rw [hden, sub_self, mul_zero, zero_add, mul_div_mul_left _ _ hne]
  have ht : ((x1 - x0) * (y0 - y2) - (y3 - y2) * (x0 - x0)) / (-(x1 - x0) * (y1 - y0) + (x1 - x0) * (y3 - y2)) = t := by
    rw [hden, sub_self, mul_zero, sub_zero, mul_div_mul_left _ _ hne]
  rw [intersection]
  simp only [hs, ht, ge_iff_le]
  by_cases hc : 0 ≤ t ∧ t ≤ 1
  · rw [if_pos hc, if_pos ⟨hc.1, hc.2, hc.1, hc.2⟩]
  · rw [if_neg hc, if_neg fun h => hc ⟨h.1, h.2.1⟩]

/-- The set of values over which `apply` operates. -/
def grid (f g : Fn α) : List α := (intersections f g).foldl (fun s x => setInsert x s) (merged f g)

omit [IsStrictOrderedRing α] in
theorem apply_eq (op : α → α → α) (f g : Fn α) : apply op f g = (grid f g).map fun x => (x, op (eval f x) (eval g x)) := by
  rw [apply]
  split
  · next h =>
    have hm : merged f g = [] := by simpa using h
    have hf : f = [] := by
      cases f with
      | nil => rfl
      | cons p f =>
        have : p.1 ∈ merged (p :: f) g := (mem_merged _ _ _).2 (.inl ⟨p, by simp, rfl⟩)
        rw [hm] at this
        cases this
    rw [grid, intersections, hm, hf]
    rfl
  · rfl

omit [IsStrictOrderedRing α] in
theorem grid_sorted (f g : Fn α) : (grid f g).Pairwise (· < ·) := foldl_setInsert_sorted (fun x => x) _ _ (merged_sorted f g)

omit [IsStrictOrderedRing α] in
theorem merged_subset_grid {f g : Fn α} {x : α} (h : x ∈ merged f g) : x ∈ grid f g :=
  (foldl_setInsert_mem (fun x => x) _ _ _).2 (.inr h)

/-- Values of the grid lie between values of the merged domains. -/
theorem grid_between {f g : Fn α} {x : α} (h : x ∈ grid f g) : ∃ a ∈ merged f g, ∃ b ∈ merged f g, a ≤ x ∧ x ≤ b := by
  rcases (foldl_setInsert_mem (fun x => x) _ _ _).1 h with ⟨y, hy, rfl⟩ | h
  · rw [intersections, List.mem_filterMap] at hy
    obtain ⟨⟨a, b⟩, hp, hy⟩ := hy
    obtain ⟨ha, hb, hab, -⟩ := merged_points hp
    simp only at hy
    split at hy
    · rw [← Option.some.inj hy]
      refine ⟨a, ha, b, hb, ?_⟩
      rw [intersection_eq hab]
      split
      · next h =>
        have h1 : 0 ≤ b - a := (sub_pos.2 hab).le
        have h2 := mul_nonneg h.1 h1
        have h3 := mul_le_mul_of_nonneg_right h.2 h1
        exact ⟨by linarith, by linarith⟩
      · exact ⟨le_rfl, hab.le⟩
    · cases hy
  · exact ⟨x, h, x, h, le_rfl, le_rfl⟩

omit [IsStrictOrderedRing α] in
theorem apply_ascending (op : α → α → α) (f g : Fn α) : Ascending (apply op f g) := by
  rw [apply_eq, Ascending, List.pairwise_map]
  exact grid_sorted f g

omit [IsStrictOrderedRing α] in
theorem mem_apply (op : α → α → α) (f g : Fn α) (p : α × α) :
    p ∈ apply op f g ↔ p.1 ∈ grid f g ∧ p.2 = op (eval f p.1) (eval g p.1) := by
  rw [apply_eq, List.mem_map]
  constructor
  · rintro ⟨x, hx, rfl⟩
    exact ⟨hx, rfl⟩
  · rintro ⟨h1, h2⟩
    exact ⟨p.1, h1, by rw [← h2]⟩

omit [IsStrictOrderedRing α] in
theorem grid_apply (op : α → α → α) {f g : Fn α} {x : α} (h : x ∈ grid f g) :
    (x, op (eval f x) (eval g x)) ∈ apply op f g := (mem_apply op f g _).2 ⟨h, rfl⟩

theorem apply_domain (op : α → α → α) (f g : Fn α) (x : α) :
    InDomain (apply op f g) x ↔ (∃ p ∈ f ++ g, p.1 ≤ x) ∧ ∃ q ∈ f ++ g, x ≤ q.1 := by
  have hmem : ∀ a, a ∈ merged f g ↔ ∃ p ∈ f ++ g, a = p.1 := by
    intro a
    rw [mem_merged]
    simp only [List.mem_append]
    constructor
    · rintro (⟨p, hp, rfl⟩ | ⟨p, hp, rfl⟩)
      · exact ⟨p, .inl hp, rfl⟩
      · exact ⟨p, .inr hp, rfl⟩
    · rintro ⟨p, hp | hp, rfl⟩
      · exact .inl ⟨p, hp, rfl⟩
      · exact .inr ⟨p, hp, rfl⟩
  constructor
  · rintro ⟨⟨p, hp, h1⟩, ⟨q, hq, h2⟩⟩
    obtain ⟨a, ha, -, -, ha', -⟩ := grid_between ((mem_apply op f g p).1 hp).1
    obtain ⟨-, -, b, hb, -, hb'⟩ := grid_between ((mem_apply op f g q).1 hq).1
    obtain ⟨p', hp', rfl⟩ := (hmem a).1 ha
    obtain ⟨q', hq', rfl⟩ := (hmem b).1 hb
    exact ⟨⟨p', hp', le_trans ha' h1⟩, ⟨q', hq', le_trans h2 hb'⟩⟩
  · rintro ⟨⟨p, hp, h1⟩, ⟨q, hq, h2⟩⟩
    exact ⟨⟨_, grid_apply op (merged_subset_grid ((hmem _).2 ⟨p, hp, rfl⟩)), h1⟩,
      ⟨_, grid_apply op (merged_subset_grid ((hmem _).2 ⟨q, hq, rfl⟩)), h2⟩⟩

/-- Neighbours of the combination span an interval over which both functions are affine, if it meets both domains. -/
theorem apply_affine {op : α → α → α} {f g : Fn α} {p q : α × α} (hn : Neighbours (apply op f g) p q)
    {x : α} (h1 : p.1 < x) (h2 : x < q.1) {k : Fn α} (hk : Ascending k) (hkm : ∀ r ∈ k, r.1 ∈ merged f g)
    (hx : InDomain k x) : ∃ m, ∀ y, p.1 ≤ y → y ≤ q.1 → eval k y = eval k p.1 + m * (y - p.1) := by
  have hno : ∀ r ∈ k, r.1 ≤ p.1 ∨ q.1 ≤ r.1 := by
    intro r hr
    have := hn.2.2.2 _ (grid_apply op (merged_subset_grid (hkm r hr)))
    exact this
  obtain ⟨⟨r, hr, hrx⟩, ⟨s, hs, hsx⟩⟩ := hx
  have hr' : r.1 ≤ p.1 := (hno r hr).resolve_right fun h => absurd (lt_of_le_of_lt hrx h2) (not_lt_of_ge h)
  have hs' : q.1 ≤ s.1 := (hno s hs).resolve_left fun h => absurd (lt_of_lt_of_le h1 hsx) (not_lt_of_ge h)
  exact eval_affine hk hn.2.2.1 ⟨⟨r, hr, hr'⟩, ⟨s, hs, le_trans hn.2.2.1.le hs'⟩⟩
    ⟨⟨r, hr, le_trans hr' hn.2.2.1.le⟩, ⟨s, hs, hs'⟩⟩ hno

/-- Combination with an operation that respects affine functions. -/
theorem apply_pointwise (op : α → α → α)
    (hop : ∀ a m b n d : α, ∃ k, ∀ y, op (a + m * (y - d)) (b + n * (y - d)) = op a b + k * (y - d))
    {f g : Fn α} (hf : Ascending f) (hg : Ascending g) (x : α) (hxf : InDomain f x) (hxg : InDomain g x) :
    eval (apply op f g) x = op (eval f x) (eval g x) := by
  have hm1 : ∀ r ∈ f, r.1 ∈ merged f g := fun r hr => (mem_merged _ _ _).2 (.inl ⟨r, hr, rfl⟩)
  have hm2 : ∀ r ∈ g, r.1 ∈ merged f g := fun r hr => (mem_merged _ _ _).2 (.inr ⟨r, hr, rfl⟩)
  refine eval_eq_of (apply_ascending op f g) ?_
  rcases eval_value (apply_ascending op f g) x with h | ⟨p, q, hn, h1, h2, -⟩ | ⟨h, -⟩
  · exact .inl ((mem_apply op f g _).2 ⟨((mem_apply op f g _).1 h).1, rfl⟩)
  · right; left
    refine ⟨p, q, hn, h1, h2, ?_⟩
    obtain ⟨m, hm⟩ := apply_affine hn h1 h2 hf hm1 hxf
    obtain ⟨n, hn'⟩ := apply_affine hn h1 h2 hg hm2 hxg
    obtain ⟨k, hk⟩ := hop (eval f p.1) m (eval g p.1) n p.1
    rw [((mem_apply op f g p).1 hn.1).2, ((mem_apply op f g q).1 hn.2.1).2, hm x h1.le h2.le, hn' x h1.le h2.le,
      hm q.1 hn.2.2.1.le le_rfl, hn' q.1 hn.2.2.1.le le_rfl, hk, hk]
    ring
  · exfalso
    rw [apply_domain] at h
    obtain ⟨⟨p, hp, hp'⟩, ⟨q, hq, hq'⟩⟩ := hxf
    exact h ⟨⟨p, by simp [hp], hp'⟩, ⟨q, by simp [hq], hq'⟩⟩

end Pl

/-- C42. On the common domain the sum and the difference of two functions are the pointwise sum and difference.  At the points
of either function this holds without restriction.  The combination is zero outside of the smallest interval that contains both
domains. -/
theorem C42_sum (f g : Fn α) (hf : Ascending f) (hg : Ascending g) :
    Ascending (add f g) ∧ Ascending (sub f g) ∧
    (∀ x, InDomain f x → InDomain g x → eval (add f g) x = eval f x + eval g x ∧ eval (sub f g) x = eval f x - eval g x) ∧
    (∀ p ∈ f ++ g, eval (add f g) p.1 = eval f p.1 + eval g p.1 ∧ eval (sub f g) p.1 = eval f p.1 - eval g p.1) ∧
    (∀ x, (∀ p ∈ f ++ g, x < p.1) ∨ (∀ p ∈ f ++ g, p.1 < x) → eval (add f g) x = 0 ∧ eval (sub f g) x = 0) := by
  refine ⟨apply_ascending _ f g, apply_ascending _ f g, ?_, ?_, ?_⟩
  · intro x h1 h2
    refine ⟨apply_pointwise (fun a b => a + b) ?_ hf hg x h1 h2, apply_pointwise (fun a b => a - b) ?_ hf hg x h1 h2⟩
    · intro a m b n d
      exact ⟨m + n, fun y => by ring⟩
    · intro a m b n d
      exact ⟨m - n, fun y => by ring⟩
  · intro p hp
    have hm : p.1 ∈ merged f g := by
      rw [mem_merged]
      rcases List.mem_append.1 hp with h | h
      · exact .inl ⟨p, h, rfl⟩
      · exact .inr ⟨p, h, rfl⟩
    exact ⟨eval_eq_of (apply_ascending _ f g) (.inl ((mem_apply _ f g _).2 ⟨merged_subset_grid hm, rfl⟩)),
      eval_eq_of (apply_ascending _ f g) (.inl ((mem_apply _ f g _).2 ⟨merged_subset_grid hm, rfl⟩))⟩
  · intro x hx
    have hno : ∀ op : α → α → α, ¬InDomain (apply op f g) x := by
      intro op h
      rw [apply_domain] at h
      obtain ⟨⟨p, hp, hp'⟩, ⟨q, hq, hq'⟩⟩ := h
      rcases hx with h | h
      · exact absurd (h p hp) (not_lt_of_ge hp')
      · exact absurd (h q hq) (not_lt_of_ge hq')
    exact ⟨eval_eq_of (apply_ascending _ f g) (.inr (.inr ⟨hno _, rfl⟩)),
      eval_eq_of (apply_ascending _ f g) (.inr (.inr ⟨hno _, rfl⟩))⟩

namespace Pl

omit [IsStrictOrderedRing α] in
theorem map_ascending {f : Fn α} (hf : Ascending f) (k : α → α) : Ascending (f.map fun p => (p.1, k p.2)) := by
  rw [Ascending, List.pairwise_map]
  exact hf

omit [Field α] [IsStrictOrderedRing α] in
theorem map_domain (f : Fn α) (k : α → α) (x : α) : InDomain (f.map fun p => (p.1, k p.2)) x ↔ InDomain f x := by
  simp [InDomain, List.mem_map]

omit [Field α] [IsStrictOrderedRing α] in
theorem map_neighbours {f : Fn α} (k : α → α) {p q : α × α} (h : Neighbours f p q) :
    Neighbours (f.map fun p => (p.1, k p.2)) (p.1, k p.2) (q.1, k q.2) := by
  refine ⟨List.mem_map.2 ⟨p, h.1, rfl⟩, List.mem_map.2 ⟨q, h.2.1, rfl⟩, h.2.2.1, ?_⟩
  intro r hr
  obtain ⟨r', hr', rfl⟩ := List.mem_map.1 hr
  exact h.2.2.2 r' hr'

/-- Changing all values by a function that is affine on the values of every segment. -/
theorem map_eval {f : Fn α} (hf : Ascending f) (k : α → α)
    (hk : ∀ p q, Neighbours f p q → ∀ t, 0 ≤ t → t ≤ 1 → k (p.2 + t * (q.2 - p.2)) = k p.2 + t * (k q.2 - k p.2)) (x : α) :
    (InDomain f x → eval (f.map fun p => (p.1, k p.2)) x = k (eval f x)) ∧
      (¬InDomain f x → eval (f.map fun p => (p.1, k p.2)) x = 0) := by
  refine ⟨fun hx => eval_eq_of (map_ascending hf k) ?_,
    fun hx => eval_eq_of (map_ascending hf k) (.inr (.inr ⟨by rwa [map_domain], rfl⟩))⟩
  rcases eval_value hf x with h | ⟨p, q, hn, h1, h2, h3⟩ | ⟨h, -⟩
  · exact .inl (List.mem_map.2 ⟨_, h, rfl⟩)
  · refine .inr (.inl ⟨_, _, map_neighbours k hn, h1, h2, ?_⟩)
    have hd : 0 < q.1 - p.1 := sub_pos.2 hn.2.2.1
    have ht := hk p q hn ((x - p.1) / (q.1 - p.1)) (div_nonneg (sub_pos.2 h1).le hd.le)
      ((div_le_one hd).2 (by linarith))
    have he : eval f x = p.2 + (x - p.1) / (q.1 - p.1) * (q.2 - p.2) := by
      have hd' := ne_of_gt hd
      field_simp
      linear_combination h3
    rw [he, ht]
    have hd' := ne_of_gt hd
    field_simp
    ring
  · exact absurd hx h

end Pl

/-- C42. Operations with scalars act on the values inside of the domain; outside the value remains zero. -/
theorem C42_scalars (f : Fn α) (hf : Ascending f) (c : α) :
    (∀ op : Fn α, ∀ k : α → α, (op, k) ∈ [(neg f, fun y => -y), (smul f c, fun y => y * c),
        (applyScalar (fun a b => a + b) f c, fun y => y + c), (applyScalar (fun a b => a - b) f c, fun y => y - c)] →
      Ascending op ∧ ∀ x, (InDomain f x → eval op x = k (eval f x)) ∧ (¬InDomain f x → eval op x = 0)) ∧
    (c ≠ 0 → sdiv f c = some (smul f c⁻¹)) ∧ sdiv f 0 = none := by
  have key : ∀ k : α → α, (∀ a b t : α, k (a + t * (b - a)) = k a + t * (k b - k a)) →
      Ascending (f.map fun p => (p.1, k p.2)) ∧
        ∀ x, (InDomain f x → eval (f.map fun p => (p.1, k p.2)) x = k (eval f x)) ∧
          (¬InDomain f x → eval (f.map fun p => (p.1, k p.2)) x = 0) := by
    intro k hk
    refine ⟨map_ascending hf k, ?_⟩
    intro x
    exact map_eval hf k (fun p q _ t _ _ => hk _ _ _) x
  refine ⟨?_, ?_, if_pos rfl⟩
  · intro op k h
    simp only [List.mem_cons, Prod.mk.injEq, List.not_mem_nil, or_false] at h
    rcases h with ⟨rfl, rfl⟩ | ⟨rfl, rfl⟩ | ⟨rfl, rfl⟩ | ⟨rfl, rfl⟩
    · exact key (fun y => -y) fun a b t => by ring
    · exact key (fun y => y * c) fun a b t => by ring
    · exact key (fun y => y + c) fun a b t => by ring
    · exact key (fun y => y - c) fun a b t => by ring
  · intro h
    rw [sdiv, if_neg h, one_div]

/-- C42. The absolute value of a function without changes of sign between neighbours is pointwise.  Constructed functions have
this property, see `C42_construction`. -/
theorem C42_abs (f : Fn α) (hf : Ascending f) (hs : NoSignChange f) :
    Ascending (Pl.abs f) ∧ NoSignChange (Pl.abs f) ∧ ∀ x, eval (Pl.abs f) x = |eval f x| := by
  have hseg : ∀ p q, Neighbours f p q → ∀ t, 0 ≤ t → t ≤ 1 → |p.2 + t * (q.2 - p.2)| = |p.2| + t * (|q.2| - |p.2|) := by
    intro p q hn t h0 h1
    have hpq := hs p q hn
    have hcases : (0 ≤ p.2 ∧ 0 ≤ q.2) ∨ (p.2 ≤ 0 ∧ q.2 ≤ 0) := by
      rcases le_total 0 p.2 with hp | hp
      · rcases le_total 0 q.2 with hq | hq
        · exact .inl ⟨hp, hq⟩
        · rcases eq_or_lt_of_le hp with h | h
          · exact .inr ⟨h.symm.le, hq⟩
          · rcases eq_or_lt_of_le hq with h' | h'
            · exact .inl ⟨hp, h'.symm.le⟩
            · exact absurd (mul_neg_of_pos_of_neg h h') (not_lt_of_ge hpq)
      · rcases le_total 0 q.2 with hq | hq
        · rcases eq_or_lt_of_le hp with h | h
          · exact .inl ⟨h.symm.le, hq⟩
          · rcases eq_or_lt_of_le hq with h' | h'
            · exact .inr ⟨hp, h'.symm.le⟩
            · exact absurd (mul_neg_of_neg_of_pos h h') (not_lt_of_ge hpq)
        · exact .inr ⟨hp, hq⟩
    have hid : p.2 + t * (q.2 - p.2) = (1 - t) * p.2 + t * q.2 := by ring
    rcases hcases with ⟨hp, hq⟩ | ⟨hp, hq⟩
    · rw [abs_of_nonneg hp, abs_of_nonneg hq, abs_of_nonneg]
      rw [hid]
      exact add_nonneg (mul_nonneg (by linarith) hp) (mul_nonneg h0 hq)
    · rw [abs_of_nonpos hp, abs_of_nonpos hq, abs_of_nonpos]
      · ring
      · rw [hid]
        exact add_nonpos (mul_nonpos_of_nonneg_of_nonpos (by linarith) hp) (mul_nonpos_of_nonneg_of_nonpos h0 hq)
  refine ⟨map_ascending hf _, ?_, ?_⟩
  · intro p q hn
    obtain ⟨p', -, rfl⟩ := List.mem_map.1 hn.1
    obtain ⟨q', -, rfl⟩ := List.mem_map.1 hn.2.1
    exact mul_nonneg (abs_nonneg _) (abs_nonneg _)
  · intro x
    by_cases h : InDomain f x
    · exact (map_eval hf (fun y => |y|) hseg x).1 h
    · rw [eval_eq_of hf (.inr (.inr ⟨h, rfl⟩)), abs_zero]
      exact (map_eval hf (fun y => |y|) hseg x).2 h

/-- C42. The difference of two functions with the same domain does not change its sign between neighbours, because the points
of intersection are added.  Hence its absolute value is the pointwise distance. -/
theorem C42_distance (f g : Fn α) (hf : Ascending f) (hg : Ascending g) (hdom : ∀ x, InDomain f x ↔ InDomain g x) :
    NoSignChange (sub f g) ∧ ∀ x, eval (Pl.abs (sub f g)) x = |eval f x - eval g x| := by
  have hno : NoSignChange (sub f g) := by
    intro p q hn
    by_contra hneg
    have hlt := lt_of_not_ge hneg
    obtain ⟨hpg, hp2⟩ := (mem_apply _ f g p).1 hn.1
    obtain ⟨hqg, hq2⟩ := (mem_apply _ f g q).1 hn.2.1
    have hdomx : ∀ x, InDomain (sub f g) x → InDomain f x ∧ InDomain g x := by
      intro x hx
      rw [sub, apply_domain] at hx
      obtain ⟨⟨a, ha, ha'⟩, ⟨b, hb, hb'⟩⟩ := hx
      have h1 : ∃ a ∈ f, a.1 ≤ x := by
        rcases List.mem_append.1 ha with h | h
        · exact ⟨a, h, ha'⟩
        · obtain ⟨c, hc, hca⟩ := ((hdom a.1).2 ⟨⟨a, h, le_rfl⟩, ⟨a, h, le_rfl⟩⟩).1
          exact ⟨c, hc, le_trans hca ha'⟩
      have h2 : ∃ b ∈ f, x ≤ b.1 := by
        rcases List.mem_append.1 hb with h | h
        · exact ⟨b, h, hb'⟩
        · obtain ⟨c, hc, hca⟩ := ((hdom b.1).2 ⟨⟨b, h, le_rfl⟩, ⟨b, h, le_rfl⟩⟩).2
          exact ⟨c, hc, le_trans hb' hca⟩
      exact ⟨⟨h1, h2⟩, (hdom x).1 ⟨h1, h2⟩⟩
    -- the point where the difference vanishes
    obtain ⟨z, hz⟩ : ∃ z, z = p.1 + p.2 / (p.2 - q.2) * (q.1 - p.1) := ⟨_, rfl⟩
    obtain ⟨hb1, hb2⟩ := crossing_between hn.2.2.1 hlt
    rw [← hz] at hb1 hb2
    -- neighbours in the merged domain
    have hmerged : ∃ a b, (a, b) ∈ pairs (merged f g) ∧ a ≤ p.1 ∧ q.1 ≤ b := by
      have hx : InDomain (sub f g) z := ⟨⟨p, hn.1, hb1.le⟩, ⟨q, hn.2.1, hb2.le⟩⟩
      let k : Fn α := (merged f g).map fun x => (x, 0)
      have hk : Ascending k := by
        simp only [k, Ascending, List.pairwise_map]
        exact merged_sorted f g
      have hkm : ∀ r ∈ k, r.1 ∈ merged f g := by
        intro r hr
        obtain ⟨x, hx, rfl⟩ := List.mem_map.1 hr
        exact hx
      have hno : ∀ r ∈ k, r.1 ≤ p.1 ∨ q.1 ≤ r.1 := fun r hr => by
        have := hn.2.2.2 _ (grid_apply (fun a b => a - b) (merged_subset_grid (hkm r hr)))
        exact this
      rcases eval_value hk z with h | ⟨a, b, hab, h1, h2, -⟩ | ⟨h, -⟩
      · exfalso
        rcases hno _ h with h | h
        · exact absurd hb1 (not_lt_of_ge h)
        · exact absurd hb2 (not_lt_of_ge h)
      · refine ⟨a.1, b.1, ?_, (hno a hab.1).resolve_right fun h => ?_, (hno b hab.2.1).resolve_left fun h => ?_⟩
        · have := (pairs_neighbours hk).2 hab
          obtain ⟨l, r, he⟩ := mem_pairs.1 this
          refine mem_pairs.2 ⟨l.map Prod.fst, r.map Prod.fst, ?_⟩
          have he' := congrArg (List.map Prod.fst) he
          simpa [k, List.map_map, Function.comp_def] using he'
        · exact absurd (lt_trans h1 hb2) (not_lt_of_ge h)
        · exact absurd (lt_trans hb1 h2) (not_lt_of_ge h)
      · exfalso
        rw [sub, apply_domain] at hx
        obtain ⟨⟨a, ha, ha'⟩, ⟨b, hb, hb'⟩⟩ := hx
        have hmem : ∀ c ∈ f ++ g, (c.1, (0 : α)) ∈ k := by
          intro c hc
          refine List.mem_map.2 ⟨c.1, ?_, rfl⟩
          rw [mem_merged]
          rcases List.mem_append.1 hc with h | h
          · exact .inl ⟨c, h, rfl⟩
          · exact .inr ⟨c, h, rfl⟩
        exact h ⟨⟨_, hmem a ha, ha'⟩, ⟨_, hmem b hb, hb'⟩⟩
    obtain ⟨a, b, hab, hap, hqb⟩ := hmerged
    obtain ⟨ham, hbm, hlt', hno⟩ := merged_points hab
    have hmemf : ∀ r ∈ f, r.1 ≤ a ∨ b ≤ r.1 := fun r hr => hno _ ((mem_merged _ _ _).2 (.inl ⟨r, hr, rfl⟩))
    have hmemg : ∀ r ∈ g, r.1 ≤ a ∨ b ≤ r.1 := fun r hr => hno _ ((mem_merged _ _ _).2 (.inr ⟨r, hr, rfl⟩))
    have hin : ∀ c ∈ merged f g, InDomain (sub f g) c := fun c hc =>
      ⟨⟨(c, _), grid_apply _ (merged_subset_grid hc), le_rfl⟩,
        ⟨(c, _), grid_apply _ (merged_subset_grid hc), le_rfl⟩⟩
    obtain ⟨m, hm⟩ := eval_affine hf hlt' (hdomx a (hin a ham)).1 (hdomx b (hin b hbm)).1 hmemf
    obtain ⟨n, hn'⟩ := eval_affine hg hlt' (hdomx a (hin a ham)).2 (hdomx b (hin b hbm)).2 hmemg
    -- the difference is affine on the whole interval
    obtain ⟨d, hd⟩ : ∃ d : α → α, ∀ y, d y = eval f y - eval g y := ⟨_, fun _ => rfl⟩
    have hda : ∀ y, a ≤ y → y ≤ b → d y = d a + (m - n) * (y - a) := by
      intro y h1 h2
      rw [hd, hd, hm y h1 h2, hn' y h1 h2]
      ring
    have hp2' : p.2 = d p.1 := by rw [hd]; exact hp2
    have hq2' : q.2 = d q.1 := by rw [hd]; exact hq2
    have hpq := hn.2.2.1
    have ep := hda p.1 hap (le_trans hpq.le hqb)
    have eq := hda q.1 (le_trans hap hpq.le) hqb
    have eb := hda b hlt'.le le_rfl
    rw [hp2', hq2'] at hlt
    have hpq0 : d p.1 - d q.1 ≠ 0 := by
      intro h0
      rw [sub_eq_zero.1 h0] at hlt
      exact absurd (mul_self_nonneg _) (not_le_of_gt hlt)
    have hmn : m - n ≠ 0 := by
      intro h0
      apply hpq0
      rw [ep, eq, h0]
      ring
    have hz' : z = a - d a / (m - n) := by
      have : d p.1 - d q.1 = (m - n) * (p.1 - q.1) := by rw [ep, eq]; ring
      rw [hz, hp2', hq2', this, ep]
      have h3 : p.1 - q.1 ≠ 0 := sub_ne_zero.2 (ne_of_lt hpq)
      field_simp
      ring
    have hdab : d a - d b = (m - n) * (a - b) := by rw [eb]; ring
    have hab' : a - b ≠ 0 := sub_ne_zero.2 (ne_of_lt hlt')
    have ht : d a / (d a - d b) = (z - a) / (b - a) := by
      have h4 : b - a ≠ 0 := sub_ne_zero.2 (ne_of_gt hlt')
      rw [hdab, hz']
      field_simp
      ring
    have haz : a < z := lt_of_le_of_lt hap hb1
    have hzb : z < b := lt_of_lt_of_le hb2 hqb
    have h4 : 0 < b - a := sub_pos.2 hlt'
    have hx : intersection a (eval f a) b (eval f b) a (eval g a) b (eval g b) = z := by
      rw [intersection_eq hlt', ← hd, ← hd, ht, if_pos]
      · have := ne_of_gt h4
        field_simp
        ring
      · exact ⟨div_nonneg (sub_pos.2 haz).le h4.le, (div_le_one h4).2 (by linarith)⟩
    have hzi : z ∈ intersections f g := by
      rw [intersections, List.mem_filterMap]
      refine ⟨(a, b), hab, ?_⟩
      simp only [hx]
      rw [if_pos (ne_of_gt haz)]
    have hzg : z ∈ grid f g := (foldl_setInsert_mem (fun x => x) _ _ _).2 (.inl ⟨z, hzi, rfl⟩)
    rcases hn.2.2.2 (z, _) (grid_apply _ (hzg)) with h | h
    · exact absurd hb1 (not_lt_of_ge h)
    · exact absurd hb2 (not_lt_of_ge h)
  refine ⟨hno, ?_⟩
  intro x
  rw [(C42_abs (sub f g) (apply_ascending _ f g) hno).2.2]
  by_cases hx : InDomain f x
  · rw [((C42_sum f g hf hg).2.2.1 x hx ((hdom x).1 hx)).2]
  · have hx' : ¬InDomain g x := fun h => hx ((hdom x).2 h)
    rw [eval_eq_of hf (.inr (.inr ⟨hx, rfl⟩)), eval_eq_of hg (.inr (.inr ⟨hx', rfl⟩)),
      eval_eq_of (f := sub f g) (apply_ascending _ f g) (.inr (.inr ⟨?_, rfl⟩))]
    · simp
    · rw [sub, apply_domain]
      rintro ⟨⟨a, ha, ha'⟩, ⟨b, hb, hb'⟩⟩
      apply hx
      constructor
      · rcases List.mem_append.1 ha with h | h
        · exact ⟨a, h, ha'⟩
        · obtain ⟨c, hc, hca⟩ := ((hdom a.1).2 ⟨⟨a, h, le_rfl⟩, ⟨a, h, le_rfl⟩⟩).1
          exact ⟨c, hc, le_trans hca ha'⟩
      · rcases List.mem_append.1 hb with h | h
        · exact ⟨b, h, hb'⟩
        · obtain ⟨c, hc, hca⟩ := ((hdom b.1).2 ⟨⟨b, h, le_rfl⟩, ⟨b, h, le_rfl⟩⟩).2
          exact ⟨c, hc, le_trans hb' hca⟩

/-- C42. Functions with the same domain compare equal if and only if they have the same values everywhere. -/
theorem C42_equality (f g : Fn α) (hf : Ascending f) (hg : Ascending g) (hdom : ∀ x, InDomain f x ↔ InDomain g x) :
    equal f g = true ↔ ∀ x, eval f x = eval g x := by
  constructor
  · intro h x
    rw [equal, List.all_eq_true] at h
    have hmer : ∀ y ∈ merged f g, eval f y - eval g y = 0 := fun y hy => sub_eq_zero.2 (by simpa using h y hy)
    -- both functions are affine between neighbours of the merged domain
    by_cases hx : InDomain f x
    · by_cases hxm : x ∈ merged f g
      · exact sub_eq_zero.1 (hmer x hxm)
      · have hxg := (hdom x).1 hx
        let k : Fn α := (merged f g).map fun x => (x, 0)
        have hk : Ascending k := by
          simp only [k, Ascending, List.pairwise_map]
          exact merged_sorted f g
        rcases eval_value hk x with h1 | ⟨a, b, hab, h1, h2, -⟩ | ⟨h1, -⟩
        · obtain ⟨y, hy, he⟩ := List.mem_map.1 h1
          have hyx : y = x := congrArg Prod.fst he
          exact absurd (hyx ▸ hy) hxm
        · obtain ⟨a', ham, rfl⟩ := List.mem_map.1 hab.1
          obtain ⟨b', hbm, rfl⟩ := List.mem_map.1 hab.2.1
          simp only at h1 h2
          have hno : ∀ c ∈ merged f g, c ≤ a' ∨ b' ≤ c := fun c hc =>
            hab.2.2.2 (c, 0) (List.mem_map.2 ⟨c, hc, rfl⟩)
          have haff : ∀ w : Fn α, Ascending w → (∀ r ∈ w, r.1 ∈ merged f g) → InDomain w x →
              ∃ m, ∀ y, a' ≤ y → y ≤ b' → eval w y = eval w a' + m * (y - a') := by
            intro w hw hwm hwx
            obtain ⟨⟨r, hr, hr'⟩, ⟨s, hs, hs'⟩⟩ := hwx
            have hra : r.1 ≤ a' := (hno _ (hwm r hr)).resolve_right fun h => absurd (lt_of_le_of_lt hr' h2) (not_lt_of_ge h)
            have hsb : b' ≤ s.1 := (hno _ (hwm s hs)).resolve_left fun h => absurd (lt_of_lt_of_le h1 hs') (not_lt_of_ge h)
            have hab'' : a' < b' := lt_trans h1 h2
            exact eval_affine hw hab'' ⟨⟨r, hr, hra⟩, ⟨s, hs, le_trans hab''.le hsb⟩⟩
              ⟨⟨r, hr, le_trans hra hab''.le⟩, ⟨s, hs, hsb⟩⟩ fun r hr => hno _ (hwm r hr)
          obtain ⟨m, hm⟩ := haff f hf (fun r hr => (mem_merged _ _ _).2 (.inl ⟨r, hr, rfl⟩)) hx
          obtain ⟨n, hn⟩ := haff g hg (fun r hr => (mem_merged _ _ _).2 (.inr ⟨r, hr, rfl⟩)) hxg
          have hab'' : a' < b' := lt_trans h1 h2
          have ea := hmer a' ham
          have eb := hmer b' hbm
          rw [hm b' hab''.le le_rfl, hn b' hab''.le le_rfl] at eb
          have hmn : (m - n) * (b' - a') = 0 := by linear_combination eb - ea
          have hmn' : m - n = 0 := (mul_eq_zero.1 hmn).resolve_right (sub_ne_zero.2 (ne_of_gt hab''))
          rw [hm x h1.le h2.le, hn x h1.le h2.le]
          linear_combination ea + (x - a') * hmn'
        · exfalso
          obtain ⟨⟨r, hr, hr'⟩, ⟨s, hs, hs'⟩⟩ := hx
          exact h1 ⟨⟨(r.1, 0), List.mem_map.2 ⟨r.1, (mem_merged _ _ _).2 (.inl ⟨r, hr, rfl⟩), rfl⟩, hr'⟩,
            ⟨(s.1, 0), List.mem_map.2 ⟨s.1, (mem_merged _ _ _).2 (.inl ⟨s, hs, rfl⟩), rfl⟩, hs'⟩⟩
    · have hx' : ¬InDomain g x := fun h => hx ((hdom x).2 h)
      rw [eval_eq_of hf (.inr (.inr ⟨hx, rfl⟩)), eval_eq_of hg (.inr (.inr ⟨hx', rfl⟩))]
  · intro h
    rw [equal, List.all_eq_true]
    intro x _
    simpa using h x

/-- C42. `max` yields the largest value of a point, which bounds the function on its domain. -/
theorem C42_maximum (lowest : α) (f : Fn α) (hf : Ascending f) (hlow : ∀ p ∈ f, lowest ≤ p.2) (hne : f ≠ []) :
    (∃ x, InDomain f x ∧ eval f x = Pl.max lowest f) ∧ ∀ x, InDomain f x → eval f x ≤ Pl.max lowest f := by
  have hmax : ∀ (l : Fn α) (v : α), (∀ e ∈ l, e.2 ≤ l.foldl (fun value e => Max.max value e.2) v) ∧
      v ≤ l.foldl (fun value e => Max.max value e.2) v ∧
      (l.foldl (fun value e => Max.max value e.2) v = v ∨ ∃ e ∈ l, l.foldl (fun value e => Max.max value e.2) v = e.2) := by
    intro l
    induction l with
    | nil => intro v; simp
    | cons e l ih =>
      intro v
      obtain ⟨h1, h2, h3⟩ := ih (Max.max v e.2)
      refine ⟨?_, le_trans (le_max_left _ _) h2, ?_⟩
      · intro c hc
        rcases List.mem_cons.1 hc with rfl | hc
        · exact le_trans (le_max_right _ _) h2
        · exact h1 c hc
      · rcases h3 with h3 | ⟨c, hc, h3⟩
        · rw [List.foldl_cons, h3]
          rcases max_choice v e.2 with h | h
          · exact .inl h
          · exact .inr ⟨e, by simp, h⟩
        · exact .inr ⟨c, by simp [hc], h3⟩
  rw [Pl.max, if_neg (by simpa using hne)]
  obtain ⟨h1, h2, h3⟩ := hmax f lowest
  constructor
  · have : ∃ e ∈ f, e.2 = f.foldl (fun value e => Max.max value e.2) lowest := by
      rcases h3 with h3 | ⟨e, he, h3⟩
      · obtain ⟨e, he⟩ := List.exists_mem_of_ne_nil f hne
        exact ⟨e, he, le_antisymm (h1 e he) (by rw [h3]; exact hlow e he)⟩
      · exact ⟨e, he, h3.symm⟩
    obtain ⟨e, he, h⟩ := this
    exact ⟨e.1, ⟨⟨e, he, le_rfl⟩, ⟨e, he, le_rfl⟩⟩, by rw [eval_mem hf he, h]⟩
  · intro x hx
    rcases eval_value hf x with h | ⟨p, q, hn, k1, k2, k3⟩ | ⟨h, -⟩
    · exact h1 _ h
    · have hp := h1 p hn.1
      have hq := h1 q hn.2.1
      have hd : 0 < q.1 - p.1 := sub_pos.2 hn.2.2.1
      have e1 : (eval f x) * (q.1 - p.1) = p.2 * (q.1 - x) + q.2 * (x - p.1) := by linear_combination k3
      have e2 := mul_le_mul_of_nonneg_right hp (sub_pos.2 k2).le
      have e3 := mul_le_mul_of_nonneg_right hq (sub_pos.2 k1).le
      refine le_of_mul_le_mul_right ?_ hd
      rw [e1]
      calc _ ≤ _ := add_le_add e2 e3
        _ = _ := by ring
    · exact absurd hx h

end

/-- A function with a change of sign. -/
def samplePl : List (ℚ × ℚ) := [(2, 2), (0, 0), (1, -1)]

example : (samplePl.map Prod.fst).Nodup := by decide +kernel

example : construct samplePl = some [(0, 0), (1, -1), (4 / 3, 0), (2, 2)] := by decide +kernel

/-- Two functions with the same domain that intersect. -/
def samplePlF : Fn ℚ := [(0, 0), (2, 2)]
def samplePlG : Fn ℚ := [(0, 1), (2, 1)]

example : Ascending samplePlF ∧ Ascending samplePlG ∧ NoSignChange samplePlF ∧
    (∀ x, InDomain samplePlF x ↔ InDomain samplePlG x) ∧ InDomain samplePlF 1 := by
  refine ⟨?_, ?_, ?_, ?_, ?_⟩
  · unfold Ascending; decide +kernel
  · unfold Ascending; decide +kernel
  · rintro p q ⟨hp, hq, -⟩
    simp only [samplePlF, List.mem_cons, List.not_mem_nil, or_false] at hp hq
    rcases hp with rfl | rfl <;> rcases hq with rfl | rfl <;> norm_num
  · intro x
    simp [InDomain, samplePlF, samplePlG]
  · simp [InDomain, samplePlF]

example : sub samplePlF samplePlG = [(0, -1), (1, 0), (2, 1)] := by decide +kernel

/-- C42. Outside of the common domain the sum is not the pointwise sum: both functions vanish at 5. -/
theorem C42_sum_witness : let f : Fn ℚ := [(0, 1), (4, 1)]; let g : Fn ℚ := [(8, 1), (9, 1)]
    eval f 5 = 0 ∧ eval g 5 = 0 ∧ eval (add f g) 5 = 1 / 2 := by decide +kernel

/-- C42. Functions with different domains may compare equal although their values differ. -/
theorem C42_equality_witness : let f : Fn ℚ := [(0, 1)]; let g : Fn ℚ := [(0, 1), (1, 0)]
    equal f g = true ∧ eval f (1 / 2) = 0 ∧ eval g (1 / 2) = 1 / 2 := by decide +kernel

/-- C42. The absolute value and the integral of a sum are wrong if the sum changes its sign between two points: `apply` adds the
intersections of both functions, not the zeros of the result.  Here the sum is `x - 1` on the interval from 0 to 2. -/
theorem C42_sign_witness : let f : Fn ℚ := [(0, 0), (2, 2)]; let g : Fn ℚ := [(0, -1), (2, -1)]
    eval (add f g) 1 = 0 ∧ eval (Pl.abs (add f g)) 1 = 1 ∧ integral (fun x => x) 1 (add f g) = 0 := by decide +kernel

end Aleph
