import Verif.Spec.StepFunction
import Mathlib.Algebra.Order.Group.Abs
import Mathlib.Algebra.Order.Ring.Int
import Mathlib.Algebra.BigOperators.Group.List.Basic
import Mathlib.Algebra.BigOperators.Ring.List
import Mathlib.Order.Bounds.Basic
import Mathlib.Data.List.Dedup
import Mathlib.Tactic.Ring
import Mathlib.Tactic.Tauto

/-!
# Step functions (C50)
-/

namespace Aleph

open Spec Step

variable {α : Type}

namespace Step

section Order

variable [LinearOrder α]

theorem contains_iff (e : Interval α) (x : α) : e.contains x = true ↔ e.a ≤ x ∧ x ≤ e.b := by
  simp [Interval.contains]

/-- In a step function the intervals that contain `x` are neighbours. -/
theorem range_eq_filter {f : Fn α} (hf : IsStepFunction f) (x : α) :
    ((f.dropWhile fun e => !e.contains x).takeWhile fun e => e.contains x) = f.filter fun e => e.contains x := by
  obtain ⟨hp, ho⟩ := hf
  have htake : ∀ (e : Interval α) (l : Fn α), x ≤ e.b → (∀ e' ∈ l, e'.a < e'.b) → (∀ e' ∈ l, e.b ≤ e'.a) →
      l.Pairwise (fun e e' => e.b ≤ e'.a) → l.takeWhile (fun e => e.contains x) = l.filter fun e => e.contains x := by
    intro e l he hl1 hl2 hl3
    induction l generalizing e with
    | nil => rfl
    | cons c l ih =>
      rw [List.pairwise_cons] at hl3
      by_cases hc : c.contains x = true
      · rw [List.takeWhile_cons_of_pos (p := fun e : Interval α => e.contains x) hc, List.filter_cons_of_pos (p := fun e : Interval α => e.contains x) hc]
        congr 1
        exact ih c ((contains_iff c x).1 hc).2 (fun e' he' => hl1 e' (by simp [he'])) hl3.1 hl3.2
      · rw [List.takeWhile_cons_of_neg (p := fun e : Interval α => e.contains x) hc, List.filter_cons_of_neg (p := fun e : Interval α => e.contains x) hc, eq_comm, List.filter_eq_nil_iff]
        intro e' he' h
        rw [contains_iff] at h hc
        have h1 := hl3.1 e' he'
        have h2 := hl1 c (by simp)
        have h3 := hl2 c (by simp)
        exact hc ⟨le_trans (le_of_lt h2) (le_trans h1 h.1), le_trans he (le_trans h3 h2.le)⟩
  induction f with
  | nil => rfl
  | cons c f ih =>
    rw [List.pairwise_cons] at ho
    by_cases hc : c.contains x = true
    · rw [List.dropWhile_cons_of_neg (by simp [hc]), List.takeWhile_cons_of_pos (p := fun e : Interval α => e.contains x) hc, List.filter_cons_of_pos (p := fun e : Interval α => e.contains x) hc]
      congr 1
      exact htake c f ((contains_iff c x).1 hc).2 (fun e he => hp e (by simp [he])) ho.1 ho.2
    · rw [List.dropWhile_cons_of_pos (by simp [hc]), List.filter_cons_of_neg (p := fun e : Interval α => e.contains x) hc]
      exact ih (fun e he => hp e (by simp [he])) ho.2

theorem mem_insert {n e : Interval α} {f : Fn α} (h : e ∈ insert n f) : e = n ∨ e ∈ f := by
  induction f with
  | nil => left; simpa [insert] using h
  | cons c f ih =>
    rw [insert] at h
    split at h
    · rcases List.mem_cons.1 h with h | h
      · exact .inl h
      · exact .inr h
    · split at h
      · rcases List.mem_cons.1 h with h | h
        · exact .inr (by simp [h])
        · rcases ih h with h | h
          · exact .inl h
          · exact .inr (by simp [h])
      · exact .inr h

theorem insert_isStep {n : Interval α} {f : Fn α} (hf : IsStepFunction f) (hn : n.a < n.b) :
    IsStepFunction (insert n f) := by
  obtain ⟨hp, ho⟩ := hf
  refine ⟨?_, ?_⟩
  · intro e he
    rcases mem_insert he with rfl | h
    · exact hn
    · exact hp e h
  · induction f with
    | nil => simp [insert]
    | cons c f ih =>
      rw [List.pairwise_cons] at ho
      rw [insert]
      split
      · next h =>
        refine List.pairwise_cons.2 ⟨?_, List.pairwise_cons.2 ho⟩
        intro e he
        rcases List.mem_cons.1 he with rfl | he
        · exact h
        · exact le_trans h (le_trans (hp c (by simp)).le (ho.1 e he))
      · split
        · next h =>
          refine List.pairwise_cons.2 ⟨?_, ih (fun e he => hp e (by simp [he])) ho.2⟩
          intro e he
          rcases mem_insert he with rfl | he
          · exact h
          · exact ho.1 e he
        · exact List.pairwise_cons.2 ho

theorem insert_new {n : Interval α} {f : Fn α} (h : ∀ e ∈ f, e.b ≤ n.a ∨ n.b ≤ e.a) (e : Interval α) :
    e ∈ insert n f ↔ e = n ∨ e ∈ f := by
  refine ⟨mem_insert, ?_⟩
  induction f with
  | nil => simp [insert]
  | cons c f ih =>
    intro he
    rw [insert]
    split
    · simpa using he
    · next h1 =>
      have h2 : c.b ≤ n.a := (h c (by simp)).resolve_right h1
      rw [if_pos h2]
      rcases he with rfl | he
      · exact List.mem_cons_of_mem _ (ih (fun e he => h e (by simp [he])) (.inl rfl))
      · rcases List.mem_cons.1 he with rfl | he
        · simp
        · exact List.mem_cons_of_mem _ (ih (fun e he => h e (by simp [he])) (.inr he))

theorem insert_old {n : Interval α} {f : Fn α} (hf : IsStepFunction f)
    (h : ∃ e ∈ f, ¬e.b ≤ n.a ∧ ¬n.b ≤ e.a) : insert n f = f := by
  obtain ⟨hp, ho⟩ := hf
  induction f with
  | nil => simp at h
  | cons c f ih =>
    rw [List.pairwise_cons] at ho
    obtain ⟨e, he, h1, h2⟩ := h
    rw [insert]
    rcases List.mem_cons.1 he with rfl | he
    · rw [if_neg h2, if_neg h1]
    · have hce := ho.1 e he
      have hc := hp c (by simp)
      rw [if_neg (fun h => h2 (le_trans h (le_trans hc.le hce)))]
      split
      · rw [ih ⟨e, he, h1, h2⟩ (fun e he => hp e (by simp [he])) ho.2]
      · rfl

theorem insert_last {n : Interval α} {f : Fn α} (h : ∀ e ∈ f, e.b ≤ n.a) (hp : ∀ e ∈ f, e.a < e.b) (hn : n.a < n.b) :
    insert n f = f ++ [n] := by
  induction f with
  | nil => rfl
  | cons c f ih =>
    have h1 := h c (by simp)
    have h2 := hp c (by simp)
    rw [insert, if_neg (fun h3 => absurd (lt_of_lt_of_le hn (le_trans h3 (le_trans h2.le h1))) (lt_irrefl _)), if_pos h1,
      ih (fun e he => h e (by simp [he])) (fun e he => hp e (by simp [he]))]
    rfl

theorem rebuild_eq {f : Fn α} (hf : IsStepFunction f) (g : α → α) :
    rebuild g f = f.map fun e => ⟨e.a, e.b, g e.y⟩ := by
  have key : ∀ (l h : Fn α), (∀ e ∈ h ++ l, e.a < e.b) → (h ++ l).Pairwise (fun e e' => e.b ≤ e'.a) →
      l.foldl (fun h e => insert ⟨e.a, e.b, g e.y⟩ h) h = h ++ l.map fun e => ⟨e.a, e.b, g e.y⟩ := by
    intro l
    induction l with
    | nil => simp
    | cons e l ih =>
      intro h hp ho
      rw [List.pairwise_append, List.pairwise_cons] at ho
      rw [List.foldl_cons, insert_last (n := ⟨e.a, e.b, g e.y⟩) (fun x hx => ho.2.2 x hx e (by simp)) (fun x hx => hp x (by simp [hx]))
        (hp e (by simp)), ih]
      · simp
      · intro x hx
        simp only [List.append_assoc, List.singleton_append, List.mem_append, List.mem_cons] at hx
        rcases hx with hx | rfl | hx
        · exact hp x (by simp [hx])
        · exact hp e (by simp)
        · exact hp x (by simp [hx])
      · rw [List.append_assoc, List.singleton_append, List.pairwise_append, List.pairwise_cons]
        refine ⟨ho.1, ho.2.1, ?_⟩
        intro a ha b hb
        rcases List.mem_cons.1 hb with rfl | hb
        · exact ho.2.2 a ha e (by simp)
        · exact ho.2.2 a ha b (by simp [hb])
  exact key f [] (by simpa using hf.proper) (by simpa using hf.ordered)

theorem map_isStep {f : Fn α} (hf : IsStepFunction f) (g : α → α) :
    IsStepFunction (f.map fun e => (⟨e.a, e.b, g e.y⟩ : Interval α)) := by
  refine ⟨?_, ?_⟩
  · intro e he
    obtain ⟨x, hx, rfl⟩ := List.mem_map.1 he
    exact hf.proper x hx
  · rw [List.pairwise_map]
    exact hf.ordered

end Order

section Eval

variable [LinearOrder α] [AddCommGroup α] [IsOrderedAddMonoid α]

omit [IsOrderedAddMonoid α] in
theorem eval_eq {f : Fn α} (hf : IsStepFunction f) (x : α) :
    eval f x = (f.filter fun e => e.contains x).foldl (fun value e => if |e.y| > value then e.y else value) 0 := by
  rw [eval, range_eq_filter hf]
  have : ∀ (l : Fn α) (v : α), (∀ e ∈ l, e.contains x = true) →
      l.foldl (fun value e => if |e.eval x| > value then e.eval x else value) v =
        l.foldl (fun value e => if |e.y| > value then e.y else value) v := by
    intro l
    induction l with
    | nil => intros; rfl
    | cons e l ih =>
      intro v h
      have he : e.eval x = e.y := by rw [Interval.eval, if_pos (h e (by simp))]
      rw [List.foldl_cons, List.foldl_cons, he]
      exact ih _ fun e he => h e (by simp [he])
  exact this _ _ fun e he => (List.mem_filter.1 he).2

omit [IsOrderedAddMonoid α] in
theorem eval_outside {f : Fn α} (hf : IsStepFunction f) {x : α} (h : Outside f x) : eval f x = 0 := by
  rw [eval_eq hf, List.filter_eq_nil_iff.2]
  · rfl
  · intro e he hc
    exact h e he ((contains_iff e x).1 hc)

theorem eval_only {f : Fn α} (hf : IsStepFunction f) {x : α} {e : Interval α} (h : OnlyInterval f x e) :
    eval f x = e.y := by
  obtain ⟨hm, ha, hb, hu⟩ := h
  have hnd : f.Nodup := by
    refine List.Pairwise.imp_of_mem ?_ hf.ordered
    rintro a b hm _ hab rfl
    exact absurd (hf.proper a hm) (not_lt_of_ge hab)
  have : f.filter (fun e => e.contains x) = [e] := by
    refine List.perm_singleton.1 ((List.perm_ext_iff_of_nodup (hnd.filter _) (List.nodup_singleton e)).2 ?_)
    intro c
    rw [List.mem_filter, contains_iff, List.mem_singleton]
    constructor
    · rintro ⟨h1, h2, h3⟩
      exact hu c h1 h2 h3
    · rintro rfl
      exact ⟨hm, ha, hb⟩
  rw [eval_eq hf, this]
  simp only [List.foldl_cons, List.foldl_nil]
  split
  · rfl
  · next h =>
    have : |e.y| ≤ 0 := le_of_not_gt h
    have h0 : e.y = 0 := abs_eq_zero.1 (le_antisymm this (abs_nonneg _))
    exact h0.symm

end Eval

end Step

/-- C50. Functions built by `add` are step functions.  An interval that overlaps no existing interval (except in
end points) is added, any other is ignored; an interval with `a ≥ b` makes the program undefined. -/
theorem C50_add [LinearOrder α] (f : Fn α) (hf : IsStepFunction f) (a b y : α) :
    (a < b → ∃ g, add f a b y = some g ∧ IsStepFunction g ∧
      ((∀ e ∈ f, e.b ≤ a ∨ b ≤ e.a) → ∀ e, e ∈ g ↔ e = ⟨a, b, y⟩ ∨ e ∈ f) ∧
      ((∃ e ∈ f, a < e.b ∧ e.a < b) → g = f)) ∧
    (b ≤ a → add f a b y = none) := by
  constructor
  · intro h
    refine ⟨Step.insert ⟨a, b, y⟩ f, if_pos h, insert_isStep hf h, fun h1 e => insert_new (n := ⟨a, b, y⟩) h1 e, ?_⟩
    rintro ⟨e, he, h1, h2⟩
    exact insert_old hf ⟨e, he, not_le_of_gt h1, not_le_of_gt h2⟩
  · intro h
    exact if_neg (not_lt_of_ge h)

/-- C50. Evaluation yields the value of the interval that contains the argument, and zero if there is none. -/
theorem C50_evaluation [LinearOrder α] [AddCommGroup α] [IsOrderedAddMonoid α] (f : Fn α) (hf : IsStepFunction f) (x : α) :
    (∀ e, OnlyInterval f x e → eval f x = e.y) ∧ (Outside f x → eval f x = 0) :=
  ⟨fun _ h => eval_only hf h, fun h => eval_outside hf h⟩

/-- C50. If all values are non-negative, the value at a common end point of two intervals is the larger one. -/
theorem C50_common_end_point [LinearOrder α] [AddCommGroup α] [IsOrderedAddMonoid α] (f : Fn α) (hf : IsStepFunction f)
    (hpos : ∀ e ∈ f, 0 ≤ e.y) (x : α) (hx : ¬Outside f x) :
    IsGreatest {y | ∃ e ∈ f, e.a ≤ x ∧ x ≤ e.b ∧ e.y = y} (eval f x) := by
  have key : ∀ (l : Fn α) (v : α), 0 ≤ v → (∀ e ∈ l, 0 ≤ e.y) →
      l.foldl (fun value e => if |e.y| > value then e.y else value) v = l.foldl (fun value e => Max.max value e.y) v := by
    intro l
    induction l with
    | nil => intros; rfl
    | cons e l ih =>
      intro v hv h
      have he := h e (by simp)
      have : (if |e.y| > v then e.y else v) = Max.max v e.y := by
        rw [abs_of_nonneg he]
        split
        · next h => exact (max_eq_right (le_of_lt h)).symm
        · next h => exact (max_eq_left (le_of_not_gt h)).symm
      rw [List.foldl_cons, List.foldl_cons, this]
      exact ih _ (le_trans hv (le_max_left _ _)) fun e he => h e (by simp [he])
  have hmax : ∀ (l : Fn α) (v : α), (∀ e ∈ l, e.y ≤ l.foldl (fun value e => Max.max value e.y) v) ∧
      v ≤ l.foldl (fun value e => Max.max value e.y) v ∧
      (l.foldl (fun value e => Max.max value e.y) v = v ∨ ∃ e ∈ l, l.foldl (fun value e => Max.max value e.y) v = e.y) := by
    intro l
    induction l with
    | nil => intro v; simp
    | cons e l ih =>
      intro v
      obtain ⟨h1, h2, h3⟩ := ih (Max.max v e.y)
      refine ⟨?_, le_trans (le_max_left _ _) h2, ?_⟩
      · intro c hc
        rcases List.mem_cons.1 hc with rfl | hc
        · exact le_trans (le_max_right _ _) h2
        · exact h1 c hc
      · rcases h3 with h3 | ⟨c, hc, h3⟩
        · rw [List.foldl_cons, h3]
          rcases max_choice v e.y with h | h
          · exact .inl h
          · exact .inr ⟨e, by simp, h⟩
        · exact .inr ⟨c, by simp [hc], h3⟩
  rw [eval_eq hf, key _ 0 le_rfl (fun e he => hpos e (List.mem_filter.1 he).1)]
  obtain ⟨h1, h2, h3⟩ := hmax (f.filter fun e => e.contains x) 0
  have hmem : ∀ e, e ∈ f.filter (fun e => e.contains x) ↔ e ∈ f ∧ e.a ≤ x ∧ x ≤ e.b := by
    intro e
    rw [List.mem_filter, contains_iff]
  refine ⟨?_, ?_⟩
  · rcases h3 with h3 | ⟨e, he, h3⟩
    · unfold Outside at hx
      push Not at hx
      obtain ⟨e, he, ha, hb⟩ := hx
      refine ⟨e, he, ha, hb, ?_⟩
      have := h1 e ((hmem e).2 ⟨he, ha, hb⟩)
      exact le_antisymm this (by rw [h3]; exact hpos e he)
    · obtain ⟨h4, h5, h6⟩ := (hmem e).1 he
      exact ⟨e, h4, h5, h6, h3.symm⟩
  · rintro y ⟨e, he, ha, hb, rfl⟩
    exact h1 e ((hmem e).2 ⟨he, ha, hb⟩)

/-- C50. The comment in the code promises the value of largest absolute value at a common end point; this does not hold for
negative values. -/
theorem C50_negative_witness : eval [⟨0, 1, -5⟩, ⟨1, 2, 1⟩] (1 : ℤ) = 1 := by decide

/-- C50. Operations with scalars act on the values inside of the intervals; the intervals remain. -/
theorem C50_scalars [LinearOrder α] [Field α] [IsStrictOrderedRing α] (f : Fn α) (hf : IsStepFunction f) (c : α) :
    (∀ op : Fn α → Fn α, ∀ g : α → α,
      (op, g) ∈ [(neg, fun y => -y), (fun f => addScalar f c, fun y => y + c), (fun f => smul f c, fun y => y * c),
        (Step.abs, fun y => |y|)] →
      IsStepFunction (op f) ∧ domain (op f) = domain f ∧
      ∀ x, (Outside f x → eval (op f) x = 0) ∧ ∀ e, OnlyInterval f x e → eval (op f) x = g (eval f x)) ∧
    (c ≠ 0 → sdiv f c = some (smul f c⁻¹)) ∧ (sdiv f 0 = none) := by
  have key : ∀ g : α → α, IsStepFunction (rebuild g f) ∧ domain (rebuild g f) = domain f ∧
      ∀ x, (Outside f x → eval (rebuild g f) x = 0) ∧
        ∀ e, OnlyInterval f x e → eval (rebuild g f) x = g (eval f x) := by
    intro g
    rw [rebuild_eq hf g]
    have hs := map_isStep hf g
    refine ⟨hs, ?_, ?_⟩
    · simp [domain, List.flatMap_map]
    · intro x
      constructor
      · intro h
        refine eval_outside hs ?_
        intro e he
        obtain ⟨e', he', rfl⟩ := List.mem_map.1 he
        exact h e' he'
      · intro e h
        rw [eval_only hf h]
        obtain ⟨h1, h2, h3, h4⟩ := h
        refine eval_only hs (e := ⟨e.a, e.b, g e.y⟩) ⟨List.mem_map.2 ⟨e, h1, rfl⟩, h2, h3, ?_⟩
        intro c' hc' h5 h6
        obtain ⟨e', he', rfl⟩ := List.mem_map.1 hc'
        rw [h4 e' he' h5 h6]
  refine ⟨?_, ?_, if_pos rfl⟩
  · intro op g h
    simp only [List.mem_cons, Prod.mk.injEq, List.not_mem_nil, or_false] at h
    rcases h with ⟨rfl, rfl⟩ | ⟨rfl, rfl⟩ | ⟨rfl, rfl⟩ | ⟨rfl, rfl⟩
    · exact key _
    · have : (fun y => y + c) = fun y => c + y := funext fun y => add_comm _ _
      rw [this]
      exact key _
    · exact key _
    · exact key _
  · intro h
    rw [sdiv, if_neg h, one_div]

/-- C50. The integral is the sum of the areas of all intervals; it is linear with respect to scalars. -/
theorem C50_integral [LinearOrder α] [Field α] (f : Fn α) (hf : IsStepFunction f) (c : α) :
    integral f = (f.map fun e => e.y * (e.b - e.a)).sum ∧ integral (smul f c) = c * integral f ∧
      integral (neg f) = -integral f := by
  have key : ∀ (l : Fn α) (v : α), l.foldl (fun value e => value + e.y * (e.b - e.a)) v =
      v + (l.map fun e => e.y * (e.b - e.a)).sum := by
    intro l
    induction l with
    | nil => simp
    | cons e l ih => intro v; rw [List.foldl_cons, ih]; simp [add_assoc]
  have h1 : ∀ l : Fn α, integral l = (l.map fun e => e.y * (e.b - e.a)).sum := fun l => by rw [integral, key, zero_add]
  have hlin : ∀ (l : Fn α) (k : α), (l.map fun e => e.y * k * (e.b - e.a)).sum =
      k * (l.map fun e => e.y * (e.b - e.a)).sum := by
    intro l k
    induction l with
    | nil => simp
    | cons e l ih => simp only [List.map_cons, List.sum_cons, ih]; ring
  refine ⟨h1 f, ?_, ?_⟩
  · rw [h1, h1, smul, rebuild_eq hf, List.map_map]
    exact hlin f c
  · rw [h1, h1, neg, rebuild_eq hf, List.map_map, neg_eq_neg_one_mul, ← hlin f (-1)]
    congr 1
    refine List.map_congr_left fun e _ => ?_
    simp

/-- C50. `max` yields the largest value of a non-empty function. -/
theorem C50_maximum [LinearOrder α] [AddCommGroup α] (lowest : α) (f : Fn α) (hlow : ∀ e ∈ f, lowest ≤ e.y) :
    (f ≠ [] → IsGreatest {y | y ∈ image f} (Step.max lowest f)) ∧ Step.max lowest ([] : Fn α) = 0 := by
  refine ⟨?_, rfl⟩
  intro hne
  have hmax : ∀ (l : Fn α) (v : α), (∀ e ∈ l, e.y ≤ l.foldl (fun value e => Max.max value e.y) v) ∧
      v ≤ l.foldl (fun value e => Max.max value e.y) v ∧
      (l.foldl (fun value e => Max.max value e.y) v = v ∨ ∃ e ∈ l, l.foldl (fun value e => Max.max value e.y) v = e.y) := by
    intro l
    induction l with
    | nil => intro v; simp
    | cons e l ih =>
      intro v
      obtain ⟨h1, h2, h3⟩ := ih (Max.max v e.y)
      refine ⟨?_, le_trans (le_max_left _ _) h2, ?_⟩
      · intro c hc
        rcases List.mem_cons.1 hc with rfl | hc
        · exact le_trans (le_max_right _ _) h2
        · exact h1 c hc
      · rcases h3 with h3 | ⟨c, hc, h3⟩
        · rw [List.foldl_cons, h3]
          rcases max_choice v e.y with h | h
          · exact .inl h
          · exact .inr ⟨e, by simp, h⟩
        · exact .inr ⟨c, by simp [hc], h3⟩
  rw [Step.max, if_neg (by simpa using hne)]
  obtain ⟨h1, h2, h3⟩ := hmax f lowest
  refine ⟨?_, ?_⟩
  · rcases h3 with h3 | ⟨e, he, h3⟩
    · obtain ⟨e, he⟩ := List.exists_mem_of_ne_nil f hne
      refine List.mem_map.2 ⟨e, he, ?_⟩
      exact le_antisymm (h1 e he) (by rw [h3]; exact hlow e he)
    · exact List.mem_map.2 ⟨e, he, h3.symm⟩
  · rintro y hy
    obtain ⟨e, he, rfl⟩ := List.mem_map.1 hy
    exact h1 e he

/-- A step function with a gap between its two intervals. -/
def sampleStep : Fn ℤ := [⟨0, 10, 1⟩, ⟨20, 30, 1⟩]

example : IsStepFunction sampleStep := ⟨by decide, by decide⟩

example : OnlyInterval sampleStep 5 ⟨0, 10, 1⟩ := by
  refine ⟨by decide, by decide, by decide, by decide⟩

example : Outside sampleStep 15 := by unfold Outside; decide

/-- C50 does not hold for sums: the sum of a function with a gap and the empty function is not zero in the gap, although both
functions are zero there. -/
theorem C50_sum_wrong : ∃ h, sum (fun x => x + 1) (fun x => x - 1) sampleStep [] = some h ∧ eval h 15 = 1 ∧
    eval sampleStep 15 = 0 ∧ eval ([] : Fn ℤ) 15 = 0 := by
  refine ⟨[⟨0, 30, 1⟩], by decide +kernel, by decide +kernel, by decide +kernel, rfl⟩

end Aleph
