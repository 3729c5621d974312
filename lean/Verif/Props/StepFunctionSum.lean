import Verif.Props.StepFunction
import Mathlib.Tactic.Order
import Mathlib.Tactic.IntervalCases

/-!
# C50: sums of step functions
-/

set_option linter.unusedSectionVars false

namespace Aleph

open Spec

namespace Step

variable {α : Type} [LinearOrder α]

theorem mem_domain {f : Fn α} {x : α} : x ∈ domain f ↔ ∃ e ∈ f, x = e.a ∨ x = e.b := by
  simp [domain]

/-- A step function does not change between its end points. -/
theorem eval_const [AddCommGroup α] [IsOrderedAddMonoid α] {f : Fn α} (hf : IsStepFunction f) {p q x x' : α}
    (h : ∀ e ∈ f, (e.a ≤ p ∨ q ≤ e.a) ∧ (e.b ≤ p ∨ q ≤ e.b)) (h1 : p < x) (h2 : x < q) (h3 : p < x') (h4 : x' < q) :
    eval f x = eval f x' := by
  rw [eval_eq hf, eval_eq hf]
  congr 1
  apply List.filter_congr
  intro e he
  obtain ⟨ha, hb⟩ := h e he
  rw [Bool.eq_iff_iff, contains_iff, contains_iff]
  constructor
  · rintro ⟨k1, k2⟩
    refine ⟨?_, ?_⟩
    · rcases ha with h | h
      · order
      · order
    · rcases hb with h | h
      · order
      · order
  · rintro ⟨k1, k2⟩
    refine ⟨?_, ?_⟩
    · rcases ha with h | h
      · order
      · order
    · rcases hb with h | h
      · order
      · order

/-- The interval `e'` covers `e` and has the same value. -/
def Covers (e e' : Interval α) : Prop := e'.a ≤ e.a ∧ e.b ≤ e'.b ∧ e'.y = e.y

theorem join_spec (cur : Interval α) (l h : Fn α) (hs : IsStepFunction (h ++ cur :: l)) (lo hi : α)
    (hb : ∀ e ∈ h ++ cur :: l, lo ≤ e.a ∧ e.b ≤ hi) :
    IsStepFunction (join cur l h) ∧ (∀ e ∈ h ++ cur :: l, ∃ e' ∈ join cur l h, Covers e e') ∧
      ∀ e ∈ join cur l h, lo ≤ e.a ∧ e.b ≤ hi := by
  induction l generalizing cur h with
  | nil =>
    have hl : ∀ e ∈ h, e.b ≤ cur.a := fun e he => (List.pairwise_append.1 hs.ordered).2.2 e he cur (by simp)
    rw [join, insert_last hl (fun e he => hs.proper e (by simp [he])) (hs.proper cur (by simp))]
    exact ⟨hs, fun e he => ⟨e, he, le_rfl, le_rfl, rfl⟩, hb⟩
  | cons e l ih =>
    have ho := List.pairwise_append.1 hs.ordered
    have ho1 := List.pairwise_cons.1 ho.2.1
    have ho2 := List.pairwise_cons.1 ho1.2
    have hc1 := hs.proper cur (by simp)
    have hc2 := hs.proper e (by simp)
    have hce := ho1.1 e (by simp)
    rw [join]
    split
    · next hy =>
      have hs' : IsStepFunction (h ++ (⟨cur.a, e.b, cur.y⟩ : Interval α) :: l) := by
        refine ⟨?_, ?_⟩
        · intro x hx
          rcases List.mem_append.1 hx with hx | hx
          · exact hs.proper x (by simp [hx])
          · rcases List.mem_cons.1 hx with rfl | hx
            · simp only; order
            · exact hs.proper x (by simp [hx])
        · rw [List.pairwise_append]
          refine ⟨ho.1, List.pairwise_cons.2 ⟨ho2.1, ho2.2⟩, ?_⟩
          intro x hx y hy
          rcases List.mem_cons.1 hy with rfl | hy
          · exact ho.2.2 x hx cur (by simp)
          · exact ho.2.2 x hx y (by simp [hy])
      obtain ⟨h1, h2, h3⟩ := ih _ _ hs' (by
        intro x hx
        rcases List.mem_append.1 hx with hx | hx
        · exact hb x (by simp [hx])
        · rcases List.mem_cons.1 hx with rfl | hx
          · exact ⟨(hb cur (by simp)).1, (hb e (by simp)).2⟩
          · exact hb x (by simp [hx]))
      refine ⟨h1, ?_, h3⟩
      obtain ⟨m, hm, m1, m2, m3⟩ := h2 ⟨cur.a, e.b, cur.y⟩ (by simp)
      simp only at m1 m2 m3
      intro x hx
      rcases List.mem_append.1 hx with hx | hx
      · exact h2 x (by simp [hx])
      · rcases List.mem_cons.1 hx with rfl | hx
        · exact ⟨m, hm, m1, by order, m3⟩
        · rcases List.mem_cons.1 hx with rfl | hx
          · exact ⟨m, hm, by order, m2, by rw [m3, hy]⟩
          · exact h2 x (by simp [hx])
    · have hl : ∀ e ∈ h, e.b ≤ cur.a := fun e he => ho.2.2 e he cur (by simp)
      rw [insert_last hl (fun e he => hs.proper e (by simp [he])) hc1]
      have e1 : h ++ [cur] ++ e :: l = h ++ cur :: e :: l := by simp
      obtain ⟨h1, h2, h3⟩ := ih e (h ++ [cur]) (by rw [e1]; exact hs) (by rw [e1]; exact hb)
      rw [e1] at h2
      exact ⟨h1, h2, h3⟩

theorem clean_spec (f : Fn α) (hs : IsStepFunction f) (lo hi : α) (hb : ∀ e ∈ f, lo ≤ e.a ∧ e.b ≤ hi) :
    IsStepFunction (clean f) ∧ (∀ e ∈ f, ∃ e' ∈ clean f, Covers e e') ∧ ∀ e ∈ clean f, lo ≤ e.a ∧ e.b ≤ hi := by
  have hfil : (f.filter fun e => e.a ≠ e.b) = f := by
    rw [List.filter_eq_self]
    intro e he
    simpa using (hs.proper e he).ne
  unfold clean
  rw [hfil]
  cases f with
  | nil => exact ⟨hs, by simp, by simp⟩
  | cons e l => exact join_spec e l [] hs lo hi hb

/-- An interval that covers `x` in its interior determines the value. -/
theorem eval_interior [AddCommGroup α] [IsOrderedAddMonoid α] {f : Fn α} (hf : IsStepFunction f) {e : Interval α}
    (he : e ∈ f) {x : α} (h1 : e.a < x) (h2 : x < e.b) : eval f x = e.y := by
  apply eval_only hf
  refine ⟨he, h1.le, h2.le, ?_⟩
  intro e' he' k1 k2
  by_contra hne
  have hd : e.b ≤ e'.a ∨ e'.b ≤ e.a := by
    have ho := hf.ordered
    rw [List.pairwise_iff_getElem] at ho
    obtain ⟨i, hi, rfl⟩ := List.getElem_of_mem he
    obtain ⟨j, hj, rfl⟩ := List.getElem_of_mem he'
    rcases lt_trichotomy i j with h | h | h
    · exact Or.inl (ho i j hi hj h)
    · subst h; exact absurd rfl hne
    · exact Or.inr (ho j i hj hi h)
  rcases hd with h | h <;> order

section Loop

variable [Ring α] [IsOrderedAddMonoid α]

/-- The state of the loop at the end point `p`. -/
structure SumInv (f g : Fn α) (next previous : α → α) (lo p : α) (h : Fn α) (prev : α) : Prop where
  step : IsStepFunction h
  bound : ∀ e ∈ h, lo ≤ e.a ∧ e.b ≤ prev
  lo : lo ≤ prev
  prev : prev = p ∨ prev = next p
  cover : ∀ p' q', Adjacent f g p' q' → q' ≤ p → ∃ e ∈ h, e.a ≤ next p' ∧ previous q' ≤ e.b ∧
    ∀ x, p' < x → x < q' → e.y = eval f x + eval g x

theorem append_isStep {h : Fn α} (hs : IsStepFunction h) {n : Interval α} (hb : ∀ e ∈ h, e.b ≤ n.a) (hn : n.a < n.b) :
    IsStepFunction (h ++ [n]) := by
  refine ⟨?_, ?_⟩
  · intro e he
    rcases List.mem_append.1 he with he | he
    · exact hs.proper e he
    · rw [List.mem_singleton] at he
      subst he; exact hn
  · rw [List.pairwise_append]
    refine ⟨hs.ordered, by simp, ?_⟩
    intro x hx y hy
    rw [List.mem_singleton] at hy
    subst hy
    exact hb x hx

theorem add_last {h : Fn α} (hs : IsStepFunction h) {a b y : α} (hb : ∀ e ∈ h, e.b ≤ a) (hn : a < b) :
    add h a b y = some (h ++ [⟨a, b, y⟩]) := by
  unfold add
  rw [if_pos hn, insert_last (n := ⟨a, b, y⟩) hb hs.proper hn]

theorem sumStep_spec {f g : Fn α} (hf : IsStepFunction f) (hg : IsStepFunction g) {next previous : α → α}
    (hnext : ∀ x, x < next x) (hprev : ∀ x, previous x < x)
    (hgrid : ∀ p q, Adjacent f g p q → next (next p) < previous q)
    (hdip : ∀ p q, Adjacent f g p q → eval f p = eval f q → eval g p = eval g q →
      ∀ x, p < x → x < q → eval f x = eval f p ∧ eval g x = eval g p)
    {lo p q : α} (hpq : Adjacent f g p q) {h : Fn α} {prev : α}
    (hi : SumInv f g next previous lo p h prev) :
    ∃ h' prev', sumStep next previous f g (h, prev) q = some (h', prev') ∧
      SumInv f g next previous lo q h' prev' := by
  have n1 := hnext p
  have n2 := hnext (next p)
  have n3 := hprev q
  have n4 := hnext q
  have n5 := hgrid p q hpq
  have hfc : ∀ e ∈ f, (e.a ≤ p ∨ q ≤ e.a) ∧ (e.b ≤ p ∨ q ≤ e.b) := fun e he =>
    ⟨hpq.2.2.2 _ ⟨e, Or.inl he, Or.inl rfl⟩, hpq.2.2.2 _ ⟨e, Or.inl he, Or.inr rfl⟩⟩
  have hgc : ∀ e ∈ g, (e.a ≤ p ∨ q ≤ e.a) ∧ (e.b ≤ p ∨ q ≤ e.b) := fun e he =>
    ⟨hpq.2.2.2 _ ⟨e, Or.inr he, Or.inl rfl⟩, hpq.2.2.2 _ ⟨e, Or.inr he, Or.inr rfl⟩⟩
  have hlast : ∀ p' q', Adjacent f g p' q' → q' ≤ q → q' ≤ p ∨ (p' = p ∧ q' = q) := by
    intro p' q' hn hle
    rcases hpq.2.2.2 q' hn.2.1 with h | h
    · exact Or.inl h
    · right
      have hq : q' = q := le_antisymm hle h
      refine ⟨?_, hq⟩
      subst hq
      rcases hpq.2.2.2 p' hn.1 with h1 | h1
      · rcases hn.2.2.2 p hpq.1 with h2 | h2
        · exact le_antisymm h1 h2
        · exact absurd hpq.2.2.1 (not_lt_of_ge h2)
      · exact absurd hn.2.2.1 (not_lt_of_ge h1)
  -- `prev` and the point after it
  have hp1 : p ≤ prev := by rcases hi.prev with h | h <;> rw [h]; exact n1.le
  have hp2 : p < next prev := lt_of_le_of_lt hp1 (hnext prev)
  have hp3 : next prev < previous q := by
    rcases hi.prev with h | h
    · rw [h]; order
    · rw [h]; exact n5
  have hin : ∀ x, p < x → x < q → eval f x = eval f (next prev) ∧ eval g x = eval g (next prev) := fun x h1 h2 =>
    ⟨eval_const hf hfc h1 h2 hp2 (by order), eval_const hg hgc h1 h2 hp2 (by order)⟩
  have hprevq : prev < q := by have := hnext prev; order
  unfold sumStep
  simp only
  by_cases c1 : eval f prev = eval f q ∧ eval g prev = eval g q
  · rw [if_pos c1]
    -- the values at both ends are the same
    have hval : ∀ x, p < x → x < q → eval f x = eval f prev ∧ eval g x = eval g prev := by
      intro x h1 h2
      rcases hi.prev with h | h
      · rw [h] at c1 ⊢
        exact hdip p q hpq c1.1 c1.2 x h1 h2
      · rw [h]
        exact ⟨eval_const hf hfc h1 h2 n1 (by order), eval_const hg hgc h1 h2 n1 (by order)⟩
    rw [add_last hi.step (fun e he => (hi.bound e he).2) hprevq]
    refine ⟨_, _, rfl, append_isStep hi.step (fun e he => (hi.bound e he).2) hprevq, ?_, hi.lo.trans hprevq.le,
      Or.inl rfl, ?_⟩
    · intro e he
      rcases List.mem_append.1 he with he | he
      · exact ⟨(hi.bound e he).1, (hi.bound e he).2.trans hprevq.le⟩
      · rw [List.mem_singleton] at he
        subst he
        exact ⟨hi.lo, le_rfl⟩
    · intro p' q' hn hle
      rcases hlast p' q' hn hle with h | ⟨rfl, rfl⟩
      · obtain ⟨e, he, k⟩ := hi.cover p' q' hn h
        exact ⟨e, List.mem_append_left _ he, k⟩
      · refine ⟨_, List.mem_append_right _ (List.mem_singleton.2 rfl), ?_, n3.le, ?_⟩
        · rcases hi.prev with h | h <;> simp only [h] <;> order
        · intro x h1 h2
          obtain ⟨k1, k2⟩ := hval x h1 h2
          rw [k1, k2]
  · rw [if_neg c1]
    have hstart : prev ≤ (if eval f prev ≠ eval f (next prev) ∨ eval g prev ≠ eval g (next prev) then next prev else prev) ∧
        (if eval f prev ≠ eval f (next prev) ∨ eval g prev ≠ eval g (next prev) then next prev else prev) ≤ next p := by
      have hsame : prev = next p → ¬ (eval f prev ≠ eval f (next prev) ∨ eval g prev ≠ eval g (next prev)) := by
        intro h
        obtain ⟨k1, k2⟩ := hin prev (by rw [h]; exact n1) hprevq
        rw [not_or, not_not, not_not]
        exact ⟨k1, k2⟩
      rcases hi.prev with h | h
      · split_ifs
        · exact ⟨(hnext prev).le, by rw [h]⟩
        · exact ⟨le_rfl, by rw [h]; exact n1.le⟩
      · rw [if_neg (hsame h)]
        exact ⟨le_rfl, by rw [h]⟩
    generalize (if eval f prev ≠ eval f (next prev) ∨ eval g prev ≠ eval g (next prev) then next prev else prev) = start
      at hstart
    obtain ⟨s1, s2⟩ := hstart
    have hb1 : ∀ e ∈ h, e.b ≤ start := fun e he => (hi.bound e he).2.trans s1
    split_ifs with c2
    · have l1 : start < previous q := by order
      have hst := append_isStep (n := ⟨start, previous q, eval f (next prev) + eval g (next prev)⟩) hi.step hb1 l1
      have hb2 : ∀ e ∈ h ++ [(⟨start, previous q, eval f (next prev) + eval g (next prev)⟩ : Interval α)], e.b ≤ q := by
        intro e he
        rcases List.mem_append.1 he with he | he
        · have := hb1 e he
          order
        · rw [List.mem_singleton] at he
          subst he
          exact n3.le
      rw [add_last hi.step hb1 l1]
      simp only [Option.bind]
      rw [add_last hst hb2 n4]
      refine ⟨_, _, rfl, append_isStep hst hb2 n4, ?_, ?_, Or.inr rfl, ?_⟩
      · intro e he
        rcases List.mem_append.1 he with he | he
        · rcases List.mem_append.1 he with he' | he'
          · exact ⟨(hi.bound e he').1, (hb2 e he).trans n4.le⟩
          · rw [List.mem_singleton] at he'
            subst he'
            exact ⟨hi.lo.trans s1, (hb2 _ he).trans n4.le⟩
        · rw [List.mem_singleton] at he
          subst he
          exact ⟨hi.lo.trans hprevq.le, le_rfl⟩
      · have := hi.lo
        order
      · intro p' q' hn hle
        rcases hlast p' q' hn hle with h | ⟨rfl, rfl⟩
        · obtain ⟨e, he, k⟩ := hi.cover p' q' hn h
          exact ⟨e, by simp [he], k⟩
        · refine ⟨⟨start, previous q', eval f (next prev) + eval g (next prev)⟩, by simp, s2, le_rfl, ?_⟩
          intro x h1 h2
          obtain ⟨k1, k2⟩ := hin x h1 h2
          rw [k1, k2]
    · have l1 : start < next q := by order
      rw [not_not] at c2
      rw [add_last hi.step hb1 l1]
      refine ⟨_, _, rfl, append_isStep hi.step hb1 l1, ?_, ?_, Or.inr rfl, ?_⟩
      · intro e he
        rcases List.mem_append.1 he with he | he
        · refine ⟨(hi.bound e he).1, ?_⟩
          have := hb1 e he
          order
        · rw [List.mem_singleton] at he
          subst he
          exact ⟨hi.lo.trans s1, le_rfl⟩
      · have := hi.lo
        order
      · intro p' q' hn hle
        rcases hlast p' q' hn hle with h | ⟨rfl, rfl⟩
        · obtain ⟨e, he, k⟩ := hi.cover p' q' hn h
          exact ⟨e, by simp [he], k⟩
        · refine ⟨⟨start, next q', eval f q' + eval g q'⟩, by simp, s2, by simp only; order, ?_⟩
          intro x h1 h2
          obtain ⟨k1, k2⟩ := hin x h1 h2
          rw [k1, k2, c2]

theorem sumLoop_spec {f g : Fn α} (hf : IsStepFunction f) (hg : IsStepFunction g) {next previous : α → α}
    (hnext : ∀ x, x < next x) (hprev : ∀ x, previous x < x)
    (hgrid : ∀ p q, Adjacent f g p q → next (next p) < previous q)
    (hdip : ∀ p q, Adjacent f g p q → eval f p = eval f q → eval g p = eval g q →
      ∀ x, p < x → x < q → eval f x = eval f p ∧ eval g x = eval g p)
    {lo : α} (l : List α) (p : α) (hl : (p :: l).Pairwise (· < ·)) (hin : ∀ x ∈ p :: l, EndPoint f g x)
    (hall : ∀ r, EndPoint f g r → r ≤ p ∨ r ∈ l) {h : Fn α} {prev : α} (hi : SumInv f g next previous lo p h prev) :
    ∃ h' prev' q, l.foldlM (sumStep next previous f g) (h, prev) = some (h', prev') ∧ EndPoint f g q ∧
      (∀ r, EndPoint f g r → r ≤ q) ∧ SumInv f g next previous lo q h' prev' := by
  induction l generalizing p h prev with
  | nil =>
    refine ⟨h, prev, p, rfl, hin p (by simp), ?_, hi⟩
    intro r hr
    rcases hall r hr with h | h
    · exact h
    · cases h
  | cons q l ih =>
    rw [List.pairwise_cons] at hl
    have hl2 := List.pairwise_cons.1 hl.2
    have hpq : Adjacent f g p q := by
      refine ⟨hin p (by simp), hin q (by simp), hl.1 q (by simp), ?_⟩
      intro r hr
      rcases hall r hr with h | h
      · exact Or.inl h
      · rcases List.mem_cons.1 h with rfl | h
        · exact Or.inr le_rfl
        · exact Or.inr (hl2.1 r h).le
    obtain ⟨h1, prev1, e1, hi1⟩ := sumStep_spec hf hg hnext hprev hgrid hdip hpq hi
    obtain ⟨h', prev', q', e2, k⟩ := ih q hl.2 (fun x hx => hin x (List.mem_cons_of_mem _ hx)) (by
      intro r hr
      rcases hall r hr with h | h
      · exact Or.inl (h.trans (hl.1 q (by simp)).le)
      · rcases List.mem_cons.1 h with rfl | h
        · exact Or.inl le_rfl
        · exact Or.inr h) hi1
    exact ⟨h', prev', q', by rw [List.foldlM_cons, e1]; exact e2, k⟩

end Loop

end Step

open Step

variable {α : Type}

/-- C50, sums.  Suppose that the distance of neighbouring end points is larger than the steps that `next` and `previous` make, and
that both functions are constant between neighbouring end points at which both have the same values.  Then the sum of the
functions is a step function that has the right value between end points, up to one step from them, and that is zero outside.

Partial: without the second condition the result is wrong (`C50_sum_wrong`, `C50_sum_dip_witness`). -/
theorem C50_sum_partial [LinearOrder α] [Ring α] [IsOrderedAddMonoid α] (next previous : α → α) (hnext : ∀ x, x < next x)
    (hprev : ∀ x, previous x < x) (f g : Fn α) (hf : IsStepFunction f) (hg : IsStepFunction g)
    (hgrid : ∀ p q, Adjacent f g p q → next (next p) < previous q)
    (hdip : ∀ p q, Adjacent f g p q → eval f p = eval f q → eval g p = eval g q →
      ∀ x, p < x → x < q → eval f x = eval f p ∧ eval g x = eval g p) :
    ∃ h, Step.sum next previous f g = some h ∧ IsStepFunction h ∧
      (∀ p q x, Adjacent f g p q → next p < x → x < previous q → eval h x = eval f x + eval g x) ∧
      ∀ x, ((∀ r, EndPoint f g r → x < r) ∨ (∀ r, EndPoint f g r → next r < x)) → eval h x = 0 := by
  have hmem : ∀ x, x ∈ ((domain f ++ domain g).insertionSort (· ≤ ·)).dedup ↔ EndPoint f g x := by
    intro x
    rw [List.mem_dedup, List.mem_insertionSort, List.mem_append, mem_domain, mem_domain]
    unfold EndPoint
    constructor
    · rintro (⟨e, he, h⟩ | ⟨e, he, h⟩)
      · exact ⟨e, Or.inl he, h⟩
      · exact ⟨e, Or.inr he, h⟩
    · rintro ⟨e, he | he, h⟩
      · exact Or.inl ⟨e, he, h⟩
      · exact Or.inr ⟨e, he, h⟩
  have hsort : ((domain f ++ domain g).insertionSort (· ≤ ·)).dedup.Pairwise (· < ·) := by
    have h1 : ((domain f ++ domain g).insertionSort (· ≤ ·)).dedup.Pairwise (· ≤ ·) :=
      (List.pairwise_insertionSort _ _).sublist (List.dedup_sublist _)
    exact h1.imp₂ (fun a b hab hne => lt_of_le_of_ne hab hne) (List.nodup_dedup _)
  unfold Step.sum
  cases hD : ((domain f ++ domain g).insertionSort (· ≤ ·)).dedup with
  | nil =>
    rw [hD] at hmem
    refine ⟨f, rfl, hf, ?_, ?_⟩
    · intro p q x hn
      have := (hmem p).2 hn.1
      cases this
    · intro x _
      apply eval_outside hf
      intro e he
      have := (hmem e.a).2 ⟨e, Or.inl he, Or.inl rfl⟩
      cases this
  | cons x l =>
    rw [hD] at hmem hsort
    obtain ⟨h, prev, q, e1, hq, hmax, hi⟩ := sumLoop_spec hf hg hnext hprev hgrid hdip (lo := x) (h := []) (prev := x) l x hsort
      (fun y hy => (hmem y).1 hy) (by
        intro r hr
        rcases List.mem_cons.1 ((hmem r).2 hr) with rfl | h
        · exact Or.inl le_rfl
        · exact Or.inr h)
      ⟨⟨by simp, by simp⟩, by simp, le_rfl, Or.inl rfl, by
        intro p' q' hn hle
        exfalso
        have h1 := (hmem p').2 hn.1
        have h2 := hn.2.2.1
        rcases List.mem_cons.1 h1 with rfl | h1
        · order
        · have := (List.pairwise_cons.1 hsort).1 p' h1
          order⟩
    have hle : prev ≤ next q := by
      rcases hi.prev with h | h
      · rw [h]; exact (hnext q).le
      · rw [h]
    obtain ⟨k1, k2, k3⟩ := clean_spec h hi.step x (next q) fun e he => ⟨(hi.bound e he).1, (hi.bound e he).2.trans hle⟩
    refine ⟨clean h, by simp [e1], k1, ?_, ?_⟩
    · intro p' q' y hn h1 h2
      obtain ⟨e, he, c1, c2, c3⟩ := hi.cover p' q' hn (hmax q' hn.2.1)
      obtain ⟨e', he', d1, d2, d3⟩ := k2 e he
      have n1 := hnext p'
      have n2 := hprev q'
      rw [eval_interior k1 he' (by order) (by order), d3]
      exact c3 y (by order) (by order)
    · intro y hy
      apply eval_outside k1
      rintro e he ⟨h1, h2⟩
      obtain ⟨b1, b2⟩ := k3 e he
      rcases hy with hy | hy
      · have := hy x ((hmem x).1 (by simp))
        order
      · have := hy q hq
        order

/-- Two functions that meet the hypotheses of `C50_sum_partial`. -/
def leftSummand : Fn ℤ := [⟨0, 10, 1⟩, ⟨10, 20, 3⟩]

/-- See `leftSummand`. -/
def rightSummand : Fn ℤ := [⟨5, 15, 2⟩]

theorem summands_neighbours {p q : ℤ} (h : Adjacent leftSummand rightSummand p q) :
    (p, q) = (0, 5) ∨ (p, q) = (5, 10) ∨ (p, q) = (10, 15) ∨ (p, q) = (15, 20) := by
  have key : ∀ x, EndPoint leftSummand rightSummand x ↔ x = 0 ∨ x = 5 ∨ x = 10 ∨ x = 15 ∨ x = 20 := by
    intro x
    simp [EndPoint, leftSummand, rightSummand, or_and_right, exists_or]
    omega
  obtain ⟨h1, h2, h3, h4⟩ := h
  have k5 := h4 5 ((key 5).2 (by simp))
  have k10 := h4 10 ((key 10).2 (by simp))
  have k15 := h4 15 ((key 15).2 (by simp))
  rw [key] at h1 h2
  simp only [Prod.mk.injEq]
  omega

example : IsStepFunction leftSummand ∧ IsStepFunction rightSummand ∧
    (∀ p q, Adjacent leftSummand rightSummand p q → (p + 1) + 1 < q - 1) ∧
    (∀ p q, Adjacent leftSummand rightSummand p q → eval leftSummand p = eval leftSummand q →
      eval rightSummand p = eval rightSummand q →
      ∀ x, p < x → x < q → eval leftSummand x = eval leftSummand p ∧ eval rightSummand x = eval rightSummand p) := by
  refine ⟨⟨by decide, by decide⟩, ⟨by decide, by decide⟩, ?_, ?_⟩
  · intro p q h
    rcases summands_neighbours h with h | h | h | h <;> simp only [Prod.mk.injEq] at h <;> omega
  · intro p q h
    rcases summands_neighbours h with h | h | h | h <;> obtain ⟨rfl, rfl⟩ := Prod.mk.injEq _ _ _ _ ▸ h
    · intro _ h; exact absurd h (by decide)
    · intro h; exact absurd h (by decide)
    · intro _ _ x h1 h2
      interval_cases x <;> decide
    · intro _ h; exact absurd h (by decide)

example : ∃ h, Step.sum (fun x => x + 1) (fun x => x - 1) leftSummand rightSummand = some h ∧
    [3, 7, 12, 17].map (eval h) = [1, 3, 5, 3] := by
  refine ⟨_, rfl, by decide +kernel⟩

/-- A function with a dip between two neighbouring end points. -/
def dipStep : Fn ℤ := [⟨0, 10, 2⟩, ⟨10, 20, 1⟩, ⟨20, 30, 2⟩]

/-- C50 does not hold for sums: even without gaps a smaller value between two larger ones is lost, because at common end points the
functions have the larger value. -/
theorem C50_sum_dip_witness : ∃ h, Step.sum (fun x => x + 1) (fun x => x - 1) dipStep [] = some h ∧ eval h 15 = 2 ∧
    eval dipStep 15 = 1 ∧ eval ([] : Fn ℤ) 15 = 0 := by
  refine ⟨[⟨0, 30, 2⟩], by decide +kernel, by decide +kernel, by decide +kernel, rfl⟩

end Aleph
