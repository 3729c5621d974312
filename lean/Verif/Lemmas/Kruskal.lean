import Mathlib.LinearAlgebra.Dimension.Constructions
import Mathlib.LinearAlgebra.Dimension.Finite
import Mathlib.LinearAlgebra.LinearIndependent.Lemmas
import Mathlib.LinearAlgebra.FiniteDimensional.Lemmas
import Mathlib.LinearAlgebra.Finsupp.LinearCombination
import Mathlib.Algebra.Order.BigOperators.Group.Finset
import Mathlib.Algebra.BigOperators.Intervals
import Mathlib.Algebra.Field.Rat
import Mathlib.Logic.Relation
import Mathlib.Order.Interval.Finset.Nat

/-!
# Greedy selection of edges

Edges are given one by one, as a function from positions to pairs of vertices. An edge is selected if it joins two vertices that
are not yet connected.
-/

namespace Aleph.Kruskal

open Finset

variable (E : ℕ → ℕ × ℕ)

/-- Connected by the edges at the positions of `A`. -/
def Conn (A : Set ℕ) : ℕ → ℕ → Prop := Relation.EqvGen fun a b => ∃ k ∈ A, E k = (a, b)

/-- The edge at position `k` is selected. -/
def Selected (k : ℕ) : Prop := ¬ Conn E {j | j < k} (E k).1 (E k).2

/-- The vector of an edge. -/
noncomputable def vec (p : ℕ × ℕ) : ℕ →₀ ℚ := Finsupp.single p.1 1 - Finsupp.single p.2 1

variable {E}

theorem Conn.mono {A B : Set ℕ} (h : A ⊆ B) {a b : ℕ} (hc : Conn E A a b) : Conn E B a b :=
  Relation.EqvGen.mono (r := fun a b => ∃ k ∈ A, E k = (a, b)) (p := fun a b => ∃ k ∈ B, E k = (a, b)) (fun _ _ ⟨k, hk, e⟩ => ⟨k, h hk, e⟩) _ _ hc

theorem Conn.vec_mem {A : Set ℕ} {a b : ℕ} (h : Conn E A a b) : vec (a, b) ∈ Submodule.span ℚ ((fun k => vec (E k)) '' A) := by
  induction h with
  | rel a b h =>
    obtain ⟨k, hk, e⟩ := h
    exact Submodule.subset_span ⟨k, hk, by simp only [e]⟩
  | refl a => simp [vec]
  | symm a b _ ih =>
    have : vec (b, a) = - vec (a, b) := by simp [vec]
    rw [this]
    exact Submodule.neg_mem _ ih
  | trans a b c _ _ ih1 ih2 =>
    have : vec (a, c) = vec (a, b) + vec (b, c) := by simp [vec]
    rw [this]
    exact Submodule.add_mem _ ih1 ih2

theorem conn_of_vec_mem {A : Set ℕ} {a b : ℕ} (h : vec (a, b) ∈ Submodule.span ℚ ((fun k => vec (E k)) '' A)) : Conn E A a b := by
  classical
  by_contra hno
  let φ : (ℕ →₀ ℚ) →ₗ[ℚ] ℚ := Finsupp.linearCombination ℚ fun v => if Conn E A a v then (1 : ℚ) else 0
  have hφ : ∀ x ∈ Submodule.span ℚ ((fun k => vec (E k)) '' A), φ x = 0 := by
    intro x hx
    have : Submodule.span ℚ ((fun k => vec (E k)) '' A) ≤ LinearMap.ker φ := by
      rw [Submodule.span_le]
      rintro _ ⟨k, hk, rfl⟩
      have hc : Conn E A (E k).1 (E k).2 := .rel _ _ ⟨k, hk, rfl⟩
      have hiff : Conn E A a (E k).1 ↔ Conn E A a (E k).2 :=
        ⟨fun h => .trans _ _ _ h hc, fun h => .trans _ _ _ h (.symm _ _ hc)⟩
      simp [φ, vec, hiff]
    exact this hx
  have := hφ _ h
  have ha : Conn E A a a := .refl _
  simp [φ, vec, hno, ha] at this

theorem selected_iff {k : ℕ} : Selected E k ↔ vec (E k) ∉ Submodule.span ℚ ((fun k => vec (E k)) '' {j | j < k}) :=
  not_congr ⟨Conn.vec_mem, conn_of_vec_mem⟩

/-- Each edge is in the span of the selected ones up to it. -/
theorem span_selected (k : ℕ) : vec (E k) ∈ Submodule.span ℚ ((fun k => vec (E k)) '' {j | Selected E j ∧ j ≤ k}) := by
  induction k using Nat.strong_induction_on with
  | _ k ih =>
    by_cases h : Selected E k
    · exact Submodule.subset_span ⟨k, ⟨h, le_rfl⟩, rfl⟩
    · rw [selected_iff, not_not] at h
      refine (Submodule.span_le.2 ?_) h
      rintro _ ⟨j, hj, rfl⟩
      refine Submodule.span_mono (Set.image_mono ?_) (ih j hj)
      rintro i ⟨h1, h2⟩
      exact ⟨h1, h2.trans (le_of_lt hj)⟩

/-- Selected edges are independent. -/
theorem selected_independent (n : ℕ) : LinearIndepOn ℚ (fun k => vec (E k)) {j | Selected E j ∧ j < n} := by
  induction n with
  | zero =>
    have : {j | Selected E j ∧ j < 0} = ∅ := by ext j; simp
    rw [this]
    exact linearIndepOn_empty _ _
  | succ n ih =>
    by_cases h : Selected E n
    · have : {j | Selected E j ∧ j < n + 1} = insert n {j | Selected E j ∧ j < n} := by
        ext j
        constructor
        · rintro ⟨h1, h2⟩
          rcases Nat.lt_succ_iff_lt_or_eq.1 h2 with h3 | rfl
          · exact Or.inr ⟨h1, h3⟩
          · exact Or.inl rfl
        · rintro (rfl | ⟨h1, h2⟩)
          · exact ⟨h, Nat.lt_succ_self _⟩
          · exact ⟨h1, Nat.lt_succ_of_lt h2⟩
      rw [this, linearIndepOn_insert (fun h => lt_irrefl _ h.2)]
      refine ⟨ih, fun hm => (selected_iff.1 h) (Submodule.span_mono (Set.image_mono ?_) hm)⟩
      exact fun j hj => hj.2
    · have : {j | Selected E j ∧ j < n + 1} = {j | Selected E j ∧ j < n} := by
        ext j
        constructor
        · rintro ⟨h1, h2⟩
          rcases Nat.lt_succ_iff_lt_or_eq.1 h2 with h3 | rfl
          · exact ⟨h1, h3⟩
          · exact absurd h1 h
        · rintro ⟨h1, h2⟩
          exact ⟨h1, Nat.lt_succ_of_lt h2⟩
      rw [this]
      exact ih

theorem card_le_of_span {A B : Finset ℕ} (hA : LinearIndepOn ℚ (fun k => vec (E k)) (A : Set ℕ))
    (h : ∀ k ∈ A, vec (E k) ∈ Submodule.span ℚ ((fun k => vec (E k)) '' (B : Set ℕ))) : #A ≤ #B := by
  classical
  have e1 : Module.finrank ℚ (Submodule.span ℚ ((fun k => vec (E k)) '' (A : Set ℕ))) = #A := by
    have := finrank_span_eq_card hA
    rw [Set.image_eq_range]
    simpa using this
  have e2 : Module.finrank ℚ (Submodule.span ℚ ((fun k => vec (E k)) '' (B : Set ℕ))) ≤ #B := by
    have := finrank_span_finset_le_card (R := ℚ) (B.image fun k => vec (E k))
    rw [Finset.coe_image] at this
    exact this.trans card_image_le
  rw [← e1]
  refine le_trans ?_ e2
  have : FiniteDimensional ℚ (Submodule.span ℚ ((fun k => vec (E k)) '' (B : Set ℕ))) :=
    FiniteDimensional.span_of_finite ℚ (B.finite_toSet.image _)
  refine Submodule.finrank_mono (Submodule.span_le.2 ?_)
  rintro _ ⟨k, hk, rfl⟩
  exact h k hk

open Classical in
/-- The selected positions below `n`. -/
noncomputable def selection (E : ℕ → ℕ × ℕ) (n : ℕ) : Finset ℕ := {j ∈ range n | Selected E j}

theorem mem_selection {n j : ℕ} : j ∈ selection E n ↔ j < n ∧ Selected E j := by simp [selection]

/-- The selected edges connect whatever all edges connect. -/
theorem conn_selection (n : ℕ) {k : ℕ} (hk : k < n) : Conn E (selection E n : Set ℕ) (E k).1 (E k).2 := by
  refine conn_of_vec_mem (Submodule.span_mono (Set.image_mono ?_) (span_selected k))
  rintro j ⟨h1, h2⟩
  exact mem_coe.2 (mem_selection.2 ⟨by omega, h1⟩)

/-- From each position on, a set of edges that connects the same vertices contains at least as many edges as the selection. -/
theorem card_selection_le {n : ℕ} {S : Finset ℕ} (hS : ∀ k < n, Conn E (S : Set ℕ) (E k).1 (E k).2) (t : ℕ) :
    #{j ∈ selection E n | t ≤ j} ≤ #{j ∈ S | t ≤ j} := by
  classical
  have hT : LinearIndepOn ℚ (fun k => vec (E k)) (selection E n : Set ℕ) := by
    have : (selection E n : Set ℕ) = {j | Selected E j ∧ j < n} := by
      ext j
      simp [selection, and_comm]
    rw [this]
    exact selected_independent n
  by_cases htn : n < t
  · have : {j ∈ selection E n | t ≤ j} = ∅ := by
      rw [filter_eq_empty_iff]
      intro j hj
      have := (mem_selection.1 hj).1
      omega
    rw [this]
    simp
  have h := card_le_of_span (A := selection E n) (B := {j ∈ selection E n | j < t} ∪ {j ∈ S | t ≤ j}) hT (by
    intro k hk
    refine (Submodule.span_le.2 ?_) (hS k (mem_selection.1 hk).1).vec_mem
    rintro _ ⟨s, hs, rfl⟩
    by_cases hst : t ≤ s
    · exact Submodule.subset_span ⟨s, by simp [mem_coe.1 hs, hst], rfl⟩
    · refine Submodule.span_mono (Set.image_mono ?_) (span_selected s)
      rintro j ⟨h1, h2⟩
      have : j ∈ selection E n := mem_selection.2 ⟨by omega, h1⟩
      simp only [coe_union, coe_filter, Set.mem_union, Set.mem_ofPred_eq]
      exact Or.inl ⟨this, by omega⟩)
  have h1 := card_union_le {j ∈ selection E n | j < t} {j ∈ S | t ≤ j}
  have h2 := card_filter_add_card_filter_not (s := selection E n) (fun j => t ≤ j)
  have h3 : #{j ∈ selection E n | ¬ t ≤ j} = #{j ∈ selection E n | j < t} := by
    congr 1
    ext j
    simp
  omega

/-- Sums of monotone weights, compared by counting. -/
theorem sum_le_of_count {M : Type} [AddCommGroup M] [LinearOrder M] [IsOrderedAddMonoid M] {n : ℕ} {w : ℕ → M}
    (hw : ∀ i j, i ≤ j → j < n → w i ≤ w j) {A B : Finset ℕ} (hA : ∀ j ∈ A, j < n) (hB : ∀ j ∈ B, j < n)
    (hcard : #A = #B) (h : ∀ t, #{j ∈ A | t ≤ j} ≤ #{j ∈ B | t ≤ j}) : ∑ j ∈ A, w j ≤ ∑ j ∈ B, w j := by
  have key : ∀ C : Finset ℕ, (∀ j ∈ C, j < n) → ∑ j ∈ C, w j = #C • w 0 + ∑ k ∈ range n, #{j ∈ C | k + 1 ≤ j} • (w (k + 1) - w k) := by
    intro C hC
    have e1 : ∀ j ∈ C, w j = w 0 + ∑ k ∈ range n, if k + 1 ≤ j then w (k + 1) - w k else 0 := by
      intro j hj
      have : ∑ k ∈ range n, (if k + 1 ≤ j then w (k + 1) - w k else 0) = ∑ k ∈ range j, (w (k + 1) - w k) := by
        rw [← sum_filter]
        congr 1
        ext k
        have := hC j hj
        simp only [mem_filter, mem_range]
        omega
      rw [this, sum_range_sub]
      abel
    rw [sum_congr rfl e1, sum_add_distrib, sum_const, sum_comm]
    congr 1
    refine sum_congr rfl fun k _ => ?_
    rw [← sum_filter, sum_const]
  rw [key A hA, key B hB, hcard]
  refine add_le_add le_rfl (sum_le_sum fun k _ => ?_)
  by_cases hk : k + 1 < n
  · exact nsmul_le_nsmul_left (sub_nonneg.2 (hw k (k + 1) (by omega) hk)) (h _)
  · have : ∀ C : Finset ℕ, (∀ j ∈ C, j < n) → #{j ∈ C | k + 1 ≤ j} = 0 := by
      intro C hC
      rw [card_eq_zero, filter_eq_empty_iff]
      intro j hj
      have := hC j hj
      omega
    rw [this A hA, this B hB]

end Aleph.Kruskal
