import Verif.Spec.Subdivision
import Mathlib.Algebra.BigOperators.Ring.Finset
import Mathlib.Algebra.Ring.Int.Defs
import Mathlib.Data.Finset.Max
import Mathlib.Data.Nat.Choose.Sum
import Mathlib.Tactic.Ring

/-!
# Flags of simplices
-/

namespace Aleph.Barycentric

open Finset

/-- A flag of non-empty sets with largest element `s`. -/
structure FlagTop (s : Finset ℕ) (C : Finset (Finset ℕ)) : Prop where
  top : s ∈ C
  sub : ∀ t ∈ C, t.Nonempty ∧ t ⊆ s
  chain : ∀ t ∈ C, ∀ u ∈ C, t ⊆ u ∨ u ⊆ t

theorem chain_subset_of_card {C : Finset (Finset ℕ)} (h : ∀ t ∈ C, ∀ u ∈ C, t ⊆ u ∨ u ⊆ t) {t u : Finset ℕ}
    (ht : t ∈ C) (hu : u ∈ C) (hc : #t ≤ #u) : t ⊆ u := by
  rcases h t ht u hu with h | h
  · exact h
  · rw [eq_of_subset_of_card_le h hc]

theorem chain_card_injOn {C : Finset (Finset ℕ)} (h : ∀ t ∈ C, ∀ u ∈ C, t ⊆ u ∨ u ⊆ t) :
    Set.InjOn Finset.card (C : Set (Finset ℕ)) := by
  intro t ht u hu he
  exact (chain_subset_of_card h ht hu he.le).antisymm (chain_subset_of_card h hu ht he.ge)

/-- A flag with largest element `s` has at most as many elements as `s`. -/
theorem FlagTop.card_le {s : Finset ℕ} {C : Finset (Finset ℕ)} (h : FlagTop s C) : #C ≤ #s := by
  have : C.image Finset.card ⊆ Finset.Icc 1 #s := by
    intro n hn
    obtain ⟨t, ht, rfl⟩ := mem_image.1 hn
    rw [Finset.mem_Icc]
    exact ⟨card_pos.2 (h.sub t ht).1, card_le_card (h.sub t ht).2⟩
  have := card_le_card this
  rw [card_image_of_injOn (chain_card_injOn h.chain)] at this
  simpa using this

theorem FlagTop.singleton {s : Finset ℕ} (h : s.Nonempty) : FlagTop s {s} :=
  ⟨by simp, by simpa using h, by simp⟩

theorem FlagTop.insert {s t : Finset ℕ} {C : Finset (Finset ℕ)} (h : FlagTop t C) (hs : t ⊆ s) :
    FlagTop s (insert s C) := by
  have hne : s.Nonempty := (h.sub t h.top).1.mono hs
  refine ⟨mem_insert_self _ _, ?_, ?_⟩
  · intro u hu
    rcases mem_insert.1 hu with rfl | hu
    · exact ⟨hne, Subset.rfl⟩
    · exact ⟨(h.sub u hu).1, (h.sub u hu).2.trans hs⟩
  · intro u hu w hw
    rcases mem_insert.1 hu with hu | hu
    · rcases mem_insert.1 hw with hw | hw
      · exact Or.inl (by rw [hu, hw])
      · exact Or.inr (by rw [hu]; exact (h.sub w hw).2.trans hs)
    · rcases mem_insert.1 hw with hw | hw
      · exact Or.inl (by rw [hw]; exact (h.sub u hu).2.trans hs)
      · exact h.chain u hu w hw

theorem chain_max {C : Finset (Finset ℕ)} (hc : ∀ t ∈ C, ∀ u ∈ C, t ⊆ u ∨ u ⊆ t) (hne : C.Nonempty)
    (h : ∀ t ∈ C, t.Nonempty) : ∃ t, FlagTop t C := by
  obtain ⟨t, ht, hm⟩ := exists_max_image C Finset.card hne
  exact ⟨t, ht, fun u hu => ⟨h u hu, chain_subset_of_card hc hu ht (hm u hu)⟩, hc⟩

/-- A non-empty subset of a flag is a flag. -/
theorem FlagTop.mono {s : Finset ℕ} {C D : Finset (Finset ℕ)} (h : FlagTop s C) (hD : D ⊆ C) (hne : D.Nonempty) :
    ∃ t, FlagTop t D ∧ t ∈ C :=
  let ⟨t, ht⟩ := chain_max (fun t ht u hu => h.chain t (hD ht) u (hD hu)) hne fun t ht => (h.sub t (hD ht)).1
  ⟨t, ht, hD ht.top⟩

theorem FlagTop.unique {s t : Finset ℕ} {C : Finset (Finset ℕ)} (h : FlagTop s C) (h' : FlagTop t C) : s = t :=
  (h'.sub s h.top).2.antisymm (h.sub t h'.top).2

/-- The flag without its largest element. -/
theorem FlagTop.erase {s : Finset ℕ} {C : Finset (Finset ℕ)} (h : FlagTop s C) (h2 : 1 < #C) :
    ∃ t, FlagTop t (C.erase s) ∧ t ⊂ s := by
  have hne : (C.erase s).Nonempty := by
    rw [← card_pos, card_erase_of_mem h.top]; omega
  obtain ⟨t, ht, htC⟩ := h.mono (erase_subset _ _) hne
  refine ⟨t, ht, ?_⟩
  have h1 := (h.sub t htC).2
  exact h1.ssubset_of_ne (ne_of_mem_erase ht.top)

/-- Every chain of non-empty subsets of `s` is contained in a full flag. -/
theorem extend_flag (s : Finset ℕ) (hs : s.Nonempty) (D : Finset (Finset ℕ))
    (h : ∀ t ∈ D, t.Nonempty ∧ t ⊆ s) (hc : ∀ t ∈ D, ∀ u ∈ D, t ⊆ u ∨ u ⊆ t) :
    ∃ C, FlagTop s C ∧ #C = #s ∧ D ⊆ C := by
  induction hn : #s using Nat.strong_induction_on generalizing s D with
  | _ n ih =>
    subst hn
    by_cases h1 : #s = 1
    · refine ⟨{s}, FlagTop.singleton hs, by simp [h1], ?_⟩
      intro t ht
      obtain ⟨x, rfl⟩ := card_eq_one.1 h1
      have := h t ht
      rw [mem_singleton]
      rcases subset_singleton_iff.1 this.2 with h | h
      · exact absurd h this.1.ne_empty
      · exact h
    · have hx : ∃ x ∈ s, ∀ t ∈ D.erase s, t ⊆ s.erase x := by
        by_cases hne : (D.erase s).Nonempty
        · obtain ⟨m, hm⟩ := chain_max (C := D.erase s)
            (fun t ht u hu => hc t (mem_of_mem_erase ht) u (mem_of_mem_erase hu)) hne
            fun t ht => (h t (mem_of_mem_erase ht)).1
          have hm1 := (h m (mem_of_mem_erase hm.top)).2.ssubset_of_ne (ne_of_mem_erase hm.top)
          obtain ⟨x, hx, hx'⟩ := exists_of_ssubset hm1
          refine ⟨x, hx, fun t ht => subset_erase.2 ⟨(h t (mem_of_mem_erase ht)).2, ?_⟩⟩
          exact fun hxt => hx' ((hm.sub t ht).2 hxt)
        · obtain ⟨x, hx⟩ := hs
          refine ⟨x, hx, fun t ht => absurd ⟨t, ht⟩ hne⟩
      obtain ⟨x, hx, hsub⟩ := hx
      have hpos := card_pos.2 hs
      have hcard : #(s.erase x) = #s - 1 := card_erase_of_mem hx
      obtain ⟨C, h2, h3, h4⟩ := ih #(s.erase x) (by omega) (s.erase x) (card_pos.1 (by omega)) (D.erase s)
        (fun t ht => ⟨(h t (mem_of_mem_erase ht)).1, hsub t ht⟩)
        (fun t ht u hu => hc t (mem_of_mem_erase ht) u (mem_of_mem_erase hu)) rfl
      refine ⟨insert s C, h2.insert (erase_subset _ _), ?_, ?_⟩
      · rw [card_insert_of_notMem, h3, hcard]
        · omega
        · intro hsC
          have := (h2.sub s hsC).2 hx
          simp at this
      · intro t ht
        by_cases hts : t = s
        · rw [hts]; exact mem_insert_self _ _
        · exact mem_insert_of_mem (h4 (mem_erase.2 ⟨hts, ht⟩))

/-! ### Sums over flags -/

open Classical in
/-- All flags with largest element `s`. -/
noncomputable def flagsTop (s : Finset ℕ) : Finset (Finset (Finset ℕ)) :=
  s.powerset.powerset.filter fun C => FlagTop s C

theorem mem_flagsTop {s : Finset ℕ} {C : Finset (Finset ℕ)} : C ∈ flagsTop s ↔ FlagTop s C := by
  classical
  unfold flagsTop
  rw [mem_filter, and_iff_right_iff_imp]
  intro h
  rw [mem_powerset]
  intro t ht
  exact mem_powerset.2 (h.sub t ht).2

theorem sum_subsets (s : Finset ℕ) (hs : s.Nonempty) :
    ∑ t ∈ s.ssubsets.filter (·.Nonempty), (-1 : ℤ) ^ (#t - 1) = 1 - (-1) ^ (#s - 1) := by
  have h := Finset.sum_powerset_neg_one_pow_card_of_nonempty hs
  have hp : s.powerset = insert ∅ (insert s (s.ssubsets.filter (·.Nonempty))) := by
    ext t
    simp only [mem_powerset, mem_insert, mem_filter, mem_ssubsets]
    constructor
    · intro ht
      by_cases h1 : t = ∅
      · exact Or.inl h1
      · by_cases h2 : t = s
        · exact Or.inr (Or.inl h2)
        · exact Or.inr (Or.inr ⟨ht.ssubset_of_ne h2, nonempty_iff_ne_empty.2 h1⟩)
    · rintro (rfl | rfl | h)
      · simp
      · exact Subset.rfl
      · exact h.1.1
  rw [hp, sum_insert, sum_insert] at h
  · have e : ∑ t ∈ s.ssubsets.filter (·.Nonempty), (-1 : ℤ) ^ #t =
        - ∑ t ∈ s.ssubsets.filter (·.Nonempty), (-1 : ℤ) ^ (#t - 1) := by
      rw [← sum_neg_distrib]
      refine sum_congr rfl fun t ht => ?_
      have := card_pos.2 (mem_filter.1 ht).2
      obtain ⟨m, hm⟩ : ∃ m, #t = m + 1 := ⟨#t - 1, by omega⟩
      rw [hm]; simp [pow_succ]
    have e2 : (-1 : ℤ) ^ #s = - (-1) ^ (#s - 1) := by
      have := card_pos.2 hs
      obtain ⟨m, hm⟩ : ∃ m, #s = m + 1 := ⟨#s - 1, by omega⟩
      rw [hm]; simp [pow_succ]
    rw [e, e2] at h
    simp at h
    linarith
  · simp
  · simp [hs.ne_empty.symm]

theorem sum_flagsTop (s : Finset ℕ) (hs : s.Nonempty) :
    ∑ C ∈ flagsTop s, (-1 : ℤ) ^ (#C - 1) = (-1) ^ (#s - 1) := by
  classical
  induction hn : #s using Nat.strong_induction_on generalizing s with
  | _ n ih =>
    subst hn
    have key : flagsTop s = insert {s} (((s.ssubsets.filter (·.Nonempty)).biUnion flagsTop).image (insert s)) := by
      ext C
      rw [mem_flagsTop, mem_insert, mem_image]
      constructor
      · intro h
        by_cases h2 : 1 < #C
        · obtain ⟨t, ht, hts⟩ := h.erase h2
          refine Or.inr ⟨C.erase s, ?_, insert_erase h.top⟩
          rw [mem_biUnion]
          exact ⟨t, by rw [mem_filter, mem_ssubsets]; exact ⟨hts, (ht.sub t ht.top).1⟩, mem_flagsTop.2 ht⟩
        · left
          have h3 : #C ≤ 1 := by omega
          have := card_le_one.1 h3
          ext t
          rw [mem_singleton]
          exact ⟨fun ht => this t ht s h.top, fun h' => h' ▸ h.top⟩
      · rintro (rfl | ⟨C', hC', rfl⟩)
        · exact FlagTop.singleton hs
        · obtain ⟨t, ht, hC'⟩ := mem_biUnion.1 hC'
          rw [mem_filter, mem_ssubsets] at ht
          exact (mem_flagsTop.1 hC').insert ht.1.1
    have hnot : ∀ C ∈ (s.ssubsets.filter (·.Nonempty)).biUnion flagsTop, s ∉ C ∧ C.Nonempty := by
      intro C hC
      obtain ⟨t, ht, hC⟩ := mem_biUnion.1 hC
      rw [mem_filter, mem_ssubsets] at ht
      rw [mem_flagsTop] at hC
      exact ⟨fun h => ht.1.2 (hC.sub s h).2, ⟨t, hC.top⟩⟩
    rw [key, sum_insert, sum_image]
    · have e : ∑ C ∈ (s.ssubsets.filter (·.Nonempty)).biUnion flagsTop, (-1 : ℤ) ^ (#(insert s C) - 1) =
          - ∑ C ∈ (s.ssubsets.filter (·.Nonempty)).biUnion flagsTop, (-1 : ℤ) ^ (#C - 1) := by
        rw [← sum_neg_distrib]
        refine sum_congr rfl fun C hC => ?_
        obtain ⟨h1, h2⟩ := hnot C hC
        rw [card_insert_of_notMem h1]
        have := card_pos.2 h2
        obtain ⟨m, hm⟩ : ∃ m, #C = m + 1 := ⟨#C - 1, by omega⟩
        rw [hm]; simp [pow_succ]
      rw [e, sum_biUnion]
      · have e2 : ∑ t ∈ s.ssubsets.filter (·.Nonempty), ∑ C ∈ flagsTop t, (-1 : ℤ) ^ (#C - 1) =
            ∑ t ∈ s.ssubsets.filter (·.Nonempty), (-1 : ℤ) ^ (#t - 1) := by
          refine sum_congr rfl fun t ht => ?_
          rw [mem_filter, mem_ssubsets] at ht
          exact ih #t (card_lt_card ht.1) t ht.2 rfl
        rw [e2, sum_subsets s hs]
        simp
      · intro t _ u _ htu
        rw [Function.onFun, disjoint_left]
        intro C h1 h2
        exact htu ((mem_flagsTop.1 h1).unique (mem_flagsTop.1 h2))
    · intro C hC D hD h
      have h1 := (hnot C hC).1
      have h2 := (hnot D hD).1
      rw [← erase_insert h1, h, erase_insert h2]
    · intro h
      obtain ⟨C, hC, he⟩ := mem_image.1 h
      obtain ⟨h1, ⟨t, ht⟩⟩ := hnot C hC
      have : t ∈ ({s} : Finset (Finset ℕ)) := he ▸ mem_insert_of_mem ht
      rw [mem_singleton] at this
      exact h1 (this ▸ ht)

end Aleph.Barycentric
