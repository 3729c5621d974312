import Verif.Lemmas.Truncated
import Verif.Lemmas.Betti
import Mathlib.Data.Finset.SymmDiff

/-! Counting the elements of a family of sets closed under symmetric difference by their maxima. -/

namespace Aleph

open Finset Spec

open Classical in
theorem card_eq_pow_lows (n : ℕ) : ∀ (W : Finset (Finset ℕ)), ∅ ∈ W →
    (∀ a ∈ W, ∀ b ∈ W, _root_.symmDiff a b ∈ W) → (∀ w ∈ W, w ⊆ range n) →
    #W = 2 ^ #{i ∈ range n | ∃ w ∈ W, MaxIs w i} := by
  induction n with
  | zero =>
    intro W h0 _ hs
    have : W = {∅} := by
      ext w
      rw [mem_singleton]
      constructor
      · intro hw; simpa using hs w hw
      · rintro rfl; exact h0
    rw [this]; simp
  | succ n ih =>
    intro W h0 hadd hs
    have hsub : ∀ w ∈ W, n ∉ w → w ⊆ range n := by
      intro w hw hn x hx
      have h1 := mem_range.1 (hs w hw hx)
      have h2 : x ≠ n := by rintro rfl; exact hn hx
      rw [mem_range]; omega
    have hW' := ih {w ∈ W | n ∉ w} (by simp [h0]) (by
      intro a ha b hb
      rw [mem_filter] at ha hb ⊢
      exact ⟨hadd a ha.1 b hb.1, by simp [Finset.mem_symmDiff, ha.2, hb.2]⟩) (by
      intro w hw; rw [mem_filter] at hw; exact hsub w hw.1 hw.2)
    have hlow : ({i ∈ range n | ∃ w ∈ ({w ∈ W | n ∉ w} : Finset (Finset ℕ)), MaxIs w i} : Finset ℕ) =
        {i ∈ range n | ∃ w ∈ W, MaxIs w i} := by
      ext i
      simp only [mem_filter, mem_range]
      refine and_congr_right fun hi => ?_
      constructor
      · rintro ⟨w, hw, hm⟩; exact ⟨w, hw.1, hm⟩
      · rintro ⟨w, hw, hm⟩
        exact ⟨w, ⟨hw, fun hn => by have := hm.2 n hn; omega⟩, hm⟩
    rw [hlow] at hW'
    rw [range_add_one, filter_insert]
    by_cases hex : ∃ w ∈ W, n ∈ w
    · obtain ⟨w0, hw0, hn0⟩ := hex
      have hmax : ∃ w ∈ W, MaxIs w n :=
        ⟨w0, hw0, hn0, fun k hk => by have := mem_range.1 (hs w0 hw0 hk); omega⟩
      rw [if_pos hmax, card_insert_of_notMem (by simp), pow_succ, ← hW', mul_two]
      rw [← card_filter_add_card_filter_not (s := W) (fun w => n ∉ w)]
      congr 1
      refine card_bij (fun w _ => _root_.symmDiff w w0) ?_ ?_ ?_
      · intro w hw
        rw [mem_filter] at hw ⊢
        have : n ∈ w := not_not.1 hw.2
        exact ⟨hadd w hw.1 w0 hw0, by simp [Finset.mem_symmDiff, this, hn0]⟩
      · intro a _ b _ hab; exact symmDiff_left_injective w0 hab
      · intro w hw
        rw [mem_filter] at hw
        refine ⟨_root_.symmDiff w w0, ?_, by rw [symmDiff_assoc, symmDiff_self]; simp⟩
        rw [mem_filter]
        exact ⟨hadd w hw.1 w0 hw0, by simp [Finset.mem_symmDiff, hw.2, hn0]⟩
    · have hno : ¬ ∃ w ∈ W, MaxIs w n := fun ⟨w, hw, hm⟩ => hex ⟨w, hw, hm.1⟩
      rw [if_neg hno, ← hW']
      congr 1
      ext w
      rw [mem_filter]
      exact ⟨fun hw => ⟨hw, fun hn => hex ⟨w, hw, hn⟩⟩, fun hw => hw.1⟩

theorem ind_finsetSymmDiff (a b : Finset ℕ) : ind (_root_.symmDiff a b) = ind a + ind b := by
  funext i
  have h2 : (1 : ZMod 2) + 1 = 0 := by decide
  by_cases ha : i ∈ a <;> by_cases hb : i ∈ b <;> simp [ind, Finset.mem_symmDiff, ha, hb, h2]

theorem chainBd_symmDiff (D : ℕ → Finset ℕ) (a b : Finset ℕ) :
    chainBd D (_root_.symmDiff a b) = _root_.symmDiff (chainBd D a) (chainBd D b) := by
  apply ind_inj
  rw [ind_finsetSymmDiff]
  have h : ∀ c : Finset ℕ, c ⊆ a ∪ b →
      ind (chainBd D c) = ∑ k ∈ a ∪ b, ind c k • ind (D k) := by
    intro c hc
    rw [ind_chainBd, ← Finset.sum_subset hc]
    · refine Finset.sum_congr rfl fun k hk => ?_
      simp [ind, hk]
    · intro k _ hk; simp [ind, hk]
  rw [h _ (by intro x hx; rcases Finset.mem_symmDiff.1 hx with h | h <;> simp [h.1]), h a subset_union_left,
    h b subset_union_right, ← Finset.sum_add_distrib]
  refine Finset.sum_congr rfl fun k _ => ?_
  rw [ind_finsetSymmDiff, Pi.add_apply, add_smul]

/-- Boundaries of the chains in one dimension. -/
theorem mem_chainBd_grade {D : ℕ → Finset ℕ} {δ : ℕ → ℕ} (hδ : ∀ j, ∀ i ∈ D j, δ i + 1 = δ j)
    {c : Finset ℕ} {d x : ℕ} :
    x ∈ chainBd D {k ∈ c | δ k = d} ↔ x ∈ chainBd D c ∧ δ x + 1 = d := by
  rw [mem_chainBd, mem_chainBd]
  by_cases hx : δ x + 1 = d
  · have : ({k ∈ ({k ∈ c | δ k = d} : Finset ℕ) | x ∈ D k} : Finset ℕ) = {k ∈ c | x ∈ D k} := by
      ext k
      simp only [mem_filter]
      constructor
      · rintro ⟨⟨h1, _⟩, h3⟩; exact ⟨h1, h3⟩
      · rintro ⟨h1, h3⟩; exact ⟨⟨h1, by rw [← hδ k x h3, hx]⟩, h3⟩
    rw [this]; simp [hx]
  · have : ({k ∈ ({k ∈ c | δ k = d} : Finset ℕ) | x ∈ D k} : Finset ℕ) = ∅ := by
      ext k
      simp only [mem_filter, notMem_empty, iff_false]
      rintro ⟨⟨_, h2⟩, h3⟩
      exact hx (by rw [hδ k x h3, h2])
    rw [this]; simp [hx]

variable {r : Rep} {D : ℕ → Finset ℕ} {s : ℕ}

/-- The maxima of the boundaries of the `d`-chains below `t` are the creators paired below `t`. -/
theorem Truncated.low_iff (h : Truncated r D s) (hg : Graded r)
    (hδ : ∀ j, ∀ i ∈ D j, r.dims.getD i 0 + 1 = r.dims.getD j 0) {t : ℕ} (ht : t ≤ s) (d i : ℕ) :
    (∃ c ⊆ ({k ∈ range t | r.dims.getD k 0 = d} : Finset ℕ), MaxIs (chainBd D c) i) ↔
      ∃ j < t, r.dims.getD j 0 = d ∧ PersPair D i j := by
  constructor
  · rintro ⟨c, hc, hm⟩
    obtain ⟨j, hj, hp⟩ := exists_persPair ⟨c, hc.trans (filter_subset _ _), hm⟩
    refine ⟨j, hj, ?_, hp⟩
    have h1 := persPair_dim hg (h.persPair.2 ⟨by omega, hp⟩)
    have hpos := (mem_chainBd.1 hm.1).pos
    rw [Finset.card_pos] at hpos
    obtain ⟨k, hk⟩ := hpos
    rw [mem_filter] at hk
    have h2 := (mem_filter.1 (hc hk.1)).2
    have h3 := hδ k i hk.2
    omega
  · rintro ⟨j, hj, hd, hp⟩
    obtain ⟨c, hc, hm⟩ := hp.1
    have h1 := persPair_dim hg (h.persPair.2 ⟨by omega, hp⟩)
    refine ⟨{k ∈ c | r.dims.getD k 0 = d}, ?_, ?_, ?_⟩
    · intro k hk
      rw [mem_filter] at hk
      have := mem_range.1 (hc hk.1)
      rw [mem_filter, mem_range]
      exact ⟨by omega, hk.2⟩
    · rw [mem_chainBd_grade hδ]
      exact ⟨hm.1, by omega⟩
    · intro k hk
      rw [mem_chainBd_grade hδ] at hk
      exact hm.2 k hk.1

open Classical in
/-- Homology of the chains below `t` whose boundary is below `s`. -/
theorem Truncated.betti (h : Truncated r D s) (hv : Valid r) (hg : Graded r)
    (hδ : ∀ j, ∀ i ∈ D j, r.dims.getD i 0 + 1 = r.dims.getD j 0)
    {n : ℕ} (hD : ∀ k, ∀ i ∈ D k, i < n) (hs : s ≤ n) {t : ℕ} (ht' : t = s ∨ t ≤ s ∧ Ordered D s) (d : ℕ) :
    #{c ∈ ({k ∈ range t | r.dims.getD k 0 = d} : Finset ℕ).powerset | chainBd D c = ∅} =
      2 ^ #{u ∈ ({k ∈ range t | r.dims.getD k 0 = d} : Finset ℕ) |
          (∀ i, ¬ PersPair D i u) ∧ ∀ j < t, ¬ PersPair D u j} *
        #(({c ∈ ({k ∈ range t | r.dims.getD k 0 = d + 1} : Finset ℕ).powerset |
          chainBd D c ⊆ range s} : Finset (Finset ℕ)).image (chainBd D)) := by
  have ht : t ≤ s := by omega
  set S : ℕ → Finset ℕ := fun d => {k ∈ range t | r.dims.getD k 0 = d} with hS
  change #{c ∈ (S d).powerset | chainBd D c = ∅} = 2 ^ #{u ∈ S d |
          (∀ i, ¬ PersPair D i u) ∧ ∀ j < t, ¬ PersPair D u j} *
        #(({c ∈ (S (d + 1)).powerset | chainBd D c ⊆ range s} : Finset (Finset ℕ)).image (chainBd D))
  obtain ⟨R, _, hR⟩ := standard_isReduction .vector hv
  have hpp : ∀ i j, j < t → (PersPair (Spec.cols r) i j ↔ PersPair D i j) := fun i j hj => by
    rw [h.persPair]; simp only [and_iff_right_iff_imp]; intro _; omega
  -- cycles
  have hZ : #{c ∈ (S d).powerset | chainBd D c = ∅} * #((S d).powerset.image (chainBd D)) = 2 ^ #(S d) := by
    rw [card_cycles hD, card_boundaries hD, ← pow_add, ← rank_nullity n D (S d), add_comm]
  have hbnd : ∀ w ∈ (S d).powerset.image (chainBd D), w ⊆ range n := by
    intro w hw
    obtain ⟨c, _, rfl⟩ := mem_image.1 hw
    intro i hi
    exact mem_range.2 (chainBd_lt hD c i hi)
  have hV := card_eq_pow_lows n ((S d).powerset.image (chainBd D))
    (mem_image.2 ⟨∅, by simp, by simp [chainBd]⟩)
    (by
      intro a ha b hb
      obtain ⟨x, hx, rfl⟩ := mem_image.1 ha
      obtain ⟨y, hy, rfl⟩ := mem_image.1 hb
      refine mem_image.2 ⟨_root_.symmDiff x y, ?_, chainBd_symmDiff D x y⟩
      rw [mem_powerset] at hx hy ⊢
      intro k hk
      rcases Finset.mem_symmDiff.1 hk with hk | hk
      · exact hx hk.1
      · exact hy hk.1) hbnd
  have hcount : #{i ∈ range n | ∃ w ∈ (S d).powerset.image (chainBd D), MaxIs w i} =
      #{j ∈ S d | ∃ i, PersPair D i j} := by
    symm
    refine card_bij (fun j hj => (mem_filter.1 hj).2.choose) ?_ ?_ ?_
    · intro j hj
      have hp := (mem_filter.1 hj).2.choose_spec
      have hj1 := mem_filter.1 (mem_filter.1 hj).1
      obtain ⟨c, hc, hm⟩ := (h.low_iff hg hδ ht d _).2 ⟨j, mem_range.1 hj1.1, hj1.2, hp⟩
      rw [mem_filter, mem_range]
      exact ⟨chainBd_lt hD c _ hm.1, _, mem_image.2 ⟨c, mem_powerset.2 hc, rfl⟩, hm⟩
    · intro j hj j' hj' he
      have hp := (mem_filter.1 hj).2.choose_spec
      have hp' := (mem_filter.1 hj').2.choose_spec
      have hj1 := mem_range.1 (mem_filter.1 (mem_filter.1 hj).1).1
      have hj1' := mem_range.1 (mem_filter.1 (mem_filter.1 hj').1).1
      rw [he] at hp
      exact hR.distinct _ _ _ (hR.low_iff.2 ((hpp _ _ hj1).2 hp)) (hR.low_iff.2 ((hpp _ _ hj1').2 hp'))
    · intro i hi
      obtain ⟨_, w, hw, hm⟩ := mem_filter.1 hi
      obtain ⟨c, hc, rfl⟩ := mem_image.1 hw
      obtain ⟨j, hj, hd, hp⟩ := (h.low_iff hg hδ ht d i).1 ⟨c, mem_powerset.1 hc, hm⟩
      have hjm : j ∈ ({j ∈ S d | ∃ i, PersPair D i j} : Finset ℕ) :=
        mem_filter.2 ⟨mem_filter.2 ⟨mem_range.2 hj, hd⟩, i, hp⟩
      refine ⟨j, hjm, ?_⟩
      have hp' := (mem_filter.1 hjm).2.choose_spec
      have a := hR.low_iff.2 ((hpp _ _ hj).2 hp)
      have b := hR.low_iff.2 ((hpp _ _ hj).2 hp')
      rw [a] at b
      exact (Option.some.inj b).symm
  rw [hcount] at hV
  -- boundaries
  set W := ({c ∈ (S (d + 1)).powerset | chainBd D c ⊆ range s} : Finset (Finset ℕ)).image (chainBd D) with hW
  have hempty : chainBd D ∅ = ∅ := by simp [chainBd]
  have hB := card_eq_pow_lows n W
    (mem_image.2 ⟨∅, by rw [mem_filter, hempty]; simp, hempty⟩)
    (by
      intro a ha b hb
      obtain ⟨x, hx, rfl⟩ := mem_image.1 ha
      obtain ⟨y, hy, rfl⟩ := mem_image.1 hb
      refine mem_image.2 ⟨_root_.symmDiff x y, ?_, chainBd_symmDiff D x y⟩
      rw [mem_filter, mem_powerset] at hx hy ⊢
      refine ⟨?_, ?_⟩
      · intro k hk
        rcases Finset.mem_symmDiff.1 hk with hk | hk
        · exact hx.1 hk.1
        · exact hy.1 hk.1
      · rw [chainBd_symmDiff]
        intro k hk
        rcases Finset.mem_symmDiff.1 hk with hk | hk
        · exact hx.2 hk.1
        · exact hy.2 hk.1)
    (by
      intro w hw
      obtain ⟨c, _, rfl⟩ := mem_image.1 hw
      intro i hi
      exact mem_range.2 (chainBd_lt hD c i hi))
  have hset : ({i ∈ range n | ∃ w ∈ W, MaxIs w i} : Finset ℕ) =
      {i ∈ S d | ∃ j < t, PersPair D i j} := by
    ext i
    rw [mem_filter, mem_filter]
    constructor
    · rintro ⟨_, w, hw, hm⟩
      obtain ⟨c, hc, rfl⟩ := mem_image.1 hw
      rw [mem_filter, mem_powerset] at hc
      obtain ⟨j, hj, hd, hp⟩ := (h.low_iff hg hδ ht (d + 1) i).1 ⟨c, hc.1, hm⟩
      have his := mem_range.1 (hc.2 hm.1)
      have h1 := h.persPair.2 ⟨by omega, hp⟩
      have h2 : i < t := by
        rcases ht' with e | ⟨_, ho⟩
        · omega
        · have := h.lt ho his h1
          omega
      have h3 := persPair_dim hg h1
      exact ⟨mem_filter.2 ⟨mem_range.2 (by omega), by omega⟩, j, hj, hp⟩
    · rintro ⟨hi, j, hj, hp⟩
      obtain ⟨hi1, hi2⟩ := mem_filter.1 hi
      rw [mem_range] at hi1
      have h1 := h.persPair.2 ⟨by omega, hp⟩
      have h3 := persPair_dim hg h1
      obtain ⟨c, hc, hm⟩ := (h.low_iff hg hδ ht (d + 1) i).2 ⟨j, hj, by omega, hp⟩
      refine ⟨mem_range.2 (by omega), _, mem_image.2 ⟨c, ?_, rfl⟩, hm⟩
      rw [mem_filter, mem_powerset]
      refine ⟨hc, fun k hk => ?_⟩
      have := hm.2 k hk
      rw [mem_range]; omega
  rw [hset] at hB
  rw [hB]
  rw [hV] at hZ
  have hexcl : ∀ u j i, j < t → u < t → PersPair D u j → ¬ PersPair D i u := by
    intro u j i hj hu hp hq
    exact persPair_exclusive_of_clearOK hv h.clearOK (h.persPair.2 ⟨by omega, hp⟩)
      (h.persPair.2 ⟨by omega, hq⟩)
  have hpart : #(S d) = #{u ∈ S d | (∀ i, ¬ PersPair D i u) ∧ ∀ j < t, ¬ PersPair D u j} +
      #{i ∈ S d | ∃ j < t, PersPair D i j} + #{j ∈ S d | ∃ i, PersPair D i j} := by
    rw [← card_union_of_disjoint, ← card_union_of_disjoint]
    · congr 1
      ext u
      simp only [mem_union, mem_filter]
      constructor
      · intro hu
        by_cases h1 : ∃ i, PersPair D i u
        · exact Or.inr ⟨hu, h1⟩
        · by_cases h2 : ∃ j < t, PersPair D u j
          · exact Or.inl (Or.inr ⟨hu, h2⟩)
          · exact Or.inl (Or.inl ⟨hu, fun i hi => h1 ⟨i, hi⟩, fun j hj hp => h2 ⟨j, hj, hp⟩⟩)
      · rintro ((h | h) | h) <;> exact h.1
    · rw [Finset.disjoint_left]
      intro u hu hu'
      obtain ⟨hu1, i, hp⟩ := mem_filter.1 hu'
      rcases mem_union.1 hu with h' | h'
      · exact (mem_filter.1 h').2.1 i hp
      · obtain ⟨_, j, hj, hq⟩ := mem_filter.1 h'
        exact hexcl u j i hj (mem_range.1 (mem_filter.1 hu1).1) hq hp
    · rw [Finset.disjoint_left]
      intro u hu hu'
      obtain ⟨_, j, hj, hp⟩ := mem_filter.1 hu'
      exact (mem_filter.1 hu).2.2 j hj hp
  rw [← pow_add]
  rw [hpart, pow_add] at hZ
  exact Nat.eq_of_mul_eq_mul_right (pow_pos (by norm_num) _) hZ

end Aleph
