import Verif.Lemmas.PairingSpec
import Mathlib.FieldTheory.Finiteness
import Mathlib.LinearAlgebra.Dimension.LinearMap
import Mathlib.LinearAlgebra.Dimension.Constructions

/-! Counting cycles and boundaries. -/

namespace Aleph

open Finset Spec

/-- The boundary map on chains of a finite set `S` of simplices, with values in the rows `< n`. -/
noncomputable def bdMap (n : ℕ) (D : ℕ → Finset ℕ) (S : Finset ℕ) :
    (S → ZMod 2) →ₗ[ZMod 2] (Fin n → ZMod 2) :=
  Fintype.linearCombination (ZMod 2) (fun k : S => res n 0 (ind (D k)))

/-- Chain of a coefficient vector. -/
noncomputable def toChain (S : Finset ℕ) (f : S → ZMod 2) : Finset ℕ :=
  (univ.filter fun k : S => f k ≠ 0).map (Function.Embedding.subtype _)

theorem mem_toChain {S : Finset ℕ} {f : S → ZMod 2} {k : ℕ} :
    k ∈ toChain S f ↔ ∃ h : k ∈ S, f ⟨k, h⟩ ≠ 0 := by
  simp [toChain]

theorem toChain_subset (S : Finset ℕ) (f : S → ZMod 2) : toChain S f ⊆ S := by
  intro k hk; obtain ⟨h, _⟩ := mem_toChain.1 hk; exact h

theorem bdMap_eq (n : ℕ) (D : ℕ → Finset ℕ) (S : Finset ℕ) (f : S → ZMod 2) :
    bdMap n D S f = res n 0 (ind (chainBd D (toChain S f))) := by
  rw [ind_chainBd, bdMap, Fintype.linearCombination_apply, toChain, Finset.sum_map,
    Finset.sum_filter, map_sum]
  refine Finset.sum_congr rfl fun k _ => ?_
  rcases zmod2_cases (f k) with h | h <;> simp [h]

theorem toChain_inj (S : Finset ℕ) : Function.Injective (toChain S) := by
  intro f g h
  funext k
  have : (f k ≠ 0 ↔ g k ≠ 0) := by
    have h1 := mem_toChain (S := S) (f := f) (k := k)
    have h2 := mem_toChain (S := S) (f := g) (k := k)
    rw [h] at h1
    have := h1.symm.trans h2
    simpa [k.2] using this
  rcases zmod2_cases (f k) with a | a <;> rcases zmod2_cases (g k) with b | b <;>
    simp [a, b] at this ⊢

theorem toChain_surj {S c : Finset ℕ} (h : c ⊆ S) : ∃ f, toChain S f = c := by
  refine ⟨fun k => if (k : ℕ) ∈ c then 1 else 0, ?_⟩
  ext k
  rw [mem_toChain]
  constructor
  · rintro ⟨_, h2⟩
    by_contra hk
    simp [hk] at h2
  · intro hk; exact ⟨h hk, by simp [hk]⟩

theorem res_ind_inj {n : ℕ} {s t : Finset ℕ} (hs : ∀ k ∈ s, k < n) (ht : ∀ k ∈ t, k < n)
    (h : res n 0 (ind s) = res n 0 (ind t)) : s = t := by
  have key : ∀ k, k < n → (k ∈ s ↔ k ∈ t) := by
    intro k hk
    have := congrFun h ⟨k, hk⟩
    simp only [res, LinearMap.coe_mk, AddHom.coe_mk, Nat.zero_le, if_true] at this
    rw [← ind_apply_ne, this, ind_apply_ne]
  ext k
  constructor
  · intro hk; exact (key k (hs k hk)).1 hk
  · intro hk; exact (key k (ht k hk)).2 hk

theorem chainBd_lt {D : ℕ → Finset ℕ} {n : ℕ} (hD : ∀ k, ∀ i ∈ D k, i < n) (c : Finset ℕ) :
    ∀ i ∈ chainBd D c, i < n := by
  intro i hi
  unfold chainBd at hi
  rw [mem_filter, mem_biUnion] at hi
  obtain ⟨⟨k, _, hk⟩, _⟩ := hi
  exact hD k i hk

theorem card_boundaries {n : ℕ} {D : ℕ → Finset ℕ} (hD : ∀ k, ∀ i ∈ D k, i < n) (S : Finset ℕ) :
    #(S.powerset.image (chainBd D)) =
      2 ^ Module.finrank (ZMod 2) (LinearMap.range (bdMap n D S)) := by
  have h1 : Nat.card (LinearMap.range (bdMap n D S)) =
      2 ^ Module.finrank (ZMod 2) (LinearMap.range (bdMap n D S)) := by
    rw [Module.natCard_eq_pow_finrank (K := ZMod 2)]
    simp
  rw [← h1, ← Nat.card_eq_finsetCard]
  refine Nat.card_congr (Equiv.ofBijective (fun s => ⟨res n 0 (ind s.1), ?_⟩) ⟨?_, ?_⟩)
  · obtain ⟨c, hc, hs⟩ := mem_image.1 s.2
    obtain ⟨f, rfl⟩ := toChain_surj (mem_powerset.1 hc)
    exact ⟨f, by rw [bdMap_eq, hs]⟩
  · rintro ⟨s, hs⟩ ⟨t, ht⟩ h
    obtain ⟨c, hc, rfl⟩ := mem_image.1 hs
    obtain ⟨c', hc', rfl⟩ := mem_image.1 ht
    have := Subtype.mk.inj h
    exact Subtype.ext (res_ind_inj (chainBd_lt hD c) (chainBd_lt hD c') this)
  · rintro ⟨v, f, rfl⟩
    refine ⟨⟨chainBd D (toChain S f), mem_image.2 ⟨_, mem_powerset.2 (toChain_subset S f), rfl⟩⟩, ?_⟩
    apply Subtype.ext
    exact (bdMap_eq n D S f).symm

theorem card_cycles {n : ℕ} {D : ℕ → Finset ℕ} (hD : ∀ k, ∀ i ∈ D k, i < n) (S : Finset ℕ) :
    #{c ∈ S.powerset | chainBd D c = ∅} =
      2 ^ Module.finrank (ZMod 2) (LinearMap.ker (bdMap n D S)) := by
  have h1 : Nat.card (LinearMap.ker (bdMap n D S)) =
      2 ^ Module.finrank (ZMod 2) (LinearMap.ker (bdMap n D S)) := by
    rw [Module.natCard_eq_pow_finrank (K := ZMod 2)]
    simp
  have h0 : res n 0 (ind ∅) = 0 := by
    have : ind (∅ : Finset ℕ) = 0 := by funext z; simp [ind]
    rw [this, map_zero]
  have hker : ∀ f, f ∈ LinearMap.ker (bdMap n D S) ↔ chainBd D (toChain S f) = ∅ := by
    intro f
    rw [LinearMap.mem_ker, bdMap_eq, ← h0]
    constructor
    · intro h; exact res_ind_inj (chainBd_lt hD _) (by simp) h
    · intro h; rw [h]
  rw [← h1, ← Nat.card_eq_finsetCard]
  symm
  refine Nat.card_congr (Equiv.ofBijective (fun f => ⟨toChain S f.1, ?_⟩) ⟨?_, ?_⟩)
  · exact mem_filter.2 ⟨mem_powerset.2 (toChain_subset S f.1), (hker f.1).1 f.2⟩
  · rintro ⟨f, hf⟩ ⟨g, hg⟩ h
    exact Subtype.ext (toChain_inj S (Subtype.mk.inj h))
  · rintro ⟨c, hc⟩
    rw [mem_filter, mem_powerset] at hc
    obtain ⟨f, rfl⟩ := toChain_surj hc.1
    exact ⟨⟨f, (hker f).2 hc.2⟩, rfl⟩

theorem rank_nullity (n : ℕ) (D : ℕ → Finset ℕ) (S : Finset ℕ) :
    Module.finrank (ZMod 2) (LinearMap.range (bdMap n D S)) +
      Module.finrank (ZMod 2) (LinearMap.ker (bdMap n D S)) = #S := by
  rw [LinearMap.finrank_range_add_finrank_ker]
  simp

/-! ### The columns of one dimension -/

/-- The matrix in which all columns of dimension other than `d` are cleared. -/
def onlyDim (r : Rep) (d : ℕ) : Rep :=
  ⟨(List.range r.data.length).map fun k => if r.dims.getD k 0 = d then colL r k else [], r.dims⟩

theorem onlyDim_len (r : Rep) (d : ℕ) : (onlyDim r d).data.length = r.data.length := by
  simp [onlyDim]

theorem colL_onlyDim (r : Rep) (d k : ℕ) :
    colL (onlyDim r d) k = if r.dims.getD k 0 = d then colL r k else [] := by
  by_cases hk : k < r.data.length
  · unfold colL onlyDim
    simp only [List.getD_eq_getElem?_getD, List.getElem?_map, List.getElem?_range hk,
      Option.map_some, Option.getD_some]
    split_ifs <;> simp [colL, List.getD_eq_getElem?_getD]
  · rw [colL_of_ge (by rw [onlyDim_len]; omega), colL_of_ge (r := r) (by omega)]
    simp

theorem cols_onlyDim (r : Rep) (d k : ℕ) :
    cols (onlyDim r d) k = if r.dims.getD k 0 = d then cols r k else ∅ := by
  rw [cols_eq, colL_onlyDim]
  split_ifs <;> simp [cols_eq]

theorem onlyDim_valid {r : Rep} (hv : Valid r) (d : ℕ) : Valid (onlyDim r d) := by
  refine ⟨?_, ?_, ?_⟩
  · intro c hc
    obtain ⟨k, hk, rfl⟩ := List.getElem_of_mem hc
    rw [onlyDim_len] at hk
    have e : (onlyDim r d).data[k]'(by rw [onlyDim_len]; exact hk) = colL (onlyDim r d) k := by
      have := getElem?_data (r := onlyDim r d) (k := k) (by rw [onlyDim_len]; exact hk)
      rw [List.getElem?_eq_getElem (by rw [onlyDim_len]; exact hk)] at this
      simpa using this
    rw [e, colL_onlyDim]
    split_ifs
    · exact hv.sorted _ (colL_mem hk)
    · exact List.Pairwise.nil
  · intro c hc i hi
    obtain ⟨k, hk, rfl⟩ := List.getElem_of_mem hc
    rw [onlyDim_len] at hk ⊢
    have e : (onlyDim r d).data[k]'(by rw [onlyDim_len]; exact hk) = colL (onlyDim r d) k := by
      have := getElem?_data (r := onlyDim r d) (k := k) (by rw [onlyDim_len]; exact hk)
      rw [List.getElem?_eq_getElem (by rw [onlyDim_len]; exact hk)] at this
      simpa using this
    rw [e, colL_onlyDim] at hi
    split_ifs at hi
    · exact valid_entries hv _ _ hi
    · simp at hi
  · rw [onlyDim_len]; exact hv.dims

theorem chainBd_onlyDim (r : Rep) (d : ℕ) (c : Finset ℕ) :
    chainBd (cols (onlyDim r d)) c = chainBd (cols r) {k ∈ c | r.dims.getD k 0 = d} := by
  apply ind_inj
  rw [ind_chainBd, ind_chainBd, Finset.sum_filter]
  refine Finset.sum_congr rfl fun k _ => ?_
  rw [cols_onlyDim]
  split_ifs
  · rfl
  · funext z; simp [ind]

theorem mem_chainBd_dim {r : Rep} (hg : Graded r) {d : ℕ} {c : Finset ℕ} {i : ℕ} :
    i ∈ chainBd (cols r) {k ∈ c | r.dims.getD k 0 = d} ↔
      i ∈ chainBd (cols r) c ∧ r.dims.getD i 0 + 1 = d := by
  rw [mem_chainBd, mem_chainBd, Finset.filter_filter]
  by_cases hi : r.dims.getD i 0 + 1 = d
  · have : ({k ∈ c | r.dims.getD k 0 = d ∧ i ∈ cols r k} : Finset ℕ) = {k ∈ c | i ∈ cols r k} := by
      refine Finset.filter_congr fun k _ => ?_
      constructor
      · exact fun h => h.2
      · intro h; exact ⟨(hg k i h).symm.trans hi, h⟩
    rw [this]; exact ⟨fun h => ⟨h, hi⟩, fun h => h.1⟩
  · have : ({k ∈ c | r.dims.getD k 0 = d ∧ i ∈ cols r k} : Finset ℕ) = ∅ := by
      rw [Finset.filter_eq_empty_iff]
      rintro k _ ⟨h1, h2⟩
      exact hi ((hg k i h2).trans h1)
    rw [this]
    exact ⟨fun h => by simp at h, fun h => absurd h.2 hi⟩

theorem exists_chain_onlyDim {r : Rep} (hg : Graded r) (d i m : ℕ) :
    (∃ c ⊆ range m, MaxIs (chainBd (cols (onlyDim r d)) c) i) ↔
      (∃ c ⊆ range m, MaxIs (chainBd (cols r) c) i) ∧ r.dims.getD i 0 + 1 = d := by
  constructor
  · rintro ⟨c, hc, hm⟩
    rw [chainBd_onlyDim] at hm
    refine ⟨⟨_, (filter_subset _ c).trans hc, hm⟩, ?_⟩
    exact ((mem_chainBd_dim hg).1 hm.1).2
  · rintro ⟨⟨c, hc, hm⟩, hi⟩
    refine ⟨c, hc, ?_⟩
    rw [chainBd_onlyDim]
    refine ⟨(mem_chainBd_dim hg).2 ⟨hm.1, hi⟩, ?_⟩
    intro k hk
    exact hm.2 k ((mem_chainBd_dim hg).1 hk).1

theorem persPair_onlyDim {r : Rep} (hg : Graded r) (d i j : ℕ) :
    PersPair (cols (onlyDim r d)) i j ↔ PersPair (cols r) i j ∧ r.dims.getD i 0 + 1 = d := by
  unfold PersPair
  rw [exists_chain_onlyDim hg, exists_chain_onlyDim hg]
  constructor
  · rintro ⟨⟨h1, h2⟩, h3⟩; exact ⟨⟨h1, fun h => h3 ⟨h, h2⟩⟩, h2⟩
  · rintro ⟨⟨h1, h2⟩, h3⟩; exact ⟨⟨h1, h3⟩, fun h => h2 h.1⟩

/-- Paired indices have dimensions differing by one. -/
theorem persPair_dim {r : Rep} (hg : Graded r) {i j : ℕ}
    (hp : PersPair (cols r) i j) : r.dims.getD i 0 + 1 = r.dims.getD j 0 := by
  by_contra hne
  have h1 := (persPair_onlyDim hg (r.dims.getD i 0 + 1) i j).2 ⟨hp, rfl⟩
  obtain ⟨⟨c, hc, hm⟩, hno⟩ := h1
  apply hno
  refine ⟨c.erase j, ?_, ?_⟩
  · intro x hx
    have h1 := mem_range.1 (hc (mem_of_mem_erase hx))
    have h2 := ne_of_mem_erase hx
    rw [mem_range]; omega
  · rw [chainBd_onlyDim] at hm ⊢
    have : ({k ∈ c.erase j | r.dims.getD k 0 = r.dims.getD i 0 + 1} : Finset ℕ) =
        {k ∈ c | r.dims.getD k 0 = r.dims.getD i 0 + 1} := by
      ext k
      simp only [mem_filter, mem_erase]
      constructor
      · rintro ⟨⟨_, h1⟩, h2⟩; exact ⟨h1, h2⟩
      · rintro ⟨h1, h2⟩
        refine ⟨⟨?_, h1⟩, h2⟩
        rintro rfl; exact hne h2.symm
    rw [this]; exact hm

open Classical in
/-- The rank of the boundary map on `d`-chains is the number of paired `d`-simplices that destroy. -/
theorem finrank_range {r : Rep} (hv : Valid r) (hg : Graded r) (d : ℕ) :
    Module.finrank (ZMod 2) (LinearMap.range (bdMap r.data.length (cols r) (ofDim r d))) =
      #{j ∈ ofDim r d | ∃ i, PersPair (cols r) i j} := by
  obtain ⟨R, _, hR⟩ := standard_isReduction .vector (onlyDim_valid hv d)
  have hcount : ∀ m ≤ (onlyDim r d).data.length, rk (onlyDim r d) 0 m =
      #{j ∈ range m | ∃ i, PersPair (cols (onlyDim r d)) i j} := by
    intro m
    induction m with
    | zero =>
      intro _
      have : mask (onlyDim r d) (onlyDim r d).data.length 0 0 = 0 := by
        funext a b; simp [mask]
      rw [rk, this]; simp
    | succ m ih =>
      intro hm
      rw [rk_succ hR 0 m hm, ih (by omega), Finset.range_add_one, Finset.filter_insert]
      have : (∃ x, (colL R m).getLast? = some x ∧ 0 ≤ x) ↔
          ∃ i, PersPair (cols (onlyDim r d)) i m := by
        constructor
        · rintro ⟨x, h1, _⟩; exact ⟨x, hR.low_iff.1 h1⟩
        · rintro ⟨x, h1⟩; exact ⟨x, hR.low_iff.2 h1, Nat.zero_le _⟩
      simp only [this]
      split_ifs
      · rw [Finset.card_insert_of_notMem (by simp)]
      · rfl
  have hfin := hcount _ le_rfl
  have hset : ({j ∈ range (onlyDim r d).data.length |
      ∃ i, PersPair (cols (onlyDim r d)) i j} : Finset ℕ) =
      {j ∈ ofDim r d | ∃ i, PersPair (cols r) i j} := by
    ext j
    rw [onlyDim_len]
    simp only [ofDim, mem_filter, persPair_onlyDim hg]
    constructor
    · rintro ⟨h1, i, h2, h3⟩
      exact ⟨⟨h1, (persPair_dim hg h2).symm.trans h3⟩, i, h2⟩
    · rintro ⟨⟨h1, h2⟩, i, h3⟩
      exact ⟨h1, i, h3, (persPair_dim hg h3).trans h2⟩
  have hspan : Submodule.span (ZMod 2)
      (Set.range fun k : ofDim r d => res r.data.length 0 (ind (cols r k))) =
      Submodule.span (ZMod 2)
        (Set.range (mask (onlyDim r d) r.data.length 0 r.data.length).col) := by
    rw [span_mask _ _ _ _ le_rfl]
    unfold spanLt
    rw [Submodule.map_span]
    apply le_antisymm
    · rw [Submodule.span_le]
      rintro _ ⟨⟨k, hk⟩, rfl⟩
      simp only [ofDim, mem_filter, mem_range] at hk
      apply Submodule.subset_span
      refine ⟨_, ⟨k, hk.1, rfl⟩, ?_⟩
      rw [colv, cols_onlyDim, if_pos hk.2]
    · rw [Submodule.span_le]
      rintro _ ⟨_, ⟨k, hk, rfl⟩, rfl⟩
      rw [colv, cols_onlyDim]
      split_ifs with hd
      · apply Submodule.subset_span
        exact ⟨⟨k, by simp only [ofDim, mem_filter, mem_range]; exact ⟨hk, hd⟩⟩, rfl⟩
      · have : ind (∅ : Finset ℕ) = 0 := by funext z; simp [ind]
        rw [this, map_zero]; exact Submodule.zero_mem _
  rw [← hset, ← hfin, rk, onlyDim_len, Matrix.rank_eq_finrank_span_cols, bdMap,
    Fintype.range_linearCombination, hspan]

open Classical in
/-- Number of cycles, boundaries and unpaired simplices. -/
theorem card_cycles_eq {r : Rep} (hv : Valid r) (hg : Graded r)
    (hd : Differential r) (d : ℕ) :
    #(cycles r d) = 2 ^ #{u ∈ ofDim r d | Unpaired (cols r) r.data.length u} *
      #(boundariesOf r (d + 1)) := by
  have hD : ∀ k, ∀ i ∈ cols r k, i < r.data.length := fun k i hi =>
    valid_entries hv k i (mem_cols.1 hi)
  unfold cycles boundariesOf
  rw [card_cycles hD, card_boundaries hD, ← pow_add, finrank_range hv hg]
  congr 1
  have h1 := rank_nullity r.data.length (cols r) (ofDim r d)
  rw [finrank_range hv hg] at h1
  obtain ⟨R, _, hR⟩ := standard_isReduction .vector hv
  -- destroyers of dimension `d + 1` correspond to creators of dimension `d`
  have hbij : #{j ∈ ofDim r (d + 1) | ∃ i, PersPair (cols r) i j} =
      #{i ∈ ofDim r d | ∃ j, PersPair (cols r) i j} := by
    symm
    refine Finset.card_bij (fun i hi => (mem_filter.1 hi).2.choose) ?_ ?_ ?_
    · intro i hi
      have hp := (mem_filter.1 hi).2.choose_spec
      have hi' := (mem_filter.1 (mem_filter.1 hi).1).2
      rw [mem_filter, ofDim, mem_filter, mem_range]
      exact ⟨⟨persPair_lt_length hp, by rw [← persPair_dim hg hp, hi']⟩, i, hp⟩
    · intro i hi i' hi' he
      have hp := (mem_filter.1 hi).2.choose_spec
      have hp' := (mem_filter.1 hi').2.choose_spec
      rw [he] at hp
      have a := hR.low_iff.2 hp
      have b := hR.low_iff.2 hp'
      rw [a] at b
      exact Option.some.inj b
    · intro j hj
      obtain ⟨hj1, i, hp⟩ := mem_filter.1 hj
      have hj2 := (mem_filter.1 hj1).2
      have hdim := persPair_dim hg hp
      have hi : i ∈ ({i ∈ ofDim r d | ∃ j, PersPair (cols r) i j} : Finset ℕ) := by
        rw [mem_filter, ofDim, mem_filter, mem_range]
        exact ⟨⟨persPair_fst_lt hv hp, by omega⟩, j, hp⟩
      refine ⟨i, hi, ?_⟩
      have hp' := (mem_filter.1 hi).2.choose_spec
      exact hR.distinct _ _ i (hR.low_iff.2 hp') (hR.low_iff.2 hp)
  have hexcl := fun u j i => persPair_exclusive hv hd (u := u) (j := j) (i := i)
  have hpart : #(ofDim r d) = #{j ∈ ofDim r d | ∃ i, PersPair (cols r) i j} +
      (#{u ∈ ofDim r d | Unpaired (cols r) r.data.length u} +
        #{i ∈ ofDim r d | ∃ j, PersPair (cols r) i j}) := by
    rw [← Finset.card_union_of_disjoint, ← Finset.card_union_of_disjoint]
    · congr 1
      ext u
      simp only [mem_union, mem_filter]
      constructor
      · intro hu
        by_cases h1 : ∃ i, PersPair (cols r) i u
        · exact Or.inl ⟨hu, h1⟩
        · by_cases h2 : ∃ j, PersPair (cols r) u j
          · exact Or.inr (Or.inr ⟨hu, h2⟩)
          · refine Or.inr (Or.inl ⟨hu, ?_, fun j => ⟨fun h => h2 ⟨j, h⟩, fun h => h1 ⟨j, h⟩⟩⟩)
            exact mem_range.1 (mem_filter.1 hu).1
      · rintro (h | h | h) <;> exact h.1
    · rw [Finset.disjoint_left]
      intro u hu hu'
      obtain ⟨_, i, hp⟩ := mem_filter.1 hu
      rcases mem_union.1 hu' with h | h
      · exact ((mem_filter.1 h).2.2 i).2 hp
      · obtain ⟨_, j, hq⟩ := mem_filter.1 h
        exact hexcl u j i hq hp
    · rw [Finset.disjoint_left]
      intro u hu hu'
      obtain ⟨_, j, hp⟩ := mem_filter.1 hu'
      exact ((mem_filter.1 hu).2.2 j).1 hp
  omega

end Aleph
