import Verif.Lemmas.Conversions
import Mathlib.Data.Set.Card

/-! Counting boundaries of chains inside prefixes. -/

namespace Aleph

open Finset Spec

/-- Vectors of a prefix span that vanish from row `s` on. -/
def lowPart (F : ℕ → Vec) (t s : ℕ) : Set Vec := {v | v ∈ spanLt F t ∧ ∀ z, s ≤ z → v z = 0}

open Classical in
theorem lowPart_card {F : ℕ → Vec} {n : ℕ}
    (hlow : ∀ k < n, F k = 0 ∨ ∃ i, IsLow (F k) i)
    (hdist : ∀ k < n, ∀ l < n, ∀ i, IsLow (F k) i → IsLow (F l) i → k = l) (s : ℕ) :
    ∀ t ≤ n, (lowPart F t s).Finite ∧
      (lowPart F t s).ncard = 2 ^ #{j ∈ range t | ∃ i < s, IsLow (F j) i} := by
  intro t
  induction t with
  | zero =>
    intro _
    have : lowPart F 0 s = {0} := by
      ext v
      simp only [lowPart, spanLt_zero, Submodule.mem_bot, Set.mem_ofPred_eq, Set.mem_singleton_iff]
      constructor
      · exact fun h => h.1
      · rintro rfl; exact ⟨rfl, fun _ _ => rfl⟩
    rw [this]; simp
  | succ t ih =>
    intro ht
    obtain ⟨ih1, ih2⟩ := ih (by omega)
    rw [range_add_one, filter_insert]
    have hcls : ∀ w ∈ spanLt F t, ∀ i, IsLow (F t) i → ¬ IsLow w i := by
      intro w hw i hi hwi
      rcases low_of_mem_spanLt hlow hdist t (by omega) w hw with h0 | ⟨k, hk, i', h1, h2⟩
      · exact hwi.ne_zero h0
      · have := h2.unique hwi
        subst this
        have := hdist k (by omega) t (by omega) _ h1 hi
        omega
    by_cases hc : ∃ i < s, IsLow (F t) i
    · rw [if_pos hc, card_insert_of_notMem (by simp)]
      obtain ⟨i, his, hi⟩ := hc
      have hvan : ∀ z, s ≤ z → F t z = 0 := fun z hz => hi.2 z (by omega)
      have hset : lowPart F (t + 1) s = lowPart F t s ∪ (fun v => v + F t) '' lowPart F t s := by
        ext v
        simp only [lowPart, mem_spanLt_succ, Set.mem_union, Set.mem_image, Set.mem_ofPred_eq]
        constructor
        · rintro ⟨h | h, hv⟩
          · exact Or.inl ⟨h, hv⟩
          · refine Or.inr ⟨v + F t, ⟨h, fun z hz => by simp [hv z hz, hvan z hz]⟩, ?_⟩
            rw [add_assoc, vec_add_self, add_zero]
        · rintro (⟨h, hv⟩ | ⟨w, ⟨h, hv⟩, rfl⟩)
          · exact ⟨Or.inl h, hv⟩
          · refine ⟨Or.inr ?_, fun z hz => by simp [hv z hz, hvan z hz]⟩
            rw [add_assoc, vec_add_self, add_zero]; exact h
      have hdisj : Disjoint (lowPart F t s) ((fun v => v + F t) '' lowPart F t s) := by
        rw [Set.disjoint_left]
        rintro v hv ⟨w, hw, rfl⟩
        have : F t ∈ spanLt F t := by
          have := Submodule.add_mem _ hv.1 hw.1
          change w + F t + w ∈ _ at this
          rwa [add_comm w, add_assoc, vec_add_self, add_zero] at this
        exact hcls _ this i hi hi
      have hinj : Function.Injective (fun v : Vec => v + F t) := add_left_injective _
      refine ⟨by rw [hset]; exact ih1.union (ih1.image _), ?_⟩
      rw [hset, Set.ncard_union_eq hdisj ih1 (ih1.image _), Set.ncard_image_of_injective _ hinj, ih2,
        pow_succ]
      omega
    · rw [if_neg hc, ← ih2]
      have hset : lowPart F (t + 1) s = lowPart F t s := by
        ext v
        simp only [lowPart, mem_spanLt_succ, Set.mem_ofPred_eq]
        constructor
        · rintro ⟨h | h, hv⟩
          · exact ⟨h, hv⟩
          · rcases hlow t (by omega) with h0 | ⟨i, hi⟩
            · rw [h0, add_zero] at h; exact ⟨h, hv⟩
            · exfalso
              have his : s ≤ i := by
                by_contra hlt; exact hc ⟨i, by omega, hi⟩
              apply hcls _ h i hi
              have hz : ∀ z, s ≤ z → (v + F t) z = F t z := fun z hz => by simp [hv z hz]
              exact ⟨by rw [hz i his]; exact hi.1, fun z hz' => by rw [hz z (by omega)]; exact hi.2 z hz'⟩
        · rintro ⟨h, hv⟩; exact ⟨Or.inl h, hv⟩
      rw [hset]; exact ⟨ih1, rfl⟩

/-- Boundaries of chains on `C` that are contained in `R`. -/
noncomputable def bdIn (D : ℕ → Finset ℕ) (C R : Finset ℕ) : Finset (Finset ℕ) :=
  {b ∈ C.powerset.image (chainBd D) | b ⊆ R}

open Classical in
/-- The number of boundaries of `(d+1)`-chains before `t` that lie before `s` counts the persistence
pairs. -/
theorem card_bdIn {r : Rep} (hv : Valid r) (hg : Graded r) (d s t : ℕ) (ht : t ≤ r.data.length) :
    #(bdIn (cols r) {k ∈ range t | r.dims.getD k 0 = d + 1} (range s)) =
      2 ^ #{ij ∈ range s ×ˢ range t | PersPair (cols r) ij.1 ij.2 ∧ r.dims.getD ij.1 0 = d} := by
  obtain ⟨R, _, hR⟩ := standard_isReduction .vector (onlyDim_valid hv (d + 1))
  have hlen := onlyDim_len r (d + 1)
  have hpc := lowPart_card (F := colv R) (n := r.data.length)
    (fun k _ => ind_zero_or_low _)
    (fun k _ l _ i h1 h2 => hR.distinct k l i ((isLow_colv (hR.strict k)).1 h1)
      ((isLow_colv (hR.strict l)).1 h2)) s t ht
  have hsp : spanLt (colv R) t = spanLt (colv (onlyDim r (d + 1))) t :=
    spanLt_eq_of_unipotent hR.span t (by rw [hlen]; exact ht)
  have hset : lowPart (colv R) t s =
      ind '' (↑(bdIn (cols r) {k ∈ range t | r.dims.getD k 0 = d + 1} (range s)) : Set (Finset ℕ)) := by
    ext v
    simp only [lowPart, Set.mem_ofPred_eq, hsp, Set.mem_image, mem_coe, bdIn, mem_filter, mem_image,
      mem_powerset]
    have : spanLt (colv (onlyDim r (d + 1))) t =
      spanLt (fun k => ind (cols (onlyDim r (d + 1)) k)) t := rfl
    rw [this, mem_spanLt_iff_chain]
    constructor
    · rintro ⟨⟨c, hc, rfl⟩, hz⟩
      refine ⟨chainBd (cols (onlyDim r (d + 1))) c, ⟨⟨{k ∈ c | r.dims.getD k 0 = d + 1}, ?_, ?_⟩, ?_⟩, rfl⟩
      · exact filter_subset_filter _ hc
      · rw [chainBd_onlyDim]
      · intro z hzm
        rw [mem_range]
        by_contra hge
        exact (ind_apply_eq.1 (hz z (by omega))) hzm
    · rintro ⟨b, ⟨⟨c, hc, rfl⟩, hb⟩, rfl⟩
      refine ⟨⟨c, hc.trans (filter_subset _ _), ?_⟩, ?_⟩
      · rw [chainBd_onlyDim]
        congr 2
        ext k
        rw [mem_filter]
        exact ⟨fun h => ⟨h, (mem_filter.1 (hc h)).2⟩, fun h => h.1⟩
      · intro z hz
        rw [ind_apply_eq]
        intro hm
        have := mem_range.1 (hb hm)
        omega
  rw [hset, Set.ncard_image_of_injective _ (fun a b h => ind_inj h), Set.ncard_coe_finset] at hpc
  rw [hpc.2]
  congr 1
  have hlow : ∀ i j, j < t → (IsLow (colv R j) i ↔ PersPair (cols r) i j ∧ r.dims.getD i 0 = d) := by
    intro i j _
    rw [isLow_colv (hR.strict j), hR.low_iff, persPair_onlyDim hg]
    simp
  refine card_bij' (fun j hj => ((mem_filter.1 hj).2.choose, j)) (fun ij _ => ij.2) ?_ ?_ ?_ ?_
  · intro j hj
    obtain ⟨h1, h2⟩ := (mem_filter.1 hj).2.choose_spec
    have hjt := mem_range.1 (mem_filter.1 hj).1
    exact mem_filter.2 ⟨mem_product.2 ⟨mem_range.2 h1, mem_range.2 hjt⟩, (hlow _ _ hjt).1 h2⟩
  · rintro ⟨i, j⟩ hij
    rw [mem_filter, mem_product, mem_range, mem_range] at hij
    rw [mem_filter, mem_range]
    exact ⟨hij.1.2, i, hij.1.1, (hlow _ _ hij.1.2).2 hij.2⟩
  · intro j hj; rfl
  · rintro ⟨i, j⟩ hij
    rw [mem_filter, mem_product, mem_range, mem_range] at hij
    have hj : j ∈ ({j ∈ range t | ∃ i < s, IsLow (colv R j) i} : Finset ℕ) := by
      rw [mem_filter, mem_range]
      exact ⟨hij.1.2, i, hij.1.1, (hlow _ _ hij.1.2).2 hij.2⟩
    obtain ⟨_, h2⟩ := (mem_filter.1 hj).2.choose_spec
    have := h2.unique ((hlow i j hij.1.2).2 hij.2)
    exact Prod.ext this rfl

/-! ### Renumbering -/

theorem chainBd_image {D E : ℕ → Finset ℕ} {σ : ℕ → ℕ} {n : ℕ}
    (hinj : ∀ a < n, ∀ b < n, σ a = σ b → a = b)
    (hD : ∀ k < n, ∀ i ∈ D k, i < n) (hE : ∀ k < n, E (σ k) = (D k).image σ) {c : Finset ℕ}
    (hc : c ⊆ range n) : chainBd E (c.image σ) = (chainBd D c).image σ := by
  have hcard : ∀ i < n, #{k ∈ c.image σ | σ i ∈ E k} = #{k ∈ c | i ∈ D k} := by
    intro i hi
    have : ({k ∈ c.image σ | σ i ∈ E k} : Finset ℕ) = ({k ∈ c | i ∈ D k} : Finset ℕ).image σ := by
      ext x
      simp only [mem_filter, mem_image]
      constructor
      · rintro ⟨⟨k, hk, rfl⟩, h⟩
        rw [hE k (mem_range.1 (hc hk)), mem_image] at h
        obtain ⟨i', hi', he⟩ := h
        have := hinj i' (hD k (mem_range.1 (hc hk)) i' hi') i hi he
        subst this
        exact ⟨k, ⟨hk, hi'⟩, rfl⟩
      · rintro ⟨k, ⟨hk, hik⟩, rfl⟩
        refine ⟨⟨k, hk, rfl⟩, ?_⟩
        rw [hE k (mem_range.1 (hc hk))]
        exact mem_image_of_mem _ hik
    rw [this, card_image_of_injOn]
    intro a ha b hb hab
    exact hinj a (mem_range.1 (hc (mem_filter.1 ha).1)) b (mem_range.1 (hc (mem_filter.1 hb).1)) hab
  ext x
  rw [mem_image]
  constructor
  · intro hx
    have hx' := hx
    unfold chainBd at hx'
    rw [mem_filter, mem_biUnion] at hx'
    obtain ⟨⟨y, hy, hxy⟩, _⟩ := hx'
    obtain ⟨k, hk, rfl⟩ := mem_image.1 hy
    have hkn := mem_range.1 (hc hk)
    rw [hE k hkn, mem_image] at hxy
    obtain ⟨i, hi, rfl⟩ := hxy
    refine ⟨i, ?_, rfl⟩
    rw [mem_chainBd] at hx ⊢
    rwa [hcard i (hD k hkn i hi)] at hx
  · rintro ⟨i, hi, rfl⟩
    have hi' := hi
    unfold chainBd at hi'
    rw [mem_filter, mem_biUnion] at hi'
    obtain ⟨⟨k, hk, hik⟩, _⟩ := hi'
    rw [mem_chainBd] at hi ⊢
    rwa [hcard i (hD k (mem_range.1 (hc hk)) i hik)]

theorem card_bdIn_le {D E : ℕ → Finset ℕ} {σ : ℕ → ℕ} {n : ℕ}
    (hinj : ∀ a < n, ∀ b < n, σ a = σ b → a = b)
    (hD : ∀ k < n, ∀ i ∈ D k, i < n) (hE : ∀ k < n, E (σ k) = (D k).image σ) {C R C' R' : Finset ℕ}
    (hC : C ⊆ range n) (hCC : ∀ k ∈ C, σ k ∈ C') (hRR : ∀ k < n, k ∈ R → σ k ∈ R') :
    #(bdIn D C R) ≤ #(bdIn E C' R') := by
  have hlt : ∀ c ⊆ range n, ∀ i ∈ chainBd D c, i < n := by
    intro c hc i hi
    unfold chainBd at hi
    rw [mem_filter, mem_biUnion] at hi
    obtain ⟨⟨k, hk, hik⟩, _⟩ := hi
    exact hD k (mem_range.1 (hc hk)) i hik
  refine card_le_card_of_injOn (fun b => b.image σ) ?_ ?_
  · intro b hb
    rw [mem_coe] at hb
    simp only [bdIn, mem_filter, mem_image, mem_powerset] at hb
    obtain ⟨⟨c, hc, rfl⟩, hb⟩ := hb
    rw [mem_coe]
    simp only [bdIn, mem_filter, mem_image, mem_powerset]
    refine ⟨⟨c.image σ, ?_, chainBd_image hinj hD hE (hc.trans hC)⟩, ?_⟩
    · intro x hx
      obtain ⟨k, hk, rfl⟩ := mem_image.1 hx
      exact hCC k (hc hk)
    · intro x hx
      obtain ⟨k, hk, rfl⟩ := mem_image.1 hx
      exact hRR k (hlt c (hc.trans hC) k hk) (hb hk)
  · intro a ha b hb hab
    rw [mem_coe] at ha hb
    simp only [bdIn, mem_filter, mem_image, mem_powerset] at ha hb
    obtain ⟨⟨c, hc, rfl⟩, _⟩ := ha
    obtain ⟨⟨c', hc', rfl⟩, _⟩ := hb
    have key : ∀ c c' : Finset ℕ, c ⊆ range n → c' ⊆ range n →
        (chainBd D c).image σ = (chainBd D c').image σ → chainBd D c ⊆ chainBd D c' := by
      intro c c' hc hc' h x hx
      have : σ x ∈ (chainBd D c').image σ := by rw [← h]; exact mem_image_of_mem _ hx
      obtain ⟨y, hy, he⟩ := mem_image.1 this
      have := hinj y (hlt c' hc' y hy) x (hlt c hc x hx) he
      subst this; exact hy
    exact Subset.antisymm (key c c' (hc.trans hC) (hc'.trans hC) hab)
      (key c' c (hc'.trans hC) (hc.trans hC) hab.symm)

end Aleph
