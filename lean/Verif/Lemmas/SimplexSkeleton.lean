import Verif.Lemmas.Homology
import Verif.Lemmas.Betti
import Verif.Props.Conversions
import Verif.Spec.Rips

/-!
# Skeleta of a simplex have no homology below their dimension
-/

namespace Aleph.SimplexSkeleton

open Finset Spec

/-- The cone over the simplices of a chain that do not contain the vertex 0. -/
def cone (z : Finset (Finset ℕ)) : Finset (Finset ℕ) := ({σ ∈ z | 0 ∉ σ} : Finset (Finset ℕ)).image (insert 0)

theorem cofaces_cone_of_notMem {z : Finset (Finset ℕ)} {τ : Finset ℕ} (h : 0 ∉ τ) : cofacesIn (cone z) τ = if τ ∈ z then {insert 0 τ} else ∅ := by
  ext ρ
  simp only [cofacesIn, cone, mem_filter, mem_image]
  constructor
  · rintro ⟨⟨σ, ⟨h1, h2⟩, rfl⟩, h3, h4⟩
    rw [card_insert_of_notMem h2] at h4
    have hsub : τ ⊆ σ := fun x hx => by
      rcases mem_insert.1 (h3 hx) with rfl | hx'
      · exact absurd hx h
      · exact hx'
    obtain rfl := eq_of_subset_of_card_le hsub (by omega)
    rw [if_pos h1]
    simp
  · intro hρ
    split at hρ
    · next hz =>
      rw [mem_singleton] at hρ
      subst hρ
      exact ⟨⟨τ, ⟨hz, h⟩, rfl⟩, subset_insert _ _, (card_insert_of_notMem h).symm⟩
    · simp at hρ

theorem cofaces_cone_of_mem {z : Finset (Finset ℕ)} {τ : Finset ℕ} (h : 0 ∈ τ) :
    #(cofacesIn z (τ.erase 0)) = #(cofacesIn (cone z) τ) + if τ ∈ z then 1 else 0 := by
  have hcard := card_erase_add_one h
  have e1 : #(cofacesIn (cone z) τ) = #{σ ∈ cofacesIn z (τ.erase 0) | 0 ∉ σ} := by
    symm
    refine card_bij (fun σ _ => insert 0 σ) ?_ ?_ ?_
    · intro σ hσ
      simp only [cofacesIn, mem_filter] at hσ
      obtain ⟨⟨h1, h2, h3⟩, h4⟩ := hσ
      simp only [cofacesIn, cone, mem_filter, mem_image]
      refine ⟨⟨σ, ⟨h1, h4⟩, rfl⟩, ?_, ?_⟩
      · rw [← insert_erase h]
        exact insert_subset_insert _ h2
      · rw [card_insert_of_notMem h4]
        omega
    · intro σ hσ σ' hσ' he
      have h4 := (mem_filter.1 hσ).2
      have h4' := (mem_filter.1 hσ').2
      rw [← erase_insert h4, ← erase_insert h4', he]
    · intro ρ hρ
      simp only [cofacesIn, cone, mem_filter, mem_image] at hρ
      obtain ⟨⟨σ, ⟨h1, h2⟩, rfl⟩, h3, h4⟩ := hρ
      rw [card_insert_of_notMem h2] at h4
      refine ⟨σ, ?_, rfl⟩
      simp only [cofacesIn, mem_filter]
      refine ⟨⟨h1, ?_, by omega⟩, h2⟩
      intro x hx
      rcases mem_insert.1 (h3 (mem_of_mem_erase hx)) with rfl | hx'
      · simp at hx
      · exact hx'
  have e2 : ({σ ∈ cofacesIn z (τ.erase 0) | ¬ 0 ∉ σ} : Finset (Finset ℕ)) = if τ ∈ z then {τ} else ∅ := by
    ext σ
    simp only [cofacesIn, mem_filter, not_not]
    constructor
    · rintro ⟨⟨h1, h2, h3⟩, h4⟩
      have hsub : τ ⊆ σ := by
        rw [← insert_erase h]
        exact insert_subset h4 h2
      obtain rfl := eq_of_subset_of_card_le hsub (by omega)
      rw [if_pos h1]
      simp
    · intro hσ
      split at hσ
      · next hz =>
        rw [mem_singleton] at hσ
        subst hσ
        exact ⟨⟨hz, erase_subset _ _, hcard⟩, h⟩
      · simp at hσ
  rw [← card_filter_add_card_filter_not (s := cofacesIn z (τ.erase 0)) (fun σ => 0 ∉ σ), e1, e2]
  split <;> simp

/-- A cycle of positive dimension is the boundary of its cone. -/
theorem setBd_cone {A : Finset (Finset ℕ)} {d : ℕ} (hd : 1 ≤ d) {z : Finset (Finset ℕ)} (hz : z ∈ setCycles A d) : setBd (cone z) = z := by
  obtain ⟨hch, hbd⟩ := mem_filter.1 hz
  rw [mem_setChains] at hch
  have hne : ∀ τ ∈ z, τ.Nonempty := fun τ h => card_pos.1 (by have := (hch τ h).2; omega)
  ext τ
  rw [mem_setBd]
  by_cases h0 : 0 ∈ τ
  · have hc := cofaces_cone_of_mem (z := z) h0
    by_cases hτ : (τ.erase 0).Nonempty
    · have heven : ¬ Odd #(cofacesIn z (τ.erase 0)) := by
        intro ho
        have : τ.erase 0 ∈ setBd z := mem_setBd.2 ⟨hτ, ho⟩
        rw [hbd] at this
        simp at this
      rw [hc] at heven
      constructor
      · rintro ⟨-, ho⟩
        by_contra hno
        rw [if_neg hno, add_zero] at heven
        exact heven ho
      · intro hin
        refine ⟨hne τ hin, ?_⟩
        rw [if_pos hin] at heven
        simpa [Nat.odd_add_one] using heven
    · have hτe : τ.erase 0 = ∅ := not_nonempty_iff_eq_empty.1 hτ
      have hz0 : cofacesIn z (τ.erase 0) = ∅ := by
        rw [cofacesIn, filter_eq_empty_iff]
        rintro σ hσ ⟨-, h⟩
        rw [hτe] at h
        have := (hch σ hσ).2
        simp only [card_empty] at h
        omega
      rw [hz0, card_empty] at hc
      have : #(cofacesIn (cone z) τ) = 0 := by omega
      rw [this]
      constructor
      · rintro ⟨-, h⟩
        simp at h
      · intro hin
        rw [if_pos hin] at hc
        omega
  · rw [cofaces_cone_of_notMem h0]
    split
    · next h => exact ⟨fun _ => h, fun _ => ⟨hne τ h, by simp⟩⟩
    · next h => exact ⟨fun hh => by simp at hh, fun hh => absurd hh h⟩

variable {α : Type}

/-- Every simplex of positive dimension, less than the one of the skeleton, belongs to a pair. -/
theorem not_unpaired {K : Complex α} (hK : IsFiltration K) (hn : K.length ≤ idxMax) {n D : ℕ}
    (hs : ∀ t : Finset ℕ, Has K t ↔ t.Nonempty ∧ #t ≤ D + 1 ∧ ∀ v ∈ t, v < n) {i : ℕ} (h1 : 1 ≤ dimAt K i) (h2 : dimAt K i < D) :
    ¬ Unpaired (facets K) K.length i := by
  classical
  intro hu
  obtain ⟨r, g1, g2, g3, g4, g5⟩ := C11_is_boundary_matrix .vector K hK hn
  have hlen : r.data.length = K.length := g3
  have hof : ∀ d, ofDim r d = {k ∈ range K.length | dimAt K k = d} := by
    intro d
    unfold ofDim
    rw [hlen]
    exact filter_congr fun k _ => by rw [g5]
  have hcyc := card_cycles_eq g2.valid g2.graded g2.differential (dimAt K i)
  have e1 : cycles r (dimAt K i) = simplicialCycles K (dimAt K i) := by
    unfold cycles simplicialCycles
    rw [hof, g4]
  have e2 : boundariesOf r (dimAt K i + 1) = simplicialBoundaries K (dimAt K i + 1) := by
    unfold boundariesOf simplicialBoundaries
    rw [hof, g4]
  rw [e1, e2, card_simplicialCycles hK.wf hK.closed, card_simplicialBoundaries hK.wf hK.closed] at hcyc
  have hmem : ∀ σ, σ ∈ sets K ↔ Has K σ := fun σ => by
    rw [mem_sets]
    rfl
  have hle : #(setCycles (sets K) (dimAt K i)) ≤ #(setBoundaries (sets K) (dimAt K i)) := by
    refine card_le_card fun z hz => ?_
    refine mem_image.2 ⟨cone z, ?_, setBd_cone h1 hz⟩
    have hch := mem_setChains.1 (mem_filter.1 hz).1
    rw [mem_setChains]
    intro ρ hρ
    obtain ⟨σ, hσ, rfl⟩ := mem_image.1 hρ
    obtain ⟨hσz, h0⟩ := mem_filter.1 hσ
    obtain ⟨k1, k2⟩ := hch σ hσz
    rw [hmem, hs] at k1 ⊢
    have hc : #(insert 0 σ) = dimAt K i + 1 + 1 := by rw [card_insert_of_notMem h0, k2]
    refine ⟨⟨⟨0, by simp⟩, by omega, ?_⟩, hc⟩
    intro v hv
    rcases mem_insert.1 hv with rfl | hv
    · obtain ⟨x, hx⟩ := k1.1
      have := k1.2.2 x hx
      omega
    · exact k1.2.2 v hv
  have hpos : 0 < #(setBoundaries (sets K) (dimAt K i)) := by
    refine card_pos.2 ⟨setBd ∅, mem_image_of_mem _ ?_⟩
    rw [mem_setChains]
    simp
  rw [hcyc] at hle
  have hc1 : 1 ≤ #{u ∈ ofDim r (dimAt K i) | Unpaired (cols r) r.data.length u} := by
    refine card_pos.2 ⟨i, mem_filter.2 ⟨?_, ?_⟩⟩
    · rw [hof]
      exact mem_filter.2 ⟨mem_range.2 hu.1, rfl⟩
    · rw [g4, hlen]
      exact hu
  have : 2 ≤ 2 ^ #{u ∈ ofDim r (dimAt K i) | Unpaired (cols r) r.data.length u} := by
    calc 2 = 2 ^ 1 := by norm_num
      _ ≤ _ := Nat.pow_le_pow_right (by norm_num) hc1
  nlinarith

end Aleph.SimplexSkeleton
