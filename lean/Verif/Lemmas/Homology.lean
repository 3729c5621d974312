import Verif.Spec.Homology
import Verif.Lemmas.Conversions
import Mathlib.Data.Finset.SymmDiff

/-! Homology of families of sets: boundaries of boundaries, elementary collapses, comparison with positions. -/

namespace Aleph

open Finset Spec

/-- The members of a chain that have `τ` as codimension-one face. -/
def cofacesIn (c : Finset (Finset ℕ)) (τ : Finset ℕ) : Finset (Finset ℕ) := {σ ∈ c | τ ⊆ σ ∧ #τ + 1 = #σ}

theorem mem_setBd {c : Finset (Finset ℕ)} {τ : Finset ℕ} :
    τ ∈ setBd c ↔ τ.Nonempty ∧ Odd #(cofacesIn c τ) := by
  unfold setBd cofacesIn
  rw [mem_filter, and_iff_right_iff_imp]
  rintro ⟨_, ho⟩
  obtain ⟨σ, hσ⟩ := card_pos.1 ho.pos
  rw [mem_filter] at hσ
  exact mem_biUnion.2 ⟨σ, hσ.1, mem_powerset.2 hσ.2.1⟩

theorem odd_card_symmDiff {β : Type} [DecidableEq β] (a b : Finset β) :
    Odd #(_root_.symmDiff a b) ↔ (Odd #a ↔ ¬ Odd #b) := by
  have h1 : #(_root_.symmDiff a b) = #(a \ b) + #(b \ a) := by
    rw [symmDiff_def, sup_eq_union, card_union_of_disjoint]
    exact disjoint_sdiff_sdiff
  have h2 := card_sdiff_add_card_inter a b
  have h3 := card_sdiff_add_card_inter b a
  rw [inter_comm b a] at h3
  rw [h1, ← h2, ← h3]
  simp only [Nat.odd_iff]
  omega

theorem cofacesIn_symmDiff (a b : Finset (Finset ℕ)) (τ : Finset ℕ) :
    cofacesIn (_root_.symmDiff a b) τ = _root_.symmDiff (cofacesIn a τ) (cofacesIn b τ) := by
  ext σ
  simp only [cofacesIn, mem_filter, Finset.mem_symmDiff]
  tauto

theorem setBd_symmDiff (a b : Finset (Finset ℕ)) :
    setBd (_root_.symmDiff a b) = _root_.symmDiff (setBd a) (setBd b) := by
  ext τ
  rw [Finset.mem_symmDiff]
  simp only [mem_setBd, cofacesIn_symmDiff, odd_card_symmDiff]
  tauto

theorem setBd_empty : setBd ∅ = ∅ := by simp [setBd]

theorem mem_setBd_singleton {σ τ : Finset ℕ} :
    τ ∈ setBd {σ} ↔ τ.Nonempty ∧ τ ⊆ σ ∧ #τ + 1 = #σ := by
  rw [mem_setBd]
  refine and_congr_right fun _ => ?_
  unfold cofacesIn
  rw [filter_singleton]
  split
  · rename_i h; simp [h]
  · rename_i h; simp [h]

theorem setBd_setBd_singleton (σ : Finset ℕ) : setBd (setBd {σ}) = ∅ := by
  rw [eq_empty_iff_forall_notMem]
  intro τ hτ
  rw [mem_setBd] at hτ
  obtain ⟨hne, ho⟩ := hτ
  have e : cofacesIn (setBd {σ}) τ = if τ ⊆ σ ∧ #τ + 2 = #σ then (σ \ τ).image fun x => insert x τ else ∅ := by
    ext ρ
    simp only [cofacesIn, mem_filter, mem_setBd_singleton]
    constructor
    · rintro ⟨⟨h1, h2, h3⟩, h4, h5⟩
      rw [if_pos ⟨h4.trans h2, by omega⟩]
      have h6 : #(ρ \ τ) = 1 := by rw [card_sdiff_of_subset h4]; omega
      obtain ⟨x, hx⟩ := card_eq_one.1 h6
      have hx' : x ∈ ρ \ τ := by rw [hx]; simp
      rw [mem_sdiff] at hx'
      refine mem_image.2 ⟨x, mem_sdiff.2 ⟨h2 hx'.1, hx'.2⟩, ?_⟩
      rw [insert_eq, ← hx, sdiff_union_of_subset h4]
    · intro h
      split at h
      · rename_i hc
        obtain ⟨x, hx, rfl⟩ := mem_image.1 h
        rw [mem_sdiff] at hx
        have hcard := card_insert_of_notMem hx.2
        exact ⟨⟨⟨x, mem_insert_self _ _⟩, insert_subset hx.1 hc.1, by omega⟩, subset_insert _ _, by omega⟩
      · simp at h
  rw [e] at ho
  split at ho
  · rename_i hc
    rw [card_image_of_injOn, card_sdiff_of_subset hc.1] at ho
    · have : #σ - #τ = 2 := by omega
      rw [this] at ho
      exact absurd ho (by decide)
    · intro x hx y hy hxy
      simp only [coe_sdiff, Set.mem_sdiff, mem_coe] at hx hy
      have : x ∈ insert y τ := by
        have h : insert x τ = insert y τ := hxy
        rw [← h]; exact mem_insert_self _ _
      rcases mem_insert.1 this with h | h
      · exact h
      · exact absurd h hx.2
  · simp at ho

theorem mem_setChains {A c : Finset (Finset ℕ)} {d : ℕ} :
    c ∈ setChains A d ↔ ∀ σ ∈ c, σ ∈ A ∧ #σ = d + 1 := by
  simp [setChains, subset_iff]

theorem setChains_congr {A B : Finset (Finset ℕ)} {d : ℕ}
    (h : ∀ σ, #σ = d + 1 → (σ ∈ A ↔ σ ∈ B)) : setChains A d = setChains B d := by
  ext c
  simp only [mem_setChains]
  constructor
  · intro hc σ hσ; exact ⟨(h σ (hc σ hσ).2).1 (hc σ hσ).1, (hc σ hσ).2⟩
  · intro hc σ hσ; exact ⟨(h σ (hc σ hσ).2).2 (hc σ hσ).1, (hc σ hσ).2⟩

theorem Spec.FreePair.card {A : Finset (Finset ℕ)} (hA : DownClosed A) {σ τ : Finset ℕ} (h : FreePair A σ τ) :
    #τ + 1 = #σ := by
  obtain ⟨h1, h2, h3, h4⟩ := h
  obtain ⟨x, hx, hxt⟩ := exists_of_ssubset h3
  have h5 : insert x τ ∈ A := hA σ h1 _ (insert_subset hx h3.1) ⟨x, mem_insert_self _ _⟩
  rw [← h4 _ h5 (ssubset_insert hxt), card_insert_of_notMem hxt]

theorem Spec.DownClosed.collapse {A : Finset (Finset ℕ)} (hA : DownClosed A) {σ τ : Finset ℕ} (h : FreePair A σ τ) :
    DownClosed ((A.erase σ).erase τ) := by
  intro ρ hρ υ hυ hne
  rw [mem_erase, mem_erase] at hρ
  obtain ⟨hρτ, hρσ, hρA⟩ := hρ
  have hυA := hA ρ hρA υ hυ hne
  rw [mem_erase, mem_erase]
  obtain ⟨h1, h2, h3, h4⟩ := h
  refine ⟨?_, ?_, hυA⟩
  · rintro rfl
    exact hρσ (h4 ρ hρA (lt_of_le_of_ne hυ fun h => hρτ h.symm))
  · rintro rfl
    exact hρσ (h4 ρ hρA (lt_of_lt_of_le h3 hυ))

theorem card_double {β : Type} [DecidableEq β] {W : Finset (Finset β)} {w0 : Finset β} {t : β}
    (ht : t ∈ w0) (hadd : ∀ a ∈ W, _root_.symmDiff a w0 ∈ W) : #W = 2 * #{w ∈ W | t ∉ w} := by
  rw [← card_filter_add_card_filter_not (s := W) (fun w => t ∉ w), two_mul]
  congr 1
  refine card_bij (fun w _ => _root_.symmDiff w w0) ?_ ?_ ?_
  · intro w hw
    rw [mem_filter] at hw ⊢
    exact ⟨hadd w hw.1, by simp [Finset.mem_symmDiff, not_not.1 hw.2, ht]⟩
  · intro a _ b _ hab; exact symmDiff_left_injective w0 hab
  · intro w hw
    rw [mem_filter] at hw
    refine ⟨_root_.symmDiff w w0, ?_, symmDiff_symmDiff_cancel_right _ _⟩
    rw [mem_filter]
    exact ⟨hadd w hw.1, by simp [Finset.mem_symmDiff, hw.2, ht]⟩

/-- An elementary collapse does not change homology. -/
theorem sameHomology_collapse {A : Finset (Finset ℕ)} (hA : DownClosed A) (hne : ∅ ∉ A) {σ τ : Finset ℕ}
    (h : FreePair A σ τ) : SameHomology A ((A.erase σ).erase τ) := by
  have hcard := FreePair.card hA h
  obtain ⟨h1, h2, h3, h4⟩ := h
  set B := (A.erase σ).erase τ with hB
  have hτne : τ.Nonempty := by
    rw [nonempty_iff_ne_empty]; rintro rfl; exact hne h2
  have hmemB : ∀ ρ, ρ ∈ B ↔ ρ ∈ A ∧ ρ ≠ σ ∧ ρ ≠ τ := by
    intro ρ; rw [hB, mem_erase, mem_erase]; tauto
  have hτσ : τ ∈ setBd {σ} := mem_setBd_singleton.2 ⟨hτne, h3.1, hcard⟩
  -- the only coface of `τ`
  have hcof : ∀ c : Finset (Finset ℕ), c ⊆ A → (τ ∈ setBd c ↔ σ ∈ c) := by
    intro c hc
    have : cofacesIn c τ = if σ ∈ c then {σ} else ∅ := by
      ext ρ
      simp only [cofacesIn, mem_filter]
      constructor
      · rintro ⟨g1, g2, g3⟩
        have : ρ = σ := h4 ρ (hc g1) (lt_of_le_of_ne g2 (by rintro rfl; omega))
        subst this
        rw [if_pos g1]; simp
      · intro g
        split at g
        · rw [mem_singleton] at g; subst g
          exact ⟨by assumption, h3.1, hcard⟩
        · simp at g
    rw [mem_setBd, this]
    split
    · rename_i g; simp [g, hτne]
    · rename_i g; simp [g]
  have hsubA : ∀ d c, c ∈ setChains A d → c ⊆ A := fun d c hc ρ hρ => (mem_setChains.1 hc ρ hρ).1
  have hbdA : ∀ ρ ∈ setBd {σ}, ρ ∈ A ∧ #ρ = #τ := by
    intro ρ hρ
    rw [mem_setBd_singleton] at hρ
    exact ⟨hA σ h1 ρ hρ.2.1 hρ.1, by omega⟩
  intro d
  -- dimensions in which the chains agree
  have hsame : ∀ e, e + 1 ≠ #τ → e + 1 ≠ #σ → setChains A e = setChains B e := by
    intro e g1 g2
    apply setChains_congr
    intro ρ hρ
    rw [hmemB]
    refine ⟨fun g => ⟨g, ?_, ?_⟩, fun g => g.1⟩
    · rintro rfl; omega
    · rintro rfl; omega
  by_cases hd1 : d + 1 = #σ
  · -- dimension of `σ`
    have hZ : setCycles A d = setCycles B d := by
      ext c
      simp only [setCycles, mem_filter]
      refine ⟨fun ⟨g1, g2⟩ => ⟨?_, g2⟩, fun ⟨g1, g2⟩ => ⟨?_, g2⟩⟩
      · have hσ : σ ∉ c := by
          rw [← hcof c (hsubA d c g1), g2]; simp
        rw [mem_setChains] at g1 ⊢
        intro ρ hρ
        refine ⟨(hmemB ρ).2 ⟨(g1 ρ hρ).1, by rintro rfl; exact hσ hρ, ?_⟩, (g1 ρ hρ).2⟩
        rintro rfl
        have := (g1 ρ hρ).2
        omega
      · rw [mem_setChains] at g1 ⊢
        exact fun ρ hρ => ⟨((hmemB ρ).1 (g1 ρ hρ).1).1, (g1 ρ hρ).2⟩
    have hBd : setBoundaries A d = setBoundaries B d := by
      unfold setBoundaries; rw [hsame (d + 1) (by omega) (by omega)]
    rw [hZ, hBd]
  by_cases hd2 : d + 1 = #τ
  · -- dimension of `τ`
    have hw0 : setBd {σ} ∈ setChains A d := by
      rw [mem_setChains]
      intro ρ hρ
      have := hbdA ρ hρ
      exact ⟨this.1, by omega⟩
    have hZ : #(setCycles A d) = 2 * #(setCycles B d) := by
      rw [card_double (W := setCycles A d) (w0 := setBd {σ}) (t := τ) hτσ]
      · congr 2
        ext c
        simp only [setCycles, mem_filter, mem_setChains]
        constructor
        · rintro ⟨⟨g1, g2⟩, g3⟩
          refine ⟨fun ρ hρ => ⟨(hmemB ρ).2 ⟨(g1 ρ hρ).1, ?_, ?_⟩, (g1 ρ hρ).2⟩, g2⟩
          · rintro rfl; have := (g1 ρ hρ).2; omega
          · rintro rfl; exact g3 hρ
        · rintro ⟨g1, g2⟩
          refine ⟨⟨fun ρ hρ => ⟨((hmemB ρ).1 (g1 ρ hρ).1).1, (g1 ρ hρ).2⟩, g2⟩, fun g => ?_⟩
          exact ((hmemB τ).1 (g1 τ g).1).2.2 rfl
      · intro c hc
        simp only [setCycles, mem_filter] at hc ⊢
        refine ⟨?_, ?_⟩
        · rw [mem_setChains] at hc hw0 ⊢
          intro ρ hρ
          rcases Finset.mem_symmDiff.1 hρ with g | g
          · exact hc.1 ρ g.1
          · exact hw0 ρ g.1
        · rw [setBd_symmDiff, hc.2, setBd_setBd_singleton]; simp
    have hBd : #(setBoundaries A d) = 2 * #(setBoundaries B d) := by
      have hσc : {σ} ∈ setChains A (d + 1) := by
        rw [mem_setChains]; intro ρ hρ; rw [mem_singleton] at hρ; subst hρ; exact ⟨h1, by omega⟩
      rw [card_double (W := setBoundaries A d) (w0 := setBd {σ}) (t := τ) hτσ]
      · congr 2
        ext b
        simp only [setBoundaries, mem_filter, mem_image]
        constructor
        · rintro ⟨⟨c, g1, rfl⟩, g2⟩
          rw [hcof c (hsubA _ c g1)] at g2
          refine ⟨c, ?_, rfl⟩
          rw [mem_setChains] at g1 ⊢
          refine fun ρ hρ => ⟨(hmemB ρ).2 ⟨(g1 ρ hρ).1, ?_, ?_⟩, (g1 ρ hρ).2⟩
          · rintro rfl; exact g2 hρ
          · rintro rfl; have := (g1 ρ hρ).2; omega
        · rintro ⟨c, g1, rfl⟩
          have g1' : c ∈ setChains A (d + 1) := by
            rw [mem_setChains] at g1 ⊢
            exact fun ρ hρ => ⟨((hmemB ρ).1 (g1 ρ hρ).1).1, (g1 ρ hρ).2⟩
          refine ⟨⟨c, g1', rfl⟩, ?_⟩
          rw [hcof c (hsubA _ c g1')]
          intro g
          exact ((hmemB σ).1 (mem_setChains.1 g1 σ g).1).2.1 rfl
      · intro b hb
        obtain ⟨c, hc, rfl⟩ := mem_image.1 hb
        refine mem_image.2 ⟨_root_.symmDiff c {σ}, ?_, setBd_symmDiff _ _⟩
        rw [mem_setChains] at hc hσc ⊢
        intro ρ hρ
        rcases Finset.mem_symmDiff.1 hρ with g | g
        · exact hc ρ g.1
        · exact hσc ρ g.1
    rw [hZ, hBd]; ring
  -- remaining dimensions
  have hZ : setCycles A d = setCycles B d := by
    unfold setCycles; rw [hsame d hd2 hd1]
  have hBd : setBoundaries A d = setBoundaries B d := by
    by_cases hd3 : d + 1 + 1 = #τ
    · ext b
      simp only [setBoundaries, mem_image]
      constructor
      · rintro ⟨c, g1, rfl⟩
        by_cases hτc : τ ∈ c
        · refine ⟨_root_.symmDiff c (setBd {σ}), ?_, by rw [setBd_symmDiff, setBd_setBd_singleton]; simp⟩
          rw [mem_setChains] at g1 ⊢
          intro ρ hρ
          have hρ' : ρ ∈ A ∧ #ρ = d + 1 + 1 := by
            rcases Finset.mem_symmDiff.1 hρ with g | g
            · exact g1 ρ g.1
            · have := hbdA ρ g.1
              exact ⟨this.1, by omega⟩
          refine ⟨(hmemB ρ).2 ⟨hρ'.1, ?_, ?_⟩, hρ'.2⟩
          · rintro rfl; omega
          · rintro rfl
            rcases Finset.mem_symmDiff.1 hρ with g | g
            · exact g.2 hτσ
            · exact g.2 hτc
        · refine ⟨c, ?_, rfl⟩
          rw [mem_setChains] at g1 ⊢
          refine fun ρ hρ => ⟨(hmemB ρ).2 ⟨(g1 ρ hρ).1, ?_, ?_⟩, (g1 ρ hρ).2⟩
          · rintro rfl; have := (g1 ρ hρ).2; omega
          · rintro rfl; exact hτc hρ
      · rintro ⟨c, g1, rfl⟩
        refine ⟨c, ?_, rfl⟩
        rw [mem_setChains] at g1 ⊢
        exact fun ρ hρ => ⟨((hmemB ρ).1 (g1 ρ hρ).1).1, (g1 ρ hρ).2⟩
    · unfold setBoundaries; rw [hsame (d + 1) hd3 (by omega)]
  rw [hZ, hBd]

theorem setBoundaries_pos (A : Finset (Finset ℕ)) (d : ℕ) : 0 < #(setBoundaries A d) :=
  card_pos.2 ⟨setBd ∅, mem_image_of_mem _ (by simp [mem_setChains])⟩

theorem Spec.SameHomology.trans {A B C : Finset (Finset ℕ)} (h : SameHomology A B) (h' : SameHomology B C) :
    SameHomology A C := by
  intro d
  have h1 := h d
  have h2 := h' d
  have h3 := setBoundaries_pos B d
  apply Nat.eq_of_mul_eq_mul_right h3
  calc #(setCycles A d) * #(setBoundaries C d) * #(setBoundaries B d)
      = #(setCycles A d) * #(setBoundaries B d) * #(setBoundaries C d) := by ring
    _ = #(setCycles B d) * #(setBoundaries C d) * #(setBoundaries A d) := by rw [h1]; ring
    _ = #(setCycles C d) * #(setBoundaries A d) * #(setBoundaries B d) := by rw [h2]; ring

theorem Spec.Collapses.spec {A B : Finset (Finset ℕ)} (h : Collapses A B) (hA : DownClosed A) (hne : ∅ ∉ A) :
    DownClosed B ∧ B ⊆ A ∧ SameHomology A B := by
  induction h with
  | refl A => exact ⟨hA, Subset.refl _, fun d => rfl⟩
  | step h _ ih =>
    obtain ⟨i1, i2, i3⟩ := ih (hA.collapse h) (fun g => hne (mem_of_mem_erase (mem_of_mem_erase g)))
    exact ⟨i1, i2.trans ((erase_subset _ _).trans (erase_subset _ _)), (sameHomology_collapse hA hne h).trans i3⟩

theorem Spec.Collapses.trans {A B C : Finset (Finset ℕ)} (h : Collapses A B) (h' : Collapses B C) :
    Collapses A C := by
  induction h with
  | refl A => exact h'
  | step h _ ih => exact .step h (ih h')

/-! ### Comparison with chains of positions -/

variable {α : Type}

theorem mem_sets {K : Complex α} {σ : Finset ℕ} : σ ∈ sets K ↔ ∃ s ∈ K, s.vset = σ := by
  simp [sets]

theorem mem_sets_iff_at {K : Complex α} {σ : Finset ℕ} : σ ∈ sets K ↔ ∃ i < K.length, vsetAt K i = σ := by
  rw [mem_sets]
  constructor
  · rintro ⟨s, hs, rfl⟩
    obtain ⟨i, hi, rfl⟩ := List.getElem_of_mem hs
    exact ⟨i, hi, vsetAt_some (List.getElem?_eq_getElem hi)⟩
  · rintro ⟨i, hi, rfl⟩
    exact ⟨K[i], List.getElem_mem hi, (vsetAt_some (List.getElem?_eq_getElem hi)).symm⟩

theorem downClosed_sets {K : Complex α} : DownClosed (sets K) ↔ FaceClosed K := by
  unfold DownClosed FaceClosed
  simp only [mem_sets]
  constructor
  · intro h s hs t ht hne
    exact h s.vset ⟨s, hs, rfl⟩ t ht hne
  · rintro h σ ⟨s, hs, rfl⟩ t ht hne
    exact h s hs t ht hne

theorem empty_notMem_sets {K : Complex α} (hK : WF K) : ∅ ∉ sets K := by
  rw [mem_sets]
  rintro ⟨s, hs, he⟩
  have := hK.vset_nonempty hs
  rw [he] at this
  simp at this

/-- The simplices at a set of positions. -/
def atPositions (K : Complex α) (c : Finset ℕ) : Finset (Finset ℕ) := c.image (vsetAt K)

theorem atPositions_injOn {K : Complex α} (hK : WF K) {c c' : Finset ℕ} (hc : c ⊆ range K.length)
    (hc' : c' ⊆ range K.length) (h : atPositions K c = atPositions K c') : c = c' := by
  have key : ∀ {c c' : Finset ℕ}, c ⊆ range K.length → c' ⊆ range K.length →
      atPositions K c = atPositions K c' → c ⊆ c' := by
    intro c c' hc hc' h i hi
    have : vsetAt K i ∈ atPositions K c' := by rw [← h]; exact mem_image_of_mem _ hi
    obtain ⟨j, hj, he⟩ := mem_image.1 this
    have := vsetAt_inj hK (mem_range.1 (hc' hj)) (mem_range.1 (hc hi)) he
    subst this; exact hj
  exact Subset.antisymm (key hc hc' h) (key hc' hc h.symm)

theorem setBd_atPositions {K : Complex α} (hK : WF K) (hc : FaceClosed K) {c : Finset ℕ} (hcs : c ⊆ range K.length) :
    setBd (atPositions K c) = atPositions K (chainBd (facets K) c) := by
  have hcard : ∀ i < K.length, #(cofacesIn (atPositions K c) (vsetAt K i)) = #{k ∈ c | i ∈ facets K k} := by
    intro i hi
    symm
    refine card_bij (fun k _ => vsetAt K k) ?_ ?_ ?_
    · intro k hk
      rw [mem_filter] at hk
      obtain ⟨h1, h2⟩ := hk
      simp only [facets, mem_filter, mem_range] at h2
      exact mem_filter.2 ⟨mem_image_of_mem _ h1, h2.2⟩
    · intro k hk k' hk' he
      rw [mem_filter] at hk hk'
      exact vsetAt_inj hK (mem_range.1 (hcs hk.1)) (mem_range.1 (hcs hk'.1)) he
    · intro σ hσ
      obtain ⟨h1, h2⟩ := mem_filter.1 hσ
      obtain ⟨k, hk, rfl⟩ := mem_image.1 h1
      refine ⟨k, mem_filter.2 ⟨hk, ?_⟩, rfl⟩
      simp only [facets, mem_filter, mem_range]
      exact ⟨hi, h2⟩
  ext τ
  rw [mem_setBd]
  constructor
  · rintro ⟨hne, ho⟩
    obtain ⟨σ, hσ⟩ := card_pos.1 ho.pos
    obtain ⟨h1, h2⟩ := mem_filter.1 hσ
    obtain ⟨k, hk, rfl⟩ := mem_image.1 h1
    have hmem : τ ∈ sets K := downClosed_sets.2 hc _ (mem_sets_iff_at.2 ⟨k, mem_range.1 (hcs hk), rfl⟩) τ h2.1 hne
    obtain ⟨i, hi, rfl⟩ := mem_sets_iff_at.1 hmem
    rw [hcard i hi] at ho
    refine mem_image_of_mem _ ?_
    unfold chainBd
    rw [mem_filter]
    refine ⟨?_, ho⟩
    obtain ⟨k, hk⟩ := card_pos.1 ho.pos
    rw [mem_filter] at hk
    exact mem_biUnion.2 ⟨k, hk.1, hk.2⟩
  · intro h
    obtain ⟨i, hi, rfl⟩ := mem_image.1 h
    unfold chainBd at hi
    rw [mem_filter] at hi
    obtain ⟨h1, ho⟩ := hi
    obtain ⟨k, hk, hik⟩ := mem_biUnion.1 h1
    simp only [facets, mem_filter, mem_range] at hik
    rw [hcard i hik.1]
    exact ⟨vsetAt_nonempty hK hik.1, ho⟩

theorem mem_positions_dim {K : Complex α} (hK : WF K) {c : Finset ℕ} {d : ℕ} :
    c ∈ ({k ∈ range K.length | dimAt K k = d} : Finset ℕ).powerset ↔
      c ⊆ range K.length ∧ atPositions K c ∈ setChains (sets K) d := by
  rw [mem_powerset, mem_setChains]
  have hdim : ∀ k < K.length, (dimAt K k = d ↔ #(vsetAt K k) = d + 1) := by
    intro k hk
    have := (vsetAt_nonempty hK hk).card_pos
    unfold dimAt; omega
  constructor
  · intro h
    refine ⟨h.trans (filter_subset _ _), ?_⟩
    intro σ hσ
    obtain ⟨k, hk, rfl⟩ := mem_image.1 hσ
    have := mem_filter.1 (h hk)
    rw [mem_range] at this
    exact ⟨mem_sets_iff_at.2 ⟨k, this.1, rfl⟩, (hdim k this.1).1 this.2⟩
  · rintro ⟨h1, h2⟩ k hk
    have hk' := mem_range.1 (h1 hk)
    exact mem_filter.2 ⟨h1 hk, (hdim k hk').2 (h2 _ (mem_image_of_mem _ hk)).2⟩

theorem exists_positions {K : Complex α} {c : Finset (Finset ℕ)} (h : c ⊆ sets K) :
    ∃ c' ⊆ range K.length, atPositions K c' = c := by
  refine ⟨{k ∈ range K.length | vsetAt K k ∈ c}, filter_subset _ _, ?_⟩
  ext σ
  simp only [atPositions, mem_image, mem_filter, mem_range]
  constructor
  · rintro ⟨k, ⟨_, h⟩, rfl⟩; exact h
  · intro hσ
    obtain ⟨k, hk, rfl⟩ := mem_sets_iff_at.1 (h hσ)
    exact ⟨k, ⟨hk, hσ⟩, rfl⟩

theorem card_simplicialCycles {K : Complex α} (hK : WF K) (hc : FaceClosed K) (d : ℕ) :
    #(simplicialCycles K d) = #(setCycles (sets K) d) := by
  have hnil : atPositions K ∅ = ∅ := by simp [atPositions]
  refine card_bij (fun c _ => atPositions K c) ?_ ?_ ?_
  · intro c h
    obtain ⟨h1, h2⟩ := mem_filter.1 h
    rw [mem_positions_dim hK] at h1
    refine mem_filter.2 ⟨h1.2, ?_⟩
    rw [setBd_atPositions hK hc h1.1, h2, hnil]
  · intro c h c' h' he
    exact atPositions_injOn hK ((mem_positions_dim hK).1 (mem_filter.1 h).1).1
      ((mem_positions_dim hK).1 (mem_filter.1 h').1).1 he
  · intro c h
    obtain ⟨h1, h2⟩ := mem_filter.1 h
    obtain ⟨c', hc', rfl⟩ := exists_positions (K := K) (c := c) fun σ hσ => (mem_setChains.1 h1 σ hσ).1
    refine ⟨c', mem_filter.2 ⟨(mem_positions_dim hK).2 ⟨hc', h1⟩, ?_⟩, rfl⟩
    rw [setBd_atPositions hK hc hc'] at h2
    exact image_eq_empty.1 h2

theorem card_simplicialBoundaries {K : Complex α} (hK : WF K) (hc : FaceClosed K) (d : ℕ) :
    #(simplicialBoundaries K (d + 1)) = #(setBoundaries (sets K) d) := by
  have hlt : ∀ c : Finset ℕ, chainBd (facets K) c ⊆ range K.length := by
    intro c i hi
    unfold chainBd at hi
    rw [mem_filter] at hi
    obtain ⟨k, _, hik⟩ := mem_biUnion.1 hi.1
    simp only [facets, mem_filter] at hik
    exact hik.1
  refine card_bij (fun c _ => atPositions K c) ?_ ?_ ?_
  · intro b h
    obtain ⟨c, hc', rfl⟩ := mem_image.1 h
    rw [mem_positions_dim hK] at hc'
    rw [← setBd_atPositions hK hc hc'.1]
    exact mem_image_of_mem _ hc'.2
  · intro b h b' h' he
    obtain ⟨c, _, rfl⟩ := mem_image.1 h
    obtain ⟨c', _, rfl⟩ := mem_image.1 h'
    exact atPositions_injOn hK (hlt c) (hlt c') he
  · intro b h
    obtain ⟨c, h1, rfl⟩ := mem_image.1 h
    obtain ⟨c', hc', rfl⟩ := exists_positions (K := K) (c := c) fun σ hσ => (mem_setChains.1 h1 σ hσ).1
    refine ⟨chainBd (facets K) c', mem_image_of_mem _ ((mem_positions_dim hK).2 ⟨hc', h1⟩), ?_⟩
    exact (setBd_atPositions hK hc hc').symm

end Aleph
