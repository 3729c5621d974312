import Verif.Model.Intersections
import Verif.Spec.Rips
import Verif.Lemmas.Complex
import Verif.Props.Spine

/-!
# Properties of intersections of simplices with simplicial complexes
-/

namespace Aleph.Intersections

open Spec

variable {α : Type}

theorem intersect_toFinset (s t : List ℕ) : (Spine.intersect s t).toFinset = s.toFinset ∩ t.toFinset := by
  ext v
  unfold Spine.intersect
  rw [List.mem_toFinset, Finset.mem_inter, List.mem_toFinset, List.mem_toFinset]
  have := (mem_ofRange (α := Unit) (vs := s.filter fun v => t.contains v) (d := ()) (v := v))
  unfold Simplex.ofRange at this
  rw [this, List.mem_filter]
  simp

theorem intersect_normal (s t : List ℕ) : Normal (Spine.intersect s t) := ofRange_normal (α := Unit) (s.filter fun v => t.contains v) ()

theorem collect_aux (s : List ℕ) (range : List (Simplex α)) (acc : List (List ℕ)) (hn : acc.Nodup) :
    (range.foldl (fun simplices t =>
      let u := Spine.intersect s t.vertices
      if u.isEmpty then simplices else simplices.insert u) acc).Nodup ∧
    ∀ u, u ∈ range.foldl (fun simplices t =>
      let u := Spine.intersect s t.vertices
      if u.isEmpty then simplices else simplices.insert u) acc ↔ u ∈ acc ∨ ∃ t ∈ range, u ≠ [] ∧ u = Spine.intersect s t.vertices := by
  induction range generalizing acc with
  | nil => exact ⟨hn, by simp⟩
  | cons t range ih =>
    rw [List.foldl_cons]
    by_cases he : (Spine.intersect s t.vertices).isEmpty = true
    · have := ih acc hn
      simp only [if_pos he]
      refine ⟨this.1, fun u => ?_⟩
      rw [this.2]
      refine or_congr_right ⟨?_, ?_⟩
      · rintro ⟨t', h1, h2⟩
        exact ⟨t', List.mem_cons_of_mem _ h1, h2⟩
      · rintro ⟨t', h1, h2, h3⟩
        rcases List.mem_cons.1 h1 with rfl | h1
        · exact absurd (h3.trans (List.isEmpty_iff.1 he)) h2
        · exact ⟨t', h1, h2, h3⟩
    · have := ih (acc.insert (Spine.intersect s t.vertices)) (hn.insert)
      simp only [if_neg he]
      refine ⟨this.1, fun u => ?_⟩
      rw [this.2, List.mem_insert_iff]
      constructor
      · rintro ((h | h) | ⟨t', h1, h2⟩)
        · exact Or.inr ⟨t, List.mem_cons_self .., fun h' => he (by rw [← h, h']; rfl), h⟩
        · exact Or.inl h
        · exact Or.inr ⟨t', List.mem_cons_of_mem _ h1, h2⟩
      · rintro (h | ⟨t', h1, h2, h3⟩)
        · exact Or.inl (Or.inr h)
        · rcases List.mem_cons.1 h1 with rfl | h1
          · exact Or.inl (Or.inl h3)
          · exact Or.inr ⟨t', h1, h2, h3⟩

theorem mem_collect (s : List ℕ) (range : List (Simplex α)) (u : List ℕ) :
    u ∈ collect s range ↔ ∃ t ∈ range, u ≠ [] ∧ u = Spine.intersect s t.vertices := by
  unfold collect
  rw [(collect_aux s range [] List.nodup_nil).2]
  simp

theorem dim_le {s t : Simplex α} (hs : Normal s.vertices) (ht : Normal t.vertices) (h : t.vset ⊆ s.vset) : Complex.dim t ≤ s.vertices.length - 1 := by
  unfold Complex.dim
  have := Finset.card_le_card h
  unfold Simplex.vset at this
  rw [← hs.length_eq, ← ht.length_eq] at this
  omega

/-- C107. The intersection of a non-empty simplex with a simplicial complex is a set of faces of the simplex which belong to the complex and generate
everything that the complex and the simplex have in common.  If the simplex belongs to the complex, it is the only element. -/
theorem _root_.Aleph.C107_intersect (K : Complex α) (hK : WF K) (hc : FaceClosed K) (s : Simplex α) (hs : Normal s.vertices) (hne : s.vertices ≠ []) :
    ∃ R, intersect K s = some R ∧ R.Nodup ∧ (∀ r ∈ R, Normal r) ∧
      (∀ r ∈ R, r.toFinset ⊆ s.vset ∧ Has K r.toFinset) ∧
      (∀ u : Finset ℕ, u ⊆ s.vset → Has K u → ∃ r ∈ R, u ⊆ r.toFinset) ∧
      (Has K s.vset → R = [s.vertices]) := by
  unfold intersect
  cases hf : K.find s.vertices with
  | some t =>
    obtain ⟨ht, hv⟩ := find_some hf
    refine ⟨_, rfl, by simp, ?_, ?_, ?_, ?_⟩
    · intro r hr
      rw [List.mem_singleton] at hr
      rw [hr]
      exact hK.normal t ht
    · intro r hr
      rw [List.mem_singleton] at hr
      rw [hr]
      refine ⟨?_, t, ht, rfl⟩
      rw [hv]
      exact subset_refl _
    · intro u hu _
      refine ⟨_, List.mem_singleton_self _, ?_⟩
      rw [hv]
      exact hu
    · intro _
      rw [hv]
  | none =>
    have hno : ¬ Has K s.vset := by
      rintro ⟨t, ht, hv⟩
      have h1 : K.contains s.vertices = true := contains_iff.2 ⟨t, ht, (hK.normal t ht).eq_iff hs |>.2 hv⟩
      unfold Complex.contains at h1
      rw [hf] at h1
      exact absurd h1 (by simp)
    have hd : s.dimension = some (s.vertices.length - 1) := by
      unfold Simplex.dimension
      rw [if_neg (by simpa using hne)]
    simp only [hd]
    refine ⟨_, rfl, (collect_aux _ _ [] List.nodup_nil).1, ?_, ?_, ?_, fun h => absurd h hno⟩
    · intro r hr
      obtain ⟨t, _, _, rfl⟩ := (mem_collect _ _ _).1 hr
      exact intersect_normal _ _
    · intro r hr
      obtain ⟨t, ht, hr0, rfl⟩ := (mem_collect _ _ _).1 hr
      rw [intersect_toFinset]
      refine ⟨Finset.inter_subset_left, ?_⟩
      refine hc t (List.mem_filter.1 ht).1 _ Finset.inter_subset_right ?_
      rw [← intersect_toFinset, List.toFinset_nonempty_iff]
      exact hr0
    · rintro u hu ⟨t, ht, rfl⟩
      have hcap : (Spine.intersect s.vertices t.vertices).toFinset = t.vset := by
        rw [intersect_toFinset]
        exact Finset.inter_eq_right.2 hu
      refine ⟨Spine.intersect s.vertices t.vertices, (mem_collect _ _ _).2 ⟨t, List.mem_filter.2 ⟨ht, ?_⟩, ?_, rfl⟩, hcap.symm.subset⟩
      · simpa using dim_le hs (hK.normal t ht) hu
      · rw [← List.toFinset_nonempty_iff, hcap]
        exact hK.vset_nonempty ht

/-- C107. The empty simplex meets nothing in an empty complex; otherwise the program is terminated. -/
theorem _root_.Aleph.C107_empty (K : Complex α) (hK : WF K) (s : Simplex α) (hs : s.vertices = []) :
    intersect K s = (if K = [] then some [] else none) ∧ intersectConstrained K s = none := by
  have hd : s.dimension = none := by
    unfold Simplex.dimension
    rw [hs]
    rfl
  constructor
  · unfold intersect
    cases hf : K.find s.vertices with
    | some t =>
      obtain ⟨ht, hv⟩ := find_some hf
      exact absurd (hv.trans hs) (hK.nonempty t ht)
    | none =>
      simp only [hd]
      exact if_congr (by rw [List.isEmpty_iff]) rfl rfl
  · unfold intersectConstrained
    rw [hd]

/-- C108. The intersection with constrained dimension consists of faces of the simplex that belong to the complex; it generates the part that the
simplex has in common with those simplices of the complex that have the *same* dimension.  Missing: simplices of smaller dimension that are no faces of
those are ignored. -/
theorem _root_.Aleph.C108_constrained_partial (K : Complex α) (hK : WF K) (hc : FaceClosed K) (s : Simplex α) (hs : Normal s.vertices) (hne : s.vertices ≠ []) :
    ∃ R, intersectConstrained K s = some R ∧ R.Nodup ∧
      (∀ r ∈ R, r.toFinset ⊆ s.vset ∧ Has K r.toFinset) ∧
      ∀ u : Finset ℕ, u.Nonempty → ((∃ r ∈ R, u ⊆ r.toFinset) ↔ u ⊆ s.vset ∧ ∃ t, Has K t ∧ t.card = s.vset.card ∧ u ⊆ t) := by
  unfold intersectConstrained
  have hd : s.dimension = some (s.vertices.length - 1) := by
    unfold Simplex.dimension
    rw [if_neg (by simpa using hne)]
  have hpos : 0 < s.vertices.length := List.length_pos_of_ne_nil hne
  have hmem : ∀ t : Simplex α, t ∈ K.range (s.vertices.length - 1) ↔ t ∈ K ∧ t.vset.card = s.vset.card := by
    intro t
    unfold Complex.range
    rw [List.mem_filter]
    refine and_congr_right fun ht => ?_
    have h1 : t.vset.card = t.vertices.length := (hK.normal t ht).length_eq.symm
    have h2 : s.vset.card = s.vertices.length := hs.length_eq.symm
    have h3 : 0 < t.vertices.length := List.length_pos_of_ne_nil (hK.nonempty t ht)
    rw [h1, h2, beq_iff_eq]
    unfold Complex.dim
    omega
  rw [hd]
  refine ⟨_, rfl, (collect_aux _ _ [] List.nodup_nil).1, ?_, ?_⟩
  · intro r hr
    obtain ⟨t, ht, hr0, rfl⟩ := (mem_collect _ _ _).1 hr
    rw [intersect_toFinset]
    refine ⟨Finset.inter_subset_left, ?_⟩
    refine hc t ((hmem t).1 ht).1 _ Finset.inter_subset_right ?_
    rw [← intersect_toFinset, List.toFinset_nonempty_iff]
    exact hr0
  · intro u hu
    constructor
    · rintro ⟨r, hr, hur⟩
      obtain ⟨t, ht, hr0, rfl⟩ := (mem_collect _ _ _).1 hr
      rw [intersect_toFinset] at hur
      exact ⟨hur.trans Finset.inter_subset_left, t.vset, ⟨t, ((hmem t).1 ht).1, rfl⟩, ((hmem t).1 ht).2, hur.trans Finset.inter_subset_right⟩
    · rintro ⟨h1, _, ⟨t, ht, rfl⟩, h2, h3⟩
      have hcap : u ⊆ (Spine.intersect s.vertices t.vertices).toFinset := by
        rw [intersect_toFinset]
        exact Finset.subset_inter h1 h3
      refine ⟨Spine.intersect s.vertices t.vertices, (mem_collect _ _ _).2 ⟨t, (hmem t).2 ⟨ht, h2⟩, ?_, rfl⟩, hcap⟩
      rw [← List.toFinset_nonempty_iff]
      exact hu.mono hcap

/-- C108. A triangle meets the complex of one of its edges, but the intersection with constrained dimension is empty. -/
theorem _root_.Aleph.C108_missed :
    let K : Complex ℕ := [⟨[0], 0⟩, ⟨[1], 0⟩, ⟨[1, 0], 0⟩]
    let s : Simplex ℕ := ⟨[2, 1, 0], 0⟩
    intersectConstrained K s = some [] ∧ ∃ R, intersect K s = some R ∧ [1, 0] ∈ R := by
  refine ⟨by decide, _, rfl, by decide⟩

/-- An edge that meets a path of two edges in one edge and in a vertex: hypotheses are satisfied. -/
example : WF ([⟨[0], 0⟩, ⟨[1], 0⟩, ⟨[1, 0], 0⟩] : Complex ℕ) ∧ FaceClosed ([⟨[0], 0⟩, ⟨[1], 0⟩, ⟨[1, 0], 0⟩] : Complex ℕ) ∧
    Normal (⟨[2, 1, 0], 0⟩ : Simplex ℕ).vertices := by
  have hn : ∀ s ∈ ([⟨[0], 0⟩, ⟨[1], 0⟩, ⟨[1, 0], 0⟩] : Complex ℕ), Normal s.vertices := by
    unfold Normal
    decide
  exact ⟨⟨hn, by decide, by decide⟩, Closed1.faceClosed hn (closed1_iff.2 (by decide)), by unfold Normal; decide⟩

end Aleph.Intersections
