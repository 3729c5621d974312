import Verif.Model.Curvature
import Verif.Spec.Curvature
import Verif.Lemmas.Complex
import Mathlib.Algebra.BigOperators.Group.Finset.Basic
import Mathlib.Data.Finset.Powerset
import Mathlib.Combinatorics.Enumerative.DoubleCounting

/-!
# Lemmas about degrees and curvature
-/

namespace Aleph.Curvature

open Finset Spec

variable {α : Type}

/-! ## Families of sets -/

theorem sets_nodup {K : Complex α} (hK : WF K) : (K.map Simplex.vset).Nodup := by
  refine List.Nodup.map_on ?_ hK.nodup
  intro s hs t ht h
  exact hK.eq_of_vset hs ht h

theorem mem_sets {K : Complex α} {t : Finset ℕ} : t ∈ sets K ↔ ∃ s ∈ K, s.vset = t := by
  simp [sets]

theorem count_sets {K : Complex α} (hK : WF K) (p : Finset ℕ → Prop) [DecidablePred p] :
    K.countP (fun s => p s.vset) = #{t ∈ sets K | p t} := by
  have h1 : K.countP (fun s => p s.vset) = (K.map Simplex.vset).countP (fun t => p t) := by
    rw [List.countP_map]; rfl
  rw [h1, List.countP_eq_length_filter, ← List.toFinset_card_of_nodup ((sets_nodup hK).filter _), List.toFinset_filter]
  simp [sets]

theorem sum_sets {K : Complex α} (hK : WF K) (p : Finset ℕ → Prop) [DecidablePred p] (g : Finset ℕ → ℝ) :
    ((List.filter (fun s => p s.vset) K).map fun s => g s.vset).sum = ∑ t ∈ sets K with p t, g t := by
  have h1 : (List.filter (fun s => p s.vset) K).map (fun s => g s.vset) =
      (((K.map Simplex.vset).filter (fun t => p t)).map g) := by
    rw [List.filter_map, List.map_map]; rfl
  rw [h1, ← List.sum_toFinset g ((sets_nodup hK).filter _), List.toFinset_filter]
  simp [sets]

theorem dim_add_one {K : Complex α} (hK : WF K) {s : Simplex α} (hs : s ∈ K) : Complex.dim s + 1 = #s.vset := by
  unfold Complex.dim Simplex.vset
  rw [← (hK.normal s hs).length_eq]
  have := List.length_pos_of_ne_nil (hK.nonempty s hs)
  omega

theorem range_eq {K : Complex α} (hK : WF K) (p : ℕ) : K.range p = List.filter (fun s => #s.vset = p + 1) K := by
  unfold Complex.range
  apply List.filter_congr
  intro s hs
  have := dim_add_one hK hs
  simp only [beq_eq_decide]
  congr 1
  simp only [eq_iff_iff]
  omega

theorem vset_nonempty {K : Complex α} (hK : WF K) {σ : Finset ℕ} (h : σ ∈ sets K) : σ.Nonempty := by
  obtain ⟨s, hs, rfl⟩ := mem_sets.1 h
  exact hK.vset_nonempty hs

/-! ## Intersection of sorted ranges -/

theorem setIntersection_sublist {β : Type} (lt : β → β → Bool) (l m : List β) : (setIntersection lt l m).Sublist l := by
  fun_induction setIntersection lt l m with
  | case1 => exact List.Sublist.refl _
  | case2 => exact List.nil_sublist _
  | case3 x xs y ys h ih => exact ih.cons x
  | case4 x xs y ys h1 h2 ih => exact ih
  | case5 x xs y ys h1 h2 ih => exact ih.cons_cons x

theorem mem_setIntersection {β : Type} (lt : β → β → Bool) (irr : ∀ x, lt x x = false)
    (tr : ∀ x y z, lt x y = true → lt y z = true → lt x z = true) (tot : ∀ x y, x ≠ y → lt x y = true ∨ lt y x = true)
    (l m : List β) (hl : l.Pairwise fun x y => lt x y = true) (hm : m.Pairwise fun x y => lt x y = true) (z : β) :
    z ∈ setIntersection lt l m ↔ z ∈ l ∧ z ∈ m := by
  fun_induction setIntersection lt l m with
  | case1 => simp
  | case2 => simp
  | case3 x xs y ys h ih =>
    rw [ih (List.pairwise_cons.1 hl).2 hm]
    constructor
    · rintro ⟨h1, h2⟩; exact ⟨List.mem_cons_of_mem _ h1, h2⟩
    · rintro ⟨h1, h2⟩
      refine ⟨?_, h2⟩
      rcases List.mem_cons.1 h1 with rfl | h1
      · exfalso
        rcases List.mem_cons.1 h2 with rfl | h2
        · rw [irr] at h; cases h
        · have := tr _ _ _ h ((List.pairwise_cons.1 hm).1 _ h2)
          rw [irr] at this; cases this
      · exact h1
  | case4 x xs y ys h1 h2 ih =>
    rw [ih hl (List.pairwise_cons.1 hm).2]
    constructor
    · rintro ⟨h3, h4⟩; exact ⟨h3, List.mem_cons_of_mem _ h4⟩
    · rintro ⟨h3, h4⟩
      refine ⟨h3, ?_⟩
      rcases List.mem_cons.1 h4 with rfl | h4
      · exfalso
        rcases List.mem_cons.1 h3 with rfl | h3
        · rw [irr] at h2; cases h2
        · have := tr _ _ _ h2 ((List.pairwise_cons.1 hl).1 _ h3)
          rw [irr] at this; cases this
      · exact h4
  | case5 x xs y ys h1 h2 ih =>
    have hxy : x = y := by
      by_contra hne
      rcases tot x y hne with h | h
      · exact h1 h
      · exact h2 h
    subst hxy
    rw [List.mem_cons, ih (List.pairwise_cons.1 hl).2 (List.pairwise_cons.1 hm).2, List.mem_cons, List.mem_cons]
    constructor
    · rintro (h | ⟨h3, h4⟩)
      · exact ⟨Or.inl h, Or.inl h⟩
      · exact ⟨Or.inr h3, Or.inr h4⟩
    · rintro ⟨h3 | h3, h4 | h4⟩
      · exact Or.inl h3
      · exact Or.inl h3
      · exact Or.inl h4
      · exact Or.inr ⟨h3, h4⟩

theorem lexLt_faces {l : List ℕ} (h : Normal l) {a b : ℕ} (ha : a ∈ l) (hb : b ∈ l) (hab : b < a) :
    Simplex.lexLt (l.filter (· ≠ a)) (l.filter (· ≠ b)) = true := by
  induction l with
  | nil => simp at ha
  | cons x xs ih =>
    have hx := (List.pairwise_cons.1 h).1
    rcases List.mem_cons.1 ha with rfl | ha
    · have hb' : b ∈ xs := by
        rcases List.mem_cons.1 hb with rfl | hb
        · omega
        · exact hb
      have h1 : (a :: xs).filter (· ≠ a) = xs := by
        rw [List.filter_cons]
        simp only [ne_eq, not_true_eq_false, decide_false, Bool.false_eq_true, if_false]
        rw [List.filter_eq_self]
        intro y hy
        have := hx y hy
        simp only [decide_eq_true_eq]
        omega
      have h2 : (a :: xs).filter (· ≠ b) = a :: xs.filter (· ≠ b) := by
        rw [List.filter_cons, if_pos]
        simp only [ne_eq, decide_eq_true_eq]
        omega
      rw [h1, h2]
      cases xs with
      | nil => simp at hb'
      | cons y ys =>
        have := hx y (by simp)
        simp only [Simplex.lexLt]
        rw [if_pos this]
    · have hax := hx a ha
      have hb' : b ∈ xs := by
        rcases List.mem_cons.1 hb with rfl | hb
        · omega
        · exact hb
      have hbx := hx b hb'
      rw [List.filter_cons, List.filter_cons, if_pos, if_pos]
      · simp only [Simplex.lexLt, lt_irrefl, if_false]
        exact ih (List.pairwise_cons.1 h).2 ha hb'
      · simp only [ne_eq, decide_eq_true_eq]; omega
      · simp only [ne_eq, decide_eq_true_eq]; omega

/-- The boundary is enumerated in ascending order. -/
theorem faces_sorted {s : Simplex α} (h : Normal s.vertices) : s.faces.Pairwise fun f g => Simplex.lexLt f g = true := by
  rw [faces_eq h]
  split
  · exact List.Pairwise.nil
  · rw [List.pairwise_map]
    have h2 : s.vertices.Pairwise fun a b => a ∈ s.vertices ∧ b ∈ s.vertices ∧ b < a :=
      List.Pairwise.imp_of_mem (fun ha hb hab => ⟨ha, hb, hab⟩) h
    exact h2.imp fun ⟨ha, hb, hab⟩ => lexLt_faces h ha hb hab

theorem mem_commonBoundary {s t : Simplex α} (hs : Normal s.vertices) (ht : Normal t.vertices) (f : List ℕ) :
    f ∈ commonBoundary s t ↔ f ∈ s.faces ∧ f ∈ t.faces :=
  mem_setIntersection _ lexLt_irrefl (fun _ _ _ => lexLt_trans) (fun _ _ => lexLt_total) _ _ (faces_sorted hs) (faces_sorted ht) f

/-! ## Faces and cofaces -/

theorem mem_facets {σ τ : Finset ℕ} : τ ∈ facetsOf σ ↔ τ ⊆ σ ∧ τ.Nonempty ∧ #τ + 1 = #σ := by
  simp [facetsOf]

theorem mem_cofaces {A : Finset (Finset ℕ)} {σ τ : Finset ℕ} : τ ∈ cofaces A σ ↔ τ ∈ A ∧ σ ⊆ τ ∧ #τ = #σ + 1 := by
  simp [cofaces]

theorem mem_faces_facets {s : Simplex α} (h : Normal s.vertices) (f : List ℕ) :
    f ∈ s.faces ↔ Normal f ∧ f.toFinset ∈ facetsOf s.vset := by
  rw [mem_faces_iff h, mem_facets]
  constructor
  · rintro ⟨h1, h2, h3, h4⟩
    exact ⟨h1, h3, List.toFinset_nonempty_iff _ |>.2 h2, h4⟩
  · rintro ⟨h1, h3, h2, h4⟩
    exact ⟨h1, (List.toFinset_nonempty_iff _).1 h2, h3, h4⟩

theorem faces_toFinset {s : Simplex α} (h : Normal s.vertices) : (s.faces.map List.toFinset).toFinset = facetsOf s.vset := by
  ext τ
  simp only [List.mem_toFinset, List.mem_map]
  constructor
  · rintro ⟨f, hf, rfl⟩
    exact ((mem_faces_facets h f).1 hf).2
  · intro hτ
    exact ⟨vlist τ, (mem_faces_facets h _).2 ⟨vlist_normal τ, by rwa [vlist_toFinset]⟩, vlist_toFinset τ⟩

theorem faces_map_nodup {s : Simplex α} (h : Normal s.vertices) : (s.faces.map List.toFinset).Nodup := by
  refine List.Nodup.map_on ?_ (faces_nodup h)
  intro f hf g hg hfg
  exact (((mem_faces_facets h f).1 hf).1.eq_iff ((mem_faces_facets h g).1 hg).1).2 hfg

theorem common_toFinset {s t : Simplex α} (hs : Normal s.vertices) (ht : Normal t.vertices) :
    ((commonBoundary s t).map List.toFinset).toFinset = facetsOf s.vset ∩ facetsOf t.vset := by
  ext τ
  simp only [List.mem_toFinset, List.mem_map, mem_inter]
  constructor
  · rintro ⟨f, hf, rfl⟩
    rw [mem_commonBoundary hs ht] at hf
    exact ⟨((mem_faces_facets hs f).1 hf.1).2, ((mem_faces_facets ht f).1 hf.2).2⟩
  · rintro ⟨h1, h2⟩
    refine ⟨vlist τ, (mem_commonBoundary hs ht _).2 ⟨(mem_faces_facets hs _).2 ⟨vlist_normal τ, by rwa [vlist_toFinset]⟩,
      (mem_faces_facets ht _).2 ⟨vlist_normal τ, by rwa [vlist_toFinset]⟩⟩, vlist_toFinset τ⟩

theorem common_map_nodup {s t : Simplex α} (hs : Normal s.vertices) :
    ((commonBoundary s t).map List.toFinset).Nodup :=
  (faces_map_nodup hs).sublist ((setIntersection_sublist _ _ _).map _)

theorem common_nonempty {s t : Simplex α} (hs : Normal s.vertices) (ht : Normal t.vertices) :
    (!(commonBoundary s t).isEmpty) = true ↔ (facetsOf s.vset ∩ facetsOf t.vset).Nonempty := by
  rw [← common_toFinset hs ht, List.toFinset_nonempty_iff]
  simp

theorem contains_face {s f : Simplex α} (hs : Normal s.vertices) (hf : Normal f.vertices) (hne : f.vertices ≠ []) :
    s.faces.contains f.vertices = true ↔ f.vset ⊆ s.vset ∧ #s.vset = #f.vset + 1 := by
  rw [List.contains_iff_mem, mem_faces_iff hs]
  change _ ∧ _ ∧ f.vset ⊆ s.vset ∧ #f.vset + 1 = #s.vset ↔ _
  constructor
  · rintro ⟨_, _, h1, h2⟩; exact ⟨h1, h2.symm⟩
  · rintro ⟨h1, h2⟩; exact ⟨hf, hne, h1, h2.symm⟩

theorem facets_card (σ : Finset ℕ) : #(facetsOf σ) = if 2 ≤ #σ then #σ else 0 := by
  split
  · next h =>
    have : facetsOf σ = powersetCard (#σ - 1) σ := by
      ext τ
      rw [mem_facets, mem_powersetCard]
      constructor
      · rintro ⟨h1, h2, h3⟩; exact ⟨h1, by omega⟩
      · rintro ⟨h1, h2⟩
        exact ⟨h1, card_pos.1 (by omega), by omega⟩
    rw [this, card_powersetCard, Nat.choose_symm (by omega), Nat.choose_one_right]
  · next h =>
    rw [card_eq_zero, eq_empty_iff_forall_notMem]
    intro τ hτ
    obtain ⟨_, h2, h3⟩ := mem_facets.1 hτ
    have := h2.card_pos
    omega

theorem facets_nonempty (σ : Finset ℕ) : (facetsOf σ).Nonempty ↔ 2 ≤ #σ := by
  rw [← card_pos, facets_card]
  split <;> omega

/-- Two different sets of equal size have at most one common facet, the intersection. -/
theorem common_facet {σ τ ρ : Finset ℕ} (hne : τ ≠ σ) (hc : #τ = #σ) (h : ρ ∈ facetsOf σ ∩ facetsOf τ) : ρ = σ ∩ τ := by
  obtain ⟨h1, h2⟩ := mem_inter.1 h
  obtain ⟨h1, _, h3⟩ := mem_facets.1 h1
  obtain ⟨h2, _, _⟩ := mem_facets.1 h2
  apply eq_of_subset_of_card_le (subset_inter h1 h2)
  have : #(σ ∩ τ) < #σ := by
    apply card_lt_card
    refine ⟨inter_subset_left, fun h => ?_⟩
    have : σ ⊆ τ := h.trans inter_subset_right
    exact hne (eq_of_subset_of_card_le this hc.le).symm
  omega

/-- They have at most one common coface, the union; then the intersection is a common facet, unless it is empty. -/
theorem common_coface {A : Finset (Finset ℕ)} {σ τ ρ : Finset ℕ} (hne : τ ≠ σ) (hc : #τ = #σ) (h : ρ ∈ cofaces A σ ∩ cofaces A τ) :
    ρ = σ ∪ τ ∧ #(σ ∩ τ) + 1 = #σ := by
  obtain ⟨h1, h2⟩ := mem_inter.1 h
  obtain ⟨_, h1, h3⟩ := mem_cofaces.1 h1
  obtain ⟨_, h2, _⟩ := mem_cofaces.1 h2
  have h4 : #σ < #(σ ∪ τ) := by
    apply card_lt_card
    refine ⟨subset_union_left, fun h => ?_⟩
    have : τ ⊆ σ := subset_union_right.trans h
    exact hne (eq_of_subset_of_card_le this hc.ge)
  have h5 : ρ = σ ∪ τ := (eq_of_subset_of_card_le (union_subset h1 h2) (by omega)).symm
  refine ⟨h5, ?_⟩
  have h6 := card_union_add_card_inter σ τ
  have h7 := congrArg card h5
  omega

theorem common_facets_card {σ τ : Finset ℕ} (hne : τ ≠ σ) (hc : #τ = #σ) :
    #(facetsOf σ ∩ facetsOf τ) = if (facetsOf σ ∩ facetsOf τ).Nonempty then 1 else 0 := by
  split
  · next h =>
    obtain ⟨ρ, hρ⟩ := h
    rw [card_eq_one]
    refine ⟨ρ, ?_⟩
    ext ρ'
    rw [mem_singleton]
    constructor
    · intro h'; rw [common_facet hne hc h', common_facet hne hc hρ]
    · rintro rfl; exact hρ
  · next h => rw [not_nonempty_iff_eq_empty.1 h, card_empty]

theorem common_cofaces_card {A : Finset (Finset ℕ)} {σ τ : Finset ℕ} (hne : τ ≠ σ) (hc : #τ = #σ) :
    #(cofaces A σ ∩ cofaces A τ) = if (cofaces A σ ∩ cofaces A τ).Nonempty then 1 else 0 := by
  split
  · next h =>
    obtain ⟨ρ, hρ⟩ := h
    rw [card_eq_one]
    refine ⟨ρ, ?_⟩
    ext ρ'
    rw [mem_singleton]
    constructor
    · intro h'; rw [(common_coface hne hc h').1, (common_coface hne hc hρ).1]
    · rintro rfl; exact hρ
  · next h => rw [not_nonempty_iff_eq_empty.1 h, card_empty]

theorem facet_of_coface {A : Finset (Finset ℕ)} {σ τ : Finset ℕ} (hne : τ ≠ σ) (hc : #τ = #σ) (h2 : 2 ≤ #σ)
    (h : (cofaces A σ ∩ cofaces A τ).Nonempty) : (facetsOf σ ∩ facetsOf τ).Nonempty := by
  obtain ⟨ρ, hρ⟩ := h
  have h1 := (common_coface hne hc hρ).2
  have h3 : (σ ∩ τ).Nonempty := card_pos.1 (by omega)
  exact ⟨σ ∩ τ, mem_inter.2 ⟨mem_facets.2 ⟨inter_subset_left, h3, h1⟩, mem_facets.2 ⟨inter_subset_right, h3, by omega⟩⟩⟩

/-! ## Counting -/

theorem cofaces_count {K : Complex α} (hK : WF K) {s : Simplex α} (hs : s ∈ K) :
    (K.range (Complex.dim s + 1)).countP (fun t => hasFace t s) = #(cofaces (sets K) s.vset) := by
  rw [range_eq hK, dim_add_one hK hs, List.countP_filter]
  unfold cofaces
  rw [← count_sets hK]
  apply List.countP_congr
  intro t ht
  have := contains_face (hK.normal t ht) (hK.normal s hs) (hK.nonempty s hs)
  simp only [hasFace, Bool.and_eq_true, decide_eq_true_eq, this]
  tauto

theorem parallel_iff {K : Complex α} (hK : WF K) {s t : Simplex α} (hs : s ∈ K) (ht : t ∈ K) :
    parallelNeighbours K s t = true ↔ #t.vset = #s.vset ∧
      ¬ ((facetsOf s.vset ∩ facetsOf t.vset).Nonempty ↔ (cofaces (sets K) s.vset ∩ cofaces (sets K) t.vset).Nonempty) := by
  have h1 := dim_add_one hK hs
  have h2 := dim_add_one hK ht
  unfold parallelNeighbours
  split
  · next h =>
    simp only [Bool.false_eq_true, false_iff, not_and]
    intro h3
    omega
  · next h =>
    have hc : #t.vset = #s.vset := by omega
    have h3 := common_nonempty (hK.normal s hs) (hK.normal t ht)
    have h4 : ((K.range (Complex.dim s + 1)).any fun u => hasFace u s && hasFace u t) = true ↔
        (cofaces (sets K) s.vset ∩ cofaces (sets K) t.vset).Nonempty := by
      rw [List.any_eq_true]
      constructor
      · rintro ⟨u, hu, h5⟩
        rw [range_eq hK, List.mem_filter] at hu
        simp only [Bool.and_eq_true, hasFace] at h5
        rw [contains_face (hK.normal u hu.1) (hK.normal s hs) (hK.nonempty s hs),
          contains_face (hK.normal u hu.1) (hK.normal t ht) (hK.nonempty t ht)] at h5
        have hu' : u.vset ∈ sets K := mem_sets.2 ⟨u, hu.1, rfl⟩
        exact ⟨u.vset, mem_inter.2 ⟨mem_cofaces.2 ⟨hu', h5.1.1, h5.1.2⟩, mem_cofaces.2 ⟨hu', h5.2.1, h5.2.2⟩⟩⟩
      · rintro ⟨ρ, hρ⟩
        obtain ⟨h5, h6⟩ := mem_inter.1 hρ
        obtain ⟨h5, h7, h8⟩ := mem_cofaces.1 h5
        obtain ⟨_, h9, h10⟩ := mem_cofaces.1 h6
        obtain ⟨u, hu, rfl⟩ := mem_sets.1 h5
        refine ⟨u, ?_, ?_⟩
        · rw [range_eq hK, List.mem_filter]
          simp only [decide_eq_true_eq]
          exact ⟨hu, by omega⟩
        · simp only [Bool.and_eq_true, hasFace]
          rw [contains_face (hK.normal u hu) (hK.normal s hs) (hK.nonempty s hs),
            contains_face (hK.normal u hu) (hK.normal t ht) (hK.nonempty t ht)]
          exact ⟨⟨h7, h8⟩, h9, h10⟩
    simp only [hc, true_and]
    rw [bne_iff_ne, ne_eq, Bool.eq_iff_iff, h3, h4]

theorem parallels_count {K : Complex α} (hK : WF K) {s : Simplex α} (hs : s ∈ K) :
    (K.range (Complex.dim s)).countP (fun t => parallelNeighbours K s t) = #(parallels (sets K) s.vset) +
      if (2 ≤ #s.vset ↔ (cofaces (sets K) s.vset).Nonempty) then 0 else 1 := by
  have h0 : (K.range (Complex.dim s)).countP (fun t => parallelNeighbours K s t) = #{τ ∈ sets K | #τ = #s.vset ∧
      ¬ ((facetsOf s.vset ∩ facetsOf τ).Nonempty ↔ (cofaces (sets K) s.vset ∩ cofaces (sets K) τ).Nonempty)} := by
    rw [range_eq hK, dim_add_one hK hs, List.countP_filter, ← count_sets hK]
    apply List.countP_congr
    intro t ht
    rw [Bool.and_eq_true, parallel_iff hK hs ht]
    simp only [decide_eq_true_eq]
    tauto
  rw [h0]
  have hmem : s.vset ∈ sets K := mem_sets.2 ⟨s, hs, rfl⟩
  set P : Finset ℕ → Prop := fun τ => #τ = #s.vset ∧
      ¬ ((facetsOf s.vset ∩ facetsOf τ).Nonempty ↔ (cofaces (sets K) s.vset ∩ cofaces (sets K) τ).Nonempty) with hP
  have hPs : P s.vset ↔ ¬ (2 ≤ #s.vset ↔ (cofaces (sets K) s.vset).Nonempty) := by
    simp only [hP, inter_self, facets_nonempty, true_and]
  have hsplit : {τ ∈ sets K | P τ} = parallels (sets K) s.vset ∪ (if P s.vset then {s.vset} else ∅) := by
    ext τ
    unfold parallels
    split
    · next h =>
      simp only [mem_filter, mem_union, mem_singleton]
      constructor
      · rintro ⟨h1, h2⟩
        by_cases he : τ = s.vset
        · exact Or.inr he
        · exact Or.inl ⟨h1, he, h2⟩
      · rintro (⟨h1, _, h2⟩ | rfl)
        · exact ⟨h1, h2⟩
        · exact ⟨hmem, h⟩
    · next h =>
      simp only [mem_filter, union_empty]
      constructor
      · rintro ⟨h1, h2⟩
        exact ⟨h1, fun he => h (he ▸ h2), h2⟩
      · rintro ⟨h1, _, h2⟩
        exact ⟨h1, h2⟩
  change #{τ ∈ sets K | P τ} = _
  rw [hsplit, card_union_of_disjoint]
  · congr 1
    by_cases h : P s.vset
    · rw [if_pos h, if_neg (hPs.1 h), card_singleton]
    · rw [if_neg h, if_pos (not_not.1 fun h' => h (hPs.2 h')), card_empty]
  · rw [disjoint_left]
    intro τ h1 h2
    split at h2
    · rw [mem_singleton] at h2
      unfold parallels at h1
      rw [mem_filter] at h1
      exact h1.2.1 h2
    · simp at h2

end Aleph.Curvature
