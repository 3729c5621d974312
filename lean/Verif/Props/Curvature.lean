import Verif.Lemmas.Curvature
import Verif.Spec.Euler
import Verif.Props.Kahan
import Mathlib.Tactic.Linarith
import Mathlib.Tactic.Ring
import Mathlib.Tactic.FieldSimp
import Mathlib.Tactic.Positivity
import Mathlib.Algebra.Order.BigOperators.Group.Finset
import Mathlib.Algebra.Order.AbsoluteValue.Basic

/-!
# Forman's combinatorial curvature
-/

namespace Aleph.Curvature

open Finset Spec

variable {α : Type}

theorem ofInt_sub (w : ℕ) (y z : ℤ) : BitVec.ofInt w (y - z) = BitVec.ofInt w y - BitVec.ofInt w z := by
  have h : BitVec.ofInt w (y - z) + BitVec.ofInt w z = BitVec.ofInt w y := by
    rw [← BitVec.ofInt_add, sub_add_cancel]
  rw [← h, BitVec.add_sub_cancel]

theorem ofInt_arith (w a b c : ℕ) : BitVec.ofNat w a + BitVec.ofNat w b - BitVec.ofNat w c = BitVec.ofInt w (a + b - c) := by
  have h1 : ∀ n : ℕ, BitVec.ofNat w n = BitVec.ofInt w n := fun n => (BitVec.ofInt_natCast w n).symm
  rw [h1, h1, h1, ← BitVec.ofInt_add, ← ofInt_sub]

/-- C80. Partial: the curvature of all simplices of dimension `p > 0` is Forman's curvature for simplices that have a coface; for the others,
it is too small by one since they count as their own parallel neighbours.  Values are those of an unsigned type with `w` bits. -/
theorem _root_.Aleph.C80_curvature_partial (w : ℕ) (K : Complex α) (hK : WF K) (p : ℕ) (hp : 0 < p) :
    curvature w K p = (List.filter (fun s => #s.vset = p + 1) K).map fun s =>
      BitVec.ofInt w (if (cofaces (sets K) s.vset).Nonempty then forman (sets K) s.vset else forman (sets K) s.vset - 1) := by
  unfold curvature
  rw [range_eq hK]
  apply List.map_congr_left
  intro s hs
  obtain ⟨hs, hc⟩ := List.mem_filter.1 hs
  have hc : #s.vset = p + 1 := of_decide_eq_true hc
  simp only
  rw [ofInt_arith, cofaces_count hK hs, parallels_count hK hs]
  congr 1
  have h2 : 2 ≤ #s.vset := by omega
  have h3 : s.size = #s.vset := (hK.normal s hs).length_eq
  have h4 : #(facetsOf s.vset) = #s.vset := by rw [facets_card, if_pos h2]
  unfold forman
  by_cases h : (cofaces (sets K) s.vset).Nonempty
  · rw [if_pos (by simp [h2, h]), if_pos h, h3, h4]; simp
  · rw [if_neg (by simp [h2, h]), if_neg h, h3, h4]
    push_cast
    ring

/-- C80. For vertices (which have no faces), the curvature is one instead of zero if there is no edge at the vertex. -/
theorem _root_.Aleph.C80_vertices (w : ℕ) (K : Complex α) (hK : WF K) :
    curvature w K 0 = (List.filter (fun s => #s.vset = 1) K).map fun s =>
      BitVec.ofInt w (if (cofaces (sets K) s.vset).Nonempty then forman (sets K) s.vset else forman (sets K) s.vset + 1) := by
  unfold curvature
  rw [range_eq hK]
  apply List.map_congr_left
  intro s hs
  obtain ⟨hs, hc⟩ := List.mem_filter.1 hs
  have hc : #s.vset = 0 + 1 := of_decide_eq_true hc
  simp only
  rw [ofInt_arith, cofaces_count hK hs, parallels_count hK hs]
  congr 1
  have h3 : s.size = #s.vset := (hK.normal s hs).length_eq
  have h4 : #(facetsOf s.vset) = 0 := by rw [facets_card, if_neg (by omega)]
  unfold forman
  by_cases h : (cofaces (sets K) s.vset).Nonempty
  · rw [if_neg (by simp [hc, h]), if_pos h, h3, h4, hc]; push_cast; ring
  · rw [if_pos (by simp [hc, h]), if_neg h, h3, h4, hc]; push_cast; ring

/-- C80. The curvature is Forman's curvature for all simplices of a dimension if and only if each of them has a coface. -/
theorem _root_.Aleph.C80_correct_iff (w : ℕ) (hw : 0 < w) (K : Complex α) (hK : WF K) (p : ℕ) :
    curvature w K p = (List.filter (fun s => #s.vset = p + 1) K).map (fun s => BitVec.ofInt w (forman (sets K) s.vset)) ↔
      ∀ s ∈ K, #s.vset = p + 1 → (cofaces (sets K) s.vset).Nonempty := by
  have hone : BitVec.ofInt w 1 ≠ 0#w := by
    intro h
    have h2 := congrArg BitVec.toNat h
    have h3 : BitVec.ofInt w 1 = BitVec.ofNat w 1 := BitVec.ofInt_natCast w 1
    rw [h3, BitVec.toNat_ofNat, BitVec.toNat_ofNat, Nat.mod_eq_of_lt (Nat.one_lt_two_pow (by omega))] at h2
    simp at h2
  have hne2 : ∀ z : ℤ, BitVec.ofInt w (z + 1) ≠ BitVec.ofInt w z := by
    intro z h
    rw [BitVec.ofInt_add] at h
    have : BitVec.ofInt w z + BitVec.ofInt w 1 - BitVec.ofInt w z = BitVec.ofInt w 1 := by
      rw [BitVec.add_comm, BitVec.add_sub_cancel]
    rw [h, BitVec.sub_self] at this
    exact hone this.symm
  have hne : ∀ z : ℤ, BitVec.ofInt w (z - 1) ≠ BitVec.ofInt w z ∧ BitVec.ofInt w (z + 1) ≠ BitVec.ofInt w z :=
    fun z => ⟨fun h => hne2 (z - 1) (by rw [sub_add_cancel]; exact h.symm), hne2 z⟩
  rcases Nat.eq_zero_or_pos p with rfl | hp
  · rw [C80_vertices w K hK, List.map_inj_left]
    constructor
    · intro h s hs hc
      have := h s (List.mem_filter.2 ⟨hs, decide_eq_true hc⟩)
      by_contra hn
      rw [if_neg hn] at this
      exact (hne _).2 this
    · intro h s hs
      obtain ⟨hs, hc⟩ := List.mem_filter.1 hs
      rw [if_pos (h s hs (of_decide_eq_true hc))]
  · rw [C80_curvature_partial w K hK p hp, List.map_inj_left]
    constructor
    · intro h s hs hc
      have := h s (List.mem_filter.2 ⟨hs, decide_eq_true hc⟩)
      by_contra hn
      rw [if_neg hn] at this
      exact (hne _).1 this
    · intro h s hs
      obtain ⟨hs, hc⟩ := List.mem_filter.1 hs
      rw [if_pos (h s hs (of_decide_eq_true hc))]

theorem facets_pair {σ : Finset ℕ} (h : #σ = 2) {ρ : Finset ℕ} : ρ ∈ facetsOf σ ↔ ∃ x ∈ σ, ρ = {x} := by
  rw [mem_facets]
  constructor
  · rintro ⟨h1, h2, h3⟩
    have : #ρ = 1 := by omega
    obtain ⟨x, rfl⟩ := card_eq_one.1 this
    exact ⟨x, h1 (mem_singleton_self x), rfl⟩
  · rintro ⟨x, hx, rfl⟩
    exact ⟨singleton_subset_iff.2 hx, singleton_nonempty x, by rw [card_singleton, h]⟩

/-- Forman's curvature of an edge of a graph: four minus the degrees of its vertices. -/
theorem forman_graph (A : Finset (Finset ℕ)) (hA : ∀ τ ∈ A, #τ ≤ 2) (σ : Finset ℕ) (hσ : σ ∈ A) (h2 : #σ = 2) :
    forman A σ = 4 - ∑ v ∈ σ, (degree A v : ℤ) ∧ ¬ (cofaces A σ).Nonempty := by
  have hco : cofaces A σ = ∅ := by
    rw [eq_empty_iff_forall_notMem]
    intro τ hτ
    obtain ⟨h1, _, h3⟩ := mem_cofaces.1 hτ
    have := hA τ h1
    omega
  refine ⟨?_, by rw [hco]; simp⟩
  obtain ⟨u, v, huv, rfl⟩ := card_eq_two.1 h2
  have hdeg : ∀ x, x ∈ ({u, v} : Finset ℕ) → degree A x = #{τ ∈ A | τ ≠ {u, v} ∧ x ∈ τ ∧ #τ = 2} + 1 := by
    intro x hx
    unfold degree
    have : {τ ∈ A | x ∈ τ ∧ 2 ≤ #τ} = insert {u, v} {τ ∈ A | τ ≠ {u, v} ∧ x ∈ τ ∧ #τ = 2} := by
      ext τ
      simp only [mem_filter, mem_insert]
      constructor
      · rintro ⟨h3, h4, h5⟩
        have := hA τ h3
        by_cases he : τ = {u, v}
        · exact Or.inl he
        · exact Or.inr ⟨h3, he, h4, by omega⟩
      · rintro (rfl | ⟨h3, h4, h5, h6⟩)
        · exact ⟨hσ, hx, h2.ge⟩
        · exact ⟨h3, h5, h6.ge⟩
    rw [this, card_insert_of_notMem (by simp)]
  have hpar : parallels A {u, v} = {τ ∈ A | τ ≠ {u, v} ∧ u ∈ τ ∧ #τ = 2} ∪ {τ ∈ A | τ ≠ {u, v} ∧ v ∈ τ ∧ #τ = 2} := by
    ext τ
    unfold parallels
    rw [hco]
    simp only [empty_inter, mem_filter, mem_union, h2, Finset.not_nonempty_empty, iff_false, not_not]
    have hx : #τ = 2 → ((facetsOf {u, v} ∩ facetsOf τ).Nonempty ↔ u ∈ τ ∨ v ∈ τ) := by
      intro hτ
      constructor
      · rintro ⟨ρ, hρ⟩
        obtain ⟨h3, h4⟩ := mem_inter.1 hρ
        obtain ⟨x, hx, rfl⟩ := (facets_pair h2).1 h3
        obtain ⟨y, hy, hxy⟩ := (facets_pair hτ).1 h4
        rw [singleton_inj] at hxy
        subst hxy
        rcases mem_insert.1 hx with rfl | hx
        · exact Or.inl hy
        · rw [mem_singleton] at hx
          subst hx
          exact Or.inr hy
      · rintro (h | h)
        · exact ⟨{u}, mem_inter.2 ⟨(facets_pair h2).2 ⟨u, by simp, rfl⟩, (facets_pair hτ).2 ⟨u, h, rfl⟩⟩⟩
        · exact ⟨{v}, mem_inter.2 ⟨(facets_pair h2).2 ⟨v, by simp, rfl⟩, (facets_pair hτ).2 ⟨v, h, rfl⟩⟩⟩
    constructor
    · rintro ⟨h3, h4, h5, h6⟩
      rcases (hx h5).1 h6 with h | h
      · exact Or.inl ⟨h3, h4, h, h5⟩
      · exact Or.inr ⟨h3, h4, h, h5⟩
    · rintro (⟨h3, h4, h, h5⟩ | ⟨h3, h4, h, h5⟩)
      · exact ⟨h3, h4, h5, (hx h5).2 (Or.inl h)⟩
      · exact ⟨h3, h4, h5, (hx h5).2 (Or.inr h)⟩
  have hdisj : Disjoint {τ ∈ A | τ ≠ {u, v} ∧ u ∈ τ ∧ #τ = 2} {τ ∈ A | τ ≠ {u, v} ∧ v ∈ τ ∧ #τ = 2} := by
    rw [disjoint_left]
    intro τ h3 h4
    rw [mem_filter] at h3 h4
    apply h3.2.1
    symm
    apply eq_of_subset_of_card_le
    · intro x hx
      rcases mem_insert.1 hx with rfl | hx
      · exact h3.2.2.1
      · rw [mem_singleton.1 hx]; exact h4.2.2.1
    · rw [h2, h3.2.2.2]
  unfold forman
  rw [hco, hpar, card_union_of_disjoint hdisj, sum_pair huv, hdeg u (by simp), hdeg v (by simp), facets_card, if_pos h2.ge, h2]
  push_cast
  simp only [card_empty]
  push_cast
  ring

/-- C80. In a graph, the curvature of each edge is three minus the degrees of its vertices.  Forman's curvature is four minus the degrees. -/
theorem _root_.Aleph.C80_graph (w : ℕ) (K : Complex α) (hK : WF K) (hdim : ∀ s ∈ K, #s.vset ≤ 2) :
    (curvature w K 1 = (List.filter (fun s => #s.vset = 2) K).map fun s =>
      BitVec.ofInt w (3 - ∑ v ∈ s.vset, (degree (sets K) v : ℤ))) ∧
    ∀ s ∈ K, #s.vset = 2 → forman (sets K) s.vset = 4 - ∑ v ∈ s.vset, (degree (sets K) v : ℤ) := by
  have hA : ∀ τ ∈ sets K, #τ ≤ 2 := by
    intro τ hτ
    obtain ⟨s, hs, rfl⟩ := mem_sets.1 hτ
    exact hdim s hs
  have hf := fun (s : Simplex α) (hs : s ∈ K) (h2 : #s.vset = 2) => forman_graph (sets K) hA s.vset (mem_sets.2 ⟨s, hs, rfl⟩) h2
  refine ⟨?_, fun s hs h2 => (hf s hs h2).1⟩
  rw [C80_curvature_partial w K hK 1 Nat.one_pos]
  apply List.map_congr_left
  intro s hs
  obtain ⟨hs, hc⟩ := List.mem_filter.1 hs
  obtain ⟨h1, h2⟩ := hf s hs (of_decide_eq_true hc)
  rw [if_neg h2, h1]
  congr 1
  ring

/-- A path with three vertices: all hypotheses hold, both edges have curvature one but get zero. -/
example : curvature 32 ([⟨[0], ()⟩, ⟨[1], ()⟩, ⟨[2], ()⟩, ⟨[1, 0], ()⟩, ⟨[2, 1], ()⟩] : Complex Unit) 1 = [0#32, 0#32] ∧
    (∀ s ∈ ([⟨[0], ()⟩, ⟨[1], ()⟩, ⟨[2], ()⟩, ⟨[1, 0], ()⟩, ⟨[2, 1], ()⟩] : Complex Unit), #s.vset ≤ 2) := by
  decide +kernel

/-! ## Weights -/

theorem accumulateSorted_eq (l : List ℝ) : Kahan.accumulateSorted l 0 = l.sum := by
  rw [(C49_accumulate_sorted l l (List.Perm.refl l) 0).1, zero_add]

theorem sum_flatMap {β : Type} (L : List β) (f : β → List ℝ) : (L.flatMap f).sum = (L.map fun x => (f x).sum).sum := by
  induction L with
  | nil => simp
  | cons x L ih => rw [List.flatMap_cons, List.sum_append, ih, List.map_cons, List.sum_cons]

/-- The neighbours of a simplex in its dimension. -/
abbrev others (A : Finset (Finset ℕ)) (σ : Finset ℕ) : Finset (Finset ℕ) := {τ ∈ A | τ ≠ σ ∧ #τ = #σ}

section Weighted

variable {K : Complex ℝ} (hK : WF K) (hcl : FaceClosed K) (wt : Finset ℕ → ℝ) (hwt : ∀ s ∈ K, wt s.vset = s.data)

include hK hcl hwt

theorem find_face {f : List ℕ} {s : Simplex ℝ} (hs : s ∈ K) (hf : f ∈ s.faces) :
    ∃ t ∈ K, K.find f = some t ∧ t.data = wt f.toFinset := by
  obtain ⟨h1, h2⟩ := (mem_faces_facets (hK.normal s hs) f).1 hf
  obtain ⟨h2, h3, _⟩ := mem_facets.1 h2
  obtain ⟨t, ht, he⟩ := hcl s hs _ h2 h3
  have hv : t.vertices = f := ((hK.normal t ht).eq_iff h1).2 he
  refine ⟨t, ht, ?_, ?_⟩
  · rw [← hv]; exact hK.find_eq ht
  · rw [← he]; exact (hwt t ht).symm

theorem faces_weights {s : Simplex ℝ} (hs : s ∈ K) :
    ((s.faces.filterMap fun f => K.find f).map fun f => f.data / s.data).sum = ∑ τ ∈ facetsOf s.vset, wt τ / wt s.vset := by
  have h1 : ∀ l : List (List ℕ), (∀ f ∈ l, f ∈ s.faces) →
      (l.filterMap fun f => K.find f).map (fun f => f.data / s.data) = (l.map List.toFinset).map fun τ => wt τ / wt s.vset := by
    intro l hl
    induction l with
    | nil => rfl
    | cons f l ih =>
      obtain ⟨t, _, h2, h3⟩ := find_face hK hcl wt hwt hs (hl f (by simp))
      rw [List.filterMap_cons_some h2, List.map_cons, ih fun g hg => hl g (by simp [hg]), h3, hwt s hs]
      rfl
  rw [h1 s.faces fun _ h => h, ← List.sum_toFinset _ (faces_map_nodup (hK.normal s hs)), faces_toFinset (hK.normal s hs)]

theorem common_weights {s t : Simplex ℝ} (hs : s ∈ K) (ht : t ∈ K) (hc : #t.vset = #s.vset) (c : ℝ) :
    ∃ l, commonFaces K t s = some l ∧ (l.map fun f => f.data / c).sum = ∑ τ ∈ facetsOf s.vset ∩ facetsOf t.vset, wt τ / c := by
  have h0 : ¬ Complex.dim t ≠ Complex.dim s := by
    have := dim_add_one hK hs
    have := dim_add_one hK ht
    omega
  have h1 : ∀ l : List (List ℕ), (∀ f ∈ l, f ∈ s.faces) → ∃ m : List (Simplex ℝ), (l.mapM fun f => K.find f) = some m ∧
      m.map (fun f => f.data / c) = (l.map List.toFinset).map fun τ => wt τ / c := by
    intro l hl
    induction l with
    | nil => exact ⟨[], rfl, rfl⟩
    | cons f l ih =>
      obtain ⟨u, _, h2, h3⟩ := find_face hK hcl wt hwt hs (hl f (by simp))
      obtain ⟨m, h4, h5⟩ := ih fun g hg => hl g (by simp [hg])
      refine ⟨u :: m, ?_, ?_⟩
      · rw [List.mapM_cons, h2, h4]; rfl
      · rw [List.map_cons, h5, h3]; rfl
  obtain ⟨m, h2, h3⟩ := h1 (commonBoundary t s) fun f hf =>
    ((mem_commonBoundary (hK.normal t ht) (hK.normal s hs) f).1 hf).2
  refine ⟨m, ?_, ?_⟩
  · unfold commonFaces
    rw [if_neg h0]
    exact h2
  · rw [h3, ← List.sum_toFinset _ (common_map_nodup (hK.normal t ht)), common_toFinset (hK.normal t ht) (hK.normal s hs), inter_comm]

omit hcl in
theorem coface_weights {s : Simplex ℝ} (hs : s ∈ K) :
    ((((K.range (Complex.dim s + 1)).filter fun u => u.faces.contains s.vertices).map fun u => s.data / u.data).sum) =
      ∑ τ ∈ cofaces (sets K) s.vset, wt s.vset / wt τ := by
  rw [range_eq hK, dim_add_one hK hs, List.filter_filter]
  unfold cofaces
  rw [← sum_sets hK]
  have h1 : List.filter (fun u => u.faces.contains s.vertices && decide (#u.vset = #s.vset + 1)) K =
      List.filter (fun u => decide (s.vset ⊆ u.vset ∧ #u.vset = #s.vset + 1)) K := by
    apply List.filter_congr
    intro u hu
    rw [Bool.eq_iff_iff, Bool.and_eq_true, contains_face (hK.normal u hu) (hK.normal s hs) (hK.nonempty s hs)]
    simp only [decide_eq_true_eq]
    tauto
  rw [h1]
  congr 1
  apply List.map_congr_left
  intro u hu
  rw [hwt s hs, hwt u (List.mem_filter.1 hu).1]

omit hcl in
theorem common_coface_weights {s t : Simplex ℝ} (hs : s ∈ K) (ht : t ∈ K) (hc : #t.vset = #s.vset) (c : ℝ) :
    ((commonCofaces K t s).map fun u => c / u.data).sum = ∑ τ ∈ cofaces (sets K) s.vset ∩ cofaces (sets K) t.vset, c / wt τ := by
  have h0 : ¬ Complex.dim t ≠ Complex.dim s := by
    have := dim_add_one hK hs
    have := dim_add_one hK ht
    omega
  unfold commonCofaces
  rw [if_neg h0, range_eq hK, dim_add_one hK ht, List.filter_filter]
  have h2 : cofaces (sets K) s.vset ∩ cofaces (sets K) t.vset =
      {τ ∈ sets K | (s.vset ⊆ τ ∧ #τ = #s.vset + 1) ∧ t.vset ⊆ τ ∧ #τ = #t.vset + 1} := by
    ext τ
    simp only [mem_inter, mem_cofaces, mem_filter]
    tauto
  rw [h2, ← sum_sets hK]
  have h1 : List.filter (fun u => (u.faces.contains t.vertices && u.faces.contains s.vertices) && decide (#u.vset = #t.vset + 1)) K =
      List.filter (fun u => decide ((s.vset ⊆ u.vset ∧ #u.vset = #s.vset + 1) ∧ t.vset ⊆ u.vset ∧ #u.vset = #t.vset + 1)) K := by
    apply List.filter_congr
    intro u hu
    rw [Bool.eq_iff_iff, Bool.and_eq_true, Bool.and_eq_true, contains_face (hK.normal u hu) (hK.normal s hs) (hK.nonempty s hs),
      contains_face (hK.normal u hu) (hK.normal t ht) (hK.nonempty t ht)]
    simp only [decide_eq_true_eq]
    tauto
  rw [h1]
  congr 1
  apply List.map_congr_left
  intro u hu
  rw [hwt u (List.mem_filter.1 hu).1]

/-- The two sums over the neighbours of a simplex. -/
theorem neighbourWeights_sum {s : Simplex ℝ} (hs : s ∈ K) : ∃ N, neighbourWeights K s = some N ∧
    (N.flatMap (·.1)).sum = ∑ σ' ∈ others (sets K) s.vset,
      ∑ τ ∈ cofaces (sets K) s.vset ∩ cofaces (sets K) σ', √(wt s.vset * wt σ') / wt τ ∧
    (N.flatMap (·.2)).sum = ∑ σ' ∈ others (sets K) s.vset,
      ∑ τ ∈ facetsOf s.vset ∩ facetsOf σ', wt τ / √(wt s.vset * wt σ') := by
  have h1 : ∀ l : List (Simplex ℝ), (∀ t ∈ l, t ∈ K ∧ #t.vset = #s.vset) → ∃ N : List (List ℝ × List ℝ),
      (l.mapM fun t => do
        let cofaces := commonCofaces K t s
        let faces ← commonFaces K t s
        let weight := √(s.data * t.data)
        some (cofaces.map fun u => weight / u.data, faces.map fun f => f.data / weight)) = some N ∧
      (N.map fun x => x.1.sum) = l.map (fun t =>
        ∑ τ ∈ cofaces (sets K) s.vset ∩ cofaces (sets K) t.vset, √(wt s.vset * wt t.vset) / wt τ) ∧
      (N.map fun x => x.2.sum) = l.map (fun t => ∑ τ ∈ facetsOf s.vset ∩ facetsOf t.vset, wt τ / √(wt s.vset * wt t.vset)) := by
    intro l hl
    induction l with
    | nil => exact ⟨[], rfl, rfl, rfl⟩
    | cons t l ih =>
      obtain ⟨N, h2, h3, h4⟩ := ih fun u hu => hl u (by simp [hu])
      obtain ⟨ht, hc⟩ := hl t (by simp)
      obtain ⟨m, h5, h6⟩ := common_weights hK hcl wt hwt hs ht hc √(wt s.vset * wt t.vset)
      refine ⟨((commonCofaces K t s).map fun u => √(s.data * t.data) / u.data, m.map fun f => f.data / √(s.data * t.data)) :: N, ?_, ?_, ?_⟩
      · rw [List.mapM_cons, h5, h2]; rfl
      · rw [List.map_cons, List.map_cons, h3, ← hwt s hs, ← hwt t ht, common_coface_weights hK wt hwt hs ht hc]
      · rw [List.map_cons, List.map_cons, h4, ← hwt s hs, ← hwt t ht, h6]
  have hfil : (K.range (Complex.dim s)).filter (fun t => !t.eq s) = List.filter (fun t => decide (t.vset ≠ s.vset ∧ #t.vset = #s.vset)) K := by
    rw [range_eq hK, dim_add_one hK hs, List.filter_filter]
    apply List.filter_congr
    intro t ht
    rw [Bool.eq_iff_iff, Bool.and_eq_true]
    have h2 : (t.eq s = true) ↔ t.vset = s.vset := by
      unfold Simplex.eq
      rw [beq_iff_eq]
      exact (hK.normal t ht).eq_iff (hK.normal s hs)
    simp only [Bool.not_eq_true', decide_eq_true_eq, ne_eq, ← h2, Bool.not_eq_true]
  obtain ⟨N, h2, h3, h4⟩ := h1 ((K.range (Complex.dim s)).filter fun t => !t.eq s) (by
    intro t ht
    rw [hfil, List.mem_filter] at ht
    simp only [decide_eq_true_eq] at ht
    exact ⟨ht.1, ht.2.2⟩)
  refine ⟨N, h2, ?_, ?_⟩
  · rw [sum_flatMap, h3, hfil, ← sum_sets hK]
  · rw [sum_flatMap, h4, hfil, ← sum_sets hK]

/-- The value of the weighted curvature. -/
theorem weighted_value (p : ℕ) :
    weightedCurvature K p = some ((List.filter (fun s => #s.vset = p + 1) K).map fun s =>
      wt s.vset * (∑ τ ∈ cofaces (sets K) s.vset, wt s.vset / wt τ + ∑ τ ∈ facetsOf s.vset, wt τ / wt s.vset -
        |∑ σ' ∈ others (sets K) s.vset,
          (∑ τ ∈ cofaces (sets K) s.vset ∩ cofaces (sets K) σ', √(wt s.vset * wt σ') / wt τ -
            ∑ τ ∈ facetsOf s.vset ∩ facetsOf σ', wt τ / √(wt s.vset * wt σ'))|)) := by
  unfold weightedCurvature
  rw [range_eq hK]
  have h1 : ∀ l : List (Simplex ℝ), (∀ s ∈ l, s ∈ K) → (l.mapM fun s => do
      let weightsCofaces := ((K.range (Complex.dim s + 1)).filter fun u => u.faces.contains s.vertices).map fun u => s.data / u.data
      let weightsFaces := (s.faces.filterMap fun f => K.find f).map fun f => f.data / s.data
      let neighbours ← neighbourWeights K s
      let s11 := Kahan.accumulateSorted weightsCofaces 0
      let s12 := Kahan.accumulateSorted weightsFaces 0
      let s21 := Kahan.accumulateSorted (neighbours.flatMap (·.1)) 0
      let s22 := Kahan.accumulateSorted (neighbours.flatMap (·.2)) 0
      some (s.data * ((s11 + s12) - |s21 - s22|))) = some (l.map fun s =>
      wt s.vset * (∑ τ ∈ cofaces (sets K) s.vset, wt s.vset / wt τ + ∑ τ ∈ facetsOf s.vset, wt τ / wt s.vset -
        |∑ σ' ∈ others (sets K) s.vset,
          (∑ τ ∈ cofaces (sets K) s.vset ∩ cofaces (sets K) σ', √(wt s.vset * wt σ') / wt τ -
            ∑ τ ∈ facetsOf s.vset ∩ facetsOf σ', wt τ / √(wt s.vset * wt σ'))|)) := by
    intro l hl
    induction l with
    | nil => rfl
    | cons s l ih =>
      have hs := hl s (by simp)
      obtain ⟨N, h2, h3, h4⟩ := neighbourWeights_sum hK hcl wt hwt hs
      rw [List.mapM_cons, ih fun u hu => hl u (by simp [hu]), h2]
      simp only [Option.bind_eq_bind, Option.bind_some, accumulateSorted_eq, h3, h4, coface_weights hK wt hwt hs,
        faces_weights hK hcl wt hwt hs, sum_sub_distrib, List.map_cons]
      rw [hwt s hs]
      rfl
  exact h1 _ fun s hs => (List.mem_filter.1 hs).1

end Weighted

/-- C81. Partial: for positive weights, the weighted curvature of each simplex is at least Forman's weighted curvature.  (Forman takes absolute
values of the differences for all neighbours, the code the absolute value of their sum.) -/
theorem _root_.Aleph.C81_weighted_partial (K : Complex ℝ) (hK : WF K) (hcl : FaceClosed K) (hpos : ∀ s ∈ K, 0 < s.data)
    (wt : Finset ℕ → ℝ) (hwt : ∀ s ∈ K, wt s.vset = s.data) (p : ℕ) :
    ∃ c : Simplex ℝ → ℝ, weightedCurvature K p = some ((List.filter (fun s => #s.vset = p + 1) K).map c) ∧
      ∀ s ∈ K, #s.vset = p + 1 → formanWeighted (sets K) wt s.vset ≤ c s := by
  refine ⟨_, weighted_value hK hcl wt hwt p, ?_⟩
  intro s hs _
  unfold formanWeighted
  apply mul_le_mul_of_nonneg_left _ (by rw [hwt s hs]; exact (hpos s hs).le)
  have := abs_sum_le_sum_abs (fun σ' => ∑ τ ∈ cofaces (sets K) s.vset ∩ cofaces (sets K) σ', √(wt s.vset * wt σ') / wt τ -
            ∑ τ ∈ facetsOf s.vset ∩ facetsOf σ', wt τ / √(wt s.vset * wt σ')) (others (sets K) s.vset)
  linarith

/-- C81. It is Forman's weighted curvature if there are no simplices of the next dimension; in particular for the edges of graphs. -/
theorem _root_.Aleph.C81_top (K : Complex ℝ) (hK : WF K) (hcl : FaceClosed K) (hpos : ∀ s ∈ K, 0 < s.data)
    (wt : Finset ℕ → ℝ) (hwt : ∀ s ∈ K, wt s.vset = s.data) (p : ℕ) (hp : ∀ s ∈ K, #s.vset ≤ p + 1) :
    weightedCurvature K p = some ((List.filter (fun s => #s.vset = p + 1) K).map fun s => formanWeighted (sets K) wt s.vset) := by
  rw [weighted_value hK hcl wt hwt p]
  congr 1
  apply List.map_congr_left
  intro s hs
  obtain ⟨hs, hc⟩ := List.mem_filter.1 hs
  have hc : #s.vset = p + 1 := of_decide_eq_true hc
  have hco : cofaces (sets K) s.vset = ∅ := by
    rw [eq_empty_iff_forall_notMem]
    intro τ hτ
    obtain ⟨h1, _, h3⟩ := mem_cofaces.1 hτ
    obtain ⟨t, ht, rfl⟩ := mem_sets.1 h1
    have := hp t ht
    omega
  have hnn : ∀ τ ∈ sets K, 0 < wt τ := by
    intro τ hτ
    obtain ⟨t, ht, rfl⟩ := mem_sets.1 hτ
    rw [hwt t ht]
    exact hpos t ht
  unfold formanWeighted
  simp only [hco, empty_inter, sum_empty, zero_sub, abs_neg, sum_neg_distrib]
  congr 2
  have hterm : ∀ σ' ∈ others (sets K) s.vset, 0 ≤ ∑ τ ∈ facetsOf s.vset ∩ facetsOf σ', wt τ / √(wt s.vset * wt σ') := by
    intro σ' _
    apply sum_nonneg
    intro τ hτ
    obtain ⟨h1, h2, _⟩ := mem_facets.1 (mem_inter.1 hτ).1
    obtain ⟨t, ht, he⟩ := hcl s hs τ h1 h2
    apply div_nonneg _ (Real.sqrt_nonneg _)
    exact (hnn τ (mem_sets.2 ⟨t, ht, he⟩)).le
  rw [abs_of_nonneg (sum_nonneg hterm)]
  apply sum_congr rfl
  intro σ' hσ'
  rw [abs_of_nonneg (hterm σ' hσ')]

/-- C81. If all weights are one, it is Forman's curvature in all dimensions. -/
theorem _root_.Aleph.C81_unit (K : Complex ℝ) (hK : WF K) (hcl : FaceClosed K) (h1 : ∀ s ∈ K, s.data = 1) (p : ℕ) :
    weightedCurvature K p = some ((List.filter (fun s => #s.vset = p + 1) K).map fun s => (forman (sets K) s.vset : ℝ)) := by
  rw [weighted_value hK hcl (fun _ => 1) (fun s hs => (h1 s hs).symm) p]
  congr 1
  apply List.map_congr_left
  intro s hs
  obtain ⟨hs, hc⟩ := List.mem_filter.1 hs
  have hc : #s.vset = p + 1 := of_decide_eq_true hc
  simp only [one_mul, mul_one, Real.sqrt_one, div_one, sum_const, nsmul_eq_mul]
  have hsum : |∑ σ' ∈ others (sets K) s.vset, ((#(cofaces (sets K) s.vset ∩ cofaces (sets K) σ') : ℝ) - #(facetsOf s.vset ∩ facetsOf σ'))| =
      #(parallels (sets K) s.vset) := by
    have hpar : parallels (sets K) s.vset = {σ' ∈ others (sets K) s.vset |
        ¬ ((facetsOf s.vset ∩ facetsOf σ').Nonempty ↔ (cofaces (sets K) s.vset ∩ cofaces (sets K) σ').Nonempty)} := by
      unfold parallels
      ext τ
      simp only [mem_filter]
      tauto
    rw [hpar, card_filter]
    push_cast
    rcases Nat.lt_or_ge (#s.vset) 2 with h2 | h2
    · have hf : facetsOf s.vset = ∅ := by
        rw [← not_nonempty_iff_eq_empty, facets_nonempty]; omega
      rw [abs_of_nonneg]
      · apply sum_congr rfl
        intro σ' hσ'
        obtain ⟨_, h3, h4⟩ := mem_filter.1 hσ'
        rw [common_cofaces_card h3 h4, hf, empty_inter]
        by_cases hn : (cofaces (sets K) s.vset ∩ cofaces (sets K) σ').Nonempty
        · rw [if_pos hn, if_pos (by simp [hn])]; simp
        · rw [if_neg hn, if_neg (by simp [hn])]; simp
      · apply sum_nonneg
        intro σ' _
        rw [hf, empty_inter]
        simp
    · rw [← abs_neg, ← sum_neg_distrib]
      have hterm : ∀ σ' ∈ others (sets K) s.vset, -((#(cofaces (sets K) s.vset ∩ cofaces (sets K) σ') : ℝ) - #(facetsOf s.vset ∩ facetsOf σ')) =
          if ¬ ((facetsOf s.vset ∩ facetsOf σ').Nonempty ↔ (cofaces (sets K) s.vset ∩ cofaces (sets K) σ').Nonempty) then 1 else 0 := by
        intro σ' hσ'
        obtain ⟨_, h3, h4⟩ := mem_filter.1 hσ'
        have h5 := facet_of_coface (A := sets K) h3 h4 h2
        rw [common_cofaces_card h3 h4, common_facets_card h3 h4]
        by_cases hn : (cofaces (sets K) s.vset ∩ cofaces (sets K) σ').Nonempty
        · rw [if_pos hn, if_pos (h5 hn), if_neg (by simp [hn, h5 hn])]; simp
        · by_cases hm : (facetsOf s.vset ∩ facetsOf σ').Nonempty
          · rw [if_neg hn, if_pos hm, if_pos (by simp [hn, hm])]; simp
          · rw [if_neg hn, if_neg hm, if_neg (by simp [hn, hm])]; simp
      rw [sum_congr rfl hterm, abs_of_nonneg]
      apply sum_nonneg
      intro σ' _
      split <;> norm_num
  rw [hsum]
  unfold forman
  push_cast
  ring

/-- A triangle of weight one half with an additional edge; all other weights are one. -/
noncomputable def flag : Complex ℝ :=
  [⟨[0], 1⟩, ⟨[1], 1⟩, ⟨[2], 1⟩, ⟨[3], 1⟩, ⟨[1, 0], 1⟩, ⟨[2, 0], 1⟩, ⟨[2, 1], 1⟩, ⟨[3, 0], 1⟩, ⟨[2, 1, 0], 1 / 2⟩]

/-- The weights of `flag`. -/
noncomputable def flagWeight (σ : Finset ℕ) : ℝ := if σ = {0, 1, 2} then 1 / 2 else 1

/-- C81. The weighted curvature differs from Forman's if there are simplices of the next dimension: three instead of one for the first edge
of `flag`, which satisfies the hypotheses of the theorems above. -/
theorem _root_.Aleph.C81_wrong : WF flag ∧ FaceClosed flag ∧ (∀ s ∈ flag, 0 < s.data) ∧ (∀ s ∈ flag, flagWeight s.vset = s.data) ∧
    (weightedCurvature flag 1).map (·.head?) = some (some 3) ∧ (List.filter (fun s => #s.vset = 2) flag).head? = some ⟨[1, 0], 1⟩ ∧
    formanWeighted (sets flag) flagWeight {0, 1} = 1 := by
  have hK : WF flag := by
    refine ⟨?_, ?_, ?_⟩
    · intro s hs
      simp only [flag, List.mem_cons, List.not_mem_nil, or_false] at hs
      rcases hs with rfl | rfl | rfl | rfl | rfl | rfl | rfl | rfl | rfl <;> decide
    · intro s hs
      simp only [flag, List.mem_cons, List.not_mem_nil, or_false] at hs
      rcases hs with rfl | rfl | rfl | rfl | rfl | rfl | rfl | rfl | rfl <;> decide
    · decide +kernel
  have hcl : FaceClosed flag := by
    have h1 : ∀ t ∈ sets flag, ∀ u ∈ t.powerset, u.Nonempty → u ∈ sets flag := by decide +kernel
    intro s hs t ht hne
    exact mem_sets.1 (h1 s.vset (mem_sets.2 ⟨s, hs, rfl⟩) t (mem_powerset.2 ht) hne)
  have hwt : ∀ s ∈ flag, flagWeight s.vset = s.data := by
    intro s hs
    simp only [flag, List.mem_cons, List.not_mem_nil, or_false] at hs
    rcases hs with rfl | rfl | rfl | rfl | rfl | rfl | rfl | rfl | rfl <;> unfold flagWeight
    all_goals first
      | rw [if_neg (by decide)]
      | rw [if_pos (by decide)]
  have hoth : others (sets flag) {0, 1} = {{0, 2}, {1, 2}, {0, 3}} := by decide +kernel
  have hc0 : cofaces (sets flag) {0, 1} = {{0, 1, 2}} := by decide +kernel
  have hc1 : cofaces (sets flag) {0, 1} ∩ cofaces (sets flag) {0, 2} = {{0, 1, 2}} := by decide +kernel
  have hc2 : cofaces (sets flag) {0, 1} ∩ cofaces (sets flag) {1, 2} = {{0, 1, 2}} := by decide +kernel
  have hc3 : cofaces (sets flag) {0, 1} ∩ cofaces (sets flag) {0, 3} = ∅ := by decide +kernel
  have hf0 : facetsOf {0, 1} = {{0}, {1}} := by decide +kernel
  have hf1 : facetsOf {0, 1} ∩ facetsOf {0, 2} = {{0}} := by decide +kernel
  have hf2 : facetsOf {0, 1} ∩ facetsOf {1, 2} = {{1}} := by decide +kernel
  have hf3 : facetsOf {0, 1} ∩ facetsOf {0, 3} = {{0}} := by decide +kernel
  have hsum : ∀ g : Finset ℕ → ℝ, ∑ τ ∈ ({{0, 2}, {1, 2}, {0, 3}} : Finset (Finset ℕ)), g τ = g {0, 2} + g {1, 2} + g {0, 3} := by
    intro g
    rw [sum_insert (by decide), sum_insert (by decide), sum_singleton, add_assoc]
  have hsum2 : ∀ g : Finset ℕ → ℝ, ∑ τ ∈ ({{0}, {1}} : Finset (Finset ℕ)), g τ = g {0} + g {1} := by
    intro g
    rw [sum_insert (by decide), sum_singleton]
  have w01 : flagWeight {0, 1} = 1 := by unfold flagWeight; rw [if_neg (by decide)]
  have w02 : flagWeight {0, 2} = 1 := by unfold flagWeight; rw [if_neg (by decide)]
  have w12 : flagWeight {1, 2} = 1 := by unfold flagWeight; rw [if_neg (by decide)]
  have w03 : flagWeight {0, 3} = 1 := by unfold flagWeight; rw [if_neg (by decide)]
  have w0 : flagWeight {0} = 1 := by unfold flagWeight; rw [if_neg (by decide)]
  have w1 : flagWeight {1} = 1 := by unfold flagWeight; rw [if_neg (by decide)]
  have w012 : flagWeight {0, 1, 2} = 1 / 2 := by unfold flagWeight; rw [if_pos rfl]
  have hhead : (List.filter (fun s => #s.vset = 2) flag).head? = some ⟨[1, 0], 1⟩ := by
    simp [flag, Simplex.vset]
  have hv : (⟨[1, 0], 1⟩ : Simplex ℝ).vset = {0, 1} := by decide
  refine ⟨hK, hcl, ?_, hwt, ?_, hhead, ?_⟩
  · intro s hs
    simp only [flag, List.mem_cons, List.not_mem_nil, or_false] at hs
    rcases hs with rfl | rfl | rfl | rfl | rfl | rfl | rfl | rfl | rfl <;> norm_num
  · rw [weighted_value hK hcl flagWeight hwt 1, Option.map_some, List.head?_map, hhead, Option.map_some, hv, hoth, hsum, hc1, hc2, hc3, hc0,
      hf1, hf2, hf3, hf0, hsum2]
    simp only [sum_singleton, sum_empty, w01, w02, w12, w03, w0, w1, w012, mul_one, Real.sqrt_one]
    norm_num
  · unfold formanWeighted
    change _ * (_ - ∑ σ' ∈ others (sets flag) {0, 1}, _) = _
    rw [hoth, hsum, hc1, hc2, hc3, hc0, hf1, hf2, hf3, hf0, hsum2]
    simp only [sum_singleton, sum_empty, w01, w02, w12, w03, w0, w1, w012, mul_one, Real.sqrt_one]
    norm_num

end Aleph.Curvature
