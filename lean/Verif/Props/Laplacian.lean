import Verif.Model.HeatKernel
import Verif.Spec.HeatKernel
import Verif.Lemmas.Rips
import Mathlib.Algebra.BigOperators.Ring.Finset
import Mathlib.Algebra.Order.BigOperators.Group.Finset
import Mathlib.Tactic.Linarith
import Mathlib.Tactic.Ring
import Mathlib.Tactic.Positivity

/-!
# Properties of adjacency and Laplacian matrices
-/

namespace Aleph.HeatKernel

open Spec

theorem vertices_list {K : Complex ℝ} (hK : WF K) : IsVertexList K K.vertices := by
  constructor
  · have h1 : K.vertices.Pairwise (· ≤ ·) := List.pairwise_insertionSort _ _
    have h2 : K.vertices.Nodup := (List.perm_insertionSort _ _).nodup_iff.2 (List.nodup_dedup _)
    exact h1.imp₂ (fun a b hab hne => lt_of_le_of_ne hab hne) h2
  · intro v
    unfold Complex.vertices
    rw [List.mem_insertionSort, List.mem_dedup, List.mem_filterMap]
    constructor
    · rintro ⟨s, hs, hv⟩
      rw [Complex.range, List.mem_filter] at hs
      obtain ⟨hs, hd⟩ := hs
      have hne := hK.nonempty s hs
      have hlen : s.vertices.length = 1 := by
        have := List.length_pos_iff.2 hne
        simp only [Complex.dim, beq_iff_eq] at hd
        omega
      obtain ⟨w, hw⟩ := List.length_eq_one_iff.1 hlen
      rw [hw] at hv
      simp only [List.head?_cons, Option.some.injEq] at hv
      exact ⟨s, hs, by rw [Simplex.vset, hw, hv]; simp⟩
    · rintro ⟨s, hs, hv⟩
      have hn := hK.normal s hs
      have : s.vertices = [v] := by
        have := vlist_of_normal hn
        rw [← this, ← Simplex.vset, hv]
        simp [vlist]
      refine ⟨s, ?_, by rw [this]; rfl⟩
      rw [Complex.range, List.mem_filter]
      exact ⟨hs, by simp [Complex.dim, this]⟩

theorem indexOf_iff {vs : List ℕ} (hn : vs.Nodup) {v i : ℕ} : indexOf vs v = some i ↔ vs[i]? = some v := by
  unfold indexOf
  constructor
  · intro h
    split_ifs at h with hv
    rw [← Option.some.inj h, List.getElem?_eq_getElem (List.idxOf_lt_length_iff.2 hv), List.getElem_idxOf]
  · intro h
    obtain ⟨hi, rfl⟩ := List.getElem?_eq_some_iff.1 h
    rw [if_pos (List.getElem_mem hi), hn.idxOf_getElem]

theorem setEdge_spec {K : Complex ℝ} (hK : WF K) (hc : FaceClosed K) {s : Simplex ℝ} (hs : s ∈ K) (W : ℕ → ℕ → ℝ) :
    ∃ W', setEdge K.vertices W s = some W' ∧ ∀ (i j u v : ℕ), K.vertices[i]? = some u → K.vertices[j]? = some v →
      (u ≠ v → s.vset = {u, v} → W' i j = s.data) ∧ (u = v ∨ s.vset ≠ {u, v} → W' i j = W i j) := by
  obtain ⟨hsort, hmem⟩ := vertices_list hK
  have hnd : K.vertices.Nodup := hsort.imp ne_of_lt
  have hinj : ∀ {i j a : ℕ}, K.vertices[i]? = some a → K.vertices[j]? = some a → i = j := by
    intro i j a h1 h2
    exact Option.some.inj (((indexOf_iff hnd).2 h1).symm.trans ((indexOf_iff hnd).2 h2))
  unfold setEdge
  by_cases hd : Complex.dim s ≠ 1
  · rw [if_pos hd]
    refine ⟨W, rfl, ?_⟩
    intro i j u v _ _
    refine ⟨?_, fun _ => rfl⟩
    intro huv hv
    exfalso
    apply hd
    have hcard : s.vset.card = 2 := by rw [hv, Finset.card_pair huv]
    have hlen : s.vertices.length = 2 := by
      rw [← hcard, Simplex.vset, List.toFinset_card_of_nodup ((hK.normal s hs).imp ne_of_gt)]
    rw [Complex.dim, hlen]
  · rw [if_neg hd]
    rw [not_not] at hd
    have hlen : s.vertices.length = 2 := by
      unfold Complex.dim at hd
      omega
    obtain ⟨a, b, hab⟩ := List.length_eq_two.1 hlen
    have hne : a ≠ b := by
      have := hK.normal s hs
      rw [hab, Normal, List.pairwise_cons] at this
      exact ne_of_gt (this.1 b (by simp))
    have hset : s.vset = {a, b} := by rw [Simplex.vset, hab]; simp
    have hv : ∀ x ∈ s.vset, x ∈ K.vertices := by
      intro x hx
      rw [hmem]
      exact hc s hs {x} (by simpa using hx) (by simp)
    obtain ⟨i0, hi0⟩ : ∃ i, K.vertices[i]? = some a := List.mem_iff_getElem?.1 (hv a (by rw [hset]; simp))
    obtain ⟨j0, hj0⟩ : ∃ j, K.vertices[j]? = some b := List.mem_iff_getElem?.1 (hv b (by rw [hset]; simp))
    rw [hab]
    simp only [List.getElem?_cons_zero, List.getElem?_cons_succ, Option.bind_eq_bind, Option.bind_some, (indexOf_iff hnd).2 hi0,
      (indexOf_iff hnd).2 hj0]
    refine ⟨_, rfl, ?_⟩
    intro i j u v hu hv
    simp only [assign]
    constructor
    · intro huv hs2
      rw [hset] at hs2
      have h1 : u = a ∧ v = b ∨ u = b ∧ v = a := by
        have hu' : u ∈ ({a, b} : Finset ℕ) := hs2 ▸ Finset.mem_insert_self u {v}
        have hv' : v ∈ ({a, b} : Finset ℕ) := hs2 ▸ Finset.mem_insert_of_mem (Finset.mem_singleton_self v)
        rw [Finset.mem_insert, Finset.mem_singleton] at hu' hv'
        omega
      rcases h1 with ⟨rfl, rfl⟩ | ⟨rfl, rfl⟩
      · rw [hinj hu hi0, hinj hv hj0]
        simp
      · rw [hinj hu hj0, hinj hv hi0]
        simp
    · intro hor
      have h1 : ¬(i = j0 ∧ j = i0) := by
        rintro ⟨rfl, rfl⟩
        rw [hi0] at hv
        rw [hj0] at hu
        have e1 := Option.some.inj hv
        have e2 := Option.some.inj hu
        rcases hor with h | h
        · exact hne (e1.trans (h.symm.trans e2.symm))
        · exact h (by rw [hset, e1, e2, Finset.pair_comm])
      have h2 : ¬(i = i0 ∧ j = j0) := by
        rintro ⟨rfl, rfl⟩
        rw [hi0] at hu
        rw [hj0] at hv
        have e1 := Option.some.inj hu
        have e2 := Option.some.inj hv
        rcases hor with h | h
        · exact hne (e1.trans (h.trans e2.symm))
        · exact h (by rw [hset, e1, e2])
      rw [if_neg h1, if_neg h2]

theorem edges_spec {K : Complex ℝ} (hK : WF K) (hc : FaceClosed K) (l : List (Simplex ℝ)) (hl : l.Sublist K) (W : ℕ → ℕ → ℝ) :
    ∃ W', l.foldlM (setEdge K.vertices) W = some W' ∧ ∀ (i j u v : ℕ), K.vertices[i]? = some u → K.vertices[j]? = some v →
      (u ≠ v → ∀ s ∈ l, s.vset = {u, v} → W' i j = s.data) ∧ ((u = v ∨ ∀ s ∈ l, s.vset ≠ {u, v}) → W' i j = W i j) := by
  induction l generalizing W with
  | nil => exact ⟨W, rfl, fun i j u v _ _ => ⟨by simp, fun _ => rfl⟩⟩
  | cons s l ih =>
    have hs : s ∈ K := hl.subset (by simp)
    obtain ⟨W1, h1, h2⟩ := setEdge_spec hK hc hs W
    obtain ⟨W', h3, h4⟩ := ih ((List.sublist_cons_self s l).trans hl) W1
    refine ⟨W', by rw [List.foldlM_cons, h1]; exact h3, ?_⟩
    intro i j u v hu hv
    obtain ⟨a1, a2⟩ := h2 i j u v hu hv
    obtain ⟨b1, b2⟩ := h4 i j u v hu hv
    have hdist := (hK.sublist hl).distinct
    rw [List.map_cons, List.nodup_cons] at hdist
    constructor
    · intro huv t ht htv
      rcases List.mem_cons.1 ht with rfl | ht
      · rw [b2 (Or.inr fun r hr hrv => ?_)]
        · exact a1 huv htv
        · have : r = t := hK.eq_of_vset (hl.subset (by simp [hr])) hs (hrv.trans htv.symm)
          exact hdist.1 (this ▸ List.mem_map_of_mem hr)
      · exact b1 huv t ht htv
    · intro hor
      rw [b2, a2]
      · rcases hor with h | h
        · exact Or.inl h
        · exact Or.inr (h s (by simp))
      · rcases hor with h | h
        · exact Or.inl h
        · exact Or.inr fun r hr => h r (by simp [hr])

theorem adjacency_spec {K : Complex ℝ} (hK : WF K) (hc : FaceClosed K) :
    ∃ W, weightedAdjacencyMatrix K = some ⟨K.vertices.length, W⟩ ∧ ∀ (i j u v : ℕ), K.vertices[i]? = some u → K.vertices[j]? = some v →
      IsAdjacency K u v (W i j) := by
  obtain ⟨W, h1, h2⟩ := edges_spec hK hc K (List.Sublist.refl K) fun _ _ => 0
  refine ⟨W, by unfold weightedAdjacencyMatrix; simp only; rw [h1]; rfl, ?_⟩
  intro i j u v hu hv
  obtain ⟨a1, a2⟩ := h2 i j u v hu hv
  by_cases h : u ≠ v ∧ Has K {u, v}
  · obtain ⟨huv, s, hs, hsv⟩ := h
    exact Or.inl ⟨huv, s, hs, hsv, (a1 huv s hs hsv).symm⟩
  · have h' : u = v ∨ ¬Has K {u, v} := by tauto
    refine Or.inr ⟨h', a2 ?_⟩
    rcases h' with h' | h'
    · exact Or.inl h'
    · exact Or.inr fun s hs hsv => h' ⟨s, hs, hsv⟩

theorem adjacency_unique {K : Complex ℝ} (hK : WF K) {u v : ℕ} {x y : ℝ} (h1 : IsAdjacency K u v x) (h2 : IsAdjacency K u v y) : x = y := by
  rcases h1 with ⟨a1, s, hs, e1, e2⟩ | ⟨a1, a2⟩ <;> rcases h2 with ⟨b1, t, ht, e3, e4⟩ | ⟨b1, b2⟩
  · rw [← e2, ← e4, hK.eq_of_vset hs ht (e1.trans e3.symm)]
  · rcases b1 with b1 | b1
    · exact absurd b1 a1
    · exact absurd ⟨s, hs, e1⟩ b1
  · rcases a1 with a1 | a1
    · exact absurd a1 b1
    · exact absurd ⟨t, ht, e3⟩ a1
  · rw [a2, b2]

theorem adjacency_symm {K : Complex ℝ} {u v : ℕ} {x : ℝ} (h : IsAdjacency K u v x) : IsAdjacency K v u x := by
  unfold IsAdjacency at *
  rw [Finset.pair_comm v u]
  rcases h with ⟨h1, h2⟩ | ⟨h1, h2⟩
  · exact Or.inl ⟨h1.symm, h2⟩
  · exact Or.inr ⟨h1.imp Eq.symm id, h2⟩

/-- C96. The adjacency matrix contains the weights of the edges; rows and columns are the vertices in ascending order. -/
theorem _root_.Aleph.C96_adjacency (K : Complex ℝ) (hK : WF K) (hc : FaceClosed K) :
    ∃ vs W, IsVertexList K vs ∧ weightedAdjacencyMatrix K = some ⟨vs.length, W⟩ ∧
      ∀ (i j u v : ℕ), vs[i]? = some u → vs[j]? = some v → IsAdjacency K u v (W i j) := by
  obtain ⟨W, h1, h2⟩ := adjacency_spec hK hc
  exact ⟨K.vertices, W, vertices_list hK, h1, h2⟩

/-- The quadratic form of a matrix with given weights and zero row sums. -/
theorem laplace_form (n : ℕ) (w : ℕ → ℕ → ℝ) (hw : ∀ i < n, ∀ j < n, w i j = w j i) (x : ℕ → ℝ) :
    ∑ i ∈ Finset.range n, ∑ j ∈ Finset.range n, x i * ((if i = j then ∑ k ∈ Finset.range n, w i k else 0) - w i j) * x j =
      (∑ i ∈ Finset.range n, ∑ j ∈ Finset.range n, w i j * (x i - x j) ^ 2) / 2 := by
  have e1 : ∑ i ∈ Finset.range n, ∑ j ∈ Finset.range n, x i * ((if i = j then ∑ k ∈ Finset.range n, w i k else 0) - w i j) * x j =
      ∑ i ∈ Finset.range n, ∑ j ∈ Finset.range n, (w i j * x i ^ 2 - w i j * (x i * x j)) := by
    refine Finset.sum_congr rfl fun i hi => ?_
    have : ∀ j ∈ Finset.range n, x i * ((if i = j then ∑ k ∈ Finset.range n, w i k else 0) - w i j) * x j =
        (if i = j then (∑ k ∈ Finset.range n, w i k) * x i ^ 2 else 0) - w i j * (x i * x j) := by
      intro j _
      split_ifs with h
      · subst h; ring
      · ring
    rw [Finset.sum_congr rfl this, Finset.sum_sub_distrib, Finset.sum_ite_eq, if_pos hi, Finset.sum_mul, ← Finset.sum_sub_distrib]
  have e2 : ∑ i ∈ Finset.range n, ∑ j ∈ Finset.range n, w i j * (x i - x j) ^ 2 =
      ∑ i ∈ Finset.range n, ∑ j ∈ Finset.range n, (w i j * x i ^ 2 - w i j * (x i * x j)) +
      ∑ i ∈ Finset.range n, ∑ j ∈ Finset.range n, (w i j * x j ^ 2 - w i j * (x i * x j)) := by
    rw [← Finset.sum_add_distrib]
    refine Finset.sum_congr rfl fun i _ => ?_
    rw [← Finset.sum_add_distrib]
    refine Finset.sum_congr rfl fun j _ => ?_
    ring
  have e3 : ∑ i ∈ Finset.range n, ∑ j ∈ Finset.range n, (w i j * x j ^ 2 - w i j * (x i * x j)) =
      ∑ i ∈ Finset.range n, ∑ j ∈ Finset.range n, (w i j * x i ^ 2 - w i j * (x i * x j)) := by
    rw [Finset.sum_comm]
    refine Finset.sum_congr rfl fun i hi => Finset.sum_congr rfl fun j hj => ?_
    rw [hw j (Finset.mem_range.1 hj) i (Finset.mem_range.1 hi)]
    ring
  rw [e1, e2, e3]
  ring

theorem list_sum_range (n : ℕ) (f : ℕ → ℝ) : ((List.range n).map f).sum = ∑ i ∈ Finset.range n, f i := by
  rw [← List.sum_toFinset _ List.nodup_range, List.toFinset_range]

theorem laplacian_spec {K : Complex ℝ} (hK : WF K) (hc : FaceClosed K) :
    ∃ w : ℕ → ℕ → ℝ, (∀ (i j u v : ℕ), K.vertices[i]? = some u → K.vertices[j]? = some v → IsAdjacency K u v (w i j)) ∧
      weightedLaplacianMatrix K = some ⟨K.vertices.length, fun i j => (if i = j then ∑ k ∈ Finset.range K.vertices.length, w i k else 0) - w i j⟩ := by
  obtain ⟨w, h1, h2⟩ := adjacency_spec hK hc
  refine ⟨w, h2, ?_⟩
  unfold weightedLaplacianMatrix
  rw [h1]
  simp only [Option.bind_eq_bind, Option.bind_some, list_sum_range]

theorem weights_symm {K : Complex ℝ} (hK : WF K) {w : ℕ → ℕ → ℝ}
    (hw : ∀ (i j u v : ℕ), K.vertices[i]? = some u → K.vertices[j]? = some v → IsAdjacency K u v (w i j)) :
    ∀ i < K.vertices.length, ∀ j < K.vertices.length, w i j = w j i := by
  intro i hi j hj
  exact adjacency_unique hK (hw i j _ _ (List.getElem?_eq_getElem hi) (List.getElem?_eq_getElem hj))
    (adjacency_symm (hw j i _ _ (List.getElem?_eq_getElem hj) (List.getElem?_eq_getElem hi)))

/-- C96. The Laplacian matrix: minus the adjacency matrix off the diagonal, symmetric, all rows sum to zero. -/
theorem _root_.Aleph.C96_laplacian (K : Complex ℝ) (hK : WF K) (hc : FaceClosed K) :
    ∃ vs L, IsVertexList K vs ∧ weightedLaplacianMatrix K = some ⟨vs.length, L⟩ ∧
      (∀ (i j u v : ℕ), i ≠ j → vs[i]? = some u → vs[j]? = some v → IsAdjacency K u v (-L i j)) ∧
      (∀ i < vs.length, ∑ j ∈ Finset.range vs.length, L i j = 0) ∧ ∀ i < vs.length, ∀ j < vs.length, L i j = L j i := by
  obtain ⟨w, h1, h2⟩ := laplacian_spec hK hc
  refine ⟨K.vertices, _, vertices_list hK, h2, ?_, ?_, ?_⟩
  · intro i j u v hij hu hv
    rw [if_neg hij, zero_sub, neg_neg]
    exact h1 i j u v hu hv
  · intro i hi
    rw [Finset.sum_sub_distrib, Finset.sum_ite_eq, if_pos (Finset.mem_range.2 hi), sub_self]
  · intro i hi j hj
    have := weights_symm hK h1 i hi j hj
    by_cases h : i = j
    · subst h; rfl
    · rw [if_neg h, if_neg (Ne.symm h), this]

/-- C96. The Laplacian matrix of a complex with non-negative weights is positive semidefinite; for positive weights, its quadratic form vanishes
exactly for the functions that are constant along all edges. -/
theorem _root_.Aleph.C96_semidefinite (K : Complex ℝ) (hK : WF K) (hc : FaceClosed K) (hw : ∀ u v d, u ≠ v → HasData K {u, v} d → 0 ≤ d) :
    ∃ vs L, IsVertexList K vs ∧ weightedLaplacianMatrix K = some ⟨vs.length, L⟩ ∧ ∀ f : ℕ → ℝ,
      0 ≤ ∑ i ∈ Finset.range vs.length, ∑ j ∈ Finset.range vs.length, f (vs.getD i 0) * L i j * f (vs.getD j 0) ∧
      ((∀ u v d, u ≠ v → HasData K {u, v} d → 0 < d) →
        (∑ i ∈ Finset.range vs.length, ∑ j ∈ Finset.range vs.length, f (vs.getD i 0) * L i j * f (vs.getD j 0) = 0 ↔
          ∀ u v, Has K {u, v} → f u = f v)) := by
  obtain ⟨w, h1, h2⟩ := laplacian_spec hK hc
  refine ⟨K.vertices, _, vertices_list hK, h2, ?_⟩
  intro f
  have hform := laplace_form K.vertices.length w (weights_symm hK h1) fun i => f (K.vertices.getD i 0)
  rw [hform]
  have hnn : ∀ i ∈ Finset.range K.vertices.length, ∀ j ∈ Finset.range K.vertices.length, 0 ≤ w i j := by
    intro i hi j hj
    rw [Finset.mem_range] at hi hj
    rcases h1 i j _ _ (List.getElem?_eq_getElem hi) (List.getElem?_eq_getElem hj) with ⟨a, b⟩ | ⟨_, b⟩
    · exact hw _ _ _ a b
    · exact b.ge
  have hterm : ∀ i ∈ Finset.range K.vertices.length, ∀ j ∈ Finset.range K.vertices.length,
      0 ≤ w i j * (f (K.vertices.getD i 0) - f (K.vertices.getD j 0)) ^ 2 := fun i hi j hj => mul_nonneg (hnn i hi j hj) (sq_nonneg _)
  refine ⟨div_nonneg (Finset.sum_nonneg fun i hi => Finset.sum_nonneg (hterm i hi)) (by norm_num), ?_⟩
  intro hpos
  rw [div_eq_zero_iff, or_iff_left (by norm_num), Finset.sum_eq_zero_iff_of_nonneg fun i hi => Finset.sum_nonneg (hterm i hi)]
  constructor
  · intro h u v huv
    by_cases hne : u = v
    · rw [hne]
    obtain ⟨s, hs, hsv⟩ := huv
    obtain ⟨_, hmem⟩ := vertices_list hK
    obtain ⟨i, hi, rfl⟩ := List.mem_iff_getElem.1 ((hmem u).2 (hc s hs {u} (by rw [hsv]; simp) (by simp)))
    obtain ⟨j, hj, rfl⟩ := List.mem_iff_getElem.1 ((hmem v).2 (hc s hs {v} (by rw [hsv]; simp) (by simp)))
    have h3 := (Finset.sum_eq_zero_iff_of_nonneg (hterm i (Finset.mem_range.2 hi))).1 (h i (Finset.mem_range.2 hi)) j (Finset.mem_range.2 hj)
    rw [List.getD_eq_getElem _ _ hi, List.getD_eq_getElem _ _ hj] at h3
    have hwp : w i j ≠ 0 := by
      rcases h1 i j _ _ (List.getElem?_eq_getElem hi) (List.getElem?_eq_getElem hj) with ⟨a, b⟩ | ⟨a | a, _⟩
      · exact (hpos _ _ _ a b).ne'
      · exact absurd a hne
      · exact absurd ⟨s, hs, hsv⟩ a
    have h4 := (mul_eq_zero.1 h3).resolve_left hwp
    have h5 := pow_eq_zero_iff two_ne_zero |>.1 h4
    linarith
  · intro h i hi
    rw [Finset.sum_eq_zero_iff_of_nonneg (hterm i hi)]
    intro j hj
    rw [Finset.mem_range] at hi hj
    rw [List.getD_eq_getElem _ _ hi, List.getD_eq_getElem _ _ hj]
    rcases h1 i j _ _ (List.getElem?_eq_getElem hi) (List.getElem?_eq_getElem hj) with ⟨a, s, hs, b, _⟩ | ⟨_, b⟩
    · rw [h _ _ ⟨s, hs, b⟩]
      ring
    · rw [b, zero_mul]

/-- A path with three vertices. -/
def path3 : Complex ℝ := [⟨[1], 0⟩, ⟨[4], 0⟩, ⟨[7], 0⟩, ⟨[4, 1], 2⟩, ⟨[7, 4], 3⟩]

theorem path3_wf : WF path3 := by
  refine ⟨?_, ?_, ?_⟩
  · intro s hs
    simp only [path3, List.mem_cons, List.not_mem_nil, or_false] at hs
    rcases hs with rfl | rfl | rfl | rfl | rfl <;> decide
  · intro s hs
    simp only [path3, List.mem_cons, List.not_mem_nil, or_false] at hs
    rcases hs with rfl | rfl | rfl | rfl | rfl <;> decide
  · decide

theorem path3_closed : FaceClosed path3 := by
  refine Closed1.faceClosed path3_wf.normal ?_
  intro s hs f hf
  simp only [path3, List.mem_cons, List.not_mem_nil, or_false] at hs ⊢
  rcases hs with rfl | rfl | rfl | rfl | rfl <;> simp [Simplex.faces] at hf ⊢ <;> aesop

example : ∃ vs L, IsVertexList path3 vs ∧ weightedLaplacianMatrix path3 = some ⟨vs.length, L⟩ := by
  obtain ⟨vs, L, h1, h2, _⟩ := C96_laplacian path3 path3_wf path3_closed
  exact ⟨vs, L, h1, h2⟩

end Aleph.HeatKernel
