import Verif.Lemmas.Cliques
import Verif.Props.VietorisRips
import Mathlib.Data.Finset.Powerset
import Mathlib.Data.Finset.Max

/-!
# C29, C30: maximal cliques; C53: sparse binary matrices
-/

namespace Aleph

open Finset Spec Rips Cliques

variable {α : Type}

/-! ### Sparse matrices -/

namespace SparseMatrix

/-- The rows stored in a column (none for columns that do not exist). -/
def col (A : SparseMatrix) (v : ℕ) : List ℕ := (A.columns[v]?).getD []

theorem set_spec (A : SparseMatrix) {r c : ℕ} (hc : c < A.columns.length) :
    ∃ A', A.set r c = some A' ∧ A'.columns.length = A.columns.length ∧ A'.indexMap = A.indexMap ∧
      ∀ u v, u ∈ A'.col v ↔ u ∈ A.col v ∨ (u = r ∧ v = c) := by
  have hg := List.getElem?_eq_getElem hc
  refine ⟨{ A with columns := A.columns.set c (insertSet A.columns[c] r) }, ?_, by simp, rfl, ?_⟩
  · unfold set; rw [hg]
  · intro u v
    unfold col
    by_cases hv : c = v
    · subst hv
      simp only [List.getElem?_set, hc, if_true, hg, Option.getD_some, and_true]
      rw [mem_insertSet]
    · simp only [List.getElem?_set, if_neg hv]
      simp [Ne.symm hv]

end SparseMatrix

/-! ### Cliques -/

theorem adjacency_loop {K : Complex α} (hd : K.vertices.Nodup)
    (edges : List (Simplex α))
    (he : ∀ s ∈ edges, ∃ a b, s.vertices = [a, b] ∧ a ∈ K.vertices ∧ b ∈ K.vertices)
    (A : SparseMatrix) (hA : A.columns.length = K.vertices.length) :
    ∃ A', edges.foldlM (addEdge K) A = some A' ∧ A'.columns.length = A.columns.length ∧ A'.indexMap = A.indexMap ∧
      ∀ u v, u ∈ A'.col v ↔ u ∈ A.col v ∨ ∃ s ∈ edges, ∃ a b, K.vertices[u]? = some a ∧
        K.vertices[v]? = some b ∧ (s.vertices = [a, b] ∨ s.vertices = [b, a]) := by
  induction edges generalizing A with
  | nil => exact ⟨A, rfl, rfl, rfl, by simp⟩
  | cons s edges ih =>
    obtain ⟨a, b, hs, ha, hb⟩ := he s List.mem_cons_self
    have hid : ∀ x ∈ K.vertices, ∃ i, vertexToId K x = some i ∧ i < K.vertices.length ∧
        ∀ j : ℕ, K.vertices[j]? = some x ↔ j = i := by
      intro x hx
      have hnone : K.vertices.idxOf? x ≠ none := by
        rw [ne_eq, List.idxOf?_eq_none_iff]; simpa using hx
      obtain ⟨i, hi⟩ := Option.ne_none_iff_exists'.1 hnone
      obtain ⟨hlt, hget, -⟩ := List.findIdx?_eq_some_iff_getElem.1 hi
      refine ⟨i, hi, hlt, fun j => ?_⟩
      have hget' : K.vertices[i] = x := by simpa using hget
      constructor
      · intro hj
        obtain ⟨hj1, hj2⟩ := List.getElem?_eq_some_iff.1 hj
        exact (hd.getElem_inj_iff).1 (hj2.trans hget'.symm)
      · rintro rfl
        rw [List.getElem?_eq_getElem hlt, hget']
    obtain ⟨i, hi1, hi2, hi3⟩ := hid a ha
    obtain ⟨j, hj1, hj2, hj3⟩ := hid b hb
    obtain ⟨A1, h1, h2, h3, h4⟩ := A.set_spec (r := i) (c := j) (by omega)
    obtain ⟨A2, g1, g2, g3, g4⟩ := A1.set_spec (r := j) (c := i) (by omega)
    obtain ⟨A', k1, k2, k3, k4⟩ := ih (fun t ht => he t (List.mem_cons_of_mem _ ht)) A2 (by omega)
    refine ⟨A', ?_, by omega, by rw [k3, g3, h3], ?_⟩
    · rw [List.foldlM_cons]
      simp only [addEdge, hs, hi1, hj1, h1, g1]
      exact k1
    · intro u v
      rw [k4, g4, h4]
      constructor
      · rintro (((h | ⟨rfl, rfl⟩) | ⟨rfl, rfl⟩) | ⟨t, ht, h⟩)
        · exact Or.inl h
        · exact Or.inr ⟨s, List.mem_cons_self, a, b, (hi3 _).2 rfl, (hj3 _).2 rfl, Or.inl hs⟩
        · exact Or.inr ⟨s, List.mem_cons_self, b, a, (hj3 _).2 rfl, (hi3 _).2 rfl, Or.inr hs⟩
        · exact Or.inr ⟨t, List.mem_cons_of_mem _ ht, h⟩
      · rintro (h | ⟨t, ht, x, y, hx, hy, h⟩)
        · exact Or.inl (Or.inl (Or.inl h))
        · rcases List.mem_cons.1 ht with rfl | ht
          · left
            rw [hs] at h
            rcases h with h | h
            · simp only [List.cons.injEq, and_true] at h
              obtain ⟨rfl, rfl⟩ := h
              exact Or.inl (Or.inr ⟨(hi3 u).1 hx, (hj3 v).1 hy⟩)
            · simp only [List.cons.injEq, and_true] at h
              obtain ⟨rfl, rfl⟩ := h
              exact Or.inr ⟨(hj3 u).1 hx, (hi3 v).1 hy⟩
          · exact Or.inr ⟨t, ht, x, y, hx, hy, h⟩

/-- Adjacency of positions in the ordered list of vertices. -/
def AdjAt (K : Complex α) (u v : ℕ) : Prop :=
  ∃ a b, K.vertices[u]? = some a ∧ K.vertices[v]? = some b ∧ a ≠ b ∧ Has K {a, b}

theorem adjacencyMatrix_spec (o : Orders α) {K : Complex α} (hK : WF K) (hc : EdgeClosed K) :
    ∃ A, adjacencyMatrix K (o.simps (K.range 1)) = some A ∧ A.indexMap = K.vertices ∧
      IsAdj A K.vertices.length (AdjAt K) := by
  have hd : K.vertices.Nodup := (C22_vertices K hK).1.imp fun h => ne_of_lt h
  have hmem : ∀ s, s ∈ o.simps (K.range 1) ↔ s ∈ K ∧ s.vertices.length = 2 := by
    intro s
    rw [(o.simps_perm _).mem_iff]
    unfold Complex.range Complex.dim
    rw [List.mem_filter, beq_iff_eq]
    constructor
    · rintro ⟨h, h'⟩; exact ⟨h, by omega⟩
    · rintro ⟨h, h'⟩; exact ⟨h, by omega⟩
  have hedge : ∀ s ∈ K, ∀ a b, s.vertices = [a, b] → b < a ∧ a ∈ K.vertices ∧ b ∈ K.vertices := by
    intro s hs a b hab
    have hn := hK.normal s hs
    rw [hab] at hn
    have hlt : b < a := by simpa [Normal] using hn
    have h1 : Has K {a, b} := ⟨s, hs, by simp [Simplex.vset, hab]⟩
    have h2 : Has K {b, a} := by rw [pair_comm]; exact h1
    exact ⟨hlt, ((C22_vertices K hK).2 a).2 (hc a b (by omega) h1),
      ((C22_vertices K hK).2 b).2 (hc b a (by omega) h2)⟩
  obtain ⟨A, h1, h2, h3, h4⟩ := adjacency_loop hd (o.simps (K.range 1)) (by
    intro s hs
    obtain ⟨hsK, hlen⟩ := (hmem s).1 hs
    obtain ⟨a, b, hab⟩ := List.length_eq_two.1 hlen
    obtain ⟨-, ha, hb⟩ := hedge s hsK a b hab
    exact ⟨a, b, hab, ha, hb⟩) (SparseMatrix.empty K.vertices.length) (by simp [SparseMatrix.empty])
  have hlenA : A.columns.length = K.vertices.length := by rw [h2]; simp [SparseMatrix.empty]
  have hemp : ∀ v, (SparseMatrix.empty K.vertices.length).col v = [] := by
    intro v
    unfold SparseMatrix.col SparseMatrix.empty
    simp only [List.getElem?_replicate]
    split <;> rfl
  have hcolm : ∀ u v, u ∈ A.col v ↔ AdjAt K u v := by
    intro u v
    rw [h4, hemp]
    simp only [List.not_mem_nil, false_or]
    constructor
    · rintro ⟨s, hs, a, b, ha, hb, h⟩
      obtain ⟨hsK, -⟩ := (hmem s).1 hs
      rcases h with h | h
      · obtain ⟨hlt, -⟩ := hedge s hsK a b h
        exact ⟨a, b, ha, hb, by omega, s, hsK, by simp [Simplex.vset, h]⟩
      · obtain ⟨hlt, -⟩ := hedge s hsK b a h
        exact ⟨a, b, ha, hb, by omega, s, hsK, by simp [Simplex.vset, h, pair_comm]⟩
    · rintro ⟨a, b, ha, hb, hab, s, hs, he⟩
      have hlen : s.vertices.length = 2 := by
        rw [(hK.normal s hs).length_eq]
        show #s.vset = 2
        rw [he, card_pair hab]
      refine ⟨s, (hmem s).2 ⟨hs, hlen⟩, a, b, ha, hb, ?_⟩
      obtain ⟨x, y, hxy⟩ := List.length_eq_two.1 hlen
      obtain ⟨hlt, -⟩ := hedge s hs x y hxy
      have e1 : x ∈ ({a, b} : Finset ℕ) := by rw [← he]; simp [Simplex.vset, hxy]
      have e2 : y ∈ ({a, b} : Finset ℕ) := by rw [← he]; simp [Simplex.vset, hxy]
      simp only [mem_insert, mem_singleton] at e1 e2
      rw [hxy]
      rcases e1 with rfl | rfl <;> rcases e2 with rfl | rfl
      · omega
      · exact Or.inl rfl
      · exact Or.inr rfl
      · omega
  refine ⟨{ A with indexMap := K.vertices }, ?_, rfl, ?_⟩
  · unfold adjacencyMatrix
    rw [h1]
    simp [SparseMatrix.setIndices, hlenA]
  · refine ⟨?_, ?_, ?_, ?_⟩
    · intro v hv
      have hg := List.getElem?_eq_getElem (l := A.columns) (i := v) (by omega)
      refine ⟨A.columns[v]'(by omega), hg, fun u => ?_⟩
      rw [← hcolm]
      unfold SparseMatrix.col
      rw [hg]; rfl
    · rintro u v ⟨a, b, ha, hb, hab, h⟩
      exact ⟨b, a, hb, ha, Ne.symm hab, by rw [pair_comm]; exact h⟩
    · rintro v ⟨a, b, ha, hb, hab, -⟩
      rw [ha] at hb
      exact hab (Option.some.inj hb)
    · rintro u v ⟨a, b, ha, -⟩
      exact (List.getElem?_eq_some_iff.1 ha).1

theorem newClique_spec {A : SparseMatrix} {vs : List ℕ} (hA : A.indexMap = vs) (C : List ℕ)
    (hC : ∀ c ∈ C, c < vs.length) :
    newClique A C = some ((C.map fun c => vs.getD c 0).dedup.insertionSort (· ≤ ·)) := by
  unfold newClique
  have : C.mapM A.getIndex = some (C.map fun c => vs.getD c 0) := by
    induction C with
    | nil => rfl
    | cons c C ih =>
      have hc := hC c List.mem_cons_self
      have hne : vs.isEmpty = false := by
        rw [List.isEmpty_eq_false_iff]; rintro rfl; simp at hc
      have hget : A.getIndex c = some (vs.getD c 0) := by
        unfold SparseMatrix.getIndex
        rw [hA, hne]
        simp [List.getElem?_eq_getElem hc, List.getD_eq_getElem?_getD]
      rw [List.mapM_cons, hget, ih fun d hd => hC d (List.mem_cons_of_mem _ hd)]
      rfl
  rw [this]
  rfl

/-- Translation from positions to vertices. -/
theorem cliques_finish {K : Complex α} (hK : WF K) (ls : List (List ℕ))
    (hlt : ∀ C ∈ ls, ∀ c ∈ C, c < K.vertices.length)
    (hn : (ls.map List.toFinset).Nodup)
    (hm : ∀ Q, Q ∈ ls.map List.toFinset ↔ MaxClq K.vertices.length (AdjAt K) Q) :
    (ls.map fun C => (C.map fun c => K.vertices.getD c 0).dedup.insertionSort (· ≤ ·)).Nodup ∧
    (∀ l ∈ ls.map fun C => (C.map fun c => K.vertices.getD c 0).dedup.insertionSort (· ≤ ·),
      l.Pairwise (· < ·)) ∧
    ∀ t : Finset ℕ, (∃ l ∈ ls.map fun C => (C.map fun c => K.vertices.getD c 0).dedup.insertionSort (· ≤ ·),
      l.toFinset = t) ↔ IsMaximalClique K t := by
  obtain ⟨hs, hv⟩ := C22_vertices K hK
  have hd : K.vertices.Nodup := hs.imp fun h => ne_of_lt h
  generalize hφ : (fun c => K.vertices.getD c 0) = φ
  generalize hnn : K.vertices.length = n at *
  have hget : ∀ i < n, K.vertices[i]? = some (φ i) := by
    intro i hi
    rw [← hφ]
    simp only [List.getD_eq_getElem?_getD]
    rw [List.getElem?_eq_getElem (by omega)]; rfl
  have hinj : ∀ i < n, ∀ j < n, φ i = φ j → i = j := by
    intro i hi j hj h
    have h1 := hget i hi
    have h2 := hget j hj
    rw [h] at h1
    obtain ⟨a1, a2⟩ := List.getElem?_eq_some_iff.1 h1
    obtain ⟨b1, b2⟩ := List.getElem?_eq_some_iff.1 h2
    exact (hd.getElem_inj_iff).1 (a2.trans b2.symm)
  have hsurj : ∀ v, Has K {v} → ∃ i < n, φ i = v := by
    intro v h
    obtain ⟨i, hi, he⟩ := List.mem_iff_getElem.1 ((hv v).2 h)
    refine ⟨i, by omega, ?_⟩
    have := hget i (by omega)
    rw [List.getElem?_eq_getElem hi, he] at this
    exact (Option.some.inj this).symm
  have hvert : ∀ i < n, Has K {φ i} := fun i hi => (hv _).1 (List.mem_of_getElem? (hget i hi))
  have hadj : ∀ i < n, ∀ j < n, (AdjAt K i j ↔ φ i ≠ φ j ∧ Has K {φ i, φ j}) := by
    intro i hi j hj
    unfold AdjAt
    rw [hget i hi, hget j hj]
    constructor
    · rintro ⟨a, b, ha, hb, h⟩
      cases ha; cases hb; exact h
    · intro h; exact ⟨_, _, rfl, rfl, h⟩
  -- cliques correspond
  have hclq : ∀ Q : Finset ℕ, (∀ q ∈ Q, q < n) → (Clq n (AdjAt K) Q ↔ IsClique K (Q.image φ)) := by
    intro Q hQ
    constructor
    · rintro ⟨-, h⟩
      refine ⟨?_, ?_⟩
      · intro v hv
        obtain ⟨i, hi, rfl⟩ := mem_image.1 hv
        exact hvert i (hQ i hi)
      · intro u hu v hv huv
        obtain ⟨i, hi, rfl⟩ := mem_image.1 hu
        obtain ⟨j, hj, rfl⟩ := mem_image.1 hv
        exact ((hadj i (hQ i hi) j (hQ j hj)).1 (h i hi j hj (by rintro rfl; exact huv rfl))).2
    · rintro ⟨-, h⟩
      refine ⟨hQ, fun i hi j hj hij => ?_⟩
      have hne : φ i ≠ φ j := fun e => hij (hinj i (hQ i hi) j (hQ j hj) e)
      exact (hadj i (hQ i hi) j (hQ j hj)).2
        ⟨hne, h _ (mem_image_of_mem φ hi) _ (mem_image_of_mem φ hj) hne⟩
  have hpre : ∀ t, IsClique K t → ∃ Q : Finset ℕ, (∀ q ∈ Q, q < n) ∧ Q.image φ = t := by
    intro t ht
    refine ⟨(Finset.range n).filter fun i => φ i ∈ t, ?_, ?_⟩
    · intro q hq
      exact Finset.mem_range.1 (mem_filter.1 hq).1
    · ext v
      rw [mem_image]
      constructor
      · rintro ⟨i, hi, rfl⟩; exact (mem_filter.1 hi).2
      · intro hvt
        obtain ⟨i, hi, rfl⟩ := hsurj v (ht.1 v hvt)
        exact ⟨i, mem_filter.2 ⟨Finset.mem_range.2 hi, hvt⟩, rfl⟩
  have himg : ∀ Q R : Finset ℕ, (∀ q ∈ Q, q < n) → (∀ q ∈ R, q < n) → Q.image φ ⊆ R.image φ → Q ⊆ R := by
    intro Q R hQ hR h i hi
    obtain ⟨j, hj, he⟩ := mem_image.1 (h (mem_image_of_mem φ hi))
    rw [← hinj j (hR j hj) i (hQ i hi) he]
    exact hj
  have hmax : ∀ Q : Finset ℕ, (∀ q ∈ Q, q < n) →
      (MaxClq n (AdjAt K) Q ↔ IsMaximalClique K (Q.image φ)) := by
    intro Q hQ
    constructor
    · rintro ⟨h1, h2⟩
      refine ⟨(hclq Q hQ).1 h1, ?_⟩
      intro u hu hsub
      obtain ⟨R, hR, rfl⟩ := hpre u hu
      rw [h2 R ((hclq R hR).2 hu) (himg Q R hQ hR hsub)]
    · rintro ⟨h1, h2⟩
      refine ⟨(hclq Q hQ).2 h1, ?_⟩
      intro R hR hsub
      have := h2 _ ((hclq R hR.1).1 hR) (image_subset_image hsub)
      exact Subset.antisymm (himg R Q hR.1 hQ this.subset) hsub
  have hset : ∀ C : List ℕ, ((C.map φ).dedup.insertionSort (· ≤ ·)).toFinset = C.toFinset.image φ := by
    intro C
    ext v
    rw [List.mem_toFinset, List.mem_insertionSort, List.mem_dedup, List.mem_map, mem_image]
    simp
  have hlt' : ∀ C ∈ ls, ∀ q ∈ C.toFinset, q < n := fun C hC q hq => hlt C hC q (by simpa using hq)
  refine ⟨?_, ?_, ?_⟩
  · rw [List.nodup_map_iff_inj_on (List.Nodup.of_map _ hn)]
    intro C hC D hD he
    have h1 := congrArg List.toFinset he
    rw [hset, hset] at h1
    have h2 : C.toFinset = D.toFinset :=
      Subset.antisymm (himg _ _ (hlt' C hC) (hlt' D hD) h1.subset)
        (himg _ _ (hlt' D hD) (hlt' C hC) h1.superset)
    exact List.inj_on_of_nodup_map hn hC hD h2
  · intro l hl
    obtain ⟨C, hC, rfl⟩ := List.mem_map.1 hl
    have h1 := List.pairwise_insertionSort (· ≤ ·) (C.map φ).dedup
    have h2 : ((C.map φ).dedup.insertionSort (· ≤ ·)).Nodup :=
      (List.perm_insertionSort (· ≤ ·) _).nodup_iff.2 (List.nodup_dedup _)
    exact (h1.and h2).imp fun h => lt_of_le_of_ne h.1 h.2
  · intro t
    constructor
    · rintro ⟨l, hl, rfl⟩
      obtain ⟨C, hC, rfl⟩ := List.mem_map.1 hl
      rw [hset, ← hmax _ (hlt' C hC), ← hm]
      exact List.mem_map_of_mem hC
    · intro ht
      obtain ⟨Q, hQ, rfl⟩ := hpre t ht.1
      obtain ⟨C, hC, hCQ⟩ := List.mem_map.1 ((hm Q).2 ((hmax Q hQ).2 ht))
      exact ⟨_, List.mem_map_of_mem hC, by rw [hset, hCQ]⟩

theorem inv_initial (K : Complex α) :
    Inv K.vertices.length (AdjAt K) [] (createInitialVertexSet K) [] := by
  refine ⟨List.nodup_range, ⟨by simp, by simp⟩, ?_, by simp⟩
  intro v
  simp [createInitialVertexSet]

/-- C29. The Bron–Kerbosch enumeration returns the maximal cliques of the 1-skeleton, each of them once and as
an ascending list of vertices, whatever the traversal orders of the unordered sets. -/
theorem C29_bron_kerbosch (o : Orders α) (K : Complex α) (hK : WF K) (hc : EdgeClosed K) :
    ∃ L, maximalCliquesBronKerbosch o K = some L ∧ L.Nodup ∧ (∀ l ∈ L, l.Pairwise (· < ·)) ∧
      ∀ t : Finset ℕ, (∃ l ∈ L, l.toFinset = t) ↔ IsMaximalClique K t := by
  obtain ⟨A, h1, h2, h3⟩ := adjacencyMatrix_spec o hK hc
  obtain ⟨ls, g1, g2, g3, g4⟩ := enumerateBronKerbosch_good h3 (newClique_spec h2) o.verts_perm
    (K.vertices.length + 1) [] (createInitialVertexSet K) [] [] (inv_initial K)
    (by simp [createInitialVertexSet])
  refine ⟨_, by unfold maximalCliquesBronKerbosch; rw [h1]; exact g1, ?_⟩
  exact cliques_finish hK ls g2 g3 (by simpa using g4)

/-- C30. Koch's variant returns the maximal cliques of the 1-skeleton, each of them once and as
an ascending list of vertices, whatever the traversal orders of the unordered sets. -/
theorem C30_koch (o : Orders α) (K : Complex α) (hK : WF K) (hc : EdgeClosed K) :
    ∃ L, maximalCliquesKoch o K = some L ∧ L.Nodup ∧ (∀ l ∈ L, l.Pairwise (· < ·)) ∧
      ∀ t : Finset ℕ, (∃ l ∈ L, l.toFinset = t) ↔ IsMaximalClique K t := by
  obtain ⟨A, h1, h2, h3⟩ := adjacencyMatrix_spec o hK hc
  obtain ⟨ls, g1, g2, g3, g4⟩ := enumerateKoch_good h3 (newClique_spec h2) o.verts_perm
    (K.vertices.length + 1) [] (createInitialVertexSet K) [] [] (inv_initial K)
    (by simp [createInitialVertexSet])
  refine ⟨_, by unfold maximalCliquesKoch; rw [h1]; exact g1, ?_⟩
  exact cliques_finish hK ls g2 g3 (by simpa using g4)

theorem eq_of_toFinset_sorted {l m : List ℕ} (hl : l.Pairwise (· < ·)) (hm : m.Pairwise (· < ·))
    (h : l.toFinset = m.toFinset) : l = m := by
  have hp : l.Perm m := (List.perm_ext_iff_of_nodup (hl.imp fun h => ne_of_lt h)
    (hm.imp fun h => ne_of_lt h)).2 fun v => by
      rw [← List.mem_toFinset, h, List.mem_toFinset]
  exact hp.eq_of_pairwise (le := (· < ·)) (fun a b _ _ hab hba => absurd hab (lt_asymm hba)) hl hm

/-- C30. Both enumerations return the same cliques up to their order, for any traversal orders. -/
theorem C30_agree (o o' : Orders α) (K : Complex α) (hK : WF K) (hc : EdgeClosed K) :
    ∃ L L', maximalCliquesBronKerbosch o K = some L ∧ maximalCliquesKoch o' K = some L' ∧ L.Perm L' := by
  obtain ⟨L, h1, h2, h3, h4⟩ := C29_bron_kerbosch o K hK hc
  obtain ⟨L', g1, g2, g3, g4⟩ := C30_koch o' K hK hc
  refine ⟨L, L', h1, g1, (List.perm_ext_iff_of_nodup h2 g2).2 fun l => ?_⟩
  constructor
  · intro hl
    obtain ⟨m, hm, he⟩ := (g4 l.toFinset).2 ((h4 _).1 ⟨l, hl, rfl⟩)
    rw [← eq_of_toFinset_sorted (g3 m hm) (h3 l hl) he]; exact hm
  · intro hl
    obtain ⟨m, hm, he⟩ := (h4 l.toFinset).2 ((g4 _).1 ⟨l, hl, rfl⟩)
    rw [← eq_of_toFinset_sorted (h3 m hm) (g3 l hl) he]; exact hm

/-- Every clique is contained in one of the listed cliques. -/
theorem C30_cover (o : Orders α) (K : Complex α) (hK : WF K) (hc : EdgeClosed K) (t : Finset ℕ)
    (ht : IsClique K t) : ∃ L, maximalCliquesKoch o K = some L ∧ ∃ l ∈ L, t ⊆ l.toFinset := by
  obtain ⟨L, h1, -, -, h4⟩ := C30_koch o K hK hc
  refine ⟨L, h1, ?_⟩
  -- a clique of maximal size containing `t`
  have hbound : ∀ u, IsClique K u → u ⊆ K.vertices.toFinset := by
    intro u hu v hv
    rw [List.mem_toFinset]
    exact ((C22_vertices K hK).2 v).2 (hu.1 v hv)
  classical
  obtain ⟨m, hm, hmax⟩ := (K.vertices.toFinset.powerset.filter fun u => IsClique K u ∧ t ⊆ u).exists_max_image
    Finset.card ⟨t, mem_filter.2 ⟨mem_powerset.2 (hbound t ht), ht, subset_rfl⟩⟩
  obtain ⟨-, hmc, htm⟩ := mem_filter.1 hm
  obtain ⟨l, hl, he⟩ := (h4 m).2 ⟨hmc, fun u hu hsub => (eq_of_subset_of_card_le hsub
    (hmax u (mem_filter.2 ⟨mem_powerset.2 (hbound u hu), hu, htm.trans hsub⟩))).symm⟩
  exact ⟨l, hl, by rw [he]; exact htm⟩

/-- The kite (two triangles would need another edge): one triangle, one edge. -/
example : maximalCliquesBronKerbosch (Orders.default ℕ) kite = some [[0, 1, 2], [2, 3]] := by decide
example : maximalCliquesKoch (Orders.default ℕ) kite = some [[0, 1, 2], [2, 3]] := by decide
example : maximalCliquesBronKerbosch (Orders.reversed ℕ) kite = some [[2, 3], [0, 1, 2]] := by decide
/-- Labels need not be contiguous. -/
example : maximalCliquesKoch (Orders.default ℕ) [⟨[7], 0⟩, ⟨[9], 0⟩, ⟨[3], 0⟩, ⟨[9, 7], 0⟩] = some [[3], [7, 9]] := by
  decide
/-- The empty complex has the empty set as its only maximal clique. -/
example : maximalCliquesKoch (Orders.default ℕ) [] = some [[]] := by decide
/-- An edge whose end points are missing makes both enumerations throw. -/
theorem C29_missing_vertex_witness :
    maximalCliquesBronKerbosch (Orders.default ℕ) [⟨[0], 0⟩, ⟨[1, 0], 0⟩] = none ∧
    maximalCliquesKoch (Orders.default ℕ) [⟨[0], 0⟩, ⟨[1, 0], 0⟩] = none := by decide

/-! ### Sparse matrices as seen by a client -/

/-- C53. Assigning indices to the columns throws if there are not as many indices as columns.  Without indices, the index of a column is its number; afterwards, it is the assigned index, and
asking for the index of a column that has none throws.  The entries of the matrix remain. -/
theorem C53_indices (A : SparseMatrix) (indices : List ℕ) :
    ((A.setIndices indices).2 = true ↔ indices.length ≠ A.numColumns) ∧
    (∀ column, (A.setIndices indices).1.column column = A.column column) ∧
    (indices ≠ [] → ∀ column, (A.setIndices indices).1.getIndex column = indices[column]?) ∧
    ∀ n column, (SparseMatrix.empty n).getIndex column = some column := by
  refine ⟨by simp [SparseMatrix.setIndices, SparseMatrix.numColumns], fun _ => rfl, fun h column => ?_, fun _ _ => rfl⟩
  have : indices.isEmpty = false := by simpa using h
  simp [SparseMatrix.setIndices, SparseMatrix.getIndex, this]

/-- Three indices for two columns. -/
example : ((SparseMatrix.empty 2).setIndices [4, 5, 6]).2 = true ∧ ((SparseMatrix.empty 2).setIndices [4, 5]).1.getIndex 1 = some 5 := by decide

/-- C53. After any sequence of `set` calls with valid columns, an entry is reported exactly if it was set, the number
of entries of a column is the number of different rows set in it, and listing a column yields these rows; using
a column that does not exist throws. -/
theorem C53_sparse_matrix (n : ℕ) (ops : List (ℕ × ℕ)) (h : ∀ p ∈ ops, p.2 < n) :
    ∃ A, ops.foldlM (fun A p => SparseMatrix.set A p.1 p.2) (SparseMatrix.empty n) = some A ∧
      A.numColumns = n ∧
      (∀ row column, column < n → A.get row column = some (decide ((row, column) ∈ ops))) ∧
      (∀ column, column < n → ∃ l, A.column column = some l ∧ l.Nodup ∧
        (∀ row, row ∈ l ↔ (row, column) ∈ ops) ∧ A.numEntries column = some l.length) ∧
      ∀ row column, n ≤ column → A.get row column = none ∧ A.column column = none ∧
        A.numEntries column = none ∧ A.set row column = none := by
  have key : ∀ (ops : List (ℕ × ℕ)) (A : SparseMatrix), A.columns.length = n → (∀ p ∈ ops, p.2 < n) →
      (∀ c ∈ A.columns, c.Nodup) →
      ∃ A', ops.foldlM (fun A p => SparseMatrix.set A p.1 p.2) A = some A' ∧ A'.columns.length = n ∧
        (∀ c ∈ A'.columns, c.Nodup) ∧ ∀ u v, u ∈ A'.col v ↔ u ∈ A.col v ∨ (u, v) ∈ ops := by
    intro ops
    induction ops with
    | nil => intro A h1 _ h3; exact ⟨A, rfl, h1, h3, by simp⟩
    | cons p ops ih =>
      intro A h1 h2 h3
      obtain ⟨A1, k1, k2, -, k4⟩ := A.set_spec (r := p.1) (c := p.2) (by
        rw [h1]; exact h2 p List.mem_cons_self)
      have hnd : ∀ c ∈ A1.columns, c.Nodup := by
        unfold SparseMatrix.set at k1
        have hlt : p.2 < A.columns.length := by rw [h1]; exact h2 p List.mem_cons_self
        rw [List.getElem?_eq_getElem hlt] at k1
        simp only [Option.some.injEq] at k1
        rw [← k1]
        intro c hc
        rcases List.mem_or_eq_of_mem_set hc with hc | rfl
        · exact h3 c hc
        · exact insertSet_nodup (h3 _ (List.getElem_mem hlt)) _
      obtain ⟨A', g1, g2, g3, g4⟩ := ih A1 (by omega) (fun q hq => h2 q (List.mem_cons_of_mem _ hq)) hnd
      refine ⟨A', by rw [List.foldlM_cons, k1]; exact g1, g2, g3, fun u v => ?_⟩
      rw [g4, k4, List.mem_cons, or_assoc]
      have : (u, v) = p ↔ u = p.1 ∧ v = p.2 := by
        obtain ⟨a, b⟩ := p; simp
      rw [this]
  obtain ⟨A, h1, h2, h3, h4⟩ := key ops (SparseMatrix.empty n) (by simp [SparseMatrix.empty]) h
    (by
      intro c hc
      rw [(List.mem_replicate.1 hc).2]; exact List.nodup_nil)
  have hemp : ∀ v, (SparseMatrix.empty n).col v = [] := by
    intro v
    unfold SparseMatrix.col SparseMatrix.empty
    simp only [List.getElem?_replicate]
    split <;> rfl
  have hm : ∀ u v, u ∈ A.col v ↔ (u, v) ∈ ops := by
    intro u v; rw [h4, hemp]; simp
  refine ⟨A, h1, h2, ?_, ?_, ?_⟩
  · intro row column hc
    have hg := List.getElem?_eq_getElem (l := A.columns) (i := column) (by omega)
    unfold SparseMatrix.get
    rw [hg]
    have := hm row column
    unfold SparseMatrix.col at this
    rw [hg] at this
    simp only [Option.getD_some] at this
    simp [this]
  · intro column hc
    have hg := List.getElem?_eq_getElem (l := A.columns) (i := column) (by omega)
    refine ⟨A.columns[column]'(by omega), hg, h3 _ (List.getElem_mem _), fun row => ?_, ?_⟩
    · rw [← hm]
      unfold SparseMatrix.col
      rw [hg]; rfl
    · unfold SparseMatrix.numEntries; rw [hg]; rfl
  · intro row column hc
    have hg : A.columns[column]? = none := List.getElem?_eq_none (by omega)
    simp [SparseMatrix.get, SparseMatrix.column, SparseMatrix.numEntries, SparseMatrix.set, hg]

example : (∀ p ∈ [(1, 0), (2, 0), (1, 0), (0, 2)], p.2 < 3) := by decide

end Aleph
