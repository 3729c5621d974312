import Verif.Lemmas.ZeroDimOrder
import Verif.Lemmas.SpanningTree
import Verif.Lemmas.PythonMatrix

/-!
# Zero-dimensional persistent homology of graphs and spanning trees
-/

namespace Aleph.PythonMatrix

open Finset Spec SpanningTree

variable {α : Type}

/-- Vertices precede edges; nothing else changes. -/
def vertsFirst (K : Complex α) : Complex α := K.filter isVertex ++ K.filter isEdge

theorem vertsFirst_perm {K : Complex α} (h : ∀ s ∈ K, #s.vset = 1 ∨ #s.vset = 2) : (vertsFirst K).Perm K := by
  unfold vertsFirst
  rw [show K.filter isEdge = K.filter (fun s => !isVertex s) from List.filter_congr fun s hs => by
    rcases h s hs with h | h <;> simp [isEdge, isVertex, h]]
  exact List.filter_append_perm _ _

theorem vertsFirst_vertices (K : Complex α) : (vertsFirst K).filter isVertex = K.filter isVertex := by
  have h1 : (K.filter isEdge).filter isVertex = [] := by
    rw [List.filter_eq_nil_iff]
    intro s hs
    have := (List.mem_filter.1 hs).2
    simp only [isEdge, decide_eq_true_eq] at this
    simp [isVertex, this]
  unfold vertsFirst
  rw [List.filter_append, h1, List.append_nil]
  simp

theorem vertsFirst_edges (K : Complex α) : (vertsFirst K).filter isEdge = K.filter isEdge := by
  have h1 : (K.filter isVertex).filter isEdge = [] := by
    rw [List.filter_eq_nil_iff]
    intro s hs
    have := (List.mem_filter.1 hs).2
    simp only [isVertex, decide_eq_true_eq] at this
    simp [isEdge, this]
  unfold vertsFirst
  rw [List.filter_append, h1, List.nil_append]
  simp

theorem has_perm {K L : Complex α} (h : L.Perm K) (t : Finset ℕ) : Has L t ↔ Has K t := by
  unfold Has
  simp only [h.mem_iff]

theorem vertsFirst_filtration {K : Complex α} (hK : WF K) (h : ∀ s ∈ K, #s.vset = 1 ∨ #s.vset = 2)
    (hc : ∀ u v, u < v → Has K {u, v} → Has K {u} ∧ Has K {v}) : IsFiltration (vertsFirst K) := by
  have hp := vertsFirst_perm h
  refine ⟨hK.perm hp, ?_, ?_⟩
  · intro s hs t hts hne
    refine (has_perm hp t).2 ?_
    rw [hp.mem_iff] at hs
    by_cases e : t = s.vset
    · exact ⟨s, hs, e.symm⟩
    have hlt := card_lt_card (lt_of_le_of_ne hts e)
    have hpos := hne.card_pos
    have h2 : #s.vset = 2 := by
      rcases h s hs with h | h <;> omega
    obtain ⟨x, rfl⟩ := card_eq_one.1 (show #t = 1 by omega)
    obtain ⟨a, b, hab, hs2⟩ := card_eq_two.1 h2
    have hx : x = a ∨ x = b := by
      have := hts (mem_singleton_self x)
      rw [hs2] at this
      simpa using this
    rcases lt_or_gt_of_ne hab with hlt | hlt
    · have := hc a b hlt ⟨s, hs, hs2⟩
      rcases hx with rfl | rfl
      · exact this.1
      · exact this.2
    · have := hc b a hlt ⟨s, hs, hs2.trans (pair_comm _ _)⟩
      rcases hx with rfl | rfl
      · exact this.2
      · exact this.1
  · have hpos : ∀ s ∈ K, ∀ t ∈ K, #s.vset ≤ #t.vset → ¬ t.vset ⊂ s.vset := fun s _ t _ hle hss => by
      have := card_lt_card hss
      omega
    unfold FacesFirst vertsFirst
    have e1 : ∀ s ∈ K.filter isVertex, s ∈ K ∧ #s.vset = 1 := fun s hs => by
      simpa [isVertex] using List.mem_filter.1 hs
    have e2 : ∀ s ∈ K.filter isEdge, s ∈ K ∧ #s.vset = 2 := fun s hs => by
      simpa [isEdge] using List.mem_filter.1 hs
    rw [List.pairwise_append]
    refine ⟨List.pairwise_of_forall_mem_list fun s hs t ht => ?_, List.pairwise_of_forall_mem_list fun s hs t ht => ?_, fun s hs t ht => ?_⟩
    · exact hpos s (e1 s hs).1 t (e1 t ht).1 (by rw [(e1 s hs).2, (e1 t ht).2])
    · exact hpos s (e2 s hs).1 t (e2 t ht).1 (by rw [(e2 s hs).2, (e2 t ht).2])
    · exact hpos s (e1 s hs).1 t (e2 t ht).1 (by rw [(e1 s hs).2, (e2 t ht).2]; norm_num)

/-- The diagram of a connected graph whose vertices have the same data: the weights of the edges of a minimum spanning tree. -/
theorem zeroDimensional_tree [LinearOrder α] [AddCommGroup α] [IsOrderedAddMonoid α] (leftFirst : Bool) (inf : α) {K : Complex α} (hK : WF K)
    (hlen : K.length ≤ idxMax) {n : ℕ} (h1 : 1 ≤ n) {G : ℕ → ℕ → Prop} (hv : ∀ v, Has K {v} ↔ v < n)
    (he : ∀ u v, u < v → (Has K {u, v} ↔ G u v)) (hG : ∀ u v, G u v → u < v) (hG2 : ∀ u v, G u v → v < n)
    (hc : ∀ a < n, ∀ b < n, Relation.EqvGen G a b) (honly : ∀ s ∈ K, #s.vset = 1 ∨ #s.vset = 2) {w0 : α}
    (hw0 : ∀ s ∈ K, #s.vset = 1 → s.data = w0) {w : ℕ → ℕ → α} (hd : ∀ s ∈ K, ∀ u v, u < v → s.vset = {u, v} → s.data = w u v)
    (hs : K.Pairwise fun s t => s.data ≤ t.data) :
    ∃ pts pairs T, zeroDimensional false leftFirst inf K = some (pts, pairs) ∧ MinimumSpanningTree n G w T ∧ BottleneckSpanningTree n G w T ∧
      pts.Perm (((T.map fun e => w e.1 e.2).filter (· ≠ w0)).map (fun x => (w0, x)) ++ [(w0, inf)]) := by
  have hp := vertsFirst_perm honly
  have hL := vertsFirst_filtration hK honly fun u v huv h => by
    have hg := (he u v huv).1 h
    exact ⟨(hv u).2 (huv.trans (hG2 u v hg)), (hv v).2 (hG2 u v hg)⟩
  have hLw := hL.wf
  have hLlen : (vertsFirst K).length ≤ idxMax := by rw [hp.length_eq]; exact hlen
  have heq := zeroDimensional_order false leftFirst inf hK hp (vertsFirst_vertices K) (vertsFirst_edges K)
  obtain ⟨pts, pairs, e, hnd, hpts, hmem⟩ := C16_zero_dimensional_pairing false leftFirst inf (vertsFirst K) hL hLlen
  rw [e] at heq
  cases ez : zeroDimensional false leftFirst inf K with
  | none => rw [ez] at heq; simp at heq
  | some y =>
  obtain ⟨pts', pairs'⟩ := y
  rw [ez] at heq
  simp only [Option.map_some, Option.some.injEq] at heq
  subst heq
  obtain ⟨p, -, hcp, -⟩ := pairingOf_spec hL hLlen
  have hv' : ∀ v, Has (vertsFirst K) {v} ↔ v < n := fun v => (has_perm hp _).trans (hv v)
  have he' : ∀ u v, u < v → (Has (vertsFirst K) {u, v} ↔ G u v) := fun u v h => (has_perm hp _).trans (he u v h)
  have hdat : ∀ k u v, u < v → vsetAt (vertsFirst K) k = {u, v} → dataD inf (vertsFirst K) k = w u v := by
    intro k u v huv hk
    have hlt := lt_of_vsetAt (by simp) hk
    simp only [vsetAt, dataD, List.getElem?_eq_getElem hlt] at hk ⊢
    exact hd _ (hp.mem_iff.1 (List.getElem_mem hlt)) u v huv hk
  have hdat0 : ∀ k v, vsetAt (vertsFirst K) k = {v} → dataD inf (vertsFirst K) k = w0 := by
    intro k v hk
    have hlt := lt_of_vsetAt (by simp) hk
    simp only [vsetAt, dataD, List.getElem?_eq_getElem hlt] at hk ⊢
    exact hw0 _ (hp.mem_iff.1 (List.getElem_mem hlt)) (by rw [hk]; simp)
  set c := (K.filter isVertex).length with hcdef
  have hedge : ∀ k u v, u < v → vsetAt (vertsFirst K) k = {u, v} → c ≤ k := by
    intro k u v huv hk
    by_contra hlt
    have hkc : k < c := by omega
    have hm : (vertsFirst K)[k]? = some (K.filter isVertex)[k] := by
      unfold vertsFirst
      rw [List.getElem?_append_left hkc, List.getElem?_eq_getElem hkc]
    simp only [vsetAt, hm] at hk
    have := (List.mem_filter.1 (List.getElem_mem hkc)).2
    simp only [isVertex, decide_eq_true_eq] at this
    rw [hk, card_pair (by omega)] at this
    omega
  have hmono : ∀ i j, i ≤ j → j < (vertsFirst K).length → dataD inf (vertsFirst K) (max i c) ≤ dataD inf (vertsFirst K) (max j c) := by
    intro i j hij hj
    by_cases hcl : c < (vertsFirst K).length
    · rcases (max_le_max_right c hij).eq_or_lt with h | h
      · rw [h]
      · have hl : (vertsFirst K).length = c + (K.filter isEdge).length := by simp [vertsFirst, hcdef]
        have hi2 : max i c - c < (K.filter isEdge).length := by omega
        have hj2 : max j c - c < (K.filter isEdge).length := by omega
        have g : ∀ k (hk : k - c < (K.filter isEdge).length), c ≤ k → (vertsFirst K)[k]? = some (K.filter isEdge)[k - c] := by
          intro k hk hck
          unfold vertsFirst
          rw [List.getElem?_append_right (by omega), List.getElem?_eq_getElem hk]
        simp only [dataD, g _ hi2 (by omega), g _ hj2 (by omega)]
        exact List.pairwise_iff_getElem.1 (hs.filter isEdge) _ _ hi2 hj2 (by omega)
    · rw [show max i c = max j c by omega]
  have hdat' : ∀ k u v, u < v → vsetAt (vertsFirst K) k = {u, v} → dataD inf (vertsFirst K) (max k c) = w u v := by
    intro k u v huv hk
    rw [max_eq_left (hedge k u v huv hk)]
    exact hdat k u v huv hk
  have hT := tree_spanning hL hLlen hcp h1 hv' he' hG hc
  refine ⟨pts, pairs', tree (vertsFirst K) p, rfl, tree_minimum hL hLlen hmono hcp h1 hv' he' hG hc hdat',
    tree_bottleneck hL hLlen hmono hcp h1 hv' he' hG hc hdat', ?_⟩
  -- the component that is never destroyed
  have hjoin : ∀ a < n, ∀ b < n, Joined (vertsFirst K) (vertsFirst K).length a b := by
    intro a ha b hb
    refine eqvGen_congr ?_ (hc a ha b hb)
    intro x y hxy
    obtain ⟨k, hk⟩ := (has_iff_at (by simp)).1 ((he' x y (hG x y hxy)).2 hxy)
    exact .rel _ _ ⟨ne_of_lt (hG x y hxy), k, lt_of_vsetAt (by simp) hk, hk⟩
  have hcomp := C17_components false leftFirst inf (vertsFirst K) hL hLlen pts pairs e
  have h0V : 0 ∈ (vertsFirst K).vertices := (mem_vertices_iff hLw).2 ((has_iff_at (by simp)).1 ((hv' 0).2 h1))
  obtain ⟨i0, ⟨hi0, w', hw', -⟩, huniq⟩ := hcomp.2 0 h0V
  have hinf : ∀ i, (i, idxMax) ∈ pairs ↔ i = i0 := by
    intro i
    refine ⟨fun hi => huniq i ⟨hi, ?_⟩, fun h => h ▸ hi0⟩
    obtain ⟨x, hx, -⟩ := (hcomp.1 i).1 hi
    exact ⟨x, hx, hjoin 0 h1 x ((hv' x).1 ((has_iff_at (by simp)).2 ⟨i, hx⟩))⟩
  have hf := pairFacts hL hLlen
  have hpairs : pairs.Perm ((merges (vertsFirst K) p).filter (fun ij => decide (dataD inf (vertsFirst K) ij.1 ≠ dataD inf (vertsFirst K) ij.2)) ++ [(i0, idxMax)]) := by
    refine (List.perm_ext_iff_of_nodup hnd ?_).2 ?_
    · refine List.nodup_append.2 ⟨(hcp.1.filter _).filter _, by simp, ?_⟩
      rintro ij hij x hx rfl
      simp only [List.mem_singleton] at hx
      have := (hf.lt _ _ ((mem_merges hL hLlen hcp).1 (List.mem_filter.1 hij).1).2).2.1
      rw [hx] at this
      simp only at this
      omega
    · rintro ⟨i, j⟩
      rw [List.mem_append, List.mem_filter, mem_merges hL hLlen hcp, List.mem_singleton, Prod.mk.injEq, hmem]
      simp only [Bool.false_eq_true, false_or, decide_eq_true_eq, ne_eq]
      constructor
      · rintro ⟨d0, ⟨h, hne⟩ | ⟨rfl, hu⟩⟩
        · exact Or.inl ⟨⟨d0, h⟩, hne⟩
        · exact Or.inr ⟨(hinf i).1 ((hmem _ _).2 ⟨d0, Or.inr ⟨rfl, hu⟩⟩), rfl⟩
      · rintro (⟨⟨d0, h⟩, hne⟩ | ⟨rfl, rfl⟩)
        · exact ⟨d0, Or.inl ⟨h, hne⟩⟩
        · have := (hmem _ _).1 hi0
          simpa using this
  rw [hpts]
  refine (hpairs.map _).trans ?_
  rw [List.map_append]
  refine List.Perm.of_eq (congrArg₂ (· ++ ·) ?_ ?_)
  · have hm : ∀ ij ∈ merges (vertsFirst K) p, dataD inf (vertsFirst K) ij.1 = w0 ∧
        dataD inf (vertsFirst K) ij.2 = w (edgeAt (vertsFirst K) ij.2).1 (edgeAt (vertsFirst K) ij.2).2 := by
      intro ij hij
      obtain ⟨d0, h⟩ := (mem_merges hL hLlen hcp).1 hij
      obtain ⟨v, hvv⟩ := (dimAt_zero_iff hLw).1 ⟨(hf.lt _ _ h).1, d0⟩
      refine ⟨hdat0 _ _ hvv, ?_⟩
      have hin : edgeAt (vertsFirst K) ij.2 ∈ tree (vertsFirst K) p := List.mem_map_of_mem hij
      have hlt := hG _ _ (hT.edges _ hin)
      rcases edgeAt_spec hLw (k := ij.2) with ⟨g1, g2⟩ | ⟨g1, -⟩
      · exact hdat _ _ _ g1 g2
      · rw [g1] at hlt
        exact absurd hlt (lt_irrefl _)
    unfold tree
    rw [List.map_map, List.filter_map, List.map_map]
    have : (merges (vertsFirst K) p).filter (fun ij => decide (dataD inf (vertsFirst K) ij.1 ≠ dataD inf (vertsFirst K) ij.2)) =
        (merges (vertsFirst K) p).filter ((fun x => decide (x ≠ w0)) ∘ ((fun e : ℕ × ℕ => w e.1 e.2) ∘ fun ij => edgeAt (vertsFirst K) ij.2)) := by
      refine List.filter_congr fun ij hij => ?_
      rw [(hm ij hij).1, (hm ij hij).2]
      simp only [Function.comp, ne_eq, eq_comm]
    rw [this]
    refine List.map_congr_left fun ij hij => ?_
    have := hm ij (List.mem_filter.1 hij).1
    simp only [Function.comp, this.1, this.2]
  · rw [List.map_singleton, hdat0 i0 w' hw']
    simp [dataD, List.getElem?_eq_none hLlen]

end Aleph.PythonMatrix
