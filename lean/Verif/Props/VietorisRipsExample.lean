import Verif.Model.VietorisRipsExample
import Verif.Props.Distances
import Verif.Props.NetworkAnalysis
import Verif.Props.PointCloud
import Verif.Spec.VietorisRipsExample

/-!
# C165: the example `vietoris_rips`
-/

namespace Aleph.VietorisRipsExample

open Finset Spec NetworkAnalysis

variable {α : Type}

/-! ### The complex -/

/-- The neighbourhood graph, and its expansion. -/
structure IsRips [LinearOrder α] [Zero α] (n : ℕ) (M : ℕ → ℕ → α) (k : ℕ) (ε : α) (G L : Complex α) : Prop where
  wf : WF G
  expansion : IsExpansion G id k L
  vertex : ∀ v, Has G {v} ↔ v < n
  edge : ∀ u v, u < v → (Has G {u, v} ↔ v < n ∧ M u v < ε)
  vertexData : ∀ v y, HasData G {v} y → y = 0
  edgeData : ∀ u v w, u < v → HasData G {u, v} w → w = M u v
  dimension : ∀ s ∈ G, #s.vset ≤ 2

section Complex

variable [LinearOrder α] [Zero α] {n : ℕ} {M : ℕ → ℕ → α} {k : ℕ} {ε : α} {G L : Complex α}

theorem rips_exists (o : Orders α) (hpos : ∀ u v, u < v → v < n → 0 ≤ M u v) (hsize : ripsSize n k ≤ idxMax) :
    ∃ G L, Rips.buildVietorisRips o 0 n M ε k = some L ∧ IsRips n M k ε G L := by
  obtain ⟨G, -, hG, hv, he, hd1, hd2, hdim⟩ := ripsSkeleton_spec (0 : α) n M ε
  obtain ⟨L, h1, h2, h3, h4, h5, h6, h7⟩ := C28_vietoris_rips o 0 n M ε k hpos
  have hcl := rips_clique_iff hv he
  have hvd : ∀ v y, HasData G {v} y → y = 0 := by
    rintro v y ⟨s, hs, e, rfl⟩
    exact hd1 s hs (by rw [e]; rfl)
  have hed : ∀ u v w, u < v → HasData G {u, v} w → w = M u v := by
    rintro u v w huv ⟨s, hs, e, rfl⟩
    exact hd2 s hs u v huv e
  have hclosed : FaceClosed L := by
    intro s hs t hts hne
    obtain ⟨g1, g2, g3, g4⟩ := (h3 s.vset).1 ⟨s, hs, rfl⟩
    exact (h3 t).2 ⟨hne, (card_le_card hts).trans g2, fun v hv => g3 v (hts hv), fun u hu v hv => g4 u (hts hu) v (hts hv)⟩
  have hle : L.length ≤ idxMax := (PythonMatrix.length_le h2 fun t ht => by
    obtain ⟨g1, g2, g3, -⟩ := (h3 t).1 ht
    exact ⟨g1, g2, g3⟩).trans hsize
  refine ⟨G, L, h1, hG, ⟨⟨h2, hclosed, h6⟩, hle, h7, ?_, ?_, ?_⟩, hv, he, hvd, hed, hdim⟩
  · intro t
    rw [h3, mem_cliquesUpTo, hcl]
  · intro s hs hcard
    obtain ⟨v, e⟩ := card_eq_one.1 hcard
    obtain ⟨w, hw⟩ := has_iff_hasData.1 ((hv v).2 (((h3 _).1 ⟨s, hs, rfl⟩).2.2.1 v (by rw [e]; simp)))
    rw [h4 s hs hcard, e, ← hvd v w hw]
    exact hw
  · intro s hs hcard
    have hmem := ((h3 _).1 ⟨s, hs, rfl⟩)
    have := h5 s hs hcard
    convert this using 1
    ext y
    constructor
    · rintro ⟨u, hu, v, hv', huv, w, hw, e⟩
      rw [e]
      rcases lt_or_gt_of_ne huv with h | h
      · exact ⟨u, hu, v, hv', h, hed u v w h hw⟩
      · exact ⟨v, hv', u, hu, h, hed v u w h (by rw [pair_comm]; exact hw)⟩
    · rintro ⟨u, hu, v, hv', huv, rfl⟩
      obtain ⟨w, hw⟩ := has_iff_hasData.1 ((he u v huv).2 ⟨hmem.2.2.1 v hv', hmem.2.2.2 u hu v hv' huv⟩)
      exact ⟨u, hu, v, hv', huv.ne, w, hw, (hed u v w huv hw).symm⟩

theorem IsRips.cliques (h : IsRips n M k ε G L) : cliquesUpTo G k = ripsBelow n M k ε := by
  ext t
  rw [mem_cliquesUpTo, rips_clique_iff h.vertex h.edge, ripsBelow, mem_filter, mem_powerset]
  constructor
  · rintro ⟨h1, h2, h3, h4⟩
    exact ⟨fun v hv => mem_range.2 (h3 v hv), h1, h2, h4⟩
  · rintro ⟨h1, h2, h3, h4⟩
    exact ⟨h2, h3, fun v hv => mem_range.1 (h1 hv), h4⟩

theorem IsRips.cliquesAt (h : IsRips n M k ε G L) {x : α} (hx : x < ε) :
    Spec.cliquesAt G id k x = ripsAt n M k x := by
  classical
  ext t
  unfold Spec.cliquesAt
  rw [mem_filter, h.cliques, ripsBelow, ripsAt, mem_filter, mem_filter]
  constructor
  · rintro ⟨⟨h1, h2, h3, h4⟩, h5, h6⟩
    refine ⟨h1, h2, h3, ?_, ?_⟩
    · obtain ⟨v, hv⟩ := h2
      obtain ⟨w, hw⟩ := has_iff_hasData.1 ((h.vertex v).2 (mem_range.1 (mem_powerset.1 h1 hv)))
      have := h5 v hv w hw
      rwa [h.vertexData v w hw] at this
    · intro u hu v hv huv
      obtain ⟨w, hw⟩ := has_iff_hasData.1 ((h.edge u v huv).2 ⟨mem_range.1 (mem_powerset.1 h1 hv), h4 u hu v hv huv⟩)
      have := h6 u hu v hv huv.ne w hw
      rwa [h.edgeData u v w huv hw] at this
  · rintro ⟨h1, h2, h3, h4, h5⟩
    refine ⟨⟨h1, h2, h3, fun u hu v hv huv => (h5 u hu v hv huv).trans_lt hx⟩, ?_, ?_⟩
    · intro v _ y hy
      rw [h.vertexData v y hy]
      exact h4
    · intro u hu v hv huv w hw
      rcases lt_or_gt_of_ne huv with g | g
      · rw [h.edgeData u v w g hw]
        exact h5 u hu v hv g
      · rw [h.edgeData v u w g (by rw [pair_comm]; exact hw)]
        exact h5 v hv u hu g

theorem IsRips.fits (h : IsRips n M k ε G L) (hpos : ∀ u v, u < v → v < n → 0 ≤ M u v) :
    ∀ u v w, u ≠ v → HasData G {u, v} w → ∀ y, HasData G {u} y → y ≤ id w := by
  intro u v w huv hw y hy
  rw [h.vertexData u y hy]
  rcases lt_or_gt_of_ne huv with g | g
  · rw [h.edgeData u v w g hw]
    exact hpos u v g ((h.edge u v g).1 (has_iff_hasData.2 ⟨w, hw⟩)).1
  · rw [pair_comm] at hw
    rw [h.edgeData v u w g hw]
    exact hpos v u g ((h.edge v u g).1 (has_iff_hasData.2 ⟨w, hw⟩)).1

/-- The data of simplices are zero or distances. -/
theorem IsRips.data (h : IsRips n M k ε G L) : ∀ s ∈ L, (#s.vset = 1 → s.data = 0) ∧ (2 ≤ #s.vset → ∃ u v, u < v ∧ v < n ∧ M u v < ε ∧ s.data = M u v) := by
  intro s hs
  refine ⟨fun hc => ?_, fun hc => ?_⟩
  · obtain ⟨v, e⟩ := card_eq_one.1 hc
    have := h.expansion.vertices s hs hc
    rw [e] at this
    exact h.vertexData v _ this
  · obtain ⟨u, -, v, -, huv, w, hw, e⟩ := (h.expansion.weights s hs hc).1
    rcases lt_or_gt_of_ne huv with g | g
    · obtain ⟨g1, g2⟩ := (h.edge u v g).1 (has_iff_hasData.2 ⟨w, hw⟩)
      exact ⟨u, v, g, g1, g2, by rw [e, ← h.edgeData u v w g hw]; rfl⟩
    · rw [pair_comm] at hw
      obtain ⟨g1, g2⟩ := (h.edge v u g).1 (has_iff_hasData.2 ⟨w, hw⟩)
      exact ⟨v, u, g, g1, g2, by rw [e, ← h.edgeData v u w g hw]; rfl⟩

omit [LinearOrder α] [Zero α] in
/-- In dimension zero there is a point for each vertex. -/
theorem length_zero (inf : α) (hL : IsFiltration L) (hle : L.length ≤ idxMax) {p : List (ℕ × ℕ)} (hp : IsComplexPairing L false p)
    (hdim : ∃ t < L.length, 0 < dimAt L t) : (diagramPoints inf L 0 p).length = #{i ∈ range L.length | dimAt L i = 0} := by
  have hf := pairFacts hL hle
  have hlt : ∀ ij ∈ p, ij.1 < L.length := by
    rintro ⟨i, j⟩ hij
    rcases (hp.2.2 i j).1 hij with g | g
    · exact (hf.lt _ _ g).1
    · exact g.2.1.1
  rw [diagramPoints_eq_map inf hlt, List.length_map, ← List.length_map Prod.fst]
  have hnd : ((p.filter fun ij => dimAt L ij.1 = 0).map Prod.fst).Nodup := by
    refine List.Nodup.map_on ?_ (hp.1.filter _)
    rintro ⟨i, j⟩ h1 ⟨i', j'⟩ h2 (e : i = i')
    subst e
    have k1 := (hp.2.2 i j).1 (List.mem_filter.1 h1).1
    have k2 := (hp.2.2 i j').1 (List.mem_filter.1 h2).1
    rcases k1 with k1 | ⟨k1, k1', -⟩ <;> rcases k2 with k2 | ⟨k2, k2', -⟩
    · rw [hf.snd _ _ _ k1 k2]
    · exact absurd k1 (k2'.2 j).1
    · exact absurd k2 (k1'.2 j').1
    · rw [k1, k2]
  rw [← List.toFinset_card_of_nodup hnd]
  congr 1
  ext i
  simp only [List.mem_toFinset, List.mem_map, List.mem_filter, decide_eq_true_eq, Prod.exists, exists_and_right, exists_eq_right, mem_filter, mem_range]
  constructor
  · rintro ⟨⟨j, hij⟩, hd⟩
    exact ⟨hlt _ hij, hd⟩
  · rintro ⟨hi, hd⟩
    by_cases hx : ∃ j, PersPair (facets L) i j
    · obtain ⟨j, hj⟩ := hx
      exact ⟨⟨j, (hp.2.2 i j).2 (Or.inl hj)⟩, hd⟩
    · refine ⟨⟨idxMax, (hp.2.2 _ _).2 (Or.inr ⟨rfl, ⟨hi, fun j => ⟨fun h => hx ⟨j, h⟩, fun h => ?_⟩⟩, Or.inr ?_⟩)⟩, hd⟩
      · have := (hf.lt _ _ h).2.2
        omega
      · rw [hd]
        exact hdim

theorem IsRips.countVertices (h : IsRips n M k ε G L) : #{i ∈ range L.length | dimAt L i = 0} = n := by
  have hwf := h.expansion.filt.wf
  have hat : ∀ i, (hi : i < L.length) → vsetAt L i = L[i].vset := fun i hi => by
    simp only [vsetAt, List.getElem?_eq_getElem hi]
  have hone : ∀ i, (hi : i < L.length) → (dimAt L i = 0 ↔ #L[i].vset = 1) := by
    intro i hi
    have := (mem_cliquesUpTo.1 ((h.expansion.has _).1 ⟨L[i], List.getElem_mem hi, rfl⟩)).1.card_pos
    rw [dimAt, hat i hi]
    omega
  have hex : ∀ v, ∃ i, v < n → vsetAt L i = {v} := by
    intro v
    by_cases hv : v < n
    · obtain ⟨i, hi⟩ := (SpanningTree.has_iff_at (singleton_nonempty v)).1 ((h.expansion.has {v}).2 (by
        rw [h.cliques, ripsBelow, mem_filter]
        refine ⟨by simpa using hv, by simp, by simp, ?_⟩
        intro a ha b hb hab
        rw [mem_singleton] at ha hb
        omega))
      exact ⟨i, fun _ => hi⟩
    · exact ⟨0, fun h => absurd h hv⟩
  choose f hf using hex
  rw [← card_range n]
  refine (card_bij (fun v _ => f v) ?_ ?_ ?_).symm
  · intro v hv
    have hs := hf v (mem_range.1 hv)
    rw [mem_filter, mem_range]
    exact ⟨lt_of_vsetAt (by simp) hs, by rw [dimAt, hs]; rfl⟩
  · intro v hv w hw e
    have hs := hf v (mem_range.1 hv)
    rw [e, hf w (mem_range.1 hw)] at hs
    exact (singleton_injective hs).symm
  · intro i hi
    rw [mem_filter, mem_range] at hi
    obtain ⟨v, hv⟩ := card_eq_one.1 ((hone i hi.1).1 hi.2)
    have hmem := (h.expansion.has _).1 ⟨L[i], List.getElem_mem hi.1, rfl⟩
    rw [h.cliques, ripsBelow, mem_filter, hv, mem_powerset] at hmem
    have hvr : v ∈ range n := hmem.1 (by simp)
    refine ⟨v, hvr, ?_⟩
    have hs := hf v (mem_range.1 hvr)
    have hj := lt_of_vsetAt (by simp) hs
    rw [hat _ hj, ← hv] at hs
    have := hwf.eq_of_vset (List.getElem_mem hj) (List.getElem_mem hi.1) hs
    exact (hwf.nodup.getElem_inj_iff).1 this

end Complex

section Analysis

variable [LinearOrder α] [Zero α] {n : ℕ} {M : ℕ → ℕ → α} {k : ℕ} {ε : α} {G L : Complex α}

theorem IsRips.analysis (h : IsRips n M k ε G L) (hpos : ∀ u v, u < v → v < n → 0 ≤ M u v) {inf : α} (h0 : inf ≠ 0)
    (hinf : ∀ u v, u < v → v < n → M u v ≠ inf) {p : List (ℕ × ℕ)} {Ds : List (Diagram α)} (hp : IsComplexPairing L false p) (hD : IsDiagramsOf inf L p Ds) :
    IsRipsAnalysis inf n M k ε (Ds.map fun D => (D.dimension, D.points)) := by
  have hcard : ∀ s ∈ L, 1 ≤ #s.vset := fun s hs => (mem_cliquesUpTo.1 ((h.expansion.has _).1 ⟨s, hs, rfl⟩)).1.card_pos
  have hdata : ∀ s ∈ L, s.data = 0 ∨ ∃ u v, u < v ∧ v < n ∧ M u v < ε ∧ s.data = M u v := by
    intro s hs
    by_cases hc : #s.vset = 1
    · exact Or.inl ((h.data s hs).1 hc)
    · exact Or.inr ((h.data s hs).2 (by have := hcard s hs; omega))
  have hinfL : ∀ s ∈ L, s.data ≠ inf := by
    intro s hs
    rcases hdata s hs with e | ⟨u, v, huv, hv, -, e⟩
    · rw [e]; exact h0.symm
    · rw [e]; exact hinf u v huv hv
  have hfits := h.fits hpos
  have hdims := fun e => (h.expansion.dimensions hp hD e)
  have hcount : ∀ D ∈ Ds, ∀ x y, IsPersistentBetti (Spec.cliquesAt G id k x) (Spec.cliquesAt G id k y) D.dimension
      (D.points.countP fun p => p.1 ≤ x ∧ (p.2 = inf ∨ y < p.2)) := by
    intro D hmem x y
    have := h.expansion.count hfits h.wf hinfL hp hD D.dimension ((hdims _).1 ⟨D, hmem, rfl⟩) x y
    rwa [pointsOfDimension_eq hD, ← ((hD.2 D).1 hmem).2] at this
  refine ⟨?_, ?_, ?_, ?_, ?_, ?_⟩
  · rw [List.map_map]
    exact hD.1
  · intro e
    rw [← h.cliques, ← hdims, List.map_map, List.mem_map]
    rfl
  · intro E hE x y hxy hy
    obtain ⟨D, hmem, rfl⟩ := List.mem_map.1 hE
    have := hcount D hmem x y
    rwa [h.cliquesAt (hxy.trans_lt hy), h.cliquesAt hy] at this
  · intro E hE
    obtain ⟨D, hmem, rfl⟩ := List.mem_map.1 hE
    obtain ⟨-, hub⟩ := foldl_max L 0
    set z := L.foldl (fun m s => max m s.data) 0
    have hz : ∀ s ∈ L, s.data ≤ z := fun s hs => hub (Or.inr ⟨s, hs, rfl⟩)
    have hall : Spec.cliquesAt G id k z = ripsBelow n M k ε := by
      rw [← h.expansion.sublevel hfits h.wf, ← h.cliques]
      ext t
      unfold Spec.sublevel
      rw [mem_sets, ← h.expansion.has]
      constructor
      · rintro ⟨s, hs, e⟩
        exact ⟨s, (List.mem_filter.1 hs).1, e⟩
      · rintro ⟨s, hs, e⟩
        exact ⟨s, List.mem_filter.2 ⟨hs, by simpa using hz s hs⟩, e⟩
    have := hcount D hmem z z
    rw [hall] at this
    convert this using 1
    refine List.countP_congr fun q hq => ?_
    obtain ⟨⟨s, hs, e⟩, h2⟩ := h.expansion.points hp hD hmem hq
    simp only [decide_eq_true_eq]
    constructor
    · intro hq2
      exact ⟨by rw [e]; exact hz s hs, Or.inl hq2⟩
    · rintro ⟨-, hq2 | hq2⟩
      · exact hq2
      · rcases h2 with h2 | ⟨t, ht, h2⟩
        · exact h2
        · rw [h2] at hq2
          exact absurd hq2 (not_lt.2 (hz t ht))
  · intro E hE q hq
    obtain ⟨D, hmem, rfl⟩ := List.mem_map.1 hE
    obtain ⟨-, hpts⟩ := (hD.2 D).1 hmem
    have hlt : ∀ ij ∈ p, ij.1 < L.length := by
      rintro ⟨i, j⟩ hij
      rcases (hp.2.2 i j).1 hij with g | g
      · exact ((pairFacts h.expansion.filt h.expansion.size).lt _ _ g).1
      · exact g.2.1.1
    simp only at hq
    rw [hpts, diagramPoints_eq_map inf hlt, List.mem_map] at hq
    obtain ⟨⟨i, j⟩, hij, rfl⟩ := hq
    have hi := hlt _ (List.mem_filter.1 hij).1
    refine ⟨?_, ?_⟩
    · simp only [dataD, List.getElem?_eq_getElem hi, Option.map_some, Option.getD_some]
      exact hdata _ (List.getElem_mem hi)
    · rcases (hp.2.2 i j).1 (List.mem_filter.1 hij).1 with g | ⟨rfl, -⟩
      · obtain ⟨-, g2, g3⟩ := (pairFacts h.expansion.filt h.expansion.size).lt _ _ g
        simp only [dataD, List.getElem?_eq_getElem g2, Option.map_some, Option.getD_some]
        refine Or.inr ((h.data _ (List.getElem_mem g2)).2 ?_)
        simp only [dimAt, vsetAt, List.getElem?_eq_getElem g2] at g3
        omega
      · exact Or.inl (by simp only [dataD, List.getElem?_eq_none h.expansion.size, Option.map_none, Option.getD_none])
  · intro E hE hz
    obtain ⟨D, hmem, rfl⟩ := List.mem_map.1 hE
    simp only at hz ⊢
    obtain ⟨t, ht, hc⟩ := (hdims 0).1 ⟨D, hmem, hz⟩
    have hne : t.Nonempty := card_pos.1 (by omega)
    obtain ⟨j, hj⟩ := (SpanningTree.has_iff_at hne).1 ((h.expansion.has t).2 ht)
    rw [((hD.2 D).1 hmem).2, hz, length_zero inf h.expansion.filt h.expansion.size hp ⟨j, lt_of_vsetAt hne hj, by rw [dimAt, hj, hc]; omega⟩]
    exact h.countVertices

theorem IsRips.congr (h : IsRips n M k ε G L) {M' : ℕ → ℕ → α} (hM : ∀ u v, u < v → v < n → M u v = M' u v) : IsRips n M' k ε G L := by
  refine ⟨h.wf, h.expansion, h.vertex, fun u v huv => ?_, h.vertexData, fun u v w huv hw => ?_, h.dimension⟩
  · rw [h.edge u v huv]
    exact and_congr_right fun hv => by rw [hM u v huv hv]
  · rw [h.edgeData u v w huv hw, hM u v huv ((h.edge u v huv).1 (has_iff_hasData.2 ⟨w, hw⟩)).1]

end Analysis

/-! ### The output -/

/-- The text for a diagram: a header with the name of the input, the dimension, and the number of points, followed by one line for each point and two empty lines. -/
def _root_.Aleph.Spec.IsRipsText (print : ℝ → List Char) (input : List Char) (d : ℕ) (points : List (ℝ × ℝ)) (text : List Char) : Prop :=
  ∃ sd se, IsUsualNotation d sd ∧ IsUsualNotation points.length se ∧
    text = "# Persistence diagram <".toList ++ input ++ ">\n#\n# Dimension: ".toList ++ sd ++ "\n# Entries  : ".toList ++ se ++ "\n".toList ++
      points.flatMap (fun p => print p.1 ++ ['\t'] ++ print p.2 ++ ['\n']) ++ "\n\n".toList

/-- The arguments behind the name of the file: the threshold, and the largest dimension of simplices, which is one more than the dimension of the points by default. -/
def _root_.Aleph.Spec.IsRipsArguments (convert : List Char → ℝ) (stoul : List Char → Option ℕ) (d : ℕ) (rest : List (List Char)) (ε : ℝ) (k : ℕ) : Prop :=
  ∃ first more, rest = first :: more ∧ ε = convert first ∧ (more = [] ∧ k = d + 1 ∨ ∃ word others, more = word :: others ∧ stoul word = some k)

theorem distances {c : Context ℝ} (hroot : c.root = Real.sqrt) {pc : PointCloud ℝ} {rows : List (List ℝ)} (hpc : pc.Has rows) {i j : ℕ} (hi : i < rows.length)
    (hj : j < rows.length) : distance c pc i j = pointDistance rows i j ∧ squared pc i j = pointDistance rows i j ^ 2 := by
  have hsq : squared pc i j = (List.zipWith (fun x y => (x - y) ^ 2) (rows.getD i []) (rows.getD j [])).sum := by
    unfold squared
    rw [C71_get pc rows hpc, C71_get pc rows hpc, ← List.getD_eq_getElem?_getD, ← List.getD_eq_getElem?_getD,
      (C60_values (-1 : ℝ) (rows.getD i []) (rows.getD j []) (by
        rw [List.getD_eq_getElem _ _ hi, List.getD_eq_getElem _ _ hj, hpc.dimension _ (List.getElem_mem hi), hpc.dimension _ (List.getElem_mem hj)])).2.2.1]
    rfl
  refine ⟨by rw [distance, hsq, hroot]; rfl, ?_⟩
  rw [hsq, pointDistance, Real.sq_sqrt]
  exact coordSum_nonneg (fun x y : ℝ => (x - y) ^ 2) (fun x y => sq_nonneg _) _ _

theorem foldl_greatest {β : Type} (f : β → ℝ) (l : List β) (a : ℝ) : IsGreatest {y | y = a ∨ ∃ x ∈ l, y = f x} (l.foldl (fun m x => max m (f x)) a) := by
  induction l generalizing a with
  | nil => exact ⟨Or.inl rfl, by rintro y (rfl | ⟨x, hx, -⟩); exacts [le_rfl, by cases hx]⟩
  | cons b l ih =>
    rw [List.foldl_cons]
    obtain ⟨h1, h2⟩ := ih (max a (f b))
    refine ⟨?_, ?_⟩
    · rcases h1 with h1 | ⟨x, hx, e⟩
      · rcases max_choice a (f b) with h | h
        · exact Or.inl (h1.trans h)
        · exact Or.inr ⟨b, by simp, h1.trans h⟩
      · exact Or.inr ⟨x, List.mem_cons_of_mem _ hx, e⟩
    · rintro y (rfl | ⟨x, hx, rfl⟩)
      · exact (le_max_left _ _).trans (h2 (Or.inl rfl))
      · rcases List.mem_cons.1 hx with rfl | hx
        · exact (le_max_right _ _).trans (h2 (Or.inl rfl))
        · exact h2 (Or.inr ⟨x, hx, rfl⟩)

/-- The value that is used for normalization is the square of the largest distance. -/
theorem maxDistance_eq {pc : PointCloud ℝ} {rows : List (List ℝ)} (hpc : pc.Has rows) {Δ : ℝ} (hΔ : IsDiameter rows Δ) : maxDistance pc = Δ ^ 2 := by
  have hn : pc.n = rows.length := hpc.count
  have hnest : maxDistance pc = ((List.range pc.n).flatMap fun i => ((List.range pc.n).drop (i + 1)).map fun j => (i, j)).foldl
      (fun m x => max m (squared pc x.1 x.2)) 0 := by
    unfold maxDistance
    rw [List.foldl_flatMap]
    simp only [List.foldl_map]
  have hmem : ∀ x : ℕ × ℕ, x ∈ ((List.range pc.n).flatMap fun i => ((List.range pc.n).drop (i + 1)).map fun j => (i, j)) ↔ x.1 < x.2 ∧ x.2 < rows.length := by
    rintro ⟨i, j⟩
    simp only [List.mem_flatMap, List.mem_range, List.mem_map, Prod.mk.injEq, List.mem_drop_iff_getElem, List.getElem_range, List.length_range, ← hn]
    constructor
    · rintro ⟨a, -, b, ⟨m, hm, e⟩, rfl, rfl⟩
      omega
    · rintro ⟨h1, h2⟩
      exact ⟨i, by omega, j, ⟨j - (i + 1), by omega, by omega⟩, rfl, rfl⟩
  have hsq : ∀ i j, i < j → j < rows.length → squared pc i j = pointDistance rows i j ^ 2 := fun i j h1 h2 =>
    (distances (c := ⟨0, Real.sqrt, fun _ => 0, fun _ => none, fun _ => []⟩) rfl hpc (h1.trans h2) h2).2
  have hnn : ∀ i j, 0 ≤ pointDistance rows i j := fun i j => Real.sqrt_nonneg _
  have h1 := foldl_greatest (fun x : ℕ × ℕ => squared pc x.1 x.2) ((List.range pc.n).flatMap fun i => ((List.range pc.n).drop (i + 1)).map fun j => (i, j)) 0
  rw [hnest]
  refine h1.unique ⟨?_, ?_⟩
  · rcases hΔ.1 with e | ⟨i, j, g1, g2, e⟩
    · exact Or.inl (by rw [e]; norm_num)
    · exact Or.inr ⟨(i, j), (hmem _).2 ⟨g1, g2⟩, by rw [e, hsq i j g1 g2]⟩
  · rintro y (rfl | ⟨x, hx, rfl⟩)
    · exact sq_nonneg _
    · obtain ⟨g1, g2⟩ := (hmem x).1 hx
      rw [hsq _ _ g1 g2]
      exact pow_le_pow_left₀ (hnn _ _) (hΔ.2 (Or.inr ⟨_, _, g1, g2, rfl⟩)) 2

/-- C165. Every option sets what it describes; other options have no effect. -/
theorem _root_.Aleph.C165_options (opts : List Opt) :
    ((settings opts).keep = true ↔ Opt.keep ∈ opts) ∧ ((settings opts).normalize = true ↔ Opt.normalize ∈ opts) ∧
    ((settings opts).tail = true ↔ Opt.tail ∈ opts) := by
  have h : ∀ (l : List Opt) (s : Settings), ((l.foldl setOption s).keep = true ↔ s.keep = true ∨ Opt.keep ∈ l) ∧
      ((l.foldl setOption s).normalize = true ↔ s.normalize = true ∨ Opt.normalize ∈ l) ∧ ((l.foldl setOption s).tail = true ↔ s.tail = true ∨ Opt.tail ∈ l) := by
    intro l
    induction l with
    | nil => intro s; simp
    | cons a l ih =>
      intro s
      rw [List.foldl_cons]
      obtain ⟨h1, h2, h3⟩ := ih (setOption s a)
      rw [h1, h2, h3]
      cases a <;> simp [setOption]
  have := h opts ⟨false, false, false⟩
  unfold settings
  simpa using this

theorem blocks_eq {β : Type} (f : β → List Char) (tail : Bool) (Ds : List β) :
    (Ds.zipIdx.flatMap fun Di => if Di.2 + 1 = Ds.length ∨ tail = false then f Di.1 else []) =
      ((if tail then Ds.drop (Ds.length - 1) else Ds).map f).flatten := by
  cases tail with
  | false =>
    simp only [or_true, if_true, Bool.false_eq_true, if_false]
    rw [← List.flatMap_def]
    conv_rhs => rw [← List.zipIdx_map_fst 0 Ds, List.flatMap_map]
  | true =>
    simp only [Bool.true_eq_false, or_false, if_true]
    rcases List.eq_nil_or_concat Ds with rfl | ⟨l, b, rfl⟩
    · rfl
    · rw [List.concat_eq_append, List.zipIdx_append, List.flatMap_append]
      have h0 : (l.zipIdx.flatMap fun Di => if Di.2 + 1 = (l ++ [b]).length then f Di.1 else []) = [] := by
        rw [List.flatMap_eq_nil_iff]
        rintro ⟨x, i⟩ hx
        have := (List.mem_zipIdx hx).2.1
        rw [if_neg]
        simp only [List.length_append, List.length_singleton]
        omega
      rw [h0]
      simp

/-- C165. What `vietoris_rips` writes: for each dimension below that of the Vietoris–Rips complex of the points, a header and the points of a diagram (only for the last one of
these dimensions with `--tail`).  The diagrams count the persistent homology classes of the complexes for all scales below the threshold.  Points on the diagonal are
removed, unless they are kept.  Missing, and wrong: with `--normalize`, coordinates are divided by the square of the largest distance, instead of the
largest distance (see `C165_normalize_witness`); the largest dimension is not reported. -/
theorem _root_.Aleph.C165_output_partial (c : Context ℝ) (hroot : c.root = Real.sqrt) (o : Orders ℝ) (files : List Char → Option (List Char)) (stdin : Stdin)
    (opts : List Opt) (input : List Char) (rest : List (List Char)) (pc : PointCloud ℝ) (rows : List (List ℝ))
    (hload : loadPoints c files stdin input = .ok pc) (hpc : pc.Has rows) (ε : ℝ) (k : ℕ) (hargs : IsRipsArguments c.convert c.stoul pc.d rest ε k)
    (h0 : c.inf ≠ 0) (hinf : ∀ u v, u < v → v < rows.length → pointDistance rows u v ≠ c.inf) (Δ : ℝ) (hΔ : IsDiameter rows Δ)
    (keep normalize tail : Bool) (hkeep : keep = true ↔ Opt.keep ∈ opts) (hnorm : normalize = true ↔ Opt.normalize ∈ opts) (htail : tail = true ↔ Opt.tail ∈ opts)
    (hne : normalize = true → Δ ≠ 0) (hsize : ripsSize rows.length k ≤ idxMax) :
    ∃ Es texts, main c o files stdin opts (input :: rest) = .ok (0, texts.flatten) ∧
      IsRipsAnalysis c.inf rows.length (pointDistance rows) k ε Es ∧
      List.Forall₂ (fun E t => IsRipsText (fun x => c.print (some x)) input E.1 (displayed c.inf keep (if normalize then some (Δ ^ 2) else none) E.2) t)
        (if tail then Es.drop (Es.length - 1) else Es) texts := by
  have hn : pc.n = rows.length := hpc.count
  have hnn : ∀ i j, 0 ≤ pointDistance rows i j := fun i j => Real.sqrt_nonneg _
  have hd : ∀ u v, u < v → v < rows.length → distance c pc u v = pointDistance rows u v := fun u v h1 h2 => (distances hroot hpc (h1.trans h2) h2).1
  obtain ⟨G, L, h1, h2⟩ := rips_exists (n := rows.length) (M := distance c pc) (k := k) (ε := ε) o (fun u v g1 g2 => by rw [hd u v g1 g2]; exact hnn _ _) hsize
  replace h2 := h2.congr hd
  obtain ⟨p, Ds, q1, q2, q3⟩ := C51_pipeline c.inf L h2.expansion.filt h2.expansion.size false
  have hA := h2.analysis (fun u v _ _ => hnn u v) h0 hinf q1 q2
  obtain ⟨k1, k2, k3⟩ := C165_options opts
  have e1 : (settings opts).keep = keep := by rw [Bool.eq_iff_iff, k1, hkeep]
  have e2 : (settings opts).normalize = normalize := by rw [Bool.eq_iff_iff, k2, hnorm]
  have e3 : (settings opts).tail = tail := by rw [Bool.eq_iff_iff, k3, htail]
  have hm := maxDistance_eq hpc hΔ
  have harg : arguments c pc.d rest = .ok (ε, k) := by
    obtain ⟨first, more, rfl, rfl, ⟨rfl, rfl⟩ | ⟨word, others, rfl, hk⟩⟩ := hargs
    · rfl
    · simp only [arguments, hk]
  refine ⟨_, (if tail then Ds.drop (Ds.length - 1) else Ds).map (diagramBlock c (settings opts) (maxDistance pc) input), ?_, hA, ?_⟩
  · unfold main diagrams
    simp only [bind, Except.bind, hload, harg, hn, h1, q3 .twist .vector true]
    rw [blocks, e3, blocks_eq]
  · rw [show (if tail = true then (Ds.map fun D => (D.dimension, D.points)).drop ((Ds.map fun D => (D.dimension, D.points)).length - 1)
        else Ds.map fun D => (D.dimension, D.points)) = (if tail then Ds.drop (Ds.length - 1) else Ds).map fun D => (D.dimension, D.points) by
      split <;> simp [List.map_drop]]
    rw [List.forall₂_map_left_iff, List.forall₂_map_right_iff, List.forall₂_same]
    intro D _
    have hshow : ((if (settings opts).keep then D else D.removeDiagonal).points.map (shown c (settings opts) (maxDistance pc))) =
        (displayed c.inf keep (if normalize then some (Δ ^ 2) else none) D.points).map fun p => (some p.1, some p.2) := by
      rw [hm, e1]
      unfold displayed
      rw [List.map_map]
      have hfil : (if keep = true then D else D.removeDiagonal).points = D.points.filter fun p => keep ∨ p.1 ≠ p.2 := by
        cases keep <;> simp [Diagram.removeDiagonal]
      rw [hfil]
      refine List.map_congr_left fun q _ => ?_
      unfold shown
      rw [e2]
      cases hb : normalize with
      | false => simp
      | true =>
        have : Δ ^ 2 ≠ 0 := pow_ne_zero 2 (hne hb)
        simp only [if_true, quotient, if_neg this, Function.comp_apply]
        split <;> rfl
    refine ⟨_, _, Utilities.decimal_spec _, Utilities.decimal_spec _, ?_⟩
    unfold diagramBlock
    have hdim : (if (settings opts).keep then D else D.removeDiagonal).dimension = D.dimension := by split <;> rfl
    simp only [hshow, hdim, List.length_map, List.flatMap_map]

/-- C165. With `--normalize`, if all points coincide, the values of all points that do not correspond to components that persist are not numbers. -/
theorem _root_.Aleph.C165_coincident (c : Context ℝ) (s : Settings) (hs : s.normalize = true) (pc : PointCloud ℝ) (rows : List (List ℝ)) (hpc : pc.Has rows)
    (hΔ : IsDiameter rows 0) (p : ℝ × ℝ) :
    shown c s (maxDistance pc) p = (none, if p.2 = c.inf then some 1 else none) := by
  rw [maxDistance_eq hpc hΔ]
  unfold shown quotient
  simp only [hs, if_true]
  split <;> simp

/-- C165. Texts are read as described for C72, if the input is a file, or if standard input is one.  Disagreement: files that do not exist are not an error, and nothing
is read from standard input if it is not a file; in both cases the result is zero, and there is no output at all. -/
theorem _root_.Aleph.C165_input (c : Context ℝ) (o : Orders ℝ) (files : List Char → Option (List Char)) (stdin : Stdin) (input : List Char) :
    (∀ text, (input ≠ ['-'] → files input = some text) → (input = ['-'] → stdin = ⟨text, true⟩) →
      ∀ pc, loadPoints c files stdin input = .ok pc ↔ PointCloud.load c.convert text = some pc) ∧
    ((input ≠ ['-'] → files input = none) → (input = ['-'] → stdin.seekable = false) →
      ∀ opts rest ε k, IsRipsArguments c.convert c.stoul 0 rest ε k → main c o files stdin opts (input :: rest) = .ok (0, [])) := by
  refine ⟨?_, ?_⟩
  · intro text h1 h2 pc
    have : (if input = ['-'] then (if stdin.seekable then some stdin.text else none) else files input) = some text := by
      split
      · rename_i h
        rw [h2 h]
        rfl
      · rename_i h
        exact h1 h
    unfold loadPoints
    simp only [this]
    cases PointCloud.load c.convert text <;> simp
  · intro h1 h2 opts rest ε k hargs
    have hnone : (if input = ['-'] then (if stdin.seekable then some stdin.text else none) else files input) = none := by
      split
      · rename_i h
        rw [h2 h]
        rfl
      · rename_i h
        exact h1 h
    have hload : loadPoints c files stdin input = .ok PointCloud.empty := by
      unfold loadPoints
      simp only [hnone]
    have harg : arguments c (PointCloud.empty : PointCloud ℝ).d rest = .ok (ε, k) := by
      obtain ⟨first, more, rfl, rfl, ⟨rfl, rfl⟩ | ⟨word, others, rfl, hk⟩⟩ := hargs
      · rfl
      · simp only [arguments, hk]
    have hzero : ripsSize 0 k = 0 := by
      unfold ripsSize
      exact sum_eq_zero fun i _ => Nat.choose_zero_succ i
    obtain ⟨G, L, g1, g2⟩ := rips_exists (n := 0) (M := distance c PointCloud.empty) (k := k) (ε := ε) o (fun u v _ h => absurd h (Nat.not_lt_zero v)) (by rw [hzero]; exact Nat.zero_le _)
    obtain ⟨p, Ds, q1, q2, q3⟩ := C51_pipeline c.inf L g2.expansion.filt g2.expansion.size false
    have hnil : Ds = [] := by
      rw [List.eq_nil_iff_forall_not_mem]
      intro D hD
      obtain ⟨t, ht, hc⟩ := (g2.expansion.dimensions q1 q2 D.dimension).1 ⟨D, hD, rfl⟩
      rw [g2.cliques, ripsBelow, mem_filter, mem_powerset, range_zero, subset_empty] at ht
      rw [ht.1] at hc
      simp at hc
    unfold main diagrams
    simp only [bind, Except.bind, hload, harg, show (PointCloud.empty : PointCloud ℝ).n = 0 from rfl, g1, q3 .twist .vector true, hnil]
    rfl

/-- C165. Without arguments, the result is −1.  A missing threshold is not detected, which is undefined behaviour, and dimensions that are not numbers raise an
exception. -/
theorem _root_.Aleph.C165_arguments (c : Context ℝ) (o : Orders ℝ) (files : List Char → Option (List Char)) (stdin : Stdin) (opts : List Opt) (input : List Char) (pc : PointCloud ℝ)
    (hload : loadPoints c files stdin input = .ok pc) :
    main c o files stdin opts [] = .ok (-1, []) ∧ main c o files stdin opts [input] = .error .undefined ∧
    ∀ epsilon word more, c.stoul word = none → main c o files stdin opts (input :: epsilon :: word :: more) = .error .exception := by
  refine ⟨rfl, ?_, ?_⟩
  · unfold main diagrams
    simp only [bind, Except.bind, hload, arguments]
  · intro epsilon word more h
    unfold main diagrams
    simp only [bind, Except.bind, hload, arguments, h]

/-! ### Concrete points -/

theorem distance_demo : pointDistance [[0], [3]] 0 1 = 3 := by
  unfold pointDistance
  norm_num
  rw [show (9 : ℝ) = 3 ^ 2 by norm_num, Real.sqrt_sq (by norm_num)]

/-- The hypotheses of `C165_output_partial` hold. -/
example : (⟨2, 1, [0, 3]⟩ : PointCloud ℝ).Has [[0], [3]] ∧ IsDiameter [[0], [3]] 3 ∧
    (∀ u v, u < v → v < [[(0 : ℝ)], [3]].length → pointDistance [[0], [3]] u v ≠ 1000) ∧ ripsSize 2 2 ≤ idxMax ∧
    IsRipsArguments (fun _ => 9) (fun _ => none) 1 [['9']] 9 2 := by
  have h01 : ∀ u v, u < v → v < [[(0 : ℝ)], [3]].length → u = 0 ∧ v = 1 := by
    intro u v h1 h2
    simp only [List.length_cons, List.length_nil] at h2
    omega
  refine ⟨⟨rfl, by simp, rfl⟩, ⟨Or.inr ⟨0, 1, by norm_num, by norm_num, distance_demo.symm⟩, ?_⟩, ?_, by decide, ['9'], [], rfl, rfl, Or.inl ⟨rfl, rfl⟩⟩
  · rintro y (rfl | ⟨i, j, h1, h2, rfl⟩)
    · norm_num
    · obtain ⟨rfl, rfl⟩ := h01 i j h1 h2
      rw [distance_demo]
  · intro u v h1 h2
    obtain ⟨rfl, rfl⟩ := h01 u v h1 h2
    rw [distance_demo]
    norm_num

/-- The numbers that are needed. -/
def number (word : List Char) : ℚ := if word = "0.5".toList then 1 / 2 else ((word.headD '0').toNat - 48 : ℕ)

/-- Rational numbers with the square roots that are needed. -/
def demo : Context ℚ where
  inf := 1000
  root x := if x = 9 then 3 else if x = 16 then 4 else if x = 25 then 5 else if x = 1 / 4 then 1 / 2 else 0
  convert := number
  stoul word := if word.all Char.isDigit then some (word.foldl (fun n c => 10 * n + (c.toNat - 48)) 0) else none
  print x :=
    match x with
    | none => "nan".toList
    | some x => if x = 1000 then "inf".toList else if x.den = 1 then Utilities.decimal x.num.natAbs else ['?']

/-- Four points of a rectangle, and two points of a line. -/
def demoFiles (name : List Char) : Option (List Char) :=
  if name = "rectangle.txt".toList then some "0 0\n3 0\n0 4\n3 4\n".toList
  else if name = "line.txt".toList then some "0\n0.5\n".toList
  else if name = "same.txt".toList then some "1\n1\n".toList
  else none

/-- The cycle of a rectangle exists at scales from 4 to 5. -/
example : main demo (Orders.default ℚ) demoFiles ⟨[], true⟩ [] ["rectangle.txt".toList, "9".toList] = .ok (0,
    "# Persistence diagram <rectangle.txt>\n#\n# Dimension: 0\n# Entries  : 4\n0\tinf\n0\t3\n0\t4\n0\t3\n\n\n# Persistence diagram <rectangle.txt>\n#\n# Dimension: 1\n# Entries  : 1\n4\t5\n\n\n# Persistence diagram <rectangle.txt>\n#\n# Dimension: 2\n# Entries  : 0\n\n\n".toList) := by
  decide +kernel

/-- C165, disagreement: for two points with distance 1/2, the normalized distance is 2 instead of 1.  For coinciding points, values are not numbers. -/
theorem _root_.Aleph.C165_normalize_witness :
    main demo (Orders.default ℚ) demoFiles ⟨[], true⟩ [.normalize] ["line.txt".toList, "9".toList, "1".toList] =
      .ok (0, "# Persistence diagram <line.txt>\n#\n# Dimension: 0\n# Entries  : 2\n0\t1\n0\t2\n\n\n".toList) ∧
    main demo (Orders.default ℚ) demoFiles ⟨[], true⟩ [.normalize] ["same.txt".toList, "9".toList, "1".toList] =
      .ok (0, "# Persistence diagram <same.txt>\n#\n# Dimension: 0\n# Entries  : 1\nnan\t1\n\n\n".toList) := by
  constructor <;> decide +kernel

end Aleph.VietorisRipsExample
