import Verif.Props.NetworkAnalysis
import Verif.Spec.LevelAnalysis

/-!
# Diagrams of complexes that are sorted by their data
-/

namespace Aleph

open Finset Spec NetworkAnalysis

variable {α : Type}

section Dimensions

/-- Diagrams are reported for all dimensions below that of the complex. -/
theorem diagram_dimensions {L : Complex α} (hL : IsFiltration L) (hn : L.length ≤ idxMax) {inf : α} {p : List (ℕ × ℕ)} {Ds : List (Diagram α)}
    (hp : IsComplexPairing L false p) (hD : IsDiagramsOf inf L p Ds) (e : ℕ) : (∃ D ∈ Ds, D.dimension = e) ↔ ∃ t ∈ sets L, #t = e + 2 := by
  have hlt : ∀ ij ∈ p, ij.1 < L.length := by
    rintro ⟨i, j⟩ hij
    rcases (hp.2.2 i j).1 hij with g | g
    · exact ((pairFacts hL hn).lt _ _ g).1
    · exact g.2.1.1
  constructor
  · rintro ⟨D, hmem, rfl⟩
    obtain ⟨hne, hpts⟩ := (hD.2 D).1 hmem
    rw [diagramPoints_eq_map inf hlt] at hpts
    obtain ⟨q, hq⟩ := List.exists_mem_of_ne_nil _ hne
    rw [hpts, List.mem_map] at hq
    obtain ⟨⟨i, j⟩, hij, -⟩ := hq
    obtain ⟨hij, hdi⟩ := List.mem_filter.1 hij
    rw [decide_eq_true_eq] at hdi
    simp only at hdi
    have hbig : ∃ t, ∃ ht : t < L.length, D.dimension + 2 ≤ #L[t].vset := by
      have hcv : ∀ t, (ht : t < L.length) → dimAt L t = #L[t].vset - 1 := by
        intro t ht
        simp only [dimAt, vsetAt, List.getElem?_eq_getElem ht]
      rcases (hp.2.2 i j).1 hij with g | ⟨-, -, g | ⟨t, ht, g⟩⟩
      · obtain ⟨-, g2, g3⟩ := (pairFacts hL hn).lt _ _ g
        exact ⟨j, g2, by have := hcv j g2; omega⟩
      · cases g
      · exact ⟨t, ht, by have := hcv t ht; omega⟩
    obtain ⟨t, ht, hd⟩ := hbig
    obtain ⟨u, hu, hu2⟩ := exists_subset_card_eq hd
    exact ⟨u, mem_sets.2 (hL.closed L[t] (List.getElem_mem ht) u hu (card_pos.1 (by omega))), hu2⟩
  · rintro ⟨t, ht, hcard⟩
    have hne : t.Nonempty := card_pos.1 (by omega)
    obtain ⟨m, hm⟩ := (SpanningTree.has_iff_at hne).1 (mem_sets.1 ht)
    obtain ⟨i, j, hj, hdj, hif, -, hpair⟩ := first_pair hL.wf (d := e) ⟨m, lt_of_vsetAt hne hm, by rw [dimAt, hm, hcard]; omega⟩ hL.closed
    refine ⟨⟨e, diagramPoints inf L e p⟩, (hD.2 _).2 ⟨?_, rfl⟩, rfl⟩
    rw [diagramPoints_eq_map inf hlt]
    simp only [ne_eq, List.map_eq_nil_iff]
    refine List.ne_nil_of_mem (a := (i, j)) (List.mem_filter.2 ⟨(hp.2.2 i j).2 (Or.inl hpair), ?_⟩)
    rw [decide_eq_true_eq]
    simp only [facets, mem_filter, mem_range] at hif
    unfold dimAt at hdj ⊢
    simp only
    omega

end Dimensions

variable [LinearOrder α]

/-- The coordinates of points. -/
theorem diagram_values {L : Complex α} (hL : IsFiltration L) (hn : L.length ≤ idxMax) (hs : L.Pairwise fun s t => s.data ≤ t.data) {inf : α} {inc : Bool} {p : List (ℕ × ℕ)}
    {Ds : List (Diagram α)} (hp : IsComplexPairing L inc p) (hD : IsDiagramsOf inf L p Ds) {D : Diagram α} (hmem : D ∈ Ds) {q : α × α} (hq : q ∈ D.points) :
    ∃ s ∈ L, q.1 = s.data ∧ (q.2 = inf ∨ ∃ t ∈ L, q.2 = t.data ∧ q.1 ≤ q.2) := by
  obtain ⟨-, hpts⟩ := (hD.2 D).1 hmem
  have hlt : ∀ ij ∈ p, ij.1 < L.length := by
    rintro ⟨i, j⟩ hij
    rcases (hp.2.2 i j).1 hij with g | g
    · exact ((pairFacts hL hn).lt _ _ g).1
    · exact g.2.1.1
  rw [diagramPoints_eq_map inf hlt] at hpts
  rw [hpts, List.mem_map] at hq
  obtain ⟨⟨i, j⟩, hij, rfl⟩ := hq
  obtain ⟨hij, -⟩ := List.mem_filter.1 hij
  have hi := hlt _ hij
  refine ⟨L[i], List.getElem_mem hi, by simp only [dataD, List.getElem?_eq_getElem hi, Option.map_some, Option.getD_some], ?_⟩
  by_cases hj : j < L.length
  · refine Or.inr ⟨L[j], List.getElem_mem hj, by simp only [dataD, List.getElem?_eq_getElem hj, Option.map_some, Option.getD_some], ?_⟩
    simp only [dataD, List.getElem?_eq_getElem hj, List.getElem?_eq_getElem hi, Option.map_some, Option.getD_some]
    have hlt' : i < j := by
      rcases (hp.2.2 i j).1 hij with g | ⟨e, -⟩
      · exact PythonMatrix.persPair_lt hL hn g
      · omega
    exact List.pairwise_iff_getElem.1 hs i j hi hj hlt'
  · exact Or.inl (by simp only [dataD, List.getElem?_eq_none (not_lt.1 hj), Option.map_none, Option.getD_none])

/-- The default pipeline for a complex in the order of its data. -/
theorem level_analysis {L : Complex α} (hL : IsFiltration L) (hn : L.length ≤ idxMax) (hs : L.Pairwise fun s t => s.data ≤ t.data) {inf : α}
    (hinf : ∀ s ∈ L, s.data ≠ inf) {p : List (ℕ × ℕ)} {Ds : List (Diagram α)} (hp : IsComplexPairing L false p) (hD : IsDiagramsOf inf L p Ds) :
    IsLevelAnalysis inf (sublevel L) (sets L) (Ds.map fun D => (D.dimension, D.removeDiagonal.points)) := by
  have hval : ∀ D ∈ Ds, ∀ q ∈ D.points, ∃ s ∈ L, q.1 = s.data ∧ (q.2 = inf ∨ ∃ t ∈ L, q.2 = t.data ∧ q.1 ≤ q.2) := fun D hmem q hq =>
    diagram_values hL hn hs hp hD hmem hq
  have hcount : ∀ D ∈ Ds, ∀ x y, x ≤ y → IsPersistentBetti (sublevel L x) (sublevel L y) D.dimension
      (D.removeDiagonal.points.countP fun p => p.1 ≤ x ∧ (p.2 = inf ∨ y < p.2)) := by
    intro D hmem x y hxy
    have hall : IsPersistentBetti (sublevel L x) (sublevel L y) D.dimension (D.points.countP fun p => p.1 ≤ x ∧ (p.2 = inf ∨ y < p.2)) := by
      obtain ⟨q, Es, q1, q2, q3⟩ := C51_pipeline inf L hL hn true
      have hb := C51_persistent_betti inf L hL hn hs hinf .standard .vector false Es (q3 _ _ _) D.dimension x y
      rw [pointsOfDimension_eq q2] at hb
      obtain ⟨t, t1, t2⟩ := (diagram_dimensions hL hn hp hD D.dimension).1 ⟨D, hmem, rfl⟩
      have hne : t.Nonempty := card_pos.1 (by omega)
      obtain ⟨j, hj⟩ := (SpanningTree.has_iff_at hne).1 (mem_sets.1 t1)
      have hdim : ∃ t < L.length, D.dimension < dimAt L t := ⟨j, lt_of_vsetAt hne hj, by rw [dimAt, hj, t2]; omega⟩
      rw [((hD.2 D).1 hmem).2, (PythonMatrix.points_perm_of_lt hL hn hp q1 hdim inf).countP_eq]
      exact hb
    rw [Diagram.removeDiagonal, List.countP_filter]
    convert hall using 1
    refine List.countP_congr fun q hq => ?_
    simp only [Bool.and_eq_true, decide_eq_true_eq, Bool.not_eq_true', decide_eq_false_iff_not, and_iff_left_iff_imp]
    rintro ⟨h1, h2⟩ he
    obtain ⟨s, hs, e, -⟩ := hval D hmem q hq
    rcases h2 with h2 | h2
    · rw [he, h2] at e
      exact hinf s hs e.symm
    · rw [← he] at h2
      exact absurd (hxy.trans_lt h2) (not_lt.2 h1)
  refine ⟨?_, ?_, ?_, ?_, ?_⟩
  · rw [List.map_map]
    exact hD.1
  · intro e
    rw [← diagram_dimensions hL hn hp hD, List.map_map, List.mem_map]
    rfl
  · intro E hE q hq
    obtain ⟨D, hmem, rfl⟩ := List.mem_map.1 hE
    obtain ⟨hq, hne⟩ := List.mem_filter.1 hq
    obtain ⟨s, hs, e, h2⟩ := hval D hmem q hq
    refine ⟨by rw [e]; exact hinf s hs, h2.imp_right ?_⟩
    rintro ⟨t, -, -, hle⟩
    refine lt_of_le_of_ne hle ?_
    simpa using hne
  · intro E hE x y hxy
    obtain ⟨D, hmem, rfl⟩ := List.mem_map.1 hE
    exact hcount D hmem x y hxy
  · intro E hE
    obtain ⟨D, hmem, rfl⟩ := List.mem_map.1 hE
    have hmax : ∃ z, ∀ s ∈ L, s.data ≤ z := by
      obtain ⟨t, t1, -⟩ := (diagram_dimensions hL hn hp hD D.dimension).1 ⟨D, hmem, rfl⟩
      obtain ⟨s, hs', -⟩ := mem_sets.1 t1
      have hne : L ≠ [] := List.ne_nil_of_mem hs'
      refine ⟨(L.getLast hne).data, fun s hs' => ?_⟩
      obtain ⟨i, hi, rfl⟩ := List.getElem_of_mem hs'
      rw [List.getLast_eq_getElem]
      rcases Nat.lt_or_ge i (L.length - 1) with h | h
      · exact List.pairwise_iff_getElem.1 hs i _ hi (by omega) h
      · have : i = L.length - 1 := by omega
        subst this
        exact le_rfl
    obtain ⟨z, hz⟩ := hmax
    have hall : sublevel L z = sets L := by
      unfold Spec.sublevel
      rw [List.filter_eq_self.2]
      exact fun s hs => by simpa using hz s hs
    have := hcount D hmem z z le_rfl
    rw [hall] at this
    convert this using 1
    refine List.countP_congr fun q hq => ?_
    obtain ⟨s, hs, e, h2⟩ := hval D hmem q (List.mem_filter.1 hq).1
    simp only [decide_eq_true_eq]
    constructor
    · intro hq2
      exact ⟨by rw [e]; exact hz s hs, Or.inl hq2⟩
    · rintro ⟨-, hq2 | hq2⟩
      · exact hq2
      · rcases h2 with h2 | ⟨t, ht, h2, -⟩
        · exact h2
        · rw [h2] at hq2
          exact absurd hq2 (not_lt.2 (hz t ht))

end Aleph
