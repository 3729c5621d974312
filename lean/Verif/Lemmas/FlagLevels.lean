import Verif.Lemmas.SortedLevels

/-!
# Diagrams with or without the classes of the highest dimension
-/

namespace Aleph

open Finset Spec NetworkAnalysis

variable {α : Type} [LinearOrder α]

omit [LinearOrder α] in
theorem IsPersistentBetti.unique {A B : Finset (Finset ℕ)} {d m n : ℕ} (h1 : IsPersistentBetti A B d m) (h2 : IsPersistentBetti A B d n) : m = n := by
  unfold IsPersistentBetti at h1 h2
  have hpos : 0 < #{b ∈ setBoundaries B d | b ⊆ A} := by
    rcases Nat.eq_zero_or_pos #{b ∈ setBoundaries B d | b ⊆ A} with h | h
    · rw [h, Nat.mul_zero, card_eq_zero] at h1
      exfalso
      have : (∅ : Finset (Finset ℕ)) ∈ setCycles A d := by
        unfold setCycles setChains setBd
        simp
      rw [h1] at this
      exact absurd this (notMem_empty _)
    · exact h
  have := Nat.eq_of_mul_eq_mul_right hpos (h1.symm.trans h2)
  exact Nat.pow_right_injective le_rfl this

/-- The diagrams of a complex in the order of its data; if `inc` is set, they contain the classes of the highest dimension. -/
structure IsFlagAnalysis (inf : α) (inc : Bool) (K : Complex α) (Ds : List (Diagram α)) : Prop where
  ascending : (Ds.map (·.dimension)).Pairwise (· < ·)
  dimensions : ∀ e, (∃ D ∈ Ds, D.dimension = e) ↔ (∃ t ∈ sets K, #t = e + 2) ∨ (inc = true ∧ ∃ n, 0 < n ∧ IsPersistentBetti (sets K) (sets K) e n)
  values : ∀ D ∈ Ds, ∀ q ∈ D.points, ∃ s ∈ K, q.1 = s.data ∧ (q.2 = inf ∨ ∃ t ∈ K, q.2 = t.data ∧ q.1 ≤ q.2)
  counts : ∀ D ∈ Ds, ∀ x y, IsPersistentBetti (sublevel K x) (sublevel K y) D.dimension (D.points.countP fun p => p.1 ≤ x ∧ (p.2 = inf ∨ y < p.2))

theorem ordered_flag {L : Complex α} (hL : IsFiltration L) (hn : L.length ≤ idxMax) (hs : L.Pairwise fun s t => s.data ≤ t.data) {inf : α} (hinf : ∀ s ∈ L, s.data ≠ inf)
    (inc : Bool) : ∃ Ds, calculatePersistenceDiagrams .twist .vector inf L true inc = some Ds ∧ IsFlagAnalysis inf inc L Ds := by
  obtain ⟨p, Ds, p1, p2, p3⟩ := C51_pipeline inf L hL hn inc
  refine ⟨Ds, p3 _ _ _, p2.1, ?_, fun D hD q hq => diagram_values hL hn hs p1 p2 hD hq, ?_⟩
  · intro e
    cases inc with
    | false =>
      rw [diagram_dimensions hL hn p1 p2]
      simp
    | true =>
      obtain ⟨z, hz⟩ : ∃ z, L = [] ∨ ∀ s ∈ L, s.data ≤ z := by
        rcases L.eq_nil_or_concat with h | ⟨M, t, h⟩
        · exact ⟨inf, Or.inl h⟩
        · refine ⟨t.data, Or.inr fun s hs' => ?_⟩
          rw [h, List.concat_eq_append] at hs' hs
          rcases List.mem_append.1 hs' with h' | h'
          · exact (List.pairwise_append.1 hs).2.2 s h' t (by simp)
          · rw [List.mem_singleton.1 h']
      have hall : sublevel L z = sets L := by
        unfold Spec.sublevel
        rcases hz with rfl | hz
        · rfl
        · rw [List.filter_eq_self.2]
          exact fun s hs => by simpa using hz s hs
      have hb := C51_persistent_betti inf L hL hn hs hinf .twist .vector true Ds (p3 _ _ _) e z z
      rw [hall, pointsOfDimension_eq p2] at hb
      have hlt : ∀ ij ∈ p, ij.1 < L.length := by
        rintro ⟨i, j⟩ hij
        rcases (p1.2.2 i j).1 hij with g | g
        · exact ((pairFacts hL hn).lt _ _ g).1
        · exact g.2.1.1
      constructor
      · rintro ⟨D, hD, rfl⟩
        obtain ⟨hne, hpts⟩ := (p2.2 D).1 hD
        by_cases hcase : ∃ t ∈ sets L, #t = D.dimension + 2
        · exact Or.inl hcase
        · refine Or.inr ⟨rfl, _, List.countP_pos_iff.2 ?_, hb⟩
          obtain ⟨q, hq⟩ := List.exists_mem_of_ne_nil _ hne
          obtain ⟨s, hs', e1, e2⟩ := diagram_values hL hn hs p1 p2 hD hq
          have hq' := hq
          rw [hpts] at hq
          refine ⟨q, hq, ?_⟩
          rw [diagramPoints_eq_map inf hlt, List.mem_map] at hq
          obtain ⟨⟨i, j⟩, hij, he⟩ := hq
          obtain ⟨hij, hdi⟩ := List.mem_filter.1 hij
          rw [decide_eq_true_eq] at hdi
          simp only at hdi
          rw [decide_eq_true_eq]
          have hzs : s.data ≤ z := by
            rcases hz with rfl | hz
            · cases hs'
            · exact hz s hs'
          refine ⟨by rw [e1]; exact hzs, Or.inl ?_⟩
          rcases (p1.2.2 i j).1 hij with g | ⟨rfl, -⟩
          · exfalso
            obtain ⟨-, g2, g3⟩ := (pairFacts hL hn).lt _ _ g
            have hcv : dimAt L j = #L[j].vset - 1 := by simp only [dimAt, vsetAt, List.getElem?_eq_getElem g2]
            obtain ⟨u, hu, hu2⟩ := exists_subset_card_eq (show D.dimension + 2 ≤ #L[j].vset by omega)
            exact hcase ⟨u, mem_sets.2 (hL.closed L[j] (List.getElem_mem g2) u hu (card_pos.1 (by omega))), hu2⟩
          · rw [← he]
            simp only [dataD, List.getElem?_eq_none hn, Option.map_none, Option.getD_none]
      · have hmk : diagramPoints inf L e p ≠ [] → ∃ D ∈ Ds, D.dimension = e := fun h => ⟨⟨e, diagramPoints inf L e p⟩, (p2.2 _).2 ⟨h, rfl⟩, rfl⟩
        rintro (⟨t, ht, hcard⟩ | ⟨-, n, hn', hb'⟩)
        · have hne : t.Nonempty := card_pos.1 (by omega)
          obtain ⟨m, hm⟩ := (SpanningTree.has_iff_at hne).1 (mem_sets.1 ht)
          obtain ⟨i, j, hj, hdj, hif, -, hpair⟩ := first_pair hL.wf (d := e) ⟨m, lt_of_vsetAt hne hm, by rw [dimAt, hm, hcard]; omega⟩ hL.closed
          apply hmk
          rw [diagramPoints_eq_map inf hlt]
          simp only [ne_eq, List.map_eq_nil_iff]
          refine List.ne_nil_of_mem (a := (i, j)) (List.mem_filter.2 ⟨(p1.2.2 i j).2 (Or.inl hpair), ?_⟩)
          rw [decide_eq_true_eq]
          simp only [facets, mem_filter, mem_range] at hif
          unfold dimAt at hdj ⊢
          simp only
          omega
        · rw [IsPersistentBetti.unique hb' hb, List.countP_pos_iff] at hn'
          obtain ⟨q, hq, -⟩ := hn'
          exact hmk (List.ne_nil_of_mem hq)
  · intro D hmem x y
    cases inc with
    | true =>
      have hb := C51_persistent_betti inf L hL hn hs hinf .twist .vector true Ds (p3 _ _ _) D.dimension x y
      rwa [pointsOfDimension_eq p2, ← ((p2.2 D).1 hmem).2] at hb
    | false =>
      obtain ⟨q, Es, q1, q2, q3⟩ := C51_pipeline inf L hL hn true
      have hb := C51_persistent_betti inf L hL hn hs hinf .standard .vector false Es (q3 _ _ _) D.dimension x y
      rw [pointsOfDimension_eq q2] at hb
      obtain ⟨t, t1, t2⟩ := (diagram_dimensions hL hn p1 p2 D.dimension).1 ⟨D, hmem, rfl⟩
      have hne : t.Nonempty := card_pos.1 (by omega)
      obtain ⟨j, hj⟩ := (SpanningTree.has_iff_at hne).1 (mem_sets.1 t1)
      have hdim : ∃ t < L.length, D.dimension < dimAt L t := ⟨j, lt_of_vsetAt hne hj, by rw [dimAt, hj, t2]; omega⟩
      rw [((p2.2 D).1 hmem).2, (PythonMatrix.points_perm_of_lt hL hn p1 q1 hdim inf).countP_eq]
      exact hb

theorem IsFlagAnalysis.of_perm {inf : α} {inc : Bool} {K L : Complex α} {Ds : List (Diagram α)} (h : IsFlagAnalysis inf inc L Ds) (hp : L.Perm K) : IsFlagAnalysis inf inc K Ds := by
  have e1 : sublevel L = sublevel K := by
    funext x
    ext t
    unfold Spec.sublevel
    rw [mem_sets, mem_sets]
    simp only [List.mem_filter, hp.mem_iff]
  have e2 : sets L = sets K := by
    ext t
    rw [mem_sets, mem_sets]
    simp only [hp.mem_iff]
  refine ⟨h.ascending, e2 ▸ h.dimensions, fun D hD p hq => ?_, e1 ▸ h.counts⟩
  simpa only [hp.mem_iff] using h.values D hD p hq

/-- A complex with monotone data, after sorting. -/
theorem sorted_flag {K : Complex α} (hK : WF K) (hc : FaceClosed K) (hm : Spec.Monotone K) (hn : K.length ≤ idxMax) {inf : α} (hinf : ∀ s ∈ K, s.data ≠ inf) (inc : Bool) :
    ∃ Ds, calculatePersistenceDiagrams .twist .vector inf (K.sort (asLt (Filtration.data fun a b => decide (a < b)))) true inc = some Ds ∧ IsFlagAnalysis inf inc K Ds := by
  obtain ⟨s1, s2, -⟩ := sortData_spec hK
  obtain ⟨Ds, h1, h2⟩ := ordered_flag (RelevantEdges.sorted_filtration hK hc hm) (by rw [s1.length_eq]; exact hn) s2 (fun s hs => hinf s (s1.mem_iff.1 hs)) inc
  exact ⟨Ds, h1, h2.of_perm s1⟩

end Aleph
