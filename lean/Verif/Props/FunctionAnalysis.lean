import Verif.Props.Components
import Verif.Props.Function
import Verif.Props.Stability
import Verif.Props.AdjacencyMatrixReader
import Verif.Props.Strings
import Verif.Props.DiagramNorms
import Verif.Props.Entropy
import Verif.Lemmas.HierarchyForest
import Verif.Model.FunctionAnalysis
import Verif.Spec.FunctionAnalysis

/-!
# C156: the tool `function_analysis`
-/

namespace Aleph.FunctionAnalysis

open Finset Aleph.Spec Aleph.Components

section Order

variable {α : Type} [LinearOrder α]

/-- The complex of a function is sorted and contains its path. -/
theorem complexOf_spec (d : α) (values : List α) :
    ∃ K, complexOf true values = some K ∧ IsFiltration K ∧ K.length = 2 * values.length - 1 ∧
      K.Pairwise (fun s t => s.data ≤ t.data) ∧ (∀ t x, HasData K t x ↔ PathData max values t x) ∧
      K.Perm ((List.range (2 * values.length - 1)).map (cell d max values)) := by
  have hp := pathComplex_eq d (max : α → α → α) values
  obtain ⟨K, h1, h2, h3, h4⟩ := C64_path (max : α → α → α) values
  rw [hp] at h1
  obtain rfl := Option.some.inj h1
  obtain ⟨s1, s2, s3⟩ := sortData_spec h2.wf
  refine ⟨_, ?_, ⟨h2.wf.perm s1, ?_, s3.2 ?_⟩, by rw [s1.length_eq, h3], s2, ?_, s1⟩
  · unfold complexOf
    simp only [if_true, hp]
  · intro s hs t ht hne
    obtain ⟨u, hu, e⟩ := h2.closed s (s1.subset hs) t ht hne
    exact ⟨u, s1.symm.subset hu, e⟩
  · intro s hs t ht hst
    obtain ⟨i, hi, rfl⟩ := List.mem_map.1 hs
    obtain ⟨j, hj, rfl⟩ := List.mem_map.1 ht
    rcases eq_or_ssubset_of_subset hst with he | hlt
    · rcases (h4 _ _).1 ⟨_, hs, rfl, rfl⟩ with ⟨k, e1, e2⟩ | ⟨k, a, b, e1, e2, e3, e4⟩ <;>
        rcases (h4 _ _).1 ⟨_, ht, rfl, rfl⟩ with ⟨k', f1, f2⟩ | ⟨k', a', b', f1, f2, f3, f4⟩
      · rw [e1, f1, singleton_inj] at he
        subst he
        rw [e2] at f2
        exact (Option.some.inj f2).le
      · rw [e1, f1] at he
        have := congrArg card he
        rw [card_pair (by omega)] at this
        simp at this
      · rw [e1, f1] at he
        have := congrArg card he
        rw [card_pair (by omega)] at this
        simp at this
      · rw [e1, f1] at he
        have g1 : k ∈ ({k', k' + 1} : Finset ℕ) := by rw [← he]; simp
        have g2 : k' ∈ ({k, k + 1} : Finset ℕ) := by rw [he]; simp
        simp at g1 g2
        obtain rfl : k = k' := by omega
        rw [e2] at f2; rw [e3] at f3
        rw [e4, f4, Option.some.inj f2, Option.some.inj f3]
    · obtain ⟨c1, c2, c3⟩ := cell_ssubset hlt
      simp only [cell, cellValue, if_pos c1, if_neg (not_lt.2 c2)]
      rcases c3 with rfl | rfl
      · exact le_max_left _ _
      · exact le_max_right _ _
  · intro t x
    rw [← h4]
    exact ⟨fun ⟨s, hs, e⟩ => ⟨s, s1.subset hs, e⟩, fun ⟨s, hs, e⟩ => ⟨s, s1.symm.subset hs, e⟩⟩

theorem sameRun_trans {values : List α} {y : α} {i j k : ℕ} (h1 : SameRun values y i j) (h2 : SameRun values y j k) :
    SameRun values y i k := by
  intro l a hl hl' ha
  rcases le_total i j with hij | hij <;> rcases le_total j k with hjk | hjk <;> rcases le_total i k with hik | hik <;> by_cases hb : l ≤ j <;>
    first
    | exact h1 l a (by omega) (by omega) ha
    | exact h2 l a (by omega) (by omega) ha

theorem sameRun_symm {values : List α} {y : α} {i j : ℕ} (h : SameRun values y i j) : SameRun values y j i := by
  intro k a hk hk' ha
  exact h k a (by rw [min_comm]; exact hk) (by rw [max_comm]; exact hk') ha

/-- In a path, places are connected if they lie in the same run. -/
theorem connected_iff {values : List α} {K : Complex α} (hK : ∀ t x, HasData K t x ↔ PathData max values t x) (y : α) {i j : ℕ}
    (hi : i < values.length) (hj : j < values.length) : ConnectedUpTo K y i j ↔ i = j ∨ SameRun values y i j := by
  constructor
  · intro h
    clear hi hj
    unfold ConnectedUpTo at h
    induction h with
    | refl i => exact Or.inl rfl
    | symm i j _ ih => exact ih.imp Eq.symm sameRun_symm
    | trans i j k _ _ ih1 ih2 =>
      rcases ih1 with rfl | ih1
      · exact ih2
      · rcases ih2 with rfl | ih2
        · exact Or.inr ih1
        · exact Or.inr (sameRun_trans ih1 ih2)
    | rel i j h =>
      obtain ⟨hij, s, hs, hv, hd⟩ := h
      rcases (hK _ _).1 ⟨s, hs, rfl, rfl⟩ with ⟨k, e1, _⟩ | ⟨k, a, b, e1, e2, e3, e4⟩
      · rw [hv] at e1
        have := congrArg card e1
        rw [card_pair hij] at this
        simp at this
      · right
        rw [hv] at e1
        have g1 : i ∈ ({k, k + 1} : Finset ℕ) := by rw [← e1]; simp
        have g2 : j ∈ ({k, k + 1} : Finset ℕ) := by rw [← e1]; simp
        simp only [mem_insert, mem_singleton] at g1 g2
        rw [e4] at hd
        intro l c hl hl' hc
        have : l = k ∨ l = k + 1 := by omega
        rcases this with rfl | rfl
        · rw [e2] at hc
          rw [← Option.some.inj hc]
          exact (le_max_left _ _).trans hd
        · rw [e3] at hc
          rw [← Option.some.inj hc]
          exact (le_max_right _ _).trans hd
  · rintro (rfl | h)
    · exact Relation.EqvGen.refl _
    · have key : ∀ n i, i + n < values.length → SameRun values y i (i + n) → ConnectedUpTo K y i (i + n) := by
        intro n
        induction n with
        | zero => intro i _ _; exact Relation.EqvGen.refl _
        | succ n ih =>
          intro i hi h
          refine Relation.EqvGen.trans _ _ _ (ih i (by omega) fun k a h1 h2 h3 => h k a (by omega) (by omega) h3)
            (Relation.EqvGen.rel _ _ ⟨by omega, ?_⟩)
          have e1 : values[i + n]? = some values[i + n] := List.getElem?_eq_getElem (by omega)
          have e2 : values[i + n + 1]? = some values[i + n + 1] := List.getElem?_eq_getElem (by omega)
          obtain ⟨s, hs, hv, hd⟩ := (hK {i + n, i + n + 1} (max values[i + n] values[i + n + 1])).2
            (Or.inr ⟨i + n, _, _, rfl, e1, e2, rfl⟩)
          refine ⟨s, hs, hv, ?_⟩
          rw [hd]
          exact max_le (h _ _ (by omega) (by omega) e1) (h _ _ (by omega) (by omega) e2)
      rcases le_total i j with hij | hij
      · obtain ⟨n, rfl⟩ := Nat.exists_eq_add_of_le hij
        exact key n i hj h
      · obtain ⟨n, rfl⟩ := Nat.exists_eq_add_of_le hij
        exact Relation.EqvGen.symm _ _ (key n j hi (sameRun_symm h))

/-- The diagrams of the complex of a function: there is one diagram, and each value creates a point. -/
theorem path_diagram (inf : α) {values : List α} (h2 : 2 ≤ values.length) (hn : 2 * values.length - 1 ≤ idxMax) {K : Complex α}
    (hF : IsFiltration K) (hlen : K.length = 2 * values.length - 1) (hs : K.Pairwise fun s t => s.data ≤ t.data)
    (hK : ∀ t x, HasData K t x ↔ PathData max values t x) (d : α)
    (hperm : K.Perm ((List.range (2 * values.length - 1)).map (cell d max values))) (hinf : ∀ v ∈ values, v ≠ inf) :
    ∃ P, calculatePersistenceDiagrams .twist .vector inf K = some [⟨0, P⟩] ∧ (P.map Prod.fst).Perm values ∧
      (∀ p ∈ P, p.2 = inf ∨ p.1 ≤ p.2 ∧ p.2 ∈ values) ∧
      ∀ x y, IsClassCount (verticesUpTo K x) (ConnectedUpTo K y) (P.countP fun p => p.1 ≤ x ∧ (p.2 = inf ∨ y < p.2)) := by
  classical
  have hn' : K.length ≤ idxMax := by omega
  obtain ⟨p, Ds, h1, hd, h3⟩ := C51_pipeline inf K hF hn' false
  obtain ⟨f1, f2, f3, f4⟩ := pairFacts hF hn'
  have hmem : ∀ s ∈ K, s.data ∈ values := by
    intro s hs
    rcases (hK _ _).1 ⟨s, hs, rfl, rfl⟩ with ⟨k, _, e2⟩ | ⟨k, a, b, _, e2, e3, e4⟩
    · exact List.mem_of_getElem? e2
    · rw [e4]
      rcases max_choice a b with h | h <;> rw [h]
      · exact List.mem_of_getElem? e2
      · exact List.mem_of_getElem? e3
  have hdinf : ∀ s ∈ K, s.data ≠ inf := fun s hs => hinf _ (hmem s hs)
  have hdim : ∀ t < K.length, dimAt K t ≤ 1 := by
    intro t ht
    have hs := vsetAt_some (List.getElem?_eq_getElem ht)
    rcases (hK (vsetAt K t) (K[t]).data).1 ⟨K[t], List.getElem_mem ht, hs.symm, rfl⟩ with ⟨j, e1, e2⟩ | ⟨j, a, b, e1, _⟩
    · simp [dimAt, e1]
    · have hc : #({j, j + 1} : Finset ℕ) = 2 := card_pair (by omega)
      simp [dimAt, e1, hc]
  have hedge : ∃ t < K.length, dimAt K t = 1 := by
    obtain ⟨t, ht, he⟩ := HasData.position ((hK {0, 0 + 1} _).2 (Or.inr ⟨0, _, _, rfl,
      List.getElem?_eq_getElem (by omega), List.getElem?_eq_getElem (by omega), rfl⟩))
    refine ⟨t, ht, ?_⟩
    simp [dimAt, he]
  have hp : ∀ ij ∈ p, ij.1 < K.length ∧ dimAt K ij.1 = 0 := by
    rintro ⟨i, j⟩ hij
    rcases (h1.2.2 i j).1 hij with h | ⟨_, h, h' | ⟨t, ht, h'⟩⟩
    · have := f1 _ _ h
      have := hdim j this.2.1
      exact ⟨by omega, by simp only; omega⟩
    · cases h'
    · have := hdim t ht
      exact ⟨h.1, by simp only; omega⟩
  have hfst : (p.map Prod.fst).Perm ((List.range K.length).filter fun i => dimAt K i = 0) := by
    rw [List.perm_ext_iff_of_nodup ?_ (List.nodup_range.filter _)]
    · intro i
      simp only [List.mem_map, List.mem_filter, List.mem_range, decide_eq_true_eq, Prod.exists, exists_and_right, exists_eq_right]
      constructor
      · rintro ⟨j, hij⟩
        exact hp _ hij
      · rintro ⟨hi, h0⟩
        by_cases b : ∃ j, PersPair (facets K) i j
        · obtain ⟨j, hj⟩ := b
          exact ⟨j, (h1.2.2 i j).2 (Or.inl hj)⟩
        · refine ⟨idxMax, (h1.2.2 i _).2 (Or.inr ⟨rfl, ⟨hi, fun j => ⟨fun h => b ⟨j, h⟩, fun h => ?_⟩⟩, Or.inr ?_⟩)⟩
          · have := (f1 _ _ h).2.2
            omega
          · obtain ⟨t, ht, e⟩ := hedge
            exact ⟨t, ht, by omega⟩
    · refine List.Nodup.map_on ?_ h1.1
      rintro ⟨i, j⟩ hij ⟨i', j'⟩ hij' he
      simp only at he
      subst he
      congr 1
      rcases (h1.2.2 i j).1 hij with h | ⟨rfl, h, _⟩ <;> rcases (h1.2.2 i j').1 hij' with h' | ⟨rfl, h', _⟩
      · exact f3 _ _ _ h h'
      · exact absurd h (h'.2 j).1
      · exact absurd h' (h.2 j').1
      · rfl
  have hpts : diagramPoints inf K 0 p = p.map fun ij => (dataD inf K ij.1, dataD inf K ij.2) := by
    rw [diagramPoints_eq_map inf (fun ij hij => (hp ij hij).1), List.filter_eq_self.2]
    intro ij hij
    simpa using (hp ij hij).2
  have hbig : dataD inf K idxMax = inf := by simp [dataD, List.getElem?_eq_none hn']
  have hval : ((List.range K.length).filter fun i => dimAt K i = 0).map (dataD inf K) = (K.filter fun s => #s.vset - 1 = 0).map (·.data) := by
    have hK' : K = (List.range K.length).map fun i => K.getD i ⟨[], inf⟩ := by
      refine List.ext_getElem (by simp) fun i hi _ => ?_
      simp [List.getD_eq_getElem?_getD, List.getElem?_eq_getElem hi]
    conv_rhs => rw [hK', List.filter_map, List.map_map]
    have : ((fun s : Simplex α => decide (#s.vset - 1 = 0)) ∘ fun i => K.getD i ⟨[], inf⟩) = fun i => decide (dimAt K i = 0) := by
      funext i
      have e : vsetAt K i = (K.getD i ⟨[], inf⟩).vset := by
        unfold vsetAt
        rw [List.getD_eq_getElem?_getD]
        cases K[i]? <;> simp [Simplex.vset]
      simp only [Function.comp, dimAt, e]
    rw [this]
    refine List.map_congr_left fun i _ => ?_
    simp only [Function.comp, dataD, List.getD_eq_getElem?_getD]
    cases K[i]? <;> rfl
  have hne : 0 < ((List.range K.length).filter fun i => dimAt K i = 0).length := by
    obtain ⟨v, hv⟩ := first_is_vertex hF (by omega)
    refine List.length_pos_of_mem (a := 0) ?_
    rw [List.mem_filter, List.mem_range]
    refine ⟨by omega, ?_⟩
    simp [dimAt, hv]
  have hDs : Ds = [⟨0, p.map fun ij => (dataD inf K ij.1, dataD inf K ij.2)⟩] := by
    have hall : ∀ D ∈ Ds, D = ⟨0, p.map fun ij => (dataD inf K ij.1, dataD inf K ij.2)⟩ := by
      intro D hD
      have hD' := (hd.2 D).1 hD
      have h0 : D.dimension = 0 := by
        by_contra hne
        refine hD'.1 ?_
        rw [hD'.2, diagramPoints_eq_map inf (fun ij hij => (hp ij hij).1), List.map_eq_nil_iff, List.filter_eq_nil_iff]
        intro ij hij
        rw [decide_eq_true_eq, (hp ij hij).2]
        exact fun h => hne h.symm
      cases D with
      | mk dim pts =>
        simp only at h0 hD'
        subst h0
        rw [hD'.2, hpts]
    have hone : (⟨0, p.map fun ij => (dataD inf K ij.1, dataD inf K ij.2)⟩ : Diagram α) ∈ Ds := by
      rw [hd.2]
      refine ⟨?_, hpts.symm⟩
      simp only [ne_eq, List.map_eq_nil_iff]
      rintro rfl
      have := hfst.length_eq
      simp only [List.map_nil, List.length_nil] at this
      omega
    match Ds, hall, hone, hd.1 with
    | [D], hall, _, _ => rw [hall D (by simp)]
    | D :: E :: l, hall, _, hd1 =>
      exfalso
      simp only [List.map_cons, List.pairwise_cons] at hd1
      have := hd1.1 E.dimension (by simp)
      rw [hall D (by simp), hall E (by simp)] at this
      simp at this
  refine ⟨_, by rw [h3, hDs], ?_, ?_, ?_⟩
  · rw [List.map_map]
    have e : (p.map (Prod.fst ∘ fun ij : ℕ × ℕ => (dataD inf K ij.1, dataD inf K ij.2))) = (p.map Prod.fst).map (dataD inf K) := by
      rw [List.map_map]; rfl
    rw [e]
    refine (hfst.map _).trans ?_
    rw [hval]
    refine ((hperm.filter _).map _).trans (List.Perm.of_eq ?_)
    rw [List.filter_map, List.map_map]
    have e2 : 2 * values.length - 1 = values.length + (values.length - 1) := by omega
    rw [e2, List.range_add, List.filter_append, List.filter_eq_self.2, List.filter_eq_nil_iff.2, List.append_nil]
    · refine List.ext_getElem (by simp) fun i hi hi' => ?_
      simp [cell, cellValue, hi', List.getD_eq_getElem?_getD]
    · intro i hi
      obtain ⟨j, hj, rfl⟩ := List.mem_map.1 hi
      simp [cell_vset]
    · intro i hi
      simp [cell_vset, List.mem_range.1 hi]
  · intro q hq
    obtain ⟨⟨i, j⟩, hij, rfl⟩ := List.mem_map.1 hq
    rcases (h1.2.2 i j).1 hij with h | ⟨rfl, h, _⟩
    · right
      obtain ⟨a1, a2, a3⟩ := f1 _ _ h
      simp only [dataD_eq a1, dataD_eq a2]
      refine ⟨?_, hmem _ (List.getElem_mem a2)⟩
      have hlt : i < j := by
        obtain ⟨r, g1, g2, g3, g4, g5⟩ := C11_is_boundary_matrix .vector K hF hn'
        obtain ⟨R, _, hR⟩ := standard_isReduction .vector g2.valid
        exact hR.low_lt g2.filtered (hR.low_iff.2 (by rw [g4]; exact h))
      exact List.pairwise_iff_getElem.1 hs i j a1 a2 hlt
    · exact Or.inl hbig
  · intro x y
    have := C17_persistent_components inf K hF hn' hs hdinf .twist .vector true false (Or.inr ?_) Ds (h3 _ _ _) x y
    · rw [pointsOfDimension_eq hd, hpts] at this
      exact this
    · obtain ⟨t, ht, e⟩ := hedge
      refine ⟨K[t], List.getElem_mem ht, ?_⟩
      rw [dimAt, vsetAt_some (List.getElem?_eq_getElem ht)] at e
      omega

/-- The extreme values of a complex. -/
theorem minmax_spec {largest lowest : α} {K : Complex α} (hne : K ≠ []) (h1 : ∀ s ∈ K, s.data ≤ largest) (h2 : ∀ s ∈ K, lowest ≤ s.data) :
    (∃ s ∈ K, (minmaxData largest lowest K).1 = s.data) ∧ (∃ s ∈ K, (minmaxData largest lowest K).2 = s.data) ∧
      ∀ s ∈ K, (minmaxData largest lowest K).1 ≤ s.data ∧ s.data ≤ (minmaxData largest lowest K).2 := by
  have key : ∀ (K : Complex α) (a b : α),
      ((K.foldl (fun (m : α × α) (s : Simplex α) => (min m.1 s.data, max m.2 s.data)) (a, b)).1 = a ∨
        ∃ s ∈ K, (K.foldl (fun (m : α × α) (s : Simplex α) => (min m.1 s.data, max m.2 s.data)) (a, b)).1 = s.data) ∧
      ((K.foldl (fun (m : α × α) (s : Simplex α) => (min m.1 s.data, max m.2 s.data)) (a, b)).2 = b ∨
        ∃ s ∈ K, (K.foldl (fun (m : α × α) (s : Simplex α) => (min m.1 s.data, max m.2 s.data)) (a, b)).2 = s.data) ∧
      (K.foldl (fun (m : α × α) (s : Simplex α) => (min m.1 s.data, max m.2 s.data)) (a, b)).1 ≤ a ∧
      b ≤ (K.foldl (fun (m : α × α) (s : Simplex α) => (min m.1 s.data, max m.2 s.data)) (a, b)).2 ∧
      ∀ s ∈ K, (K.foldl (fun (m : α × α) (s : Simplex α) => (min m.1 s.data, max m.2 s.data)) (a, b)).1 ≤ s.data ∧
        s.data ≤ (K.foldl (fun (m : α × α) (s : Simplex α) => (min m.1 s.data, max m.2 s.data)) (a, b)).2 := by
    intro K
    induction K with
    | nil => intro a b; simp
    | cons s K ih =>
      intro a b
      obtain ⟨i1, i2, i3, i4, i5⟩ := ih (min a s.data) (max b s.data)
      simp only [List.foldl_cons]
      refine ⟨?_, ?_, i3.trans (min_le_left _ _), (le_max_left _ _).trans i4, ?_⟩
      · rcases i1 with i1 | ⟨t, ht, i1⟩
        · rcases min_choice a s.data with h | h
          · exact Or.inl (i1.trans h)
          · exact Or.inr ⟨s, by simp, i1.trans h⟩
        · exact Or.inr ⟨t, by simp [ht], i1⟩
      · rcases i2 with i2 | ⟨t, ht, i2⟩
        · rcases max_choice b s.data with h | h
          · exact Or.inl (i2.trans h)
          · exact Or.inr ⟨s, by simp, i2.trans h⟩
        · exact Or.inr ⟨t, by simp [ht], i2⟩
      · intro t ht
        rcases List.mem_cons.1 ht with rfl | ht
        · exact ⟨i3.trans (min_le_right _ _), (le_max_right _ _).trans i4⟩
        · exact i5 t ht
  obtain ⟨k1, k2, k3, k4, k5⟩ := key K largest lowest
  obtain ⟨s, hs⟩ := List.exists_mem_of_ne_nil K hne
  refine ⟨?_, ?_, k5⟩
  · rcases k1 with k1 | k1
    · refine ⟨s, hs, le_antisymm (k5 s hs).1 ?_⟩
      unfold minmaxData
      rw [k1]
      exact h1 s hs
    · exact k1
  · rcases k2 with k2 | k2
    · refine ⟨s, hs, le_antisymm ?_ (k5 s hs).2⟩
      unfold minmaxData
      rw [k2]
      exact h2 s hs
    · exact k2

theorem path_values {values : List α} {K : Complex α} (hK : ∀ t x, HasData K t x ↔ PathData max values t x) :
    (∀ s ∈ K, s.data ∈ values) ∧ ∀ v ∈ values, ∃ s ∈ K, s.data = v := by
  constructor
  · intro s hs
    rcases (hK _ _).1 ⟨s, hs, rfl, rfl⟩ with ⟨k, _, e2⟩ | ⟨k, a, b, _, e2, e3, e4⟩
    · exact List.mem_of_getElem? e2
    · rw [e4]
      rcases max_choice a b with h | h <;> rw [h]
      · exact List.mem_of_getElem? e2
      · exact List.mem_of_getElem? e3
  · intro v hv
    obtain ⟨i, hi⟩ := List.getElem?_of_mem hv
    obtain ⟨s, hs, _, e⟩ := (hK {i} v).2 (Or.inl ⟨i, rfl, hi⟩)
    exact ⟨s, hs, e⟩

theorem path_vertices {values : List α} {K : Complex α} (hK : ∀ t x, HasData K t x ↔ PathData max values t x) (x : α) :
    verticesUpTo K x = placesUpTo values x := by
  ext v
  constructor
  · rintro ⟨s, hs, hv, hd⟩
    rcases (hK _ _).1 ⟨s, hs, rfl, rfl⟩ with ⟨k, e1, e2⟩ | ⟨k, a, b, e1, _⟩
    · rw [hv, singleton_inj] at e1
      subst e1
      exact ⟨_, e2, hd⟩
    · rw [hv] at e1
      have := congrArg card e1
      rw [card_pair (by omega)] at this
      simp at this
  · rintro ⟨a, ha, hx⟩
    obtain ⟨s, hs, hv, hd⟩ := (hK {v} a).2 (Or.inl ⟨v, rfl, ha⟩)
    exact ⟨s, hs, hv, by rw [hd]; exact hx⟩

theorem isClassCount_congr {V : Set ℕ} {r r' : ℕ → ℕ → Prop} (h : ∀ a ∈ V, ∀ b ∈ V, r a b ↔ r' a b) {n : ℕ} (hn : IsClassCount V r n) :
    IsClassCount V r' n := by
  obtain ⟨R, h1, h2, h3⟩ := hn
  refine ⟨R, h1, h2, fun v hv => ?_⟩
  obtain ⟨a, ⟨ha, hr⟩, hu⟩ := h3 v hv
  refine ⟨a, ⟨ha, (h v hv a (h2 a ha)).1 hr⟩, ?_⟩
  rintro b ⟨hb, hr'⟩
  exact hu b ⟨hb, (h v hv b (h2 b hb)).2 hr'⟩

/-- If all elements are related, there is one class. -/
theorem classCount_one {V : Set ℕ} {r : ℕ → ℕ → Prop} (h : ∀ a ∈ V, ∀ b ∈ V, r a b) (hV : V.Nonempty) {n : ℕ} (hn : IsClassCount V r n) : n = 1 := by
  obtain ⟨R, rfl, h2, h3⟩ := hn
  obtain ⟨v, hv⟩ := hV
  obtain ⟨a, ⟨ha, _⟩, hu⟩ := h3 v hv
  rw [card_eq_one]
  refine ⟨a, eq_singleton_iff_unique_mem.2 ⟨ha, fun b hb => hu b ⟨hb, h v hv b (h2 b hb)⟩⟩⟩

/-- The diagram of the sublevel sets of a function. -/
theorem rawDiagram_spec (inf largest lowest : α) (values : List α) (h2 : 2 ≤ values.length) (hn : 2 * values.length - 1 ≤ idxMax)
    (hinf : ∀ v ∈ values, v ≠ inf) (hlim : ∀ v ∈ values, lowest ≤ v ∧ v ≤ largest) :
    ∃ K D, complexOf true values = some K ∧ rawDiagram inf largest lowest true K = .ok D ∧ D.dimension = 0 ∧ IsFunctionDiagram values D.points := by
  obtain ⟨d, hd⟩ : ∃ d, d ∈ values := ⟨values[0], List.getElem_mem _⟩
  obtain ⟨K, c1, c2, c3, c4, c5, c6⟩ := complexOf_spec d values
  obtain ⟨P, p1, p2, p3, p4⟩ := path_diagram inf h2 hn c2 c3 c4 c5 d c6 hinf
  obtain ⟨v1, v2⟩ := path_values c5
  have hne : K ≠ [] := by
    rintro rfl
    simp at c3
    omega
  obtain ⟨⟨s, hs, ms⟩, ⟨t, ht, mt⟩, mm⟩ := minmax_spec (largest := largest) (lowest := lowest) hne (fun s hs => (hlim _ (v1 s hs)).2)
    (fun s hs => (hlim _ (v1 s hs)).1)
  generalize hm : minmaxData largest lowest K = m at ms mt mm
  have hmin : ∀ v ∈ values, m.1 ≤ v ∧ v ≤ m.2 := by
    intro v hv
    obtain ⟨s, hs, rfl⟩ := v2 v hv
    exact mm s hs
  have hcount : ∀ x y, x ≤ y → IsClassCount (placesUpTo values x) (SameRun values y) (P.countP fun p => p.1 ≤ x ∧ (p.2 = inf ∨ y < p.2)) := by
    intro x y hxy
    have := p4 x y
    rw [path_vertices c5] at this
    refine isClassCount_congr ?_ this
    rintro a ⟨va, ha, hax⟩ b ⟨vb, hb, hbx⟩
    rw [connected_iff c5 y (List.getElem?_eq_some_iff.1 ha).1 (List.getElem?_eq_some_iff.1 hb).1]
    constructor
    · rintro (rfl | h)
      · intro k c hk hk' hc
        obtain rfl : k = a := by omega
        rw [ha] at hc
        rw [← Option.some.inj hc]
        exact hax.trans hxy
      · exact h
    · exact Or.inr
  have hall : ∀ i j, SameRun values m.2 i j := fun i j k a _ _ ha => (hmin a (List.mem_of_getElem? ha)).2
  have hVmin : (placesUpTo values m.1).Nonempty := by
    obtain ⟨i, hi⟩ := List.getElem?_of_mem (v1 s hs)
    exact ⟨i, s.data, hi, ms.ge⟩
  have hVmax : (placesUpTo values m.2).Nonempty := by
    obtain ⟨i, hi⟩ := List.getElem?_of_mem hd
    exact ⟨i, d, hi, (hmin d hd).2⟩
  have hmm : m.1 ≤ m.2 := (hmin d hd).1.trans (hmin d hd).2
  have one1 := classCount_one (fun a _ b _ => hall a b) hVmin (hcount m.1 m.2 hmm)
  have one2 := classCount_one (fun a _ b _ => hall a b) hVmax (hcount m.2 m.2 le_rfl)
  have hx : ∀ p ∈ P, p.1 ∈ values := fun p hp => p2.subset (List.mem_map.2 ⟨p, hp, rfl⟩)
  have hbetti : (⟨0, P⟩ : Diagram α).betti inf = 1 := by
    unfold Diagram.betti
    rw [← one2]
    refine List.countP_congr fun p hp => ?_
    simp only [Diagram.isUnpaired, decide_eq_true_eq]
    constructor
    · exact fun h => ⟨(hmin _ (hx p hp)).2, Or.inl h⟩
    · rintro ⟨_, h | h⟩
      · exact h
      · rcases p3 p hp with h' | h'
        · exact h'
        · exact absurd ((hmin _ h'.2).2) (not_le.2 h)
  have hclose : ∀ p ∈ P, (close inf true m p).1 = p.1 ∧ (p.2 = inf → (close inf true m p).2 = m.2) ∧ (p.2 ≠ inf → (close inf true m p).2 = p.2) := by
    intro p _
    unfold close
    split <;> simp_all
  refine ⟨K, ⟨0, P.map (close inf true m)⟩, c1, ?_, rfl, ?_, ?_, ?_, ?_⟩
  · unfold rawDiagram
    rw [p1]
    simp only [hbetti, ne_eq, not_true_eq_false, if_false, hm]
  · rw [List.map_map, List.map_congr_left (g := Prod.fst)]
    · exact p2
    · exact fun p hp => (hclose p hp).1
  · intro q hq
    obtain ⟨p, hp, rfl⟩ := List.mem_map.1 hq
    obtain ⟨e1, e2, e3⟩ := hclose p hp
    rw [e1]
    by_cases h : p.2 = inf
    · rw [e2 h]
      exact ⟨(hmin _ (hx p hp)).2, by rw [mt]; exact v1 t ht⟩
    · rw [e3 h]
      exact (p3 p hp).resolve_left h
  · have : 0 < P.countP fun p => p.1 ≤ m.1 ∧ (p.2 = inf ∨ m.2 < p.2) := by rw [one1]; exact Nat.one_pos
    obtain ⟨p, hp, h⟩ := List.countP_pos_iff.1 this
    rw [decide_eq_true_eq] at h
    have hpi : p.2 = inf := by
      rcases h.2 with h | h
      · exact h
      · exact (p3 p hp).resolve_right fun h' => absurd (hmin _ h'.2).2 (not_le.2 h)
    refine ⟨_, List.mem_map.2 ⟨p, hp, rfl⟩, fun v hv => ?_⟩
    obtain ⟨e1, e2, -⟩ := hclose p hp
    rw [e1, e2 hpi]
    exact ⟨h.1.trans (hmin v hv).1, (hmin v hv).2⟩
  · rintro x y hxy ⟨v, hv, hyv⟩
    have := hcount x y hxy
    rw [List.countP_map]
    convert this using 1
    refine List.countP_congr fun p hp => ?_
    obtain ⟨e1, e2, e3⟩ := hclose p hp
    simp only [Function.comp, decide_eq_true_eq, e1]
    refine and_congr_right fun _ => ?_
    by_cases h : p.2 = inf
    · rw [e2 h]
      exact ⟨fun _ => Or.inl h, fun _ => lt_of_lt_of_le hyv (hmin v hv).2⟩
    · rw [e3 h]
      exact ⟨Or.inr, fun h' => h'.resolve_left h⟩

theorem complexOf_dual (values : List α) : complexOf false values = complexOf (α := αᵒᵈ) true values := rfl

theorem minmax_dual (largest lowest : α) (K : Complex α) :
    minmaxData (α := αᵒᵈ) lowest largest K = ((minmaxData largest lowest K).2, (minmaxData largest lowest K).1) := by
  unfold minmaxData
  induction K generalizing largest lowest with
  | nil => rfl
  | cons s K ih => exact ih (min largest s.data) (max lowest s.data)

theorem rawDiagram_dual (inf largest lowest : α) (K : Complex α) :
    rawDiagram inf largest lowest false K = rawDiagram (α := αᵒᵈ) inf lowest largest true K := by
  have hb : ∀ D : Diagram α, D.betti inf = Diagram.betti (α := αᵒᵈ) inf D := fun _ => rfl
  have hc : ∀ p : α × α, close inf false (minmaxData largest lowest K) p = close (α := αᵒᵈ) inf true (minmaxData (α := αᵒᵈ) lowest largest K) p := by
    intro p
    rw [minmax_dual]
    rfl
  unfold rawDiagram
  have e : calculatePersistenceDiagrams (α := αᵒᵈ) .twist .vector inf K = calculatePersistenceDiagrams .twist .vector inf K := rfl
  rw [e]
  cases calculatePersistenceDiagrams .twist .vector inf K with
  | none => rfl
  | some Ds =>
    match Ds with
    | [] => rfl
    | [D] =>
      simp only
      have : (fun p => close inf false (minmaxData largest lowest K) p) = close (α := αᵒᵈ) inf true (minmaxData (α := αᵒᵈ) lowest largest K) := funext hc
      rw [← this]
      rfl
    | _ :: _ :: _ => rfl

/-- The diagram of the superlevel sets is the one of the sublevel sets for the reversed order. -/
theorem rawDiagram_spec_superlevel (inf largest lowest : α) (values : List α) (h2 : 2 ≤ values.length) (hn : 2 * values.length - 1 ≤ idxMax)
    (hinf : ∀ v ∈ values, v ≠ inf) (hlim : ∀ v ∈ values, lowest ≤ v ∧ v ≤ largest) :
    ∃ K D, complexOf false values = some K ∧ rawDiagram inf largest lowest false K = .ok D ∧ D.dimension = 0 ∧ IsFunctionDiagram (α := αᵒᵈ) values D.points := by
  obtain ⟨K, D, h1, h3, h4⟩ := rawDiagram_spec (α := αᵒᵈ) inf lowest largest values h2 hn hinf fun v hv => (hlim v hv).symm
  exact ⟨K, D, h1, (rawDiagram_dual inf largest lowest K).trans h3, h4⟩

end Order

/-- The values of a line that can be analysed: at least two, which are not infinite and within the limits of the data type. -/
def Good (inf largest lowest : ℝ) (values : List ℝ) : Prop :=
  2 ≤ values.length ∧ 2 * values.length - 1 ≤ idxMax ∧ ∀ v ∈ values, v ≠ inf ∧ lowest ≤ v ∧ v ≤ largest

theorem separator_eq : PointCloud.isSeparator = separatesValues := by
  funext c
  have := (C70_trim []).1 c
  rw [Bool.eq_iff_iff]
  simp only [PointCloud.isSeparator, separatesValues, Bool.or_eq_true, beq_iff_eq, this, List.mem_cons, decide_eq_true_eq, List.not_mem_nil, or_false]
  tauto

theorem mapM_some_iff {β γ : Type} {f : β → Option γ} {as : List β} {bs : List γ} :
    as.mapM f = some bs ↔ List.Forall₂ (fun a b => f a = some b) as bs := by
  induction as generalizing bs with
  | nil => simp [eq_comm]
  | cons a as ih =>
    rw [List.mapM_cons]
    cases h : f a with
    | none =>
      constructor
      · intro h'; cases h'
      · rintro (_ | ⟨h', _⟩); rw [h] at h'; cases h'
    | some b =>
      cases h' : as.mapM f with
      | none =>
        constructor
        · intro h'; cases h'
        · rintro (_ | ⟨_, h2⟩)
          rw [← ih, h'] at h2; cases h2
      | some bs' =>
        constructor
        · intro e
          obtain rfl : b :: bs' = bs := Option.some.inj e
          exact .cons h (ih.1 h')
        · rintro (_ | ⟨h1, h2⟩)
          rw [h] at h1
          rw [← ih, h'] at h2
          rw [Option.some.inj h1, Option.some.inj h2]; rfl

theorem lineValues_iff {convert : List Char → Option ℝ} {line : List Char} {values : List ℝ} :
    LineValues convert line values ↔ (Strings.split PointCloud.isSeparator line).mapM convert = some values := by
  rw [separator_eq, mapM_some_iff]
  constructor
  · rintro ⟨ws, h1, h2⟩
    rw [(C70_split _ _ _).2 h1]
    exact h2
  · intro h
    exact ⟨_, (C70_split _ _ _).1 rfl, h⟩

theorem exists_complex (sublevel : Bool) (values : List ℝ) : ∃ K, complexOf sublevel values = some K := by
  obtain ⟨K, h, -⟩ := C64_path (fun x y : ℝ => if sublevel then max x y else min x y) values
  unfold complexOf
  rw [h]
  exact ⟨_, rfl⟩

/-- All lines of all inputs are read. -/
theorem readAll_eq (convert : List Char → Option ℝ) (sublevel : Bool) {files : List Char → Option (List Char)} {stdin : List Char} {names lines : List (List Char)}
    (h : InputLines files stdin names lines) : readAll convert sublevel files stdin names = lines.mapM (readLine convert sublevel) := by
  have happ : ∀ (l l' : List (List Char)), (l ++ l').mapM (readLine convert sublevel) =
      match l.mapM (readLine convert sublevel) with
      | .error e => .error e
      | .ok Ks =>
        match l'.mapM (readLine convert sublevel) with
        | .error e => .error e
        | .ok Ls => .ok (Ks ++ Ls) := by
    intro l l'
    rw [List.mapM_append]
    cases l.mapM (readLine convert sublevel) with
    | error e => rfl
    | ok Ks => cases l'.mapM (readLine convert sublevel) <;> rfl
  induction h with
  | nil stdin => rfl
  | standard hname hl hrest ih =>
    unfold readAll
    simp only [hname, if_true, readData, getlines_spec _ _ _ hl, ih, happ]
    generalize List.mapM (readLine convert sublevel) _ = A
    generalize List.mapM (readLine convert sublevel) _ = B
    cases A <;> cases B <;> rfl
  | file h1 h2 hf hl hrest ih =>
    unfold readAll
    simp only [h1, h2, or_self, if_false, readData, hf, Option.getD_some, getlines_spec _ _ _ hl, ih, happ]
    generalize List.mapM (readLine convert sublevel) _ = A
    generalize List.mapM (readLine convert sublevel) _ = B
    cases A <;> cases B <;> rfl
  | @missing stdin name names rest h1 h2 hf hrest ih =>
    unfold readAll
    simp only [h1, h2, or_self, if_false, readData, hf, Option.getD_none, ih, Strings.getlines]
    simp only [List.isEmpty_nil, if_true, List.mapM_nil]
    cases rest.mapM (readLine convert sublevel) <;> rfl

theorem mapM_ok {β γ : Type} {f : β → Except Failure γ} {as : List β} {bs : List γ} (h : List.Forall₂ (fun a b => f a = .ok b) as bs) : as.mapM f = .ok bs := by
  induction h with
  | nil => rfl
  | cons h1 _ ih => rw [List.mapM_cons, h1, ih]; rfl

theorem mapM_exception {β γ : Type} {f : β → Except Failure γ} {as : List β} (h : ∀ a ∈ as, f a ≠ .error .undefined) {a : β} (ha : a ∈ as) (he : f a = .error .exception) :
    as.mapM f = .error .exception := by
  induction as with
  | nil => simp at ha
  | cons x as ih =>
    rw [List.mapM_cons]
    cases hx : f x with
    | error e =>
      cases e with
      | exception => rfl
      | undefined => exact absurd hx (h x (by simp))
    | ok y =>
      rcases List.mem_cons.1 ha with rfl | ha
      · rw [he] at hx; cases hx
      · rw [ih (fun b hb => h b (by simp [hb])) ha]; rfl

theorem summary_spec {D : Diagram ℝ} (hne : D.points ≠ []) : ∃ low high mean norm, condense D = .ok [low, high, mean, norm] ∧ IsSummary D.points low high mean norm := by
  obtain ⟨p, P, hP⟩ := List.exists_cons_of_ne_nil hne
  obtain ⟨-, x, hx, h0, -, hp, -⟩ := C66_p_norm D 2 (by norm_num)
  have hv : DiagramNorms.persistenceValues D false = (p.2 - p.1) :: P.map fun p => p.2 - p.1 := by
    simp [DiagramNorms.persistenceValues, hP, DiagramNorms.persistence]
  have hmin : ∀ (l : List ℝ) (a : ℝ), l.foldl min a ∈ a :: l ∧ ∀ b ∈ a :: l, l.foldl min a ≤ b := by
    intro l
    induction l with
    | nil => intro a; simp
    | cons c l ih =>
      intro a
      obtain ⟨i1, i2⟩ := ih (min a c)
      rw [List.foldl_cons]
      constructor
      · rcases List.mem_cons.1 i1 with h | h
        · rw [h]
          rcases min_choice a c with h | h <;> simp [h]
        · simp [h]
      · have := i2 (min a c) (by simp)
        intro b hb
        simp only [List.mem_cons] at hb
        rcases hb with rfl | rfl | hb
        · exact this.trans (min_le_left _ _)
        · exact this.trans (min_le_right _ _)
        · exact i2 b (by simp [hb])
  have hmax : ∀ (l : List ℝ) (a : ℝ), l.foldl max a ∈ a :: l ∧ ∀ b ∈ a :: l, b ≤ l.foldl max a := by
    intro l
    induction l with
    | nil => intro a; simp
    | cons c l ih =>
      intro a
      obtain ⟨i1, i2⟩ := ih (max a c)
      rw [List.foldl_cons]
      constructor
      · rcases List.mem_cons.1 i1 with h | h
        · rw [h]
          rcases max_choice a c with h | h <;> simp [h]
        · simp [h]
      · have := i2 (max a c) (by simp)
        intro b hb
        simp only [List.mem_cons] at hb
        rcases hb with rfl | rfl | hb
        · exact (le_max_left _ _).trans this
        · exact (le_max_right _ _).trans this
        · exact i2 b (by simp [hb])
  have hall : ∀ b, b ∈ (p.2 - p.1) :: P.map (fun p : ℝ × ℝ => p.2 - p.1) ↔ ∃ q ∈ D.points, b = q.2 - q.1 := by
    intro b
    rw [hP]
    simp [eq_comm]
  refine ⟨_, _, _, x, by unfold condense; rw [hv, hx], ?_, ?_, ?_, ?_, ?_, h0, ?_⟩
  · exact (hall _).1 (hmin _ _).1
  · exact fun q hq => (hmin _ _).2 _ ((hall _).2 ⟨q, hq, rfl⟩)
  · exact (hall _).1 (hmax _ _).1
  · exact fun q hq => (hmax _ _).2 _ ((hall _).2 ⟨q, hq, rfl⟩)
  · rw [Entropy.accumulate_eq, div_mul_cancel₀]
    · rw [hP]; simp
    · rw [hP]; simp only [List.length_cons]; positivity
  · have : x ^ 2 = x ^ (2 : ℝ) := (Real.rpow_two x).symm
    rw [this, hp]
    congr 1
    refine List.map_congr_left fun q _ => ?_
    rw [Real.rpow_two, sq_abs]

theorem textOf_spec (print : ℝ → List Char) (s : Settings) {D : Diagram ℝ} (hne : D.points ≠ []) :
    ∃ text, textOf print s D = .ok text ∧ IsLineText print s.condense D.points text := by
  unfold textOf
  cases hc : s.condense with
  | false =>
    refine ⟨_, by simp only [Bool.false_eq_true, if_false]; rfl, ?_, by simp⟩
    intro _
    simp [diagramText]
  | true =>
    obtain ⟨low, high, mean, norm, h1, h2⟩ := summary_spec hne
    refine ⟨_, by simp only [if_true, h1]; rfl, by simp, ?_⟩
    exact fun _ => ⟨low, high, mean, norm, h2, by simp [List.intercalate, List.intersperse]⟩

theorem minmax_values {inf largest lowest : ℝ} {values : List ℝ} (h : Good inf largest lowest values) (sublevel : Bool) {K : Complex ℝ}
    (hK : complexOf sublevel values = some K) : (minmaxData largest lowest K).1 ∈ values ∧ (minmaxData largest lowest K).2 ∈ values ∧
      ∀ v ∈ values, (minmaxData largest lowest K).1 ≤ v ∧ v ≤ (minmaxData largest lowest K).2 := by
  have hne : ∀ {γ : Type} {K : List γ}, K.length = 2 * values.length - 1 → K ≠ [] := by
    rintro γ K hl rfl
    have := h.1
    simp at hl
    omega
  cases sublevel with
  | true =>
    obtain ⟨K', c1, c2, c3, c4, c5, -⟩ := complexOf_spec 0 values
    rw [hK] at c1
    obtain rfl := Option.some.inj c1
    obtain ⟨v1, v2⟩ := path_values c5
    obtain ⟨⟨s, hs, m1⟩, ⟨t, ht, m2⟩, m3⟩ := minmax_spec (largest := largest) (lowest := lowest) (hne c3) (fun s hs => (h.2.2 _ (v1 s hs)).2.2)
      (fun s hs => (h.2.2 _ (v1 s hs)).2.1)
    refine ⟨by rw [m1]; exact v1 s hs, by rw [m2]; exact v1 t ht, fun v hv => ?_⟩
    obtain ⟨s, hs, rfl⟩ := v2 v hv
    exact m3 s hs
  | false =>
    obtain ⟨K', c1, c2, c3, c4, c5, -⟩ := complexOf_spec (α := ℝᵒᵈ) (0 : ℝ) values
    rw [complexOf_dual] at hK
    have e : some K = some K' := hK.symm.trans c1
    obtain rfl := Option.some.inj e
    obtain ⟨v1, v2⟩ := path_values (α := ℝᵒᵈ) c5
    obtain ⟨⟨s, hs, m1⟩, ⟨t, ht, m2⟩, m3⟩ := minmax_spec (α := ℝ) (K := K) (largest := largest) (lowest := lowest) (hne c3) (fun s hs => (h.2.2 _ (v1 s hs)).2.2)
      (fun s hs => (h.2.2 _ (v1 s hs)).2.1)
    refine ⟨by rw [m1]; exact v1 s hs, by rw [m2]; exact v1 t ht, fun v hv => ?_⟩
    obtain ⟨s, hs, rfl⟩ := v2 v hv
    exact m3 s hs

theorem diagramOf_spec {inf largest lowest : ℝ} {values : List ℝ} (h : Good inf largest lowest values) (s : Settings) {K : Complex ℝ}
    (hK : complexOf s.sublevel values = some K) :
    ∃ D, diagramOf inf largest lowest s K = .ok D ∧ D.points ≠ [] ∧ IsLineDiagram s.sublevel s.normalize values D.points := by
  have hinf : ∀ v ∈ values, v ≠ inf := fun v hv => (h.2.2 v hv).1
  have hlim : ∀ v ∈ values, lowest ≤ v ∧ v ≤ largest := fun v hv => (h.2.2 v hv).2
  obtain ⟨D, hraw, hD1, hD2, hDl⟩ : ∃ D, rawDiagram inf largest lowest s.sublevel K = .ok D ∧ (s.sublevel = true → IsFunctionDiagram values D.points) ∧
      (s.sublevel = false → IsFunctionDiagram (α := ℝᵒᵈ) values D.points) ∧ D.points.length = values.length := by
    cases hb : s.sublevel with
    | true =>
      rw [hb] at hK
      obtain ⟨K', D, h1, h3, -, h4⟩ := rawDiagram_spec inf largest lowest values h.1 h.2.1 hinf hlim
      rw [hK] at h1
      obtain rfl := Option.some.inj h1
      exact ⟨D, h3, fun _ => h4, by simp, by simpa using h4.creation.length_eq⟩
    | false =>
      rw [hb] at hK
      obtain ⟨K', D, h1, h3, -, h4⟩ := rawDiagram_spec_superlevel inf largest lowest values h.1 h.2.1 hinf hlim
      rw [hK] at h1
      obtain rfl := Option.some.inj h1
      exact ⟨D, h3, by simp, fun _ => h4, (List.length_map (as := D.points) Prod.fst).symm.trans h4.creation.length_eq⟩
  have hne : D.points ≠ [] := by
    intro e
    have := h.1
    rw [e, List.length_nil] at hDl
    omega
  unfold diagramOf
  rw [hraw]
  cases hn : s.normalize with
  | false => exact ⟨D, by simp, hne, D.points, hD1, hD2, fun _ => rfl, by simp⟩
  | true =>
    obtain ⟨m1, m2, m3⟩ := minmax_values h s.sublevel hK
    refine ⟨scale (minmaxData largest lowest K) D, by simp, ?_, D.points, hD1, hD2, by simp, fun _ => ⟨_, m1, _, m2, m3, ?_, ?_⟩⟩
    · unfold scale
      split
      · simpa using hne
      · exact hne
    · intro e
      unfold scale
      rw [if_neg (not_not.2 e)]
    · intro e
      unfold scale
      rw [if_pos e.ne]

/-- C156. If each line of the inputs consists of at least two values, the diagrams of the functions given by these values are written, one after another: to standard
output, or to the file with the given name. -/
theorem _root_.Aleph.C156_main (inf largest lowest : ℝ) (convert : List Char → Option ℝ) (print : ℝ → List Char) (files : List Char → Option (List Char))
    (writable : List Char → Bool) (stdin : List Char) (opts : List Opt) (names lines : List (List Char)) (hnames : names ≠ [])
    (hin : InputLines files stdin names lines) (values : List (List ℝ)) (hv : List.Forall₂ (LineValues convert) lines values)
    (hgood : ∀ v ∈ values, Good inf largest lowest v) :
    ∃ Ds texts, List.Forall₂ (IsLineDiagram (settings opts).sublevel (settings opts).normalize) values Ds ∧
      List.Forall₂ (IsLineText print (settings opts).condense) Ds texts ∧
      ((settings opts).output = [] →
        main inf largest lowest convert print files writable stdin opts names = .ok (0, ⟨texts.flatten, none⟩)) ∧
      ((settings opts).output ≠ [] → main inf largest lowest convert print files writable stdin opts names =
        .ok (0, ⟨[], if writable (settings opts).output then some ((settings opts).output, texts.flatten) else none⟩)) := by
  generalize hs : settings opts = s
  have hK : ∀ v ∈ values, ∃ K, complexOf s.sublevel v = some K ∧ ∃ D, diagramOf inf largest lowest s K = .ok D ∧ D.points ≠ [] ∧
      IsLineDiagram s.sublevel s.normalize v D.points ∧ ∃ text, textOf print s D = .ok text ∧ IsLineText print s.condense D.points text := by
    intro v hv
    obtain ⟨K, hK⟩ := exists_complex s.sublevel v
    obtain ⟨D, h1, h2, h3⟩ := diagramOf_spec (hgood v hv) s hK
    obtain ⟨t, h4, h5⟩ := textOf_spec print s h2
    exact ⟨K, hK, D, h1, h2, h3, t, h4, h5⟩
  have key : ∃ Ks Ds texts, List.Forall₂ (fun l K => readLine convert s.sublevel l = .ok K) lines Ks ∧
      List.Forall₂ (fun K t => analyse inf largest lowest print s K = .ok t) Ks texts ∧
      List.Forall₂ (IsLineDiagram s.sublevel s.normalize) values Ds ∧ List.Forall₂ (IsLineText print s.condense) Ds texts := by
    clear hin hgood
    induction hv with
    | nil => exact ⟨[], [], [], .nil, .nil, .nil, .nil⟩
    | @cons l v lines values hlv _ ih =>
      obtain ⟨Ks, Ds, texts, i1, i2, i3, i4⟩ := ih fun v hv => hK v (by simp [hv])
      obtain ⟨K, h1, D, h2, h3, h4, t, h5, h6⟩ := hK v (by simp)
      refine ⟨K :: Ks, D.points :: Ds, t :: texts, .cons ?_ i1, .cons ?_ i2, .cons h4 i3, .cons h6 i4⟩
      · unfold readLine
        rw [lineValues_iff.1 hlv]
        simp only [h1]
      · unfold analyse
        rw [h2]
        exact h5
  obtain ⟨Ks, Ds, texts, k1, k2, k3, k4⟩ := key
  refine ⟨Ds, texts, k3, k4, ?_, ?_⟩
  all_goals
    intro ho
    unfold main
    simp only [hs, List.isEmpty_iff, hnames, if_false, readAll_eq convert s.sublevel hin, mapM_ok k1, mapM_ok k2, ho, if_true]

/-- C156. The program ends with an exception if a word of a line is not a number, or if a line has one value only. -/
theorem _root_.Aleph.C156_rejected (inf largest lowest : ℝ) (convert : List Char → Option ℝ) (print : ℝ → List Char) (files : List Char → Option (List Char))
    (writable : List Char → Bool) (stdin : List Char) (opts : List Opt) (names lines : List (List Char)) (hnames : names ≠ [])
    (hin : InputLines files stdin names lines) :
    ((∃ line ∈ lines, ∀ v, ¬ LineValues convert line v) → main inf largest lowest convert print files writable stdin opts names = .error .exception) ∧
    ∀ values, List.Forall₂ (LineValues convert) lines values → (∀ v ∈ values, v.length = 1 ∨ Good inf largest lowest v) → (∃ v ∈ values, v.length = 1) →
      main inf largest lowest convert print files writable stdin opts names = .error .exception := by
  generalize hs : settings opts = s
  constructor
  · rintro ⟨line, hl, hno⟩
    have h : lines.mapM (readLine convert s.sublevel) = .error .exception := by
      refine mapM_exception (fun l _ => ?_) hl ?_
      · unfold readLine
        cases (Strings.split PointCloud.isSeparator l).mapM convert with
        | none => simp
        | some v =>
          obtain ⟨K, hK⟩ := exists_complex s.sublevel v
          simp [hK]
      · unfold readLine
        cases hm : (Strings.split PointCloud.isSeparator line).mapM convert with
        | none => rfl
        | some v => exact absurd (lineValues_iff.2 hm) (hno v)
    unfold main
    simp only [hs, List.isEmpty_iff, hnames, if_false, readAll_eq convert s.sublevel hin, h]
  · intro values hv hgood hone
    have hread : ∃ Ks, lines.mapM (readLine convert s.sublevel) = .ok Ks ∧ List.Forall₂ (fun v K => complexOf s.sublevel v = some K) values Ks := by
      clear hin hgood hone
      induction hv with
      | nil => exact ⟨[], rfl, .nil⟩
      | @cons l v lines values hlv _ ih =>
        obtain ⟨Ks, i1, i2⟩ := ih
        obtain ⟨K, hK⟩ := exists_complex s.sublevel v
        refine ⟨K :: Ks, ?_, .cons hK i2⟩
        rw [List.mapM_cons, i1]
        unfold readLine
        rw [lineValues_iff.1 hlv]
        simp only [hK]
        rfl
    obtain ⟨Ks, h1, h2⟩ := hread
    have hsingle : ∀ v K, v.length = 1 → complexOf s.sublevel v = some K → analyse inf largest lowest print s K = .error .exception := by
      intro v K hv hK
      obtain ⟨x, rfl⟩ := List.length_eq_one_iff.1 hv
      have hK' : complexOf s.sublevel [x] = some [⟨[0], x⟩] := by
        unfold complexOf
        rw [pathComplex_eq x]
        cases s.sublevel <;> rfl
      rw [hK'] at hK
      obtain rfl := Option.some.inj hK
      have : calculatePersistenceDiagrams .twist .vector inf [(⟨[0], x⟩ : Simplex ℝ)] = some [] := rfl
      unfold analyse diagramOf rawDiagram
      rw [this]
    have h3 : Ks.mapM (analyse inf largest lowest print s) = .error .exception := by
      obtain ⟨v, hv, hv1⟩ := hone
      obtain ⟨K, hK, hvK⟩ := Hierarchy.forall₂_mem_left h2 hv
      refine mapM_exception (fun L hL => ?_) hK (hsingle v K hv1 hvK)
      obtain ⟨w, hw, hwL⟩ := Hierarchy.forall₂_mem_right h2 hL
      rcases hgood w hw with h | h
      · rw [hsingle w L h hwL]; simp
      · obtain ⟨D, d1, d2, -⟩ := diagramOf_spec h s hwL
        obtain ⟨t, d4, -⟩ := textOf_spec print s d2
        unfold analyse
        rw [d1]
        simp [d4]
    unfold main
    simp only [hs, List.isEmpty_iff, hnames, if_false, readAll_eq convert s.sublevel hin, h1, h3]

/-- C156. A file that cannot be read makes no difference, and there is no message: the results are those for the other files. -/
theorem _root_.Aleph.C156_missing_file (inf largest lowest : ℝ) (convert : List Char → Option ℝ) (print : ℝ → List Char) (files : List Char → Option (List Char))
    (writable : List Char → Bool) (stdin : List Char) (opts : List Opt) (name : List Char) (names : List (List Char)) (hname : name ≠ ['-'] ∧ name ≠ [])
    (hfile : files name = none) (hnames : names ≠ []) :
    main inf largest lowest convert print files writable stdin opts (name :: names) = main inf largest lowest convert print files writable stdin opts names := by
  have h : ∀ sub, readAll convert sub files stdin (name :: names) = readAll convert sub files stdin names := by
    intro sub
    conv_lhs => unfold readAll
    simp only [hname.1, hname.2, or_self, if_false, readData, hfile, Option.getD_none, Strings.getlines, List.isEmpty_nil, if_true, List.mapM_nil]
    cases readAll convert sub files stdin names <;> rfl
  unfold main
  simp only [h, List.isEmpty_iff, hnames, if_false, reduceCtorEq]

/-- C156. The options: of the two kinds of level sets and of several names of an output, the last one counts; sublevel sets are the default. -/
theorem _root_.Aleph.C156_options (opts : List Opt) :
    ((settings opts).condense = true ↔ Opt.condense ∈ opts) ∧ ((settings opts).normalize = true ↔ Opt.normalize ∈ opts) ∧
    (∀ a b, opts = a ++ Opt.sublevels :: b → Opt.superlevels ∉ b → (settings opts).sublevel = true) ∧
    (∀ a b, opts = a ++ Opt.superlevels :: b → Opt.sublevels ∉ b → (settings opts).sublevel = false) ∧
    (Opt.superlevels ∉ opts → (settings opts).sublevel = true) ∧
    (∀ a b name, opts = a ++ Opt.output name :: b → (∀ n, Opt.output n ∉ b) → (settings opts).output = name) ∧
    ((∀ n, Opt.output n ∉ opts) → (settings opts).output = []) := by
  have key : ∀ (opts : List Opt) (s : Settings),
      ((opts.foldl setOption s).condense = true ↔ s.condense = true ∨ Opt.condense ∈ opts) ∧
      ((opts.foldl setOption s).normalize = true ↔ s.normalize = true ∨ Opt.normalize ∈ opts) ∧
      (Opt.superlevels ∉ opts → s.sublevel = true → (opts.foldl setOption s).sublevel = true) ∧
      (Opt.sublevels ∉ opts → s.sublevel = false → (opts.foldl setOption s).sublevel = false) ∧
      ((∀ n, Opt.output n ∉ opts) → (opts.foldl setOption s).output = s.output) := by
    intro opts
    induction opts with
    | nil => intro s; simp
    | cons o opts ih =>
      intro s
      obtain ⟨i1, i2, i3, i4, i5⟩ := ih (setOption s o)
      rw [List.foldl_cons, i1, i2]
      refine ⟨?_, ?_, ?_, ?_, ?_⟩
      · cases o <;> simp [setOption]
      · cases o <;> simp [setOption]
      · intro h h'
        refine i3 (fun h'' => h (by simp [h''])) ?_
        cases o <;> simp_all [setOption]
      · intro h h'
        refine i4 (fun h'' => h (by simp [h''])) ?_
        cases o <;> simp_all [setOption]
      · intro h
        rw [i5 fun n hn => h n (by simp [hn])]
        cases o with
        | output n => exact absurd (by simp) (h n)
        | _ => rfl
  refine ⟨by simpa [settings] using (key opts ⟨false, false, true, []⟩).1, by simpa [settings] using (key opts ⟨false, false, true, []⟩).2.1, ?_, ?_, ?_, ?_, ?_⟩
  · rintro a b rfl h
    unfold settings
    rw [List.foldl_append, List.foldl_cons]
    exact (key b _).2.2.1 h rfl
  · rintro a b rfl h
    unfold settings
    rw [List.foldl_append, List.foldl_cons]
    exact (key b _).2.2.2.1 h rfl
  · intro h
    exact (key opts _).2.2.1 h rfl
  · rintro a b name rfl h
    unfold settings
    rw [List.foldl_append, List.foldl_cons]
    exact (key b _).2.2.2.2 h
  · intro h
    exact (key opts _).2.2.2.2 h

/-! ### Stability -/

/-- If the values of two functions differ by at most `ε`, so do the data of their complexes. -/
theorem complexes_within {sublevel : Bool} {values values' : List ℝ} {ε : ℝ} (h : List.Forall₂ (fun v w => |v - w| ≤ ε) values values') {K L : Complex ℝ}
    (hK : complexOf sublevel values = some K) (hL : complexOf sublevel values' = some L) : DataWithin ε K L := by
  have hlen := h.length_eq
  have hget : ∀ i < values.length, |values.getD i 0 - values'.getD i 0| ≤ ε := by
    intro i hi
    have := List.forall₂_iff_get.1 h
    have := this.2 i hi (by omega)
    simpa [List.getD_eq_getElem?_getD, List.getElem?_eq_getElem hi, List.getElem?_eq_getElem (by omega : i < values'.length)] using this
  obtain ⟨f, hf, hperm⟩ : ∃ f : ℝ → ℝ → ℝ, (∀ a b a' b', |a - a'| ≤ ε → |b - b'| ≤ ε → |f a b - f a' b'| ≤ ε) ∧
      ∀ values K, complexOf sublevel values = some K → K.Perm ((List.range (2 * values.length - 1)).map (cell 0 f values)) := by
    cases sublevel with
    | true =>
      refine ⟨max, fun a b a' b' h1 h2 => (abs_max_sub_max_le_max a b a' b').trans (max_le h1 h2), fun values K hK => ?_⟩
      obtain ⟨K', c1, c2, c3, c4, c5, c6⟩ := complexOf_spec (0 : ℝ) values
      rw [hK] at c1
      obtain rfl := Option.some.inj c1
      exact c6
    | false =>
      refine ⟨min, fun a b a' b' h1 h2 => (abs_min_sub_min_le_max a b a' b').trans (max_le h1 h2), fun values K hK => ?_⟩
      obtain ⟨K', c1, c2, c3, c4, c5, c6⟩ := complexOf_spec (α := ℝᵒᵈ) (0 : ℝ) values
      rw [complexOf_dual] at hK
      have e : some K = some K' := hK.symm.trans c1
      obtain rfl := Option.some.inj e
      exact c6
  have hpK := hperm _ _ hK
  have hpL := hperm _ _ hL
  rw [← hlen] at hpL
  constructor
  · refine (hpK.map _).trans (List.Perm.trans ?_ (hpL.map _).symm)
    rw [List.map_map, List.map_map]
    refine List.Perm.of_eq (List.map_congr_left fun i _ => ?_)
    simp [cell, hlen]
  · intro s hs t ht hst
    obtain ⟨i, hi, rfl⟩ := List.mem_map.1 (hpK.subset hs)
    obtain ⟨j, hj, rfl⟩ := List.mem_map.1 (hpL.subset ht)
    rw [List.mem_range] at hi hj
    simp only [cell, ← hlen] at hst
    obtain rfl := cellVerts_inj hst
    simp only [cell, cellValue, ← hlen]
    split
    · exact hget i (by omega)
    · exact hf _ _ _ _ (hget _ (by omega)) (hget _ (by omega))

/-- C156. Stability: if the values of two functions differ by at most `ε`, the points of their diagrams (before scaling) correspond to each other, such that creation and destruction
differ by at most `ε`. -/
theorem _root_.Aleph.C156_stability (inf largest lowest : ℝ) (sublevel : Bool) (values values' : List ℝ) (ε : ℝ) (h : List.Forall₂ (fun v w => |v - w| ≤ ε) values values')
    (hg : Good inf largest lowest values) (hg' : Good inf largest lowest values') (hinf : ∀ v ∈ values, v < inf) (hinf' : ∀ v ∈ values', v < inf) :
    ∃ K L D E P, complexOf sublevel values = some K ∧ complexOf sublevel values' = some L ∧ rawDiagram inf largest lowest sublevel K = .ok D ∧
      rawDiagram inf largest lowest sublevel L = .ok E ∧ P.Perm D.points ∧ List.Forall₂ (fun p q => |p.1 - q.1| ≤ ε ∧ |p.2 - q.2| ≤ ε) P E.points := by
  obtain ⟨K, hK⟩ := exists_complex sublevel values
  obtain ⟨L, hL⟩ := exists_complex sublevel values'
  have hw := complexes_within h hK hL
  obtain ⟨m1, m2, m3⟩ := minmax_values hg sublevel hK
  obtain ⟨n1, n2, n3⟩ := minmax_values hg' sublevel hL
  have hpick : ∀ v ∈ values, ∃ w ∈ values', |v - w| ≤ ε := fun v hv => Hierarchy.forall₂_mem_left h hv
  have hpick' : ∀ w ∈ values', ∃ v ∈ values, |v - w| ≤ ε := fun w hw => Hierarchy.forall₂_mem_right h hw
  have hmin : |(minmaxData largest lowest K).1 - (minmaxData largest lowest L).1| ≤ ε := by
    obtain ⟨w, hw, e1⟩ := hpick _ m1
    obtain ⟨v, hv, e2⟩ := hpick' _ n1
    have := (n3 w hw).1
    have := (m3 v hv).1
    rw [abs_le] at e1 e2 ⊢
    constructor <;> linarith
  have hmax : |(minmaxData largest lowest K).2 - (minmaxData largest lowest L).2| ≤ ε := by
    obtain ⟨w, hw, e1⟩ := hpick _ m2
    obtain ⟨v, hv, e2⟩ := hpick' _ n2
    have := (n3 w hw).2
    have := (m3 v hv).2
    rw [abs_le] at e1 e2 ⊢
    constructor <;> linarith
  -- both complexes are filtrations, sorted by data
  obtain ⟨D, E, hD, hE, hDE⟩ : ∃ D E : Diagram ℝ, calculatePersistenceDiagrams .twist .vector inf K = some [D] ∧ calculatePersistenceDiagrams .twist .vector inf L = some [E] ∧
      PointsWithin inf ε D.points E.points := by
    cases sublevel with
    | true =>
      obtain ⟨K', c1, c2, c3, c4, c5, c6⟩ := complexOf_spec (0 : ℝ) values
      rw [hK] at c1
      obtain rfl := Option.some.inj c1
      obtain ⟨L', d1, d2, d3, d4, d5, d6⟩ := complexOf_spec (0 : ℝ) values'
      rw [hL] at d1
      obtain rfl := Option.some.inj d1
      obtain ⟨P, p1, -⟩ := path_diagram inf hg.1 hg.2.1 c2 c3 c4 c5 0 c6 fun v hv => (hg.2.2 v hv).1
      obtain ⟨Q, q1, -⟩ := path_diagram inf hg'.1 hg'.2.1 d2 d3 d4 d5 0 d6 fun v hv => (hg'.2.2 v hv).1
      obtain ⟨Ds, Es, e1, e2, e3⟩ := C155_stability inf K L c2 d2 (by have := hg.2.1; omega) c4 d4 (fun s hs => hinf _ ((path_values c5).1 s hs))
        (fun s hs => hinf' _ ((path_values d5).1 s hs)) ε hw false .twist .twist .vector .vector true true
      rw [p1] at e1
      rw [q1] at e2
      obtain rfl := Option.some.inj e1
      obtain rfl := Option.some.inj e2
      have := e3 0
      simp only [pointsOfDimension, List.filter_cons, decide_true, if_true, List.filter_nil, List.flatMap_cons, List.flatMap_nil, List.append_nil] at this
      exact ⟨_, _, p1, q1, this⟩
    | false =>
      obtain ⟨K', c1, c2, c3, c4, c5, c6⟩ := complexOf_spec (α := ℝᵒᵈ) (0 : ℝ) values
      have hK2 := hK
      rw [complexOf_dual] at hK2
      have eK : some K = some K' := hK2.symm.trans c1
      obtain rfl := Option.some.inj eK
      obtain ⟨L', d1, d2, d3, d4, d5, d6⟩ := complexOf_spec (α := ℝᵒᵈ) (0 : ℝ) values'
      have hL2 := hL
      rw [complexOf_dual] at hL2
      have eL : some L = some L' := hL2.symm.trans d1
      obtain rfl := Option.some.inj eL
      obtain ⟨P, p1, -⟩ := path_diagram (α := ℝᵒᵈ) inf hg.1 hg.2.1 c2 c3 c4 c5 (0 : ℝ) c6 fun v hv => (hg.2.2 v hv).1
      obtain ⟨Q, q1, -⟩ := path_diagram (α := ℝᵒᵈ) inf hg'.1 hg'.2.1 d2 d3 d4 d5 (0 : ℝ) d6 fun v hv => (hg'.2.2 v hv).1
      have p2 : calculatePersistenceDiagrams (α := ℝ) .twist .vector inf K = some [⟨0, P⟩] := p1
      have q2 : calculatePersistenceDiagrams (α := ℝ) .twist .vector inf L = some [⟨0, Q⟩] := q1
      obtain ⟨Ds, Es, e1, e2, e3⟩ := C155_stability_superlevel (α := ℝ) inf K L c2 d2 (le_of_eq_of_le c3 hg.2.1) c4 d4
        (fun s hs => hinf _ ((path_values (α := ℝᵒᵈ) c5).1 s hs))
        (fun s hs => hinf' _ ((path_values (α := ℝᵒᵈ) d5).1 s hs)) ε hw false .twist .twist .vector .vector true true
      rw [p2] at e1
      rw [q2] at e2
      obtain rfl := Option.some.inj e1
      obtain rfl := Option.some.inj e2
      have := e3 0
      simp only [pointsOfDimension, List.filter_cons, decide_true, if_true, List.filter_nil, List.flatMap_cons, List.flatMap_nil] at this
      have f1 : (P : List (ℝ × ℝ)) ++ [] = P := List.append_nil _
      have f2 : (Q : List (ℝ × ℝ)) ++ [] = Q := List.append_nil _
      have this2 : PointsWithin (α := ℝ) inf ε (P ++ []) (Q ++ []) := this
      exact ⟨_, _, p2, q2, f1 ▸ f2 ▸ this2⟩
  obtain ⟨DK, hDK, -⟩ := diagramOf_spec hg ⟨false, false, sublevel, []⟩ hK
  obtain ⟨DL, hDL, -⟩ := diagramOf_spec hg' ⟨false, false, sublevel, []⟩ hL
  have hraw : ∀ {K : Complex ℝ} {D D' : Diagram ℝ}, calculatePersistenceDiagrams .twist .vector inf K = some [D] →
      diagramOf inf largest lowest ⟨false, false, sublevel, []⟩ K = .ok D' →
      rawDiagram inf largest lowest sublevel K = .ok { D with points := D.points.map (close inf sublevel (minmaxData largest lowest K)) } := by
    intro K D D' h1 h2
    unfold diagramOf at h2
    unfold rawDiagram at h2 ⊢
    rw [h1] at h2 ⊢
    simp only at h2 ⊢
    split at h2
    · rename_i hb
      split at hb
      · cases h2
      · cases hb
    · rename_i hb
      split at hb
      · cases hb
      · rename_i hb'
        rw [if_neg hb']
  obtain ⟨P, hP, hPE⟩ := hDE
  refine ⟨K, L, _, _, P.map (close inf sublevel (minmaxData largest lowest K)), hK, hL, hraw hD hDK, hraw hE hDL, hP.map _, ?_⟩
  rw [List.forall₂_map_left_iff, List.forall₂_map_right_iff]
  refine hPE.imp ?_
  rintro p q ⟨e1, ⟨e2, e3⟩ | ⟨e2, e3, e4⟩⟩
  · simp only [close, e2, e3, if_true]
    refine ⟨e1, ?_⟩
    cases sublevel
    · exact hmin
    · exact hmax
  · simp only [close, e2, e3, if_false]
    exact ⟨e1, e4⟩

/-! ### Examples -/

/-- A conversion of digits. -/
def digit (w : List Char) : Option ℝ := if w = ['0'] then some 0 else if w = ['1'] then some 1 else if w = ['3'] then some 3 else none

/-- The hypotheses of `C156_main` for an input with two lines: three values, and two values that are read from standard input. -/
example : InputLines (fun n => if n = ['a'] then some ['0', ' ', '3', ';', '1', '\n'] else none) ['1', ',', '0'] [['a'], ['b'], ['-']]
      ([['0', ' ', '3', ';', '1']] ++ ([['1', ',', '0']] ++ [])) ∧
    LineValues digit ['0', ' ', '3', ';', '1'] [0, 3, 1] ∧ LineValues digit ['1', ',', '0'] [1, 0] ∧ Good 100 50 (-50) [0, 3, 1] ∧ Good 100 50 (-50) [1, 0] := by
  refine ⟨?_, ?_, ?_, ?_, ?_⟩
  · refine .file (by decide) (by decide) (text := ['0', ' ', '3', ';', '1', '\n']) (by simp) (.cons ['0', ' ', '3', ';', '1'] [] [] false (by decide) .nil) ?_
    exact .missing (by decide) (by decide) (by simp) (.standard (Or.inl rfl) (.last _ (by decide) (by decide)) (.nil _))
  · rw [lineValues_iff]
    have : Strings.split PointCloud.isSeparator ['0', ' ', '3', ';', '1'] = [['0'], ['3'], ['1']] := by decide
    rw [this]
    simp [digit]
  · rw [lineValues_iff]
    have : Strings.split PointCloud.isSeparator ['1', ',', '0'] = [['1'], ['0']] := by decide
    rw [this]
    simp [digit]
  · refine ⟨by simp, by simp [idxMax], ?_⟩
    intro v hv
    simp only [List.mem_cons, List.not_mem_nil, or_false] at hv
    rcases hv with rfl | rfl | rfl <;> norm_num
  · refine ⟨by simp, by simp [idxMax], ?_⟩
    intro v hv
    simp only [List.mem_cons, List.not_mem_nil, or_false] at hv
    rcases hv with rfl | rfl <;> norm_num

/-- A line that starts with a separator is rejected: its first word is empty. -/
example (v : List ℝ) : ¬ LineValues digit [' ', '0', ' ', '1'] v := by
  rw [lineValues_iff]
  have : Strings.split PointCloud.isSeparator [' ', '0', ' ', '1'] = [[], ['0'], ['1']] := by decide
  rw [this]
  simp [digit]

/-- The diagram of a function with two minima, for its sublevel and its superlevel sets. -/
example : ∃ K, complexOf true ([0, 3, 1] : List ℚ) = some K ∧ rawDiagram 100 50 (-50) true K = .ok ⟨0, [(0, 3), (1, 3), (3, 3)]⟩ :=
  ⟨_, rfl, by decide +kernel⟩

example : ∃ K, complexOf false ([0, 3, 1] : List ℚ) = some K ∧ rawDiagram 100 50 (-50) false K = .ok ⟨0, [(3, 0), (1, 1), (0, 0)]⟩ :=
  ⟨_, rfl, by decide +kernel⟩

end Aleph.FunctionAnalysis
