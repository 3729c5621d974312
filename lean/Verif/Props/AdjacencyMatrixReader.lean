import Verif.Model.AdjacencyMatrixReader
import Verif.Spec.Graphs
import Verif.Lemmas.Filtration
import Verif.Props.MatrixReader

/-!
# C75, C76: adjacency matrices in text format
-/

namespace Aleph

open Finset Spec

variable {α : Type}

/-! ### Sorting by data -/

/-- Sorting by data: a permutation with ascending data, in filtration order if and only if data is monotone. -/
theorem sortData_spec [LinearOrder α] {K : Complex α} (hK : WF K) :
    (K.sort (asLt (Filtration.data fun a b => decide (a < b)))).Perm K ∧
    (K.sort (asLt (Filtration.data fun a b => decide (a < b)))).Pairwise (fun s t => s.data ≤ t.data) ∧
    (FacesFirst (K.sort (asLt (Filtration.data fun a b => decide (a < b)))) ↔ Spec.Monotone K) := by
  have hst : StrictTotalOn Proper (Filtration.data fun a b : α => decide (a < b)) := by
    refine data_strictTotal (by simp) ?_ ?_
    · intro a b c; simp only [decide_eq_true_eq]; exact lt_trans
    · intro a b h; simp only [decide_eq_true_eq]; exact lt_or_gt_of_ne h
  have hS : ∀ s ∈ K, Proper s := fun s hs => ⟨hK.normal s hs, hK.nonempty s hs⟩
  have hp := sort_perm K (asLt (Filtration.data fun a b : α => decide (a < b)))
  have hle := sort_pairwise hK hst hS
  have hle2 : (K.sort (asLt (Filtration.data fun a b => decide (a < b)))).Pairwise (fun s t => s.data ≤ t.data) := by
    refine hle.imp_of_mem ?_
    intro s t hs ht h
    rw [data_eq (hS s (hp.subset hs)) (hS t (hp.subset ht)), Option.some.injEq] at h
    by_cases hd : s.data = t.data
    · exact hd.le
    · rw [if_neg hd, decide_eq_true_eq] at h
      exact h.le
  refine ⟨hp, hle2, ?_, ?_⟩
  · intro hf s hs t ht hst'
    by_contra hlt
    have hne : s ≠ t := by rintro rfl; exact hlt le_rfl
    have hss : s.vset ⊂ t.vset := lt_of_le_of_ne hst' fun h => hne (hK.eq_of_vset hs ht h)
    have hboth := List.Pairwise.and hf hle2
    have hs' := hp.symm.subset hs
    have ht' := hp.symm.subset ht
    obtain ⟨i, hi, rfl⟩ := List.getElem_of_mem hs'
    obtain ⟨j, hj, rfl⟩ := List.getElem_of_mem ht'
    rcases Nat.lt_trichotomy i j with h | h | h
    · have := List.pairwise_iff_getElem.1 hle2 i j hi hj h
      exact hlt this
    · subst h; exact hne rfl
    · exact (List.pairwise_iff_getElem.1 hf j i hj hi h) hss
  · intro hm
    refine sort_facesFirst hK hst hS ?_
    intro s hs t ht hss
    refine data_face (hS s hs) (hS t ht) hss ?_
    rcases (hm s hs t ht hss.1).lt_or_eq with h | h
    · exact Or.inr (decide_eq_true h)
    · exact Or.inl h

namespace AdjacencyMatrixReader

theorem subset_pair {t : Finset ℕ} {x y : ℕ} (h : t ⊆ {x, y}) : t = ∅ ∨ t = {x} ∨ t = {y} ∨ t = {x, y} := by
  by_cases hx : x ∈ t <;> by_cases hy : y ∈ t
  · right; right; right
    refine subset_antisymm h ?_
    intro z hz
    simp only [mem_insert, mem_singleton] at hz
    rcases hz with rfl | rfl <;> assumption
  · right; left
    ext z
    rw [mem_singleton]
    constructor
    · intro hz
      rcases mem_insert.1 (h hz) with h | h
      · exact h
      · rw [mem_singleton] at h; subst h; exact absurd hz hy
    · rintro rfl; exact hx
  · right; right; left
    ext z
    rw [mem_singleton]
    constructor
    · intro hz
      rcases mem_insert.1 (h hz) with h | h
      · subst h; exact absurd hz hx
      · exact mem_singleton.1 h
    · rintro rfl; exact hy
  · left
    rw [eq_empty_iff_forall_notMem]
    intro z hz
    rcases mem_insert.1 (h hz) with h | h
    · subst h; exact hx hz
    · rw [mem_singleton] at h; subst h; exact hy hz

theorem minmax_spec [LinearOrder α] (l : List α) (a : α) :
    IsLeast {v | v = a ∨ v ∈ l} (minmax a l).1 ∧ IsGreatest {v | v = a ∨ v ∈ l} (minmax a l).2 := by
  have key : ∀ (l : List α) (p q : α),
      IsLeast {v | v = p ∨ v ∈ l} (l.foldl (fun (m : α × α) b => (min m.1 b, max m.2 b)) (p, q)).1 ∧
      IsGreatest {v | v = q ∨ v ∈ l} (l.foldl (fun (m : α × α) b => (min m.1 b, max m.2 b)) (p, q)).2 := by
    intro l
    induction l with
    | nil =>
      intro p q
      refine ⟨⟨Or.inl rfl, ?_⟩, ⟨Or.inl rfl, ?_⟩⟩ <;> rintro v (rfl | h) <;> simp_all
    | cons b l ih =>
      intro p q
      rw [List.foldl_cons]
      obtain ⟨⟨h1, h2⟩, h3, h4⟩ := ih (min p b) (max q b)
      refine ⟨⟨?_, ?_⟩, ?_, ?_⟩
      · rcases h1 with h1 | h1
        · rw [h1]
          rcases min_choice p b with h | h <;> rw [h]
          · exact Or.inl rfl
          · exact Or.inr List.mem_cons_self
        · exact Or.inr (List.mem_cons_of_mem _ h1)
      · rintro v (rfl | hv)
        · exact (h2 (Or.inl rfl)).trans (min_le_left _ _)
        · rcases List.mem_cons.1 hv with rfl | hv
          · exact (h2 (Or.inl rfl)).trans (min_le_right _ _)
          · exact h2 (Or.inr hv)
      · rcases h3 with h3 | h3
        · rw [h3]
          rcases max_choice q b with h | h <;> rw [h]
          · exact Or.inl rfl
          · exact Or.inr List.mem_cons_self
        · exact Or.inr (List.mem_cons_of_mem _ h3)
      · rintro v (rfl | hv)
        · exact (le_max_left _ _).trans (h4 (Or.inl rfl))
        · rcases List.mem_cons.1 hv with rfl | hv
          · exact (le_max_right _ _).trans (h4 (Or.inl rfl))
          · exact h4 (Or.inr hv)
  exact key l a a

theorem mem_flatten_iff (rows : List (List α)) (v : α) :
    v ∈ rows.flatten ↔ ∃ y x, entry rows y x = some v := by
  rw [List.mem_flatten]
  constructor
  · rintro ⟨r, hr', hv⟩
    obtain ⟨y, hy, rfl⟩ := List.getElem_of_mem hr'
    obtain ⟨x, hx, rfl⟩ := List.getElem_of_mem hv
    exact ⟨y, x, by simp [entry, List.getElem?_eq_getElem hy, List.getElem?_eq_getElem hx]⟩
  · rintro ⟨y, x, h⟩
    unfold entry at h
    cases hy : rows[y]? with
    | none => rw [hy] at h; simp at h
    | some r =>
      rw [hy] at h
      exact ⟨r, List.mem_of_getElem? hy, List.mem_of_getElem? h⟩

/-- The minimum and maximum are those of all entries. -/
theorem minmax_unique [LinearOrder α] {rows : List (List α)} {a : α} {l : List α}
    (hv : rows.flatten = a :: l) {lo hi : α} (hlo : IsLeast {v | ∃ y x, entry rows y x = some v} lo)
    (hhi : IsGreatest {v | ∃ y x, entry rows y x = some v} hi) : minmax a (a :: l) = (lo, hi) := by
  have hset : {v | v = a ∨ v ∈ a :: l} = {v | ∃ y x, entry rows y x = some v} := by
    ext v
    show (v = a ∨ v ∈ a :: l) ↔ ∃ y x, entry rows y x = some v
    rw [← mem_flatten_iff, hv]
    simp
  obtain ⟨h1, h2⟩ := minmax_spec (a :: l) a
  rw [hset] at h1 h2
  exact Prod.ext (h1.unique hlo) (h2.unique hhi)

/-- The list of simplices. -/
theorem mem_edges [DecidableEq α] [Zero α] {ignoreZero : Bool} {f : α → α} {rows : List (List α)}
    (hr : ∀ r ∈ rows, r.length = rows.length) (s : Simplex α) :
    s ∈ (List.range rows.length).flatMap (rowEdges ignoreZero f rows.length rows.flatten) ↔
      ∃ y x w, y < x ∧ entry rows y x = some w ∧ ¬ (ignoreZero = true ∧ w = 0) ∧ s = ⟨[x, y], f w⟩ := by
  simp only [List.mem_flatMap, List.mem_range, rowEdges, List.mem_filterMap, List.mem_range'_1]
  constructor
  · rintro ⟨y, hy, x, hx, h⟩
    rw [MatrixReader.entry_flatten hr (by omega)] at h
    cases he : entry rows y x with
    | none => rw [he] at h; simp at h
    | some w =>
      rw [he] at h
      simp only at h
      split at h
      · simp at h
      · next hc =>
        simp only [Bool.and_eq_true, decide_eq_true_eq] at hc
        rw [MatrixReader.desc2 (by omega), Option.some.injEq] at h
        exact ⟨y, x, w, by omega, he, hc, h.symm⟩
  · rintro ⟨y, x, w, hlt, he, hk, rfl⟩
    obtain ⟨h1, h2⟩ := MatrixReader.entry_isSome hr he
    refine ⟨y, h1, x, by omega, ?_⟩
    rw [MatrixReader.entry_flatten hr h2, he]
    simp only
    rw [if_neg (by simpa using hk), MatrixReader.desc2 hlt]

theorem list_nodup [DecidableEq α] [Zero α] (ignoreZero : Bool) (f : α → α) (n : ℕ) (values : List α) (c : α) :
    (((List.range n).flatMap (rowEdges ignoreZero f n values) ++
      (List.range n).map fun i => Simplex.ofVertex i c).map (·.vertices)).Nodup := by
  have hv : ∀ y, ∀ s ∈ rowEdges ignoreZero f n values y, ∃ x, y < x ∧ s.vertices = [x, y] := by
    intro y s hs
    simp only [rowEdges, List.mem_filterMap, List.mem_range'_1] at hs
    obtain ⟨x, hx, h⟩ := hs
    cases he : values[n * y + x]? with
    | none => rw [he] at h; simp at h
    | some w =>
      rw [he] at h
      simp only at h
      split at h
      · simp at h
      · rw [MatrixReader.desc2 (by omega), Option.some.injEq] at h
        exact ⟨x, by omega, by rw [← h]⟩
  rw [List.map_append, List.nodup_append]
  refine ⟨?_, ?_, ?_⟩
  · rw [List.map_flatMap, List.nodup_flatMap]
    constructor
    · intro y _
      rw [rowEdges, List.map_filterMap]
      refine List.Nodup.filterMap ?_ List.nodup_range'
      intro x x' b hb hb'
      rw [Option.mem_def] at hb hb'
      have hx : ∀ x, ∀ b, ((match values[n * y + x]? with
          | none => none
          | some w => if ignoreZero && decide (w = 0) then none else some (Simplex.ofRange [y, x] (f w)) : Option (Simplex α)).map
            (·.vertices)) = some b → ∀ v, v ∈ b ↔ v = y ∨ v = x := by
        intro x b h v
        cases he : values[n * y + x]? with
        | none => rw [he] at h; simp at h
        | some w =>
          rw [he] at h
          simp only at h
          split at h
          · simp at h
          · simp only [Option.map_some, Option.some.injEq] at h
            rw [← h, mem_ofRange]
            simp
      have h1 := hx x b hb
      have h2 := hx x' b hb'
      by_contra hne
      have h3 := (h1 x).2 (Or.inr rfl)
      have h4 := (h2 x').2 (Or.inr rfl)
      rw [h2] at h3
      rw [h1] at h4
      omega
    · refine List.nodup_range.imp ?_
      intro y y' hne
      simp only [Function.onFun]
      intro b hb hb'
      obtain ⟨s, hs, rfl⟩ := List.mem_map.1 hb
      obtain ⟨s', hs', he⟩ := List.mem_map.1 hb'
      obtain ⟨x, _, h1⟩ := hv y s hs
      obtain ⟨x', _, h2⟩ := hv y' s' hs'
      rw [h1, h2] at he
      simp at he
      exact hne he.2.symm
  · rw [List.map_map]
    exact List.nodup_range.map fun a b hab => by simpa [Simplex.ofVertex] using hab
  · intro a ha b hb hab
    obtain ⟨s, hs, rfl⟩ := List.mem_map.1 ha
    obtain ⟨t, ht, rfl⟩ := List.mem_map.1 hb
    obtain ⟨y, _, hs⟩ := List.mem_flatMap.1 hs
    obtain ⟨x, _, h1⟩ := hv y s hs
    obtain ⟨i, _, rfl⟩ := List.mem_map.1 ht
    rw [h1] at hab
    simp [Simplex.ofVertex] at hab

/-- The complex before sorting. -/
theorem build_eq [LinearOrder α] [Zero α] (ignoreZero : Bool) (strategy : Strategy) (f : α → α → α → α) (n : ℕ) (a : α)
    (values : List α) : ∃ L : Complex α,
    build ignoreZero strategy f n a values = L.sort (asLt (Filtration.data fun a b => decide (a < b))) ∧ WF L ∧
    L = (List.range n).flatMap (rowEdges ignoreZero (f (minmax a values).2 (minmax a values).1) n values) ++
      (List.range n).map fun i => Simplex.ofVertex i (vertexWeight strategy f (minmax a values).1 (minmax a values).2) := by
  refine ⟨_, ?_, ?_, rfl⟩
  · unfold build
    simp only
    rw [insertRange_nodup]
    · simp
    · intro s hs
      rcases List.mem_append.1 hs with hs | hs
      · obtain ⟨y, _, hs⟩ := List.mem_flatMap.1 hs
        simp only [rowEdges, List.mem_filterMap] at hs
        obtain ⟨x, _, h⟩ := hs
        split at h
        · simp at h
        · split at h
          · simp at h
          · simp only [Option.some.injEq] at h
            rw [← h]
            intro h0
            have : y ∈ (Simplex.ofRange [y, x] (f (minmax a values).2 (minmax a values).1 ‹α›)).vertices := by
              rw [mem_ofRange]; simp
            rw [h0] at this
            simp at this
      · obtain ⟨i, _, rfl⟩ := List.mem_map.1 hs
        simp [Simplex.ofVertex]
    · simpa using list_nodup ignoreZero _ n values _
  · refine ⟨?_, ?_, list_nodup ignoreZero _ n values _⟩
    · intro s hs
      rcases List.mem_append.1 hs with hs | hs
      · obtain ⟨y, _, hs⟩ := List.mem_flatMap.1 hs
        simp only [rowEdges, List.mem_filterMap] at hs
        obtain ⟨x, _, h⟩ := hs
        split at h
        · simp at h
        · split at h
          · simp at h
          · simp only [Option.some.injEq] at h
            rw [← h]
            exact ofRange_normal _ _
      · obtain ⟨i, _, rfl⟩ := List.mem_map.1 hs
        simp [Simplex.ofVertex, Normal]
    · intro s hs
      rcases List.mem_append.1 hs with hs | hs
      · obtain ⟨y, _, hs⟩ := List.mem_flatMap.1 hs
        simp only [rowEdges, List.mem_filterMap] at hs
        obtain ⟨x, _, h⟩ := hs
        split at h
        · simp at h
        · split at h
          · simp at h
          · simp only [Option.some.injEq] at h
            rw [← h]
            intro h0
            have : y ∈ (Simplex.ofRange [y, x] (f (minmax a values).2 (minmax a values).1 ‹α›)).vertices := by
              rw [mem_ofRange]; simp
            rw [h0] at this
            simp at this
      · obtain ⟨i, _, rfl⟩ := List.mem_map.1 hs
        simp [Simplex.ofVertex]

/-- The weight of the vertices according to the documentation. -/
def documentedWeight [Zero α] (f : α → α → α → α) (lo hi : α) : Strategy → α
  | .globalMaximum => f hi lo hi
  | .globalMinimum => f hi lo lo
  | .zero => 0

/-- C75. The complex for a square matrix is the weighted graph of the entries above the diagonal; it is a well-formed complex, closed
under faces, and sorted by weight.  It is in filtration order if and only if no edge is lighter than the vertices. -/
theorem _root_.Aleph.C75_graph_partial [LinearOrder α] [Zero α] (ignoreZero : Bool) (strategy : Strategy)
    (f : α → α → α → α) (rows : List (List α)) (hr : ∀ r ∈ rows, r.length = rows.length) (a : α) (l : List α)
    (hv : rows.flatten = a :: l) (lo hi : α) (hlo : IsLeast {v | ∃ y x, entry rows y x = some v} lo)
    (hhi : IsGreatest {v | ∃ y x, entry rows y x = some v} hi) :
    let K := build ignoreZero strategy f rows.length a (a :: l)
    WF K ∧ FaceClosed K ∧ K.Pairwise (fun s t => s.data ≤ t.data) ∧
    (∀ t w, HasData K t w ↔ AdjacencyData (fun w => ¬ (ignoreZero = true ∧ w = 0)) (f hi lo)
      (documentedWeight f lo hi strategy) rows t w) ∧
    (FacesFirst K ↔ ∀ y x w, y < x → entry rows y x = some w → ¬ (ignoreZero = true ∧ w = 0) →
      documentedWeight f lo hi strategy ≤ f hi lo w) := by
  intro K
  obtain ⟨L, hL, hwf, hdef⟩ := build_eq ignoreZero strategy f rows.length a (a :: l)
  rw [minmax_unique hv hlo hhi] at hdef
  have hw : vertexWeight strategy f lo hi = documentedWeight f lo hi strategy := by cases strategy <;> rfl
  simp only [hw] at hdef
  rw [← hv] at hdef
  have hK : K = L.sort (asLt (Filtration.data fun a b => decide (a < b))) := hL
  obtain ⟨hp, hs, hf⟩ := sortData_spec hwf
  rw [← hK] at hp hs hf
  have hmem : ∀ s, s ∈ L ↔ (∃ y x w, y < x ∧ entry rows y x = some w ∧ ¬ (ignoreZero = true ∧ w = 0) ∧ s = ⟨[x, y], f hi lo w⟩) ∨
      ∃ i < rows.length, s = ⟨[i], documentedWeight f lo hi strategy⟩ := by
    intro s
    rw [hdef, List.mem_append, mem_edges hr]
    refine or_congr Iff.rfl ?_
    simp only [List.mem_map, List.mem_range, Simplex.ofVertex]
    exact exists_congr fun k => ⟨fun ⟨a, b⟩ => ⟨a, b.symm⟩, fun ⟨a, b⟩ => ⟨a, b.symm⟩⟩
  have hdata : ∀ t w, HasData L t w ↔ AdjacencyData (fun w => ¬ (ignoreZero = true ∧ w = 0)) (f hi lo)
      (documentedWeight f lo hi strategy) rows t w := by
    intro t w
    constructor
    · rintro ⟨s, hs, rfl, rfl⟩
      rcases (hmem s).1 hs with ⟨y, x, w, h1, h2, h3, rfl⟩ | ⟨i, hi', rfl⟩
      · have := AdjacencyData.edge (edgeWeight := f hi lo) (vertexWeight := documentedWeight f lo hi strategy)
          (keep := fun w => ¬ (ignoreZero = true ∧ w = 0)) (rows := rows) y x w h1 h2 h3
        rw [Finset.pair_comm] at this
        simpa [Simplex.vset] using this
      · simpa [Simplex.vset] using AdjacencyData.vertex (edgeWeight := f hi lo)
          (vertexWeight := documentedWeight f lo hi strategy)
          (keep := fun w => ¬ (ignoreZero = true ∧ w = 0)) (rows := rows) i hi'
    · intro h
      cases h with
      | vertex i hi' => exact ⟨_, (hmem _).2 (Or.inr ⟨i, hi', rfl⟩), by simp [Simplex.vset], rfl⟩
      | edge y x w h1 h2 h3 =>
        refine ⟨_, (hmem _).2 (Or.inl ⟨y, x, w, h1, h2, h3, rfl⟩), ?_, rfl⟩
        rw [Finset.pair_comm]; simp [Simplex.vset]
  have hKdata : ∀ t w, HasData K t w ↔ HasData L t w := by
    intro t w
    exact exists_congr fun s => and_congr_left fun _ => hp.mem_iff
  refine ⟨hwf.perm hp, ?_, hs, fun t w => (hKdata t w).trans (hdata t w), ?_⟩
  · intro s hs t ht hne
    rw [hp.mem_iff] at hs
    have hvert : ∀ i < rows.length, ∃ u ∈ K, u.vset = {i} := fun i hi' => by
      refine ⟨_, hp.mem_iff.2 ((hmem _).2 (Or.inr ⟨i, hi', rfl⟩)), by simp [Simplex.vset]⟩
    rcases (hmem s).1 hs with ⟨y, x, w, h1, h2, h3, rfl⟩ | ⟨i, hi', rfl⟩
    · have he := MatrixReader.entry_isSome hr h2
      have : t ⊆ {x, y} := by simpa [Simplex.vset] using ht
      rcases subset_pair this with rfl | rfl | rfl | rfl
      · exact absurd hne (by simp)
      · exact hvert x he.2
      · exact hvert y he.1
      · exact ⟨_, hp.mem_iff.2 hs, by simp [Simplex.vset]⟩
    · have : t ⊆ {i} := by simpa [Simplex.vset] using ht
      rcases Finset.subset_singleton_iff.1 this with rfl | rfl
      · exact absurd hne (by simp)
      · exact hvert i hi'
  · rw [hf]
    constructor
    · intro hm y x w h1 h2 h3
      have he := MatrixReader.entry_isSome hr h2
      refine hm ⟨[y], documentedWeight f lo hi strategy⟩ ((hmem _).2 (Or.inr ⟨y, he.1, rfl⟩)) ⟨[x, y], f hi lo w⟩
        ((hmem _).2 (Or.inl ⟨y, x, w, h1, h2, h3, rfl⟩)) ?_
      simp [Simplex.vset]
    · intro h s hs t ht hst
      rcases (hmem s).1 hs with ⟨y, x, w, h1, h2, h3, rfl⟩ | ⟨i, hi', rfl⟩
      · rcases (hmem t).1 ht with ⟨y', x', w', h1', h2', h3', rfl⟩ | ⟨i, hi', rfl⟩
        · simp only [Simplex.vset, List.toFinset_cons, List.toFinset_nil, insert_empty_eq] at hst
          have e1 := hst (mem_insert_self x {y})
          have e2 := hst (mem_insert_of_mem (mem_singleton_self y) : y ∈ ({x, y} : Finset ℕ))
          simp only [mem_insert, mem_singleton] at e1 e2
          obtain ⟨rfl, rfl⟩ : x = x' ∧ y = y' := by omega
          rw [h2] at h2'
          cases h2'
          exact le_rfl
        · simp only [Simplex.vset, List.toFinset_cons, List.toFinset_nil, insert_empty_eq] at hst
          have e1 := hst (mem_insert_self x {y})
          have e2 := hst (mem_insert_of_mem (mem_singleton_self y) : y ∈ ({x, y} : Finset ℕ))
          simp only [mem_singleton] at e1 e2
          omega
      · rcases (hmem t).1 ht with ⟨y', x', w', h1', h2', h3', rfl⟩ | ⟨j, hj, rfl⟩
        · exact h y' x' w' h1' h2' h3'
        · exact le_rfl

/-- C75. With the default options (weights unchanged, vertices get the minimum), the complex is in filtration order. -/
theorem _root_.Aleph.C75_default [LinearOrder α] [Zero α] (ignoreZero : Bool) (rows : List (List α))
    (hr : ∀ r ∈ rows, r.length = rows.length) (a : α) (l : List α) (hv : rows.flatten = a :: l) (lo hi : α)
    (hlo : IsLeast {v | ∃ y x, entry rows y x = some v} lo) (hhi : IsGreatest {v | ∃ y x, entry rows y x = some v} hi) :
    IsFiltration (build ignoreZero .globalMinimum (fun _ _ x => x) rows.length a (a :: l)) := by
  obtain ⟨h1, h2, _, _, h5⟩ := C75_graph_partial ignoreZero .globalMinimum (fun _ _ x => x) rows hr a l hv lo hi hlo hhi
  exact ⟨h1, h2, h5.2 fun y x w _ he _ => hlo.2 ⟨y, x, he⟩⟩

/-- C75. With the maximum as weight of the vertices (and weights unchanged), the order is wrong as soon as an edge is lighter than the
maximum: the documented filtration order is not established. -/
theorem _root_.Aleph.C75_maximum_wrong [LinearOrder α] [Zero α] (ignoreZero : Bool) (rows : List (List α))
    (hr : ∀ r ∈ rows, r.length = rows.length) (a : α) (l : List α) (hv : rows.flatten = a :: l) (lo hi : α)
    (hlo : IsLeast {v | ∃ y x, entry rows y x = some v} lo) (hhi : IsGreatest {v | ∃ y x, entry rows y x = some v} hi)
    (y x : ℕ) (w : α) (hyx : y < x) (he : entry rows y x = some w) (hk : ¬ (ignoreZero = true ∧ w = 0)) (hw : w < hi) :
    ¬ FacesFirst (build ignoreZero .globalMaximum (fun _ _ x => x) rows.length a (a :: l)) := by
  obtain ⟨_, _, _, _, h5⟩ := C75_graph_partial ignoreZero .globalMaximum (fun _ _ x => x) rows hr a l hv lo hi hlo hhi
  intro h
  exact absurd (h5.1 h y x w hyx he hk) (not_le.2 hw)

/-! ### Text -/

/-- A line is counted as a row. -/
theorem isCounted_iff (l : List Char) : isCounted l = true ↔ l ≠ [] ∧ l.head? ≠ some '#' := by
  cases l with
  | nil => simp [isCounted]
  | cons c l => simp [isCounted]

/-- C76. A text whose lines are empty or consist of `n` numbers, with `n` lines of the latter kind, is read as the matrix of
these numbers.

Missing: comments, which the documentation permits; see `C76_comment`. -/
theorem _root_.Aleph.C76_read_partial [LinearOrder α] [Zero α] (ignoreZero : Bool) (strategy : Strategy)
    (f : α → α → α → α) (number : List Char → Option α) (text : List Char) (dimension : ℕ) (K : Complex α)
    (ls : List (List Char)) (b : Bool) (hl : Lines text ls b) (ws : List (List (List Char)))
    (hws : List.Forall₂ Words (ls.filter fun l => !l.isEmpty) ws) (rows : List (List α)) (hne : rows ≠ [])
    (hr : ∀ r ∈ rows, r.length = rows.length) (hcom : ∀ l ∈ ls, l.head? ≠ some '#')
    (hnum : List.Forall₂ (fun r row => r.map number = row.map some) ws rows) :
    ∃ a l, rows.flatten = a :: l ∧
      read ignoreZero strategy f number text dimension K =
        some (rows.length, build ignoreZero strategy f rows.length a (a :: l)) := by
  have hm := MatrixReader.words_map hws
  have hx : Strings.extract [] text = ws.flatten := by
    rw [MatrixReader.extract_lines hl, ← hm]
    clear hws hcom hl hm hnum
    induction ls with
    | nil => rfl
    | cons l ls ih =>
      cases l with
      | nil => simp [ih, Strings.extract]
      | cons c l => simp [ih]
  have hvals : MatrixReader.readValues number text = rows.flatten := by
    apply MatrixReader.readValues_all
    rw [hx]
    clear hws hm hr hx hne
    induction hnum with
    | nil => rfl
    | cons h _ ih => simp [h, ih]
  have hcount : ((Strings.getlines [] text).filter isCounted).length = rows.length := by
    rw [getlines_spec text ls b hl, ← hnum.length_eq, ← hm, List.length_map]
    congr 1
    apply List.filter_congr
    intro l hl'
    have := hcom l hl'
    cases l with
    | nil => simp [isCounted]
    | cons c l => simpa [isCounted] using this
  have hlen : rows.flatten.length = rows.length * rows.length := by
    rw [List.length_flatten, List.map_congr_left hr]; simp
  cases hv : rows.flatten with
  | nil =>
    have := List.length_pos_iff.2 hne
    rw [hv] at hlen
    simp at hlen
    exact absurd hlen hne
  | cons a l =>
    refine ⟨a, l, rfl, ?_⟩
    unfold read
    rw [hvals, hv, hcount]
    simp only
    rw [if_neg]
    rw [← hv, hlen]
    simp

/-- C76. A text that starts with a comment is not read at all, without any error: the complex is unchanged.  More generally,
this happens if the first word of the text is not a number. -/
theorem _root_.Aleph.C76_comment [LinearOrder α] [Zero α] (ignoreZero : Bool) (strategy : Strategy)
    (f : α → α → α → α) (number : List Char → Option α) (text : List Char) (dimension : ℕ) (K : Complex α)
    (t : List Char) (ts : List (List Char)) (hws : Words text (t :: ts)) (hn : number t = none) :
    read ignoreZero strategy f number text dimension K = some (dimension, K) := by
  have : MatrixReader.readValues number text = [] := by
    unfold MatrixReader.readValues
    rw [MatrixReader.words_extract hws]
    simp [hn]
  unfold read
  rw [this]

/-- C76. If the number of values is not the square of the number of lines (without empty lines and comments), an exception is
thrown. -/
theorem _root_.Aleph.C76_not_square [LinearOrder α] [Zero α] (ignoreZero : Bool) (strategy : Strategy)
    (f : α → α → α → α) (number : List Char → Option α) (text : List Char) (dimension : ℕ) (K : Complex α)
    (ls : List (List Char)) (b : Bool) (hl : Lines text ls b) (ws : List (List Char)) (hws : Words text ws) (values : List α)
    (hne : values ≠ []) (hnum : ws.map number = values.map some)
    (hsq : values.length ≠ (ls.filter fun l => decide (l ≠ [] ∧ l.head? ≠ some '#')).length ^ 2) :
    read ignoreZero strategy f number text dimension K = none := by
  have hvals : MatrixReader.readValues number text = values := by
    apply MatrixReader.readValues_all
    rw [MatrixReader.words_extract hws, hnum]
  have hcount : ((Strings.getlines [] text).filter isCounted).length =
      (ls.filter fun l => decide (l ≠ [] ∧ l.head? ≠ some '#')).length := by
    rw [getlines_spec text ls b hl]
    congr 1
    apply List.filter_congr
    intro l _
    rw [Bool.eq_iff_iff, isCounted_iff, decide_eq_true_eq]
  unfold read
  rw [hvals, hcount]
  obtain ⟨a, l, rfl⟩ := List.exists_cons_of_ne_nil hne
  simp only
  rw [if_pos]
  rw [← Nat.pow_two]
  exact hsq

example : (read false .globalMinimum (fun _ _ x => x) MatrixReader.digits "0 3 2\n\n1 0 1\n2 1 0\n".toList 0
    ([] : Complex ℕ)).map (fun r => (r.1, r.2.map fun s => (s.vertices, s.data))) =
    some (3, [([0], 0), ([1], 0), ([2], 0), ([2, 1], 1), ([2, 0], 2), ([1, 0], 3)]) := by decide

example : (read false .globalMaximum (fun _ _ x => x) MatrixReader.digits "0 1\n2 0\n".toList 0
    ([] : Complex ℕ)).map (fun r => (r.1, r.2.map fun s => (s.vertices, s.data))) =
    some (2, [([1, 0], 1), ([0], 2), ([1], 2)]) := by decide

end AdjacencyMatrixReader

end Aleph
