import Verif.Model.PythonZeroDim
import Verif.Spec.PythonMatrix
import Verif.Lemmas.PythonZeroDim
import Verif.Props.AdjacencyMatrixReader
import Verif.Props.PythonMatrix
import Verif.Props.PersistentBetti

/-!
# C160, C161: zero-dimensional persistence diagrams of bipartite graphs, persistence diagrams of point clouds
-/

namespace Aleph.PythonMatrix

open Finset Spec SpanningTree

variable {α : Type}

theorem bipartiteComplex_eq {A : Matrix α} {n m : ℕ} {M : ℕ → ℕ → α} (hA : IsMatrix A n m M) (w0 : α) :
    ∃ l, bipartiteComplex w0 A = complexOf l ∧ l.length = n + m + n * m ∧
      ∀ s, s ∈ l ↔ (∃ i < n + m, s = ⟨[i], w0⟩) ∨ ∃ u v, u < n ∧ v < m ∧ s = ⟨[v + n, u], M u v⟩ := by
  obtain ⟨s0, s1, h1, h2⟩ := access hA
  unfold bipartiteComplex
  rw [h1]
  simp only
  have hmem : ∀ e : ℕ × ℕ, e ∈ ((List.range n).flatMap fun u => (List.range m).map fun v => (u, v)) ↔ e.1 < n ∧ e.2 < m := by
    rintro ⟨a, b⟩
    simp only [List.mem_flatMap, List.mem_range, List.mem_map, Prod.mk.injEq]
    constructor
    · rintro ⟨u, hu, v, hv, rfl, rfl⟩
      exact ⟨hu, hv⟩
    · rintro ⟨h1, h2⟩
      exact ⟨a, h1, b, h2, rfl, rfl⟩
  rw [mapM_ok (g := fun e => Simplex.ofRange [e.1, e.2 + n] (M e.1 e.2)) (by
    intro e he
    rw [hmem] at he
    rw [h2 e.1 he.1 e.2 he.2]
    rfl)]
  refine ⟨_, rfl, by simp, fun s => ?_⟩
  rw [List.mem_append]
  refine or_congr ?_ ?_
  · simp only [List.mem_map, List.mem_range]
    constructor
    · rintro ⟨i, hi, rfl⟩; exact ⟨i, hi, rfl⟩
    · rintro ⟨i, hi, rfl⟩; exact ⟨i, hi, rfl⟩
  · rw [List.mem_map]
    constructor
    · rintro ⟨e, he, rfl⟩
      rw [hmem] at he
      exact ⟨e.1, e.2, he.1, he.2, pair_ofRange _ (by omega)⟩
    · rintro ⟨u, v, hu, hv, rfl⟩
      exact ⟨(u, v), (hmem _).2 ⟨hu, hv⟩, pair_ofRange _ (by simp only; omega)⟩

/-- The facts about the complex that are used. -/
structure IsBipartite (n m : ℕ) (w0 : α) (M : ℕ → ℕ → α) (K : Complex α) : Prop where
  once : WF K
  size : K.length ≤ n + m + n * m
  vertices : ∀ v, Has K {v} ↔ v < n + m
  edges : ∀ u v, u < v → (Has K {u, v} ↔ bipartite n m u v)
  only : ∀ s ∈ K, #s.vset = 1 ∨ #s.vset = 2
  points : ∀ s ∈ K, #s.vset = 1 → s.data = w0
  weights : ∀ s ∈ K, ∀ u v, u < v → s.vset = {u, v} → s.data = M u (v - n)

theorem IsBipartite.perm {n m : ℕ} {w0 : α} {M : ℕ → ℕ → α} {K L : Complex α} (h : IsBipartite n m w0 M K) (hp : L.Perm K) : IsBipartite n m w0 M L :=
  ⟨h.once.perm hp, by rw [hp.length_eq]; exact h.size, fun v => (has_perm hp _).trans (h.vertices v),
    fun u v huv => (has_perm hp _).trans (h.edges u v huv), fun s hs => h.only s (hp.mem_iff.1 hs), fun s hs => h.points s (hp.mem_iff.1 hs),
    fun s hs => h.weights s (hp.mem_iff.1 hs)⟩

theorem bipartiteComplex_spec {A : Matrix α} {n m : ℕ} {M : ℕ → ℕ → α} (hA : IsMatrix A n m M) (w0 : α) :
    ∃ K, bipartiteComplex w0 A = .ok K ∧ IsBipartite n m w0 M K := by
  obtain ⟨l, hl, hlen, hmem⟩ := bipartiteComplex_eq hA w0
  obtain ⟨K, h1, -, h2, h3⟩ := insertRange_spec [] l (by
    intro s hs
    rcases (hmem s).1 hs with ⟨i, -, rfl⟩ | ⟨u, v, -, -, rfl⟩ <;> simp)
  have hwf : WF K := by
    have := insertRange_wf Spec.WF.nil (l := l) (by
      intro s hs
      rcases (hmem s).1 hs with ⟨i, -, rfl⟩ | ⟨u, v, h, -, rfl⟩
      · simp [Normal]
      · simp [Normal]; omega)
    rw [h1] at this
    exact this
  have hK : ∀ s ∈ K, (∃ i < n + m, s = ⟨[i], w0⟩) ∨ ∃ u v, u < n ∧ v < m ∧ s = ⟨[v + n, u], M u v⟩ := fun s hs =>
    (hmem s).1 ((h2 s hs).resolve_left (by simp))
  have hlenK : K.length ≤ n + m + n * m := by
    rw [← hlen]
    refine (hwf.nodup.subperm ?_).length_le
    intro s hs
    exact (h2 s hs).resolve_left (by simp)
  refine ⟨K, by rw [hl, complexOf, h1], hwf, hlenK, ?_, ?_, ?_, ?_, ?_⟩
  · intro v
    constructor
    · rintro ⟨s, hs, he⟩
      rcases hK s hs with ⟨i, hi, rfl⟩ | ⟨a, b, ha, hb, rfl⟩
      · have : v ∈ ({v} : Finset ℕ) := by simp
        rw [← he] at this
        simp [Simplex.vset] at this
        omega
      · have := congrArg Finset.card he
        simp only [Simplex.vset, List.toFinset_cons, List.toFinset_nil, insert_empty_eq] at this
        rw [card_pair (by omega)] at this
        simp at this
    · intro hv
      obtain ⟨t, ht, he⟩ := h3 ⟨[v], w0⟩ ((hmem _).2 (Or.inl ⟨v, hv, rfl⟩))
      exact ⟨t, ht, by unfold Simplex.vset; rw [he]; simp⟩
  · intro u v huv
    constructor
    · rintro ⟨s, hs, he⟩
      rcases hK s hs with ⟨i, hi, rfl⟩ | ⟨a, b, ha, hb, rfl⟩
      · have := congrArg Finset.card he
        rw [card_pair (by omega)] at this
        simp [Simplex.vset] at this
      · have h1 : u ∈ ({u, v} : Finset ℕ) := by simp
        have h2 : v ∈ ({u, v} : Finset ℕ) := by simp
        rw [← he] at h1 h2
        simp [Simplex.vset] at h1 h2
        exact ⟨by omega, by omega, by omega⟩
    · rintro ⟨h1, h4, h5⟩
      obtain ⟨t, ht, he⟩ := h3 ⟨[v, u], M u (v - n)⟩ ((hmem _).2 (Or.inr ⟨u, v - n, h1, by omega, by rw [Nat.sub_add_cancel h4]⟩))
      exact ⟨t, ht, by unfold Simplex.vset; rw [he]; simp [pair_comm]⟩
  · intro s hs
    rcases hK s hs with ⟨i, hi, rfl⟩ | ⟨a, b, ha, hb, rfl⟩
    · simp [Simplex.vset]
    · right
      simp only [Simplex.vset, List.toFinset_cons, List.toFinset_nil, insert_empty_eq]
      exact card_pair (by omega)
  · intro s hs hc
    rcases hK s hs with ⟨i, hi, rfl⟩ | ⟨a, b, ha, hb, rfl⟩
    · rfl
    · simp only [Simplex.vset, List.toFinset_cons, List.toFinset_nil, insert_empty_eq] at hc
      rw [card_pair (by omega)] at hc
      omega
  · intro s hs u v huv he
    rcases hK s hs with ⟨i, hi, rfl⟩ | ⟨a, b, ha, hb, rfl⟩
    · have := congrArg Finset.card he
      rw [card_pair (by omega)] at this
      simp [Simplex.vset] at this
    · have h1 : u ∈ ({u, v} : Finset ℕ) := by simp
      have h2 : v ∈ ({u, v} : Finset ℕ) := by simp
      rw [← he] at h1 h2
      simp [Simplex.vset] at h1 h2
      have : u = a ∧ v = b + n := by omega
      rw [this.1, this.2, Nat.add_sub_cancel]

theorem isBipartite_diagram [LinearOrder α] [AddCommGroup α] [IsOrderedAddMonoid α] (leftFirst : Bool) (inf : α) {n m : ℕ} {w0 : α}
    {M : ℕ → ℕ → α} {K : Complex α} (h : IsBipartite n m w0 M K) (hn : 1 ≤ n) (hm : 1 ≤ m) (hsize : n + m + n * m ≤ idxMax) :
    ∃ pts pairs T, zeroDimensional false leftFirst inf (sortedBy false K) = some (pts, pairs) ∧
      MinimumSpanningTree (n + m) (bipartite n m) (fun u v => M u (v - n)) T ∧ BottleneckSpanningTree (n + m) (bipartite n m) (fun u v => M u (v - n)) T ∧
      pts.Perm (((T.map fun e => M e.1 (e.2 - n)).filter (· ≠ w0)).map (fun x => (w0, x)) ++ [(w0, inf)]) := by
  obtain ⟨hp, hs, -⟩ := sortData_spec h.once
  have h' := h.perm hp
  exact zeroDimensional_tree leftFirst inf h'.once (h'.size.trans hsize) (by omega) h'.vertices h'.edges (fun u v hg => by unfold bipartite at hg; omega)
    (fun u v hg => by unfold bipartite at hg; omega) (connected_bipartite hn hm) h'.only h'.points h'.weights hs

theorem closePoints_perm [DecidableEq α] (inf : α) (unp : Option α) {l l' : List (α × α)} (h : l.Perm l') :
    (closePoints inf unp l).Perm (closePoints inf unp l') := by
  cases unp with
  | none => exact h
  | some y => exact h.map _

theorem closePoints_eq [DecidableEq α] {w0 inf : α} (unp : Option α) {l : List α} (h : ∀ x ∈ l, x ≠ inf) :
    closePoints inf unp (l.map (fun x => (w0, x)) ++ [(w0, inf)]) = l.map (fun x => (w0, x)) ++ [(w0, unp.getD inf)] := by
  cases unp with
  | none => rfl
  | some y =>
    simp only [closePoints, List.map_append, List.map_map, List.map_singleton, if_true, Option.getD_some]
    congr 1
    refine List.map_congr_left fun x hx => ?_
    simp only [Function.comp, if_neg (h x hx)]

/-- C160. Ascending weights: the diagram consists of the weights of the edges of a minimum spanning tree of the complete bipartite graph, without
those that are equal to the weight of the vertices, and of one point for the graph itself.  There is no assumption on the weights of vertices
and edges: edges may precede their vertices. -/
theorem _root_.Aleph.C160_minimum_spanning_tree [LinearOrder α] [AddCommGroup α] [IsOrderedAddMonoid α] (leftFirst : Bool) (inf : α) (A : Matrix α)
    (n m : ℕ) (M : ℕ → ℕ → α) (hA : IsMatrix A n m M) (hn : 1 ≤ n) (hm : 1 ≤ m) (hsize : n + m + n * m ≤ idxMax) (hinf : ∀ u < n, ∀ v < m, M u v ≠ inf)
    (w0 : α) (unp : Option α) :
    ∃ T D, diagramOfMatrix leftFirst inf A false w0 unp = .ok D ∧
      MinimumSpanningTree (n + m) (bipartite n m) (fun u v => M u (v - n)) T ∧ BottleneckSpanningTree (n + m) (bipartite n m) (fun u v => M u (v - n)) T ∧
      D.Perm (((T.map fun e => M e.1 (e.2 - n)).filter (· ≠ w0)).map (fun x => (w0, x)) ++ [(w0, unp.getD inf)]) := by
  obtain ⟨K, h1, h2⟩ := bipartiteComplex_spec hA w0
  obtain ⟨pts, pairs, T, g1, g2, g3, g4⟩ := isBipartite_diagram leftFirst inf h2 hn hm hsize
  refine ⟨T, closePoints inf unp pts, ?_, g2, g3, ?_⟩
  · simp only [diagramOfMatrix, h1, g1, bind, Except.bind]
  · refine (closePoints_perm inf unp g4).trans (List.Perm.of_eq (closePoints_eq unp ?_))
    intro x hx
    obtain ⟨e, he, rfl⟩ := List.mem_map.1 (List.mem_filter.1 hx).1
    obtain ⟨k1, k2, k3⟩ := g2.1.edges e he
    exact hinf _ k1 _ (by omega)

/-- C160. Descending weights (the default): the same for a maximum spanning tree. -/
theorem _root_.Aleph.C160_maximum_spanning_tree [LinearOrder α] [AddCommGroup α] [IsOrderedAddMonoid α] (leftFirst : Bool) (inf : α) (A : Matrix α)
    (n m : ℕ) (M : ℕ → ℕ → α) (hA : IsMatrix A n m M) (hn : 1 ≤ n) (hm : 1 ≤ m) (hsize : n + m + n * m ≤ idxMax) (hinf : ∀ u < n, ∀ v < m, M u v ≠ inf)
    (w0 : α) (unp : Option α) :
    ∃ T D, diagramOfMatrix leftFirst inf A true w0 unp = .ok D ∧
      MaximumSpanningTree (n + m) (bipartite n m) (fun u v => M u (v - n)) T ∧
      (∀ T', SpanningTree (n + m) (bipartite n m) T' → ∀ x : α,
        (T.filter fun e => M e.1 (e.2 - n) < x).length ≤ (T'.filter fun e => M e.1 (e.2 - n) < x).length) ∧
      D.Perm (((T.map fun e => M e.1 (e.2 - n)).filter (· ≠ w0)).map (fun x => (w0, x)) ++ [(w0, unp.getD inf)]) := by
  obtain ⟨K, h1, h2⟩ := bipartiteComplex_spec hA w0
  obtain ⟨pts, pairs, T, g1, g2, g3, g4⟩ := isBipartite_diagram (α := αᵒᵈ) leftFirst inf
    (K := K) (M := M) (w0 := w0) ⟨h2.once, h2.size, h2.vertices, h2.edges, h2.only, h2.points, h2.weights⟩ hn hm hsize
  have g1' : zeroDimensional false leftFirst inf (sortedBy true K) = some (pts, pairs) := g1
  refine ⟨T, closePoints inf unp pts, ?_, g2, g3.2, ?_⟩
  · simp only [diagramOfMatrix, h1, g1', bind, Except.bind]
  · have g4' : pts.Perm (((T.map fun e => M e.1 (e.2 - n)).filter (· ≠ w0)).map (fun x => (w0, x)) ++ [(w0, inf)]) := g4
    refine (closePoints_perm inf unp g4').trans (List.Perm.of_eq (closePoints_eq unp ?_))
    intro x hx
    obtain ⟨e, he, rfl⟩ := List.mem_map.1 (List.mem_filter.1 hx).1
    obtain ⟨k1, k2, k3⟩ := g2.1.edges e he
    exact hinf _ k1 _ (by omega)

/-- C160. Arrays that are not two-dimensional are rejected with an exception. -/
theorem _root_.Aleph.C160_exceptions [LinearOrder α] (leftFirst : Bool) (inf : α) (A : Matrix α) (h : A.shape.length ≠ 2)
    (reverse : Bool) (w0 : α) (unp : Option α) :
    diagramOfMatrix leftFirst inf A reverse w0 unp = .error .exception := by
  have : dimensions A = .error .exception := by
    unfold dimensions
    split
    · next h1 h2 => rw [h1] at h; simp at h
    · rfl
  simp only [diagramOfMatrix, bipartiteComplex, this, bind, Except.bind]

/-- C160. Without rows or without columns there are no edges: each vertex is a component that is never destroyed. -/
theorem _root_.Aleph.C160_no_edges [LinearOrder α] (leftFirst : Bool) (inf : α) (A : Matrix α)
    (n m : ℕ) (M : ℕ → ℕ → α) (hA : IsMatrix A n m M) (h0 : n = 0 ∨ m = 0) (hsize : n + m ≤ idxMax) (reverse : Bool) (w0 : α) (unp : Option α) :
    diagramOfMatrix leftFirst inf A reverse w0 unp = .ok (List.replicate (n + m) (w0, unp.getD inf)) := by
  obtain ⟨K, h1, h2⟩ := bipartiteComplex_spec hA w0
  have hp : (sortedBy reverse K).Perm K := by
    unfold sortedBy
    split <;> exact sort_perm K _
  have hz : n * m = 0 := by rcases h0 with rfl | rfl <;> simp
  have h3 := h2.perm hp
  simp only [diagramOfMatrix, h1, bind, Except.bind]
  generalize sortedBy reverse K = L at *
  have hone : ∀ s ∈ L, #s.vset = 1 := by
    intro s hs
    refine (h3.only s hs).resolve_right fun hc => ?_
    obtain ⟨a, b, hab, e⟩ := card_eq_two.1 hc
    rcases lt_or_gt_of_ne hab with h | h
    · have := (h3.edges a b h).1 ⟨s, hs, e⟩
      unfold bipartite at this
      omega
    · have := (h3.edges b a h).1 ⟨s, hs, e.trans (pair_comm _ _)⟩
      unfold bipartite at this
      omega
  have hfilt : IsFiltration L := by
    refine ⟨h3.once, ?_, ?_⟩
    · intro s hs t hts hne
      refine ⟨s, hs, (eq_of_subset_of_card_le hts ?_).symm⟩
      rw [hone s hs]
      exact hne.card_pos
    · refine List.pairwise_of_forall_mem_list fun s hs t ht hss => ?_
      have := card_lt_card hss
      rw [hone s hs, hone t ht] at this
      omega
  have hsz := h3.size
  obtain ⟨pts, pairs, e, hnd, hpts, hmem⟩ := C16_zero_dimensional_pairing true leftFirst inf L hfilt (by omega)
  obtain ⟨pts', pairs', e', hnd', hpts', hmem'⟩ := C16_zero_dimensional_pairing false leftFirst inf L hfilt (by omega)
  have hno : ∀ i j, ¬ PersPair (facets L) i j := by
    intro i j hij
    obtain ⟨hi, hj, hd⟩ := (pairFacts hfilt (by omega : L.length ≤ idxMax)).lt _ _ hij
    have := hone _ (List.getElem_mem hj)
    simp only [dimAt, vsetAt, List.getElem?_eq_getElem hj, this] at hd
    omega
  have hlenp : pts'.length = n + m := by
    have hpp : pairs'.Perm pairs := by
      refine (List.perm_ext_iff_of_nodup hnd' hnd).2 ?_
      rintro ⟨i, j⟩
      rw [hmem, hmem']
      simp [hno]
    have := (C17_counts leftFirst inf L hfilt (by omega) pts pairs e).2.2.1
    rw [hpts', List.length_map, hpp.length_eq, this]
    have hvv : L.vertices = List.range (n + m) := by
      refine List.Perm.eq_of_pairwise (le := (· ≤ ·)) (fun a b _ _ h1 h2 => Nat.le_antisymm h1 h2) ((C22_vertices L h3.once).1.imp fun h => le_of_lt h)
        (List.pairwise_le_range (n := n + m)) ?_
      refine (List.perm_ext_iff_of_nodup ((C22_vertices L h3.once).1.imp fun h => ne_of_lt h) List.nodup_range).2 fun v => ?_
      rw [(C22_vertices L h3.once).2, List.mem_range]
      exact h3.vertices v
    rw [hvv, List.length_range]
  have hall : ∀ x ∈ pts', x = (w0, inf) := by
    intro x hx
    rw [hpts'] at hx
    obtain ⟨⟨i, j⟩, hij, rfl⟩ := List.mem_map.1 hx
    obtain ⟨d0, ⟨h, -⟩ | ⟨rfl, hu⟩⟩ := (hmem' _ _).1 hij
    · exact absurd h (hno _ _)
    · have hi := hu.1
      have : L[i].data = w0 := h3.points _ (List.getElem_mem hi) (hone _ (List.getElem_mem hi))
      simp [dataD, List.getElem?_eq_getElem hi, this, List.getElem?_eq_none (show L.length ≤ idxMax by omega)]
  have hrep := List.eq_replicate_of_mem hall
  rw [hlenp] at hrep
  simp only [e']
  rw [hrep]
  cases unp with
  | none => rfl
  | some y => simp [closePoints]

/-- C160. `calculateZeroDimensionalPersistenceDiagramAndPairing`: the points and the pairs of a filtered complex correspond to each other.  The pairs are those of
vertices and edges that differ in their data, and the vertices of components that are never destroyed, which are reported with the given
value. -/
theorem _root_.Aleph.C160_pairing [DecidableEq α] (leftFirst : Bool) (inf : α) (K : Complex α) (hK : IsFiltration K) (hn : K.length ≤ idxMax)
    (hinf : ∀ s ∈ K, s.data ≠ inf) (unp : Option α) :
    ∃ D pairs, diagramAndPairing leftFirst inf K unp = .ok (D, pairs) ∧ pairs.Nodup ∧
      D = pairs.map (fun ij => (dataD inf K ij.1, if ij.2 = idxMax then unp.getD inf else dataD inf K ij.2)) ∧
      (∀ i j, (i, j) ∈ pairs ↔ dimAt K i = 0 ∧
        (PersPair (facets K) i j ∧ dataD inf K i ≠ dataD inf K j ∨ j = idxMax ∧ Unpaired (facets K) K.length i)) := by
  obtain ⟨pts, pairs, e, hnd, hpts, hmem⟩ := C16_zero_dimensional_pairing false leftFirst inf K hK hn
  refine ⟨closePoints inf unp pts, pairs, by rw [diagramAndPairing, e], hnd, ?_, fun i j => by rw [hmem]; simp⟩
  have hd : ∀ ij ∈ pairs, (ij.2 = idxMax ∧ dataD inf K ij.2 = inf) ∨ (ij.2 ≠ idxMax ∧ dataD inf K ij.2 ≠ inf) := by
    rintro ⟨i, j⟩ hij
    obtain ⟨-, ⟨h, -⟩ | ⟨rfl, -⟩⟩ := (hmem _ _).1 hij
    · have hj := ((pairFacts hK hn).lt _ _ h).2.1
      refine Or.inr ⟨by simp only; omega, ?_⟩
      simp only [dataD, List.getElem?_eq_getElem hj]
      exact hinf _ (List.getElem_mem hj)
    · exact Or.inl ⟨rfl, by simp [dataD, List.getElem?_eq_none hn]⟩
  cases unp with
  | none =>
    simp only [closePoints, Option.getD_none]
    rw [hpts]
    refine List.map_congr_left fun ij hij => ?_
    rcases hd ij hij with ⟨g1, g2⟩ | ⟨g1, -⟩
    · rw [if_pos g1, g2]
    · rw [if_neg g1]
  | some y =>
    simp only [closePoints, Option.getD_some]
    rw [hpts, List.map_map]
    refine List.map_congr_left fun ij hij => ?_
    simp only [Function.comp]
    rcases hd ij hij with ⟨g1, g2⟩ | ⟨g1, g2⟩
    · rw [if_pos g1, if_pos g2]
    · rw [if_neg g1, if_neg g2]

/-! ### C161: point clouds -/

section PointClouds

variable [LinearOrder α] [Zero α]

omit [LinearOrder α] [Zero α] in
theorem copyNumbers_eq {A : Matrix α} {n d : ℕ} {X : ℕ → ℕ → α} (hA : IsMatrix A n d X) (hs : A.strides = [8 * (d : ℤ), 8]) :
    ∃ l, copyNumbers A (n * d) = .ok l ∧ ∀ i < n, (l.drop (i * d)).take d = (List.range d).map (X i) := by
  obtain ⟨s0, s1, g1, -, -, g2⟩ := hA.layout
  rw [hs] at g1
  simp only [List.cons.injEq, and_true] at g1
  obtain ⟨rfl, rfl⟩ := g1
  refine ⟨(List.range (n * d)).map fun k => X (k / d) (k % d), ?_, ?_⟩
  · unfold copyNumbers
    refine mapM_ok fun k hk => ?_
    rw [List.mem_range] at hk
    have hd : 0 < d := Nat.pos_of_ne_zero (by rintro rfl; simp at hk)
    have h1 : k / d < n := Nat.div_lt_of_lt_mul (by rw [Nat.mul_comm]; exact hk)
    have h2 := (g2 (k / d) h1 (k % d) (Nat.mod_lt _ hd)).2
    have h3 : ((k / d : ℕ) : ℤ) * (8 * (d : ℤ)) + ((k % d : ℕ) : ℤ) * 8 = (k : ℤ) * 8 := by
      have h4 : ((d * (k / d) + k % d : ℕ) : ℤ) = (k : ℤ) := by rw [Nat.div_add_mod]
      rw [← h4]
      push_cast
      ring
    rw [h3] at h2
    rw [h2]
  · intro i hi
    refine List.ext_getElem ?_ ?_
    · simp only [List.length_take, List.length_drop, List.length_map, List.length_range]
      have : i * d + d ≤ n * d := by
        rw [← Nat.succ_mul]
        exact Nat.mul_le_mul_right d hi
      omega
    · intro j h1 h2
      simp only [List.length_map, List.length_range] at h2
      simp only [List.getElem_take, List.getElem_drop, List.getElem_map, List.getElem_range]
      rw [Nat.add_comm, Nat.add_mul_div_right _ _ (by omega), Nat.div_eq_of_lt h2, Nat.zero_add, Nat.add_mul_mod_self_right, Nat.mod_eq_of_lt h2]

omit [LinearOrder α] [Zero α] in
/-- Below the dimension of the complex, it does not matter whether unpaired simplices of top dimension are reported. -/
theorem points_perm_of_lt {K : Complex α} (hK : IsFiltration K) (hle : K.length ≤ idxMax) {p q : List (ℕ × ℕ)} (hp : IsComplexPairing K false p)
    (hq : IsComplexPairing K true q) {e : ℕ} (he : ∃ t < K.length, e < dimAt K t) (inf : α) :
    (diagramPoints inf K e p).Perm (diagramPoints inf K e q) := by
  have hlt : ∀ inc l, IsComplexPairing K inc l → ∀ ij ∈ l, ij.1 < K.length := by
    rintro inc l hl ⟨i, j⟩ hij
    rcases (hl.2.2 i j).1 hij with g | g
    · exact ((pairFacts hK hle).lt _ _ g).1
    · exact g.2.1.1
  rw [diagramPoints_eq_map inf (hlt _ p hp), diagramPoints_eq_map inf (hlt _ q hq)]
  refine List.Perm.map _ ?_
  rw [List.perm_ext_iff_of_nodup (hp.1.filter _) (hq.1.filter _)]
  rintro ⟨i, j⟩
  simp only [List.mem_filter, decide_eq_true_eq]
  refine and_congr_left fun hi => ?_
  rw [hp.2.2, hq.2.2]
  refine or_congr_right (and_congr_right fun _ => and_congr_right fun hu => ?_)
  simp only [Bool.false_eq_true, false_or, true_or, iff_true, hi]
  exact he

omit [LinearOrder α] [Zero α] in
theorem length_le {n k : ℕ} {K : Complex α} (hK : WF K) (h : ∀ t : Finset ℕ, Has K t → t.Nonempty ∧ #t ≤ k + 1 ∧ ∀ v ∈ t, v < n) :
    K.length ≤ ripsSize n k := by
  have hnd : (K.map Simplex.vset).Nodup := by
    refine List.Nodup.map_on ?_ hK.nodup
    intro s hs t ht he
    exact hK.eq_of_vset hs ht he
  have hset : (K.map Simplex.vset).toFinset ⊆ (range (k + 1)).biUnion fun k => powersetCard (k + 1) (range n) := by
    intro t ht
    simp only [List.mem_toFinset, List.mem_map, mem_biUnion, mem_range, mem_powersetCard] at ht ⊢
    obtain ⟨h1, h2, h3⟩ := h t ht
    have := h1.card_pos
    exact ⟨#t - 1, by omega, fun x hx => mem_range.2 (h3 x hx), by omega⟩
  have hc := List.toFinset_card_of_nodup hnd
  rw [List.length_map] at hc
  rw [← hc]
  refine (card_le_card hset).trans (card_biUnion_le.trans (le_of_eq ?_))
  unfold ripsSize
  exact sum_congr rfl fun k _ => by rw [card_powersetCard, card_range]

theorem buffer_run (o : Orders α) (inf : α) (dist : List α → List α → α) (hpos : ∀ p q, 0 ≤ dist p q) (A : Matrix α) (n d : ℕ) (X : ℕ → ℕ → α)
    (hA : IsMatrix A n d X) (hs : A.strides = [8 * (d : ℤ), 8]) (ε : α) (dimension : ℕ) (hsize : ripsSize n (ripsDimension dimension d) ≤ idxMax) :
    ∃ L Ds p, diagramsOfBuffer o inf dist A ε dimension = .ok Ds ∧ IsFiltration L ∧ L.length ≤ idxMax ∧ (L.Pairwise fun s t => s.data ≤ t.data) ∧
      (∀ t : Finset ℕ, Has L t ↔ t.Nonempty ∧ #t ≤ ripsDimension dimension d + 1 ∧ (∀ v ∈ t, v < n) ∧
        ∀ u ∈ t, ∀ v ∈ t, u < v → dist (row X d u) (row X d v) < ε) ∧
      (∀ s ∈ L, #s.vset = 1 → s.data = 0) ∧
      (∀ s ∈ L, 2 ≤ #s.vset → IsGreatest {y | ∃ u ∈ s.vset, ∃ v ∈ s.vset, u < v ∧ y = dist (row X d u) (row X d v)} s.data) ∧
      IsComplexPairing L false p ∧ IsDiagramsOf inf L p Ds := by
  obtain ⟨l, hl, hrow⟩ := copyNumbers_eq hA hs
  obtain ⟨L, h1, h2, h3, h4, h5, h6, h7⟩ := C28_vietoris_rips o 0 n (fun i j => dist ((l.drop (i * d)).take d) ((l.drop (j * d)).take d)) ε
    (ripsDimension dimension d) (fun u v _ _ => hpos _ _)
  have h3' : ∀ t : Finset ℕ, Has L t ↔ t.Nonempty ∧ #t ≤ ripsDimension dimension d + 1 ∧ (∀ v ∈ t, v < n) ∧
        ∀ u ∈ t, ∀ v ∈ t, u < v → dist (row X d u) (row X d v) < ε := by
    intro t
    rw [h3]
    refine and_congr_right fun _ => and_congr_right fun _ => and_congr_right fun hlt => ?_
    refine forall_congr' fun u => forall_congr' fun hu => forall_congr' fun v => forall_congr' fun hv => ?_
    rw [hrow u (hlt u hu), hrow v (hlt v hv)]
    rfl
  have hclosed : FaceClosed L := by
    intro s hs t hts hne
    obtain ⟨g1, g2, g3, g4⟩ := (h3' s.vset).1 ⟨s, hs, rfl⟩
    exact (h3' t).2 ⟨hne, (card_le_card hts).trans g2, fun v hv => g3 v (hts hv), fun u hu v hv => g4 u (hts hu) v (hts hv)⟩
  have hK : IsFiltration L := ⟨h2, hclosed, h6⟩
  have hle : L.length ≤ idxMax := (length_le h2 fun t ht => by
    obtain ⟨g1, g2, g3, -⟩ := (h3' t).1 ht
    exact ⟨g1, g2, g3⟩).trans hsize
  obtain ⟨p, Ds, q1, q2, q3⟩ := C51_pipeline inf L hK hle false
  refine ⟨L, Ds, p, ?_, hK, hle, h7, h3', h4, ?_, q1, q2⟩
  · unfold diagramsOfBuffer
    rw [hA.shape]
    simp only [hl]
    rw [show (if 0 < dimension then dimension else d + 1) = ripsDimension dimension d by
      unfold ripsDimension
      split <;> split <;> omega, h1]
    simp only [q3 .twist .vector true]
  · intro s hs hc
    have hlt := ((h3' _).1 ⟨s, hs, rfl⟩).2.2.1
    have := h5 s hs hc
    convert this using 3
    refine ⟨?_, ?_⟩
    · rintro ⟨u, hu, v, hv, huv, e⟩
      exact ⟨u, hu, v, hv, huv, by rw [e, hrow u (hlt u hu), hrow v (hlt v hv)]; rfl⟩
    · rintro ⟨u, hu, v, hv, huv, e⟩
      exact ⟨u, hu, v, hv, huv, by rw [e, hrow u (hlt u hu), hrow v (hlt v hv)]; rfl⟩

/-- C161. The part of the description of `calculatePersistenceDiagrams` for arrays that holds: if the rows of the array are points, stored one after the
other, then for all scales below the threshold and all dimensions below that of the complex, the diagrams count the persistent homology classes
of the Vietoris–Rips complexes.  Missing (and wrong, see `C161_layout_witness` and `C161_default_epsilon`): arrays with
another layout, and the largest dimension. -/
theorem _root_.Aleph.C161_point_cloud_partial (o : Orders α) (inf : α) (dist : List α → List α → α) (hpos : ∀ p q, 0 ≤ dist p q)
    (hinf : ∀ p q, dist p q < inf) (A : Matrix α) (n d : ℕ) (X : ℕ → ℕ → α) (hA : IsMatrix A n d X) (hs : A.strides = [8 * (d : ℤ), 8]) (ε : α)
    (dimension : ℕ) (hsize : ripsSize n (ripsDimension dimension d) ≤ idxMax) :
    ∃ Ds, diagramsOfBuffer o inf dist A ε dimension = .ok Ds ∧ ∀ e,
      (∃ t : Finset ℕ, #t = e + 2 ∧ e + 1 ≤ ripsDimension dimension d ∧ (∀ v ∈ t, v < n) ∧
        ∀ u ∈ t, ∀ v ∈ t, u < v → dist (row X d u) (row X d v) < ε) → ∀ x < ε, ∀ y < ε,
      IsPersistentBetti (ripsAt n (fun u v => dist (row X d u) (row X d v)) (ripsDimension dimension d) x)
        (ripsAt n (fun u v => dist (row X d u) (row X d v)) (ripsDimension dimension d) y) e
        ((pointsOfDimension e Ds).countP fun p => p.1 ≤ x ∧ (p.2 = inf ∨ y < p.2)) := by
  obtain ⟨L, Ds, p, h0, hK, hle, hsort, h1, h2, h3, hp, hD⟩ := buffer_run o inf dist hpos A n d X hA hs ε dimension hsize
  refine ⟨Ds, h0, fun e he x hx y hy => ?_⟩
  have hinf0 : ∀ s ∈ L, s.data ≠ inf := by
    intro s hs
    have := ((h1 _).1 ⟨s, hs, rfl⟩).1.card_pos
    by_cases hc : #s.vset = 1
    · rw [h2 s hs hc]
      exact ne_of_lt ((hpos [] []).trans_lt (hinf [] []))
    · obtain ⟨u, hu, v, hv, huv, e⟩ := (h3 s hs (by omega)).1
      rw [e]
      exact ne_of_lt (hinf _ _)
  have hsub : ∀ x < ε, sublevel L x = ripsAt n (fun u v => dist (row X d u) (row X d v)) (ripsDimension dimension d) x := by
    intro x hx
    ext t
    unfold sublevel ripsAt
    rw [Spec.sets, List.mem_toFinset, List.mem_map, mem_filter, mem_powerset]
    constructor
    · rintro ⟨s, hs, rfl⟩
      obtain ⟨k1, k2⟩ := List.mem_filter.1 hs
      rw [decide_eq_true_eq] at k2
      obtain ⟨g1, g2, g3, -⟩ := (h1 _).1 ⟨s, k1, rfl⟩
      have hub : ∀ u ∈ s.vset, ∀ v ∈ s.vset, u < v → dist (row X d u) (row X d v) ≤ x := by
        intro u hu v hv huv
        have hc : 2 ≤ #s.vset := by
          rw [← card_pair (ne_of_lt huv)]
          exact card_le_card (insert_subset hu (singleton_subset_iff.2 hv))
        exact ((h3 s k1 hc).2 ⟨u, hu, v, hv, huv, rfl⟩).trans k2
      refine ⟨fun v hv => mem_range.2 (g3 v hv), g1, g2, ?_, hub⟩
      by_cases hc : #s.vset = 1
      · rw [← h2 s k1 hc]
        exact k2
      · have := g1.card_pos
        obtain ⟨u, hu, v, hv, huv, -⟩ := (h3 s k1 (by omega)).1
        exact (hpos _ _).trans (hub u hu v hv huv)
    · rintro ⟨g1, g2, g3, g4, g5⟩
      obtain ⟨s, hs, rfl⟩ := (h1 t).2 ⟨g2, g3, fun v hv => mem_range.1 (g1 hv), fun u hu v hv huv => (g5 u hu v hv huv).trans_lt hx⟩
      refine ⟨s, List.mem_filter.2 ⟨hs, ?_⟩, rfl⟩
      rw [decide_eq_true_eq]
      by_cases hc : #s.vset = 1
      · rw [h2 s hs hc]
        exact g4
      · have := g2.card_pos
        obtain ⟨u, hu, v, hv, huv, e⟩ := (h3 s hs (by omega)).1
        rw [e]
        exact g5 u hu v hv huv
  obtain ⟨q, Es, q1, q2, q3⟩ := C51_pipeline inf L hK hle true
  have hb := C51_persistent_betti inf L hK hle hsort hinf0 .standard .vector false Es (q3 _ _ _) e x y
  rw [hsub x hx, hsub y hy] at hb
  rw [pointsOfDimension_eq q2] at hb
  obtain ⟨t, t1, t2, t3, t4⟩ := he
  obtain ⟨k, hk⟩ := (has_iff_at (card_pos.1 (by omega : 0 < #t))).1 ((h1 t).2 ⟨card_pos.1 (by omega), by omega, t3, t4⟩)
  have hdim : ∃ t < L.length, e < dimAt L t :=
    ⟨k, lt_of_vsetAt (card_pos.1 (by omega)) hk, by rw [dimAt, hk, t1]; omega⟩
  rw [pointsOfDimension_eq hD, (points_perm_of_lt hK hle hp q1 hdim inf).countP_eq]
  exact hb

/-- C161, disagreement: with the default threshold there are no edges, because distances have to be smaller than it; all points belong to the largest
dimension, so that the diagrams are empty for all point clouds. -/
theorem _root_.Aleph.C161_default_epsilon (o : Orders α) (inf : α) (dist : List α → List α → α) (hpos : ∀ p q, 0 ≤ dist p q)
    (A : Matrix α) (n d : ℕ) (X : ℕ → ℕ → α) (hA : IsMatrix A n d X) (hs : A.strides = [8 * (d : ℤ), 8])
    (dimension : ℕ) (hsize : ripsSize n (ripsDimension dimension d) ≤ idxMax) :
    ∃ Ds, diagramsOfBuffer o inf dist A (dimension := dimension) = .ok Ds ∧ ∀ e, pointsOfDimension e Ds = [] := by
  obtain ⟨L, Ds, p, h0, hK, hle, hsort, h1, h2, h3, hp, hD⟩ := buffer_run o inf dist hpos A n d X hA hs 0 dimension hsize
  have hone : ∀ k < L.length, dimAt L k = 0 := by
    intro k hk
    obtain ⟨g1, -, -, g4⟩ := (h1 _).1 ⟨L[k], List.getElem_mem hk, rfl⟩
    simp only [dimAt, vsetAt, List.getElem?_eq_getElem hk]
    by_contra hc
    obtain ⟨a, ha, b, hb, hab⟩ := one_lt_card.1 (show 1 < #L[k].vset by omega)
    rcases lt_or_gt_of_ne hab with h | h
    · exact absurd (g4 a ha b hb h) (not_lt.2 (hpos _ _))
    · exact absurd (g4 b hb a ha h) (not_lt.2 (hpos _ _))
  have hnil : p = [] := by
    rw [List.eq_nil_iff_forall_not_mem]
    rintro ⟨i, j⟩ hij
    rcases (hp.2.2 i j).1 hij with h | ⟨-, h, hh | ⟨t, ht, hlt⟩⟩
    · obtain ⟨a, b, c⟩ := (pairFacts hK hle).lt _ _ h
      rw [hone i a, hone j b] at c
      omega
    · cases hh
    · rw [hone t ht] at hlt
      omega
  refine ⟨Ds, h0, fun e => ?_⟩
  rw [pointsOfDimension_eq hD, hnil]
  rfl

end PointClouds

/-! ### Concrete arrays -/

/-- A matrix with two rows and three columns. -/
def weights : List ℤ := [3, 1, 4, 1, 5, 2]

/-- The hypotheses of C160 hold, and edges precede vertices if their weight is four. -/
example : IsMatrix (rowMajor 2 3 weights) 2 3 (entries 3 weights) ∧ (∀ u < 2, ∀ v < 3, entries 3 weights u v ≠ 100) ∧ 2 + 3 + 2 * 3 ≤ idxMax := by
  refine ⟨⟨rfl, 24, 8, rfl, by decide, by decide, fun u hu v hv => ?_⟩, fun u hu v hv => ?_, by decide⟩
  · interval_cases u <;> interval_cases v <;> exact ⟨by norm_num, rfl⟩
  · interval_cases u <;> interval_cases v <;> decide

example : diagramOfMatrix true 100 (rowMajor 2 3 weights) false 0 = .ok [(0, 1), (0, 1), (0, 2), (0, 3), (0, 100)] ∧
    diagramOfMatrix true 100 (rowMajor 2 3 weights) true 4 (some 0) = .ok [(4, 5), (4, 3), (4, 2), (4, 0)] ∧
    diagramOfMatrix true 100 (rowMajor 2 3 weights) true 5 (some 0) = .ok [(5, 4), (5, 3), (5, 2), (5, 0)] :=
  ⟨by decide +kernel, by decide +kernel, by decide +kernel⟩

/-- The distance in the Manhattan metric. -/
def manhattan (p q : List ℤ) : ℤ := (List.zipWith (fun a b => |a - b|) p q).sum

/-- The coordinates of three points, `(0, 0)`, `(1, 0)` and `(0, 1)`. -/
def threePoints (u v : ℕ) : ℤ := if u = v + 1 then 1 else 0

/-- The points one after the other, and the transposed layout: first all first coordinates, then all second ones. -/
def columnMajor : Matrix ℤ := ⟨[3, 2], [8, 24], fun k => if k % 8 = 0 ∧ 0 ≤ k then ([0, 1, 0, 0, 0, 1] : List ℤ)[(k / 8).toNat]? else none⟩

theorem threePoints_rowMajor : IsMatrix (rowMajor 3 2 [0, 0, 1, 0, 0, 1]) 3 2 threePoints := by
  refine ⟨rfl, 16, 8, rfl, by decide, by decide, fun u hu v hv => ?_⟩
  interval_cases u <;> interval_cases v <;> exact ⟨by norm_num, rfl⟩

theorem threePoints_columnMajor : IsMatrix columnMajor 3 2 threePoints := by
  refine ⟨rfl, 8, 24, rfl, by decide, by decide, fun u hu v hv => ?_⟩
  interval_cases u <;> interval_cases v <;> exact ⟨by norm_num, rfl⟩

/-- C161, disagreement: the layout of the array is ignored.  For two arrays with the same entries, the diagrams differ; if the order of the rows is
reversed without a copy, numbers are read that do not belong to the array. -/
theorem _root_.Aleph.C161_layout_witness :
    IsMatrix (rowMajor 3 2 [0, 0, 1, 0, 0, 1]) 3 2 threePoints ∧ IsMatrix columnMajor 3 2 threePoints ∧
    diagramsOfBuffer (Orders.default ℤ) 100 manhattan (rowMajor 3 2 [0, 0, 1, 0, 0, 1]) 5 1 = .ok [⟨0, [(0, 100), (0, 1), (0, 1)]⟩] ∧
    diagramsOfBuffer (Orders.default ℤ) 100 manhattan columnMajor 5 1 = .ok [⟨0, [(0, 100), (0, 1), (0, 0)]⟩] ∧
    diagramsOfBuffer (Orders.default ℤ) 100 manhattan (reversed 2 1 [0, 1]) 5 1 = .error .undefined :=
  ⟨threePoints_rowMajor, threePoints_columnMajor, by decide +kernel, by decide +kernel, by decide +kernel⟩

end Aleph.PythonMatrix
