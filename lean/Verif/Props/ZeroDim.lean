import Verif.Lemmas.ZeroDim
import Verif.Model.Diagram

/-!
# C16, C17: zero-dimensional persistent homology by disjoint sets
-/

namespace Aleph

open Finset Aleph.Spec ParentMap

variable {α : Type} [DecidableEq α]

/-- The points of all diagrams of dimension `d`. -/
def pointsOfDimension (d : ℕ) (Ds : List (Diagram α)) : List (α × α) :=
  (Ds.filter fun D => D.dimension = d).flatMap (·.points)

theorem zeroDim_loop (diag leftFirst : Bool) (inf : α) {K : Complex α} (hK : IsFiltration K)
    (hn : K.length ≤ idxMax) (post pre : Complex α) (st : ZeroDimState α) (rep : ℕ → ℕ)
    (hpp : K = pre ++ post) (h : ZeroInv K pre.length st.uf rep)
    (h1 : st.points = st.pairing.map (fun ij => (dataD inf K ij.1, dataD inf K ij.2)))
    (h2 : st.pairing.Nodup)
    (h3 : ∀ i j, (i, j) ∈ st.pairing ↔ j < pre.length ∧ PersPair (facets K) i j ∧ dimAt K i = 0 ∧
      (diag = true ∨ dataD inf K i ≠ dataD inf K j)) :
    ∃ st' rep', post.foldlM (zeroDimStep diag leftFirst K) st = some st' ∧
      ZeroInv K K.length st'.uf rep' ∧
      st'.points = st'.pairing.map (fun ij => (dataD inf K ij.1, dataD inf K ij.2)) ∧
      st'.pairing.Nodup ∧
      ∀ i j, (i, j) ∈ st'.pairing ↔ j < K.length ∧ PersPair (facets K) i j ∧ dimAt K i = 0 ∧
        (diag = true ∨ dataD inf K i ≠ dataD inf K j) := by
  induction post generalizing pre st rep with
  | nil =>
    rw [List.append_nil] at hpp
    subst hpp
    exact ⟨st, rep, rfl, h, h1, h2, h3⟩
  | cons s post ih =>
    have hs : K[pre.length]? = some s := by rw [hpp]; simp
    obtain ⟨st', rep', new, e, hI, hp, hq, hnew⟩ := zeroDim_step diag leftFirst inf hK hn hs h
    rw [List.foldlM_cons, e]
    refine ih (pre ++ [s]) st' rep' (by rw [hpp]; simp) (by simpa using hI) ?_ ?_ ?_
    · rw [hp, hq, h1, List.map_append]
    · rw [hp]
      refine List.nodup_append.2 ⟨h2, hnew.1, ?_⟩
      rintro ⟨i, j⟩ hij ⟨i', j'⟩ hij' he
      cases he
      have := ((h3 _ _).1 hij).1
      have := ((hnew.2 _ _).1 hij').1
      omega
    · intro i j
      rw [hp, List.mem_append, h3, hnew.2, List.length_append, List.length_singleton]
      constructor
      · rintro (⟨a, b⟩ | ⟨rfl, b⟩)
        · exact ⟨by omega, b⟩
        · exact ⟨by omega, b⟩
      · rintro ⟨a, b⟩
        rcases Nat.lt_succ_iff_lt_or_eq.1 a with a | rfl
        · exact Or.inl ⟨a, b⟩
        · exact Or.inr ⟨rfl, b⟩

omit [DecidableEq α] in
theorem zeroDim_roots (inf : α) {K : Complex α} (hK : WF K) (rs : List ℕ) (hrs : ∀ r ∈ rs, r ∈ K.vertices)
    (st : List (α × α) × List (ℕ × ℕ)) :
    ∃ is : List ℕ, rs.foldlM (zeroDimRoot inf K) st =
        some (st.1 ++ is.map (fun i => (dataD inf K i, inf)), st.2 ++ is.map (fun i => (i, idxMax))) ∧
      List.Forall₂ (fun i r => vsetAt K i = {r}) is rs := by
  induction rs generalizing st with
  | nil => exact ⟨[], by simp, .nil⟩
  | cons r rs ih =>
    obtain ⟨i, hi⟩ := (mem_vertices_iff hK).1 (hrs r List.mem_cons_self)
    have hil := lt_of_vsetAt (by simp) hi
    have hidx := index_vertex hK hi
    have hfind : K.find [r] = some K[i] := by
      obtain ⟨s, h1, h2⟩ := (index_eq_some hK).1 hidx
      rw [List.getElem?_eq_getElem hil] at h1
      cases h1
      rw [← h2]
      exact hK.find_eq (List.getElem_mem hil)
    have e : zeroDimRoot inf K st r = some (st.1 ++ [(K[i].data, inf)], st.2 ++ [(i, idxMax)]) := by
      unfold zeroDimRoot
      rw [hfind, hidx]
    obtain ⟨is, h1, h2⟩ := ih (fun r hr => hrs r (List.mem_cons_of_mem _ hr))
      (st.1 ++ [(K[i].data, inf)], st.2 ++ [(i, idxMax)])
    refine ⟨i :: is, ?_, .cons hi h2⟩
    rw [List.foldlM_cons, e]
    simp only [Option.bind_eq_bind, Option.bind_some]
    rw [h1]
    simp [dataD, List.getElem?_eq_getElem hil]

/-- C16. For each filtered complex the calculation by disjoint sets succeeds, whatever the order in which
`merge` evaluates its operands.  Its pairs are exactly the persistence pairs of the boundary operator
whose creator is a vertex, without those of zero persistence unless diagonal elements were requested,
and one entry for each unpaired vertex; the points are the data of the pairs, in the same order. -/
theorem C16_zero_dimensional_pairing (diag leftFirst : Bool) (inf : α) (K : Complex α)
    (hK : IsFiltration K) (hn : K.length ≤ idxMax) :
    ∃ pts pairs, zeroDimensional diag leftFirst inf K = some (pts, pairs) ∧ pairs.Nodup ∧
      pts = pairs.map (fun ij => (dataD inf K ij.1, dataD inf K ij.2)) ∧
      ∀ i j, (i, j) ∈ pairs ↔ dimAt K i = 0 ∧
        (PersPair (facets K) i j ∧ (diag = true ∨ dataD inf K i ≠ dataD inf K j) ∨
          j = idxMax ∧ Unpaired (facets K) K.length i) := by
  have hw := hK.wf
  obtain ⟨st, rep, e, hI, h1, h2, h3⟩ := zeroDim_loop diag leftFirst inf hK hn K [] 
    ⟨ofRange K.vertices, [], []⟩ id rfl (zeroInv_init hw) rfl List.nodup_nil (by simp)
  obtain ⟨p', rs, er, _, rn, hrs⟩ := hI.repr.roots
  obtain ⟨is, ei, hf⟩ := zeroDim_roots inf hw rs (fun r hr => ((hrs r).1 hr).1) (st.points, st.pairing)
  have hbig : dataD inf K idxMax = inf := by simp [dataD, List.getElem?_eq_none hn]
  have his : ∀ i, i ∈ is ↔ OldestAt K K.length i := by
    intro i
    rw [hI.oldest_iff hw]
    constructor
    · intro hi
      obtain ⟨k, hk⟩ := List.mem_iff_getElem?.1 hi
      obtain ⟨hkl, hk'⟩ := List.getElem?_eq_some_iff.1 hk
      have hkr : k < rs.length := by rw [← hf.length_eq]; exact hkl
      have := hf.get hkl hkr
      simp only [List.get_eq_getElem, hk'] at this
      have hr := (hrs _).1 (List.getElem_mem hkr)
      exact ⟨_, hr.1, hr.2, this⟩
    · rintro ⟨r, hr1, hr2, hi⟩
      obtain ⟨k, hkr, hk'⟩ := List.getElem_of_mem ((hrs r).2 ⟨hr1, hr2⟩)
      have hkl : k < is.length := by rw [hf.length_eq]; exact hkr
      have := hf.get hkl hkr
      simp only [List.get_eq_getElem, hk'] at this
      rw [vsetAt_unique hw (by simp) hi this]
      exact List.getElem_mem hkl
  have hnd : is.Nodup := by
    rw [List.nodup_iff_injective_get]
    intro a b hab
    have ha := hf.get a.2 (by rw [← hf.length_eq]; exact a.2)
    have hb := hf.get b.2 (by rw [← hf.length_eq]; exact b.2)
    rw [show is.get ⟨a, a.2⟩ = is.get ⟨b, b.2⟩ from hab] at ha
    rw [ha] at hb
    have := (List.Nodup.getElem_inj_iff rn).1 (singleton_injective hb)
    exact Fin.ext this
  refine ⟨st.points ++ is.map (fun i => (dataD inf K i, inf)),
    st.pairing ++ is.map (fun i => (i, idxMax)), ?_, ?_, ?_, ?_⟩
  · unfold zeroDimensional
    rw [e]
    simp only [er]
    exact ei
  · refine List.nodup_append.2 ⟨h2, hnd.map (fun a b h => (Prod.mk.inj h).1), ?_⟩
    rintro ⟨i, j⟩ hij x hx rfl
    obtain ⟨k, _, hk⟩ := List.mem_map.1 hx
    cases hk
    have := ((h3 _ _).1 hij).1
    omega
  · rw [h1, List.map_append, List.map_map]
    congr 1
    apply List.map_congr_left
    intro i _
    simp only [Function.comp, hbig]
  · intro i j
    rw [List.mem_append, h3]
    have hm : (i, j) ∈ is.map (fun i => (i, idxMax)) ↔ j = idxMax ∧ OldestAt K K.length i := by
      rw [List.mem_map]
      constructor
      · rintro ⟨k, hk, he⟩
        cases he
        exact ⟨rfl, (his _).1 hk⟩
      · rintro ⟨rfl, h⟩
        exact ⟨i, (his i).2 h, rfl⟩
    rw [hm]
    constructor
    · rintro (⟨_, a, b, c⟩ | ⟨rfl, h⟩)
      · exact ⟨b, Or.inl ⟨a, c⟩⟩
      · obtain ⟨v, hv, _⟩ := id h
        exact ⟨((dimAt_zero_iff hw).2 ⟨v, hv⟩).2, Or.inr ⟨rfl, (unpaired_vertex_iff hK hn hv).2 h⟩⟩
    · rintro ⟨hd, ⟨hp, hc⟩ | ⟨rfl, hu⟩⟩
      · exact Or.inl ⟨((pairFacts hK hn).lt _ _ hp).2.1, hp, hd, hc⟩
      · obtain ⟨v, hv⟩ := (dimAt_zero_iff hw).1 ⟨hu.1, hd⟩
        exact Or.inr ⟨rfl, (unpaired_vertex_iff hK hn hv).1 hu⟩

omit [DecidableEq α] in
theorem filter_dimension {Ds : List (Diagram α)} (h : (Ds.map (·.dimension)).Pairwise (· < ·))
    {D : Diagram α} (hD : D ∈ Ds) : (Ds.filter fun E => E.dimension = D.dimension) = [D] := by
  induction Ds with
  | nil => simp at hD
  | cons E Ds ih =>
    rw [List.map_cons, List.pairwise_cons] at h
    rcases List.mem_cons.1 hD with rfl | hD'
    · rw [List.filter_cons_of_pos (by simp), List.filter_eq_nil_iff.2]
      intro E hE
      have := h.1 _ (List.mem_map_of_mem (f := fun D : Diagram α => D.dimension) hE)
      simp only [decide_eq_true_eq]
      omega
    · have := h.1 _ (List.mem_map_of_mem (f := fun D : Diagram α => D.dimension) hD')
      rw [List.filter_cons_of_neg (by simp only [decide_eq_true_eq]; omega)]
      exact ih h.2 hD'

omit [DecidableEq α] in
theorem pointsOfDimension_eq {inf : α} {K : Complex α} {p : List (ℕ × ℕ)}
    {Ds : List (Diagram α)} (h : IsDiagramsOf inf K p Ds) (d : ℕ) :
    pointsOfDimension d Ds = diagramPoints inf K d p := by
  unfold pointsOfDimension
  by_cases he : diagramPoints inf K d p = []
  · rw [he, List.flatMap_eq_nil_iff]
    intro D hD
    obtain ⟨h1, h2⟩ := List.mem_filter.1 hD
    have := (h.2 D).1 h1
    rw [decide_eq_true_eq] at h2
    rw [h2] at this
    exact this.2.trans he
  · have hD : (⟨d, diagramPoints inf K d p⟩ : Diagram α) ∈ Ds := (h.2 _).2 ⟨he, rfl⟩
    have := filter_dimension h.1 hD
    simp only at this
    rw [this]
    simp

omit [DecidableEq α] in
theorem diagramPoints_eq_map (inf : α) {K : Complex α} {p : List (ℕ × ℕ)}
    (hlt : ∀ ij ∈ p, ij.1 < K.length) (d : ℕ) : diagramPoints inf K d p =
      (p.filter fun ij => dimAt K ij.1 = d).map fun ij => (dataD inf K ij.1, dataD inf K ij.2) := by
  unfold diagramPoints
  rw [← List.filterMap_eq_map]
  refine List.filterMap_congr ?_
  rintro ⟨i, j⟩ hij
  have := hlt _ (List.mem_filter.1 hij).1
  simp only at this
  simp [dataD, List.getElem?_eq_getElem this]

/-- C16. The calculation by disjoint sets and each of the calculations by matrix reduction give the same
zero-dimensional points with multiplicities: all of them if diagonal elements are requested, those off the
diagonal otherwise. -/
theorem C16_agrees_with_reduction (diag leftFirst : Bool) (inf : α) (K : Complex α)
    (hK : IsFiltration K) (hn : K.length ≤ idxMax) (hinf : diag = true ∨ ∀ s ∈ K, s.data ≠ inf)
    (a : Algorithm) (k : Kind) (dualize : Bool) :
    ∃ pts pairs Ds, zeroDimensional diag leftFirst inf K = some (pts, pairs) ∧
      calculatePersistenceDiagrams a k inf K dualize true = some Ds ∧
      pts.Perm ((pointsOfDimension 0 Ds).filter fun x => diag = true ∨ x.1 ≠ x.2) := by
  obtain ⟨p, Ds, h1, h2, h3⟩ := C51_pipeline inf K hK hn true
  obtain ⟨pts, pairs, e, hnd, hpts, hmem⟩ := C16_zero_dimensional_pairing diag leftFirst inf K hK hn
  have hf := pairFacts hK hn
  refine ⟨pts, pairs, Ds, e, h3 a k dualize, ?_⟩
  have hbig : dataD inf K idxMax = inf := by simp [dataD, List.getElem?_eq_none hn]
  have hlt : ∀ ij ∈ p, ij.1 < K.length := by
    rintro ⟨i, j⟩ hij
    rcases (h1.2.2 i j).1 hij with h | ⟨_, h, _⟩
    · exact (hf.lt _ _ h).1
    · exact h.1
  rw [pointsOfDimension_eq h2, diagramPoints_eq_map inf hlt, List.filter_map, hpts]
  apply List.Perm.map
  rw [List.perm_ext_iff_of_nodup hnd ((h1.1.filter _).filter _)]
  rintro ⟨i, j⟩
  rw [hmem, List.mem_filter, List.mem_filter, h1.2.2]
  simp only [Function.comp, decide_eq_true_eq, true_or, and_true]
  constructor
  · rintro ⟨hd, ⟨hp, hc⟩ | ⟨rfl, hu⟩⟩
    · exact ⟨⟨Or.inl hp, hd⟩, hc⟩
    · refine ⟨⟨Or.inr ⟨rfl, hu⟩, hd⟩, hinf.imp_right fun hinf => ?_⟩
      rw [hbig]
      have := hu.1
      simp only [dataD, List.getElem?_eq_getElem this, Option.map_some, Option.getD_some]
      exact hinf _ (List.getElem_mem this)
  · rintro ⟨⟨hp | ⟨rfl, hu⟩, hd⟩, hc⟩
    · exact ⟨hd, Or.inl ⟨hp, hc⟩⟩
    · exact ⟨hd, Or.inr ⟨rfl, hu⟩⟩

/-- C17. The entries without destroyer represent the path components of the complex: each vertex is
connected to exactly one of their creators, which is the oldest vertex of its component. -/
theorem C17_components (diag leftFirst : Bool) (inf : α) (K : Complex α) (hK : IsFiltration K)
    (hn : K.length ≤ idxMax) (pts : List (α × α)) (pairs : List (ℕ × ℕ))
    (h : zeroDimensional diag leftFirst inf K = some (pts, pairs)) :
    (∀ i, (i, idxMax) ∈ pairs ↔ OldestAt K K.length i) ∧
    ∀ v ∈ K.vertices, ∃! i, (i, idxMax) ∈ pairs ∧ ∃ w, vsetAt K i = {w} ∧ Joined K K.length v w := by
  obtain ⟨pts', pairs', e, hnd, hpts, hmem⟩ := C16_zero_dimensional_pairing diag leftFirst inf K hK hn
  rw [h] at e
  cases e
  have hw := hK.wf
  have h1 : ∀ i, (i, idxMax) ∈ pairs ↔ OldestAt K K.length i := by
    intro i
    rw [hmem]
    constructor
    · rintro ⟨hd, ⟨hp, _⟩ | ⟨_, hu⟩⟩
      · have := ((pairFacts hK hn).lt _ _ hp).2.1
        omega
      · obtain ⟨v, hv⟩ := (dimAt_zero_iff hw).1 ⟨hu.1, hd⟩
        exact (unpaired_vertex_iff hK hn hv).1 hu
    · intro ho
      obtain ⟨v, hv, _⟩ := id ho
      exact ⟨((dimAt_zero_iff hw).2 ⟨v, hv⟩).2, Or.inr ⟨rfl, (unpaired_vertex_iff hK hn hv).2 ho⟩⟩
  refine ⟨h1, fun v hv => ?_⟩
  classical
  let S : Finset ℕ := {x ∈ range K.length | ∃ y, vsetAt K x = {y} ∧ Joined K K.length v y}
  have hS : ∀ x, x ∈ S ↔ ∃ y, vsetAt K x = {y} ∧ Joined K K.length v y := by
    intro x
    simp only [S, mem_filter, mem_range]
    constructor
    · exact fun h => h.2
    · rintro ⟨y, hy, h⟩
      exact ⟨lt_of_vsetAt (by simp) hy, y, hy, h⟩
  obtain ⟨iv, hiv⟩ := (mem_vertices_iff hw).1 hv
  have hne : S.Nonempty := ⟨iv, (hS iv).2 ⟨v, hiv, .refl _⟩⟩
  obtain ⟨w, hw1, hw2⟩ := (hS _).1 (S.min'_mem hne)
  refine ⟨S.min' hne, ⟨(h1 _).2 ⟨w, hw1, ?_⟩, w, hw1, hw2⟩, ?_⟩
  · intro i' w' h' hj
    exact S.min'_le _ ((hS i').2 ⟨w', h', .trans _ _ _ hw2 hj⟩)
  · rintro i ⟨hi, y, hy1, hy2⟩
    obtain ⟨y', hy', ho⟩ := (h1 i).1 hi
    rw [hy1] at hy'
    cases singleton_injective hy'
    apply le_antisymm
    · exact ho _ w hw1 (.trans _ _ _ (.symm _ _ hy2) hw2)
    · exact S.min'_le _ ((hS i).2 ⟨y, hy1, hy2⟩)

/-- C17. A component is destroyed by an edge that connects it to an older component: each pair consists of the
oldest vertex of a component before the edge and an edge joining two different components of which that of the creator
is younger. -/
theorem C17_elder_rule (diag leftFirst : Bool) (inf : α) (K : Complex α) (hK : IsFiltration K)
    (hn : K.length ≤ idxMax) (pts : List (α × α)) (pairs : List (ℕ × ℕ))
    (h : zeroDimensional diag leftFirst inf K = some (pts, pairs)) (i j : ℕ) (hj : j < K.length) :
    (i, j) ∈ pairs ↔ OldestAt K j i ∧ (diag = true ∨ dataD inf K i ≠ dataD inf K j) ∧
      ∃ v w i', vsetAt K i = {v} ∧ vsetAt K i' = {w} ∧ i' < i ∧
        ¬ Joined K j v w ∧ Joined K (j + 1) v w := by
  obtain ⟨pts', pairs', e, hnd, hpts, hmem⟩ := C16_zero_dimensional_pairing diag leftFirst inf K hK hn
  rw [h] at e
  cases e
  have hw := hK.wf
  rw [hmem]
  constructor
  · rintro ⟨hd, ⟨hp, hc⟩ | ⟨rfl, _⟩⟩
    · obtain ⟨v, hv⟩ := (dimAt_zero_iff hw).1 ⟨((pairFacts hK hn).lt _ _ hp).1, hd⟩
      obtain ⟨o1, o2⟩ := (persPair_vertex_iff hw hK.closed hv).1 hp
      refine ⟨o1, hc, ?_⟩
      by_contra hno
      apply o2
      refine ⟨v, hv, fun i' w hw' hjw => ?_⟩
      by_contra hlt
      obtain ⟨v', hv', ho⟩ := o1
      rw [hv] at hv'
      cases singleton_injective hv'
      exact hno ⟨v, w, i', hv, hw', by omega, fun hj' => hlt (ho i' w hw' hj'), hjw⟩
    · omega
  · rintro ⟨ho, hc, v, w, i', hv, hw', hlt, _, hj2⟩
    refine ⟨((dimAt_zero_iff hw).2 ⟨v, hv⟩).2, Or.inl ⟨?_, hc⟩⟩
    refine (persPair_vertex_iff hw hK.closed hv).2 ⟨ho, ?_⟩
    rintro ⟨v', hv', ho'⟩
    rw [hv] at hv'
    cases singleton_injective hv'
    have := ho' i' w hw' hj2
    omega

/-- C17. With diagonal elements, each vertex is the creator of exactly one entry; so the number of merges is
the number of vertices minus the number of components. -/
theorem C17_counts (leftFirst : Bool) (inf : α) (K : Complex α) (hK : IsFiltration K)
    (hn : K.length ≤ idxMax) (pts : List (α × α)) (pairs : List (ℕ × ℕ))
    (h : zeroDimensional true leftFirst inf K = some (pts, pairs)) :
    (pairs.map (·.1)).Nodup ∧
    (∀ i, i ∈ pairs.map (·.1) ↔ ∃ v ∈ K.vertices, vsetAt K i = {v}) ∧
    pairs.length = K.vertices.length ∧ pts.length = K.vertices.length := by
  obtain ⟨pts', pairs', e, hnd, hpts, hmem⟩ := C16_zero_dimensional_pairing true leftFirst inf K hK hn
  rw [h] at e
  cases e
  have hw := hK.wf
  have hf := pairFacts hK hn
  have n1 : (pairs.map (·.1)).Nodup := by
    refine List.Nodup.map_on ?_ hnd
    rintro ⟨i, j⟩ hij ⟨i', j'⟩ hij' he
    simp only at he
    subst he
    rcases ((hmem _ _).1 hij).2 with ⟨hp, _⟩ | ⟨rfl, hu⟩ <;>
      rcases ((hmem _ _).1 hij').2 with ⟨hp', _⟩ | ⟨rfl, hu'⟩
    · rw [hf.snd _ _ _ hp hp']
    · exact absurd hp (hu'.2 _).1
    · exact absurd hp' (hu.2 _).1
    · rfl
  have n2 : ∀ i, i ∈ pairs.map (·.1) ↔ ∃ v ∈ K.vertices, vsetAt K i = {v} := by
    intro i
    rw [List.mem_map]
    constructor
    · rintro ⟨⟨i', j⟩, hij, rfl⟩
      obtain ⟨hd, hc⟩ := (hmem _ _).1 hij
      have hl : i' < K.length := by
        rcases hc with ⟨hp, _⟩ | ⟨_, hu⟩
        · exact (hf.lt _ _ hp).1
        · exact hu.1
      obtain ⟨v, hv⟩ := (dimAt_zero_iff hw).1 ⟨hl, hd⟩
      exact ⟨v, (mem_vertices_iff hw).2 ⟨i', hv⟩, hv⟩
    · rintro ⟨v, _, hv⟩
      have hd := ((dimAt_zero_iff hw).2 ⟨v, hv⟩).2
      by_cases hx : ∃ j, PersPair (facets K) i j
      · obtain ⟨j, hj⟩ := hx
        exact ⟨(i, j), (hmem _ _).2 ⟨hd, Or.inl ⟨hj, Or.inl rfl⟩⟩, rfl⟩
      · refine ⟨(i, idxMax), (hmem _ _).2 ⟨hd, Or.inr ⟨rfl, lt_of_vsetAt (by simp) hv, ?_⟩⟩, rfl⟩
        intro j
        refine ⟨fun hp => hx ⟨j, hp⟩, fun hp => ?_⟩
        have := (hf.lt _ _ hp).2.2
        omega
  have n3 : pairs.length = K.vertices.length := by
    rw [← List.length_map (as := pairs) (f := fun ij : ℕ × ℕ => ij.1),
      ← List.toFinset_card_of_nodup n1, ← List.toFinset_card_of_nodup ((C22_vertices K hw).1.imp fun h => Nat.ne_of_lt h)]
    classical
    have hex : ∀ i, i ∈ (pairs.map (·.1)).toFinset → ∃ v ∈ K.vertices, vsetAt K i = {v} :=
      fun i hi => (n2 i).1 (List.mem_toFinset.1 hi)
    choose f hf1 hf2 using hex
    refine card_bij f (fun i hi => List.mem_toFinset.2 (hf1 i hi)) ?_ ?_
    · intro a ha b hb hab
      refine vsetAt_unique hw (by simp) (hf2 a ha) ?_
      rw [hf2 b hb, hab]
    · intro v hv
      obtain ⟨i, hi⟩ := (mem_vertices_iff hw).1 (List.mem_toFinset.1 hv)
      have hm : i ∈ (pairs.map (·.1)).toFinset :=
        List.mem_toFinset.2 ((n2 i).2 ⟨v, List.mem_toFinset.1 hv, hi⟩)
      refine ⟨i, hm, ?_⟩
      have := hf2 i hm
      rw [hi] at this
      exact (singleton_injective this).symm
  exact ⟨n1, n2, n3, by rw [hpts, List.length_map, n3]⟩

/-- C17. For monotone data no point lies below the diagonal. -/
theorem C17_points_above_diagonal {α : Type} [LinearOrder α] (diag leftFirst : Bool) (inf : α)
    (K : Complex α) (hK : IsFiltration K) (hn : K.length ≤ idxMax)
    (hs : K.Pairwise fun s t => s.data ≤ t.data) (hinf : ∀ s ∈ K, s.data ≤ inf)
    (pts : List (α × α)) (pairs : List (ℕ × ℕ))
    (h : zeroDimensional diag leftFirst inf K = some (pts, pairs)) : ∀ x ∈ pts, x.1 ≤ x.2 := by
  obtain ⟨_, _, e, _, hpts, hmem⟩ := C16_zero_dimensional_pairing diag leftFirst inf K hK hn
  rw [h] at e
  cases e
  obtain ⟨pts', pairs', Ds, e', hD, hperm⟩ :=
    C16_agrees_with_reduction true leftFirst inf K hK hn (Or.inl rfl) .standard .vector false
  obtain ⟨_, _, e2, _, hpts', hmem'⟩ := C16_zero_dimensional_pairing true leftFirst inf K hK hn
  rw [e'] at e2
  cases e2
  intro x hx
  rw [hpts] at hx
  obtain ⟨⟨i, j⟩, hij, rfl⟩ := List.mem_map.1 hx
  have hij' : (i, j) ∈ pairs' := by
    rw [hmem'] ; rw [hmem] at hij
    exact ⟨hij.1, hij.2.imp_left fun h => ⟨h.1, Or.inl rfl⟩⟩
  have hx' := hperm.subset (by rw [hpts']; exact List.mem_map_of_mem hij')
  obtain ⟨D, hD1, hD2⟩ := List.mem_flatMap.1 (List.mem_filter.1 hx').1
  exact C51_points_above_diagonal inf K hK hn hs hinf true .standard .vector false Ds hD D
    (List.mem_filter.1 hD1).1 _ hD2

/-- A filtered graph with two components: a path on three vertices, inserted with its edges in the order of their
values, and an isolated vertex. -/
def pathGraph : Complex ℕ :=
  [⟨[0], 0⟩, ⟨[1], 1⟩, ⟨[2], 1⟩, ⟨[3], 2⟩, ⟨[2, 1], 3⟩, ⟨[1, 0], 4⟩]

example : zeroDimensional true false 99 pathGraph =
    some ([(1, 3), (1, 4), (0, 99), (2, 99)], [(2, 4), (1, 5), (0, idxMax), (3, idxMax)]) := by decide

/-- The hypotheses hold for it. -/
example : IsFiltration pathGraph ∧ pathGraph.length ≤ idxMax ∧ ∀ s ∈ pathGraph, s.data ≠ 99 :=
  ⟨⟨⟨by decide, by decide, by decide⟩, Closed1.faceClosed (by decide) (by unfold Closed1; decide),
    by unfold FacesFirst; decide⟩, by decide, by decide⟩

end Aleph
