import Verif.Props.HeatKernel
import Verif.Props.Bootstrap

/-!
# Properties of the bisection of complexes
-/

namespace Aleph.HeatKernel

open Spec

theorem count_all {l : List ℕ} {p : ℕ → Bool} : (l.length == l.countP p) = l.all p := by
  rw [Bool.eq_iff_iff, beq_iff_eq, eq_comm, List.countP_eq_length, List.all_eq_true]

theorem insertRange_filter {K : Complex ℝ} (hK : WF K) (p : Simplex ℝ → Bool) : (Complex.insertRange [] (List.filter p K)).1 = List.filter p K := by
  rw [insertRange_nodup]
  · rfl
  · intro s hs
    exact hK.nonempty s (List.mem_filter.1 hs).1
  · rw [List.nil_append]
    have h := hK.distinct
    exact h.sublist (List.filter_sublist.map _)

theorem bisect_spec {K : Complex ℝ} (hK : WF K) (hc : FaceClosed K) {nth : ℕ → List ℝ → List ℝ} (hnth : IsNthElement nth)
    {solver : Mat → List ℝ × List (ℕ → ℝ)} (hs : IsSolver solver) {vs : List ℕ} (hv : IsVertexList K vs) {L : ℕ → ℕ → ℝ}
    (hL : weightedLaplacianMatrix K = some ⟨vs.length, L⟩) (h2 : 2 ≤ vs.length) :
    ∃ f m, (solver ⟨vs.length, L⟩).2[1]? = some f ∧ Bootstrap.median nth ((List.range vs.length).map f) = some m ∧
      bisect nth solver K = some (inducedBy K fun v => f (vs.idxOf v) < m, inducedBy K fun v => ¬f (vs.idxOf v) < m) := by
  obtain ⟨vs', L', h1, h3, h4, h5, h6⟩ := C96_laplacian K hK hc
  obtain rfl := vertexList_unique hv h1
  have hLL : L' = L := by
    rw [hL] at h3
    injection h3 with h
    injection h with _ h
    exact h.symm
  subst hLL
  have hes := hs vs.length L' h6
  obtain ⟨f, hf⟩ : ∃ f, (solver ⟨vs.length, L'⟩).2[1]? = some f :=
    ⟨_, List.getElem?_eq_getElem (by rw [hes.count]; omega)⟩
  obtain ⟨m, hm, _⟩ := C86_half nth hnth ((List.range vs.length).map f) (by
    intro h
    have := congrArg List.length h
    rw [List.length_map, List.length_range, List.length_nil] at this
    omega)
  refine ⟨f, m, hf, hm, ?_⟩
  have hvs : K.vertices = vs := vertexList_unique (vertices_list hK) hv
  have hmem : ∀ s ∈ K, ∀ v ∈ s.vertices, v ∈ vs := by
    intro s hsK v hvv
    exact (hv.2 v).2 (hc s hsK {v} (by simpa [Simplex.vset] using hvv) (by simp))
  unfold bisect
  have hsq : ¬vs.length * vs.length < 2 := by nlinarith
  rw [hL]
  simp only [Option.bind_eq_bind, Option.bind_some, hf, hm, hvs]
  rw [if_neg hsq, if_pos (by
    rw [List.all_eq_true]
    intro s hsK
    rw [List.all_eq_true]
    intro v hvv
    exact List.contains_iff_mem.2 (hmem s hsK v hvv)), Option.some.injEq, Prod.mk.injEq]
  have hget : ∀ v ∈ vs, ((List.range vs.length).map f).getD (vs.idxOf v) 0 = f (vs.idxOf v) := by
    intro v hvv
    have := List.idxOf_lt_length_iff.2 hvv
    rw [List.getD_eq_getElem _ _ (by simpa using this), List.getElem_map, List.getElem_range]
  constructor
  · rw [insertRange_filter hK]
    refine List.filter_congr fun s hsK => ?_
    rw [count_all, Bool.eq_iff_iff, List.all_eq_true, decide_eq_true_eq]
    refine forall₂_congr fun v hvv => ?_
    rw [decide_eq_true_eq, hget v (hmem s hsK v hvv)]
  · rw [List.filter_filter, insertRange_filter hK]
    refine List.filter_congr fun s hsK => ?_
    rw [count_all, count_all, Bool.eq_iff_iff, Bool.and_eq_true, List.all_eq_true, decide_eq_true_eq, Bool.not_eq_true', Bool.eq_false_iff, Ne, List.all_eq_true]
    have e : ∀ v ∈ s.vertices, ((!decide (((List.range vs.length).map f).getD (vs.idxOf v) 0 < m)) = true ↔ ¬f (vs.idxOf v) < m) := by
      intro v hvv
      rw [Bool.not_eq_true', decide_eq_false_iff_not, hget v (hmem s hsK v hvv)]
    constructor
    · rintro ⟨a, _⟩ v hvv
      exact (e v hvv).1 (a v hvv)
    · intro a
      refine ⟨fun v hvv => (e v hvv).2 (a v hvv), ?_⟩
      intro b
      obtain ⟨v, l, hvl⟩ := List.exists_cons_of_ne_nil (hK.nonempty s hsK)
      have hvv : v ∈ s.vertices := by rw [hvl]; simp
      have := b v hvv
      rw [decide_eq_true_eq, hget v (hmem s hsK v hvv)] at this
      exact a v hvv this

theorem inducedBy_closed {K : Complex ℝ} (hc : FaceClosed K) (p : ℕ → Prop) [DecidablePred p] : FaceClosed (inducedBy K p) := by
  intro s hs t ht hne
  rw [inducedBy, List.mem_filter, decide_eq_true_eq] at hs
  obtain ⟨u, hu, rfl⟩ := hc s hs.1 t ht hne
  refine ⟨u, ?_, rfl⟩
  rw [inducedBy, List.mem_filter, decide_eq_true_eq]
  refine ⟨hu, fun v hv => hs.2 v ?_⟩
  have := ht (show v ∈ u.vset by simpa [Simplex.vset] using hv)
  simpa [Simplex.vset] using this

/-- C99. Bisection of a complex with at least two vertices: the parts are the subcomplexes induced by a set of vertices and its complement.  The set
contains the vertices at which an eigenvector for the second smallest eigenvalue of the Laplacian matrix is smaller than its median, hence at most
half of the vertices. -/
theorem _root_.Aleph.C99_bisection (K : Complex ℝ) (hK : WF K) (hc : FaceClosed K) (nth : ℕ → List ℝ → List ℝ) (hnth : IsNthElement nth)
    (solver : Mat → List ℝ × List (ℕ → ℝ)) (hs : IsSolver solver) (vs : List ℕ) (hv : IsVertexList K vs) :
    (2 ≤ vs.length → ∃ (f : ℕ → ℝ) (m : ℝ), bisect nth solver K = some (inducedBy K fun v => f v < m, inducedBy K fun v => ¬f v < m) ∧
      2 * (vs.countP fun v => decide (f v < m)) ≤ vs.length ∧ 2 * (vs.countP fun v => decide (m < f v)) ≤ vs.length ∧
      ∃ L values vectors, weightedLaplacianMatrix K = some ⟨vs.length, L⟩ ∧ IsEigensystem vs.length L values vectors ∧
        ∀ i v, vs[i]? = some v → f v = vectors.getD 1 0 i) ∧
    (vs.length < 2 → bisect nth solver K = none) := by
  obtain ⟨vs', L, h1, h3, _, _, h6⟩ := C96_laplacian K hK hc
  obtain rfl := vertexList_unique hv h1
  have hnd : vs.Nodup := hv.1.imp ne_of_lt
  constructor
  · intro h2
    obtain ⟨f, m, hf, hm, hb⟩ := bisect_spec hK hc hnth hs hv h3 h2
    obtain ⟨m', hm', c1, c2⟩ := C86_half nth hnth ((List.range vs.length).map f) (by
      intro h
      have := congrArg List.length h
      rw [List.length_map, List.length_range, List.length_nil] at this
      omega)
    obtain rfl : m = m' := Option.some.inj (hm.symm.trans hm')
    have hmap : (List.range vs.length).map f = vs.map fun v => f (vs.idxOf v) := by
      refine List.ext_getElem (by simp) ?_
      intro i hi _
      rw [List.length_map, List.length_range] at hi
      rw [List.getElem_map, List.getElem_map, List.getElem_range, hnd.idxOf_getElem]
    rw [hmap, List.countP_map, List.length_map] at c1 c2
    refine ⟨fun v => f (vs.idxOf v), m, hb, c1, c2, L, _, _, h3, hs _ _ h6, ?_⟩
    intro i v hi
    obtain ⟨hi', rfl⟩ := List.getElem?_eq_some_iff.1 hi
    simp only [hnd.idxOf_getElem, List.getD_eq_getElem?_getD, hf]
    rfl
  · intro h2
    unfold bisect
    rw [h3]
    simp only [Option.bind_eq_bind, Option.bind_some]
    rw [if_pos (by nlinarith)]

/-- C99. Both parts are simplicial complexes: closed under faces, without duplicates; every vertex belongs to exactly one of them, every simplex to at
most one. -/
theorem _root_.Aleph.C99_parts (K : Complex ℝ) (hK : WF K) (hc : FaceClosed K) (nth : ℕ → List ℝ → List ℝ) (hnth : IsNthElement nth)
    (solver : Mat → List ℝ × List (ℕ → ℝ)) (hs : IsSolver solver) (A B : Complex ℝ) (h : bisect nth solver K = some (A, B)) :
    WF A ∧ FaceClosed A ∧ A.Sublist K ∧ WF B ∧ FaceClosed B ∧ B.Sublist K ∧ (∀ s ∈ A, s ∉ B) ∧
      (∀ v, Has K {v} ↔ (Has A {v} ∧ ¬Has B {v}) ∨ (Has B {v} ∧ ¬Has A {v})) ∧
      ∀ s ∈ K, (s ∈ A ↔ ∀ v ∈ s.vset, Has A {v}) ∧ (s ∈ B ↔ ∀ v ∈ s.vset, Has B {v}) := by
  obtain ⟨vs, L, hv, h3, _⟩ := C96_laplacian K hK hc
  have h2 : 2 ≤ vs.length := by
    by_contra h2
    rw [(C99_bisection K hK hc nth hnth solver hs vs hv).2 (by omega)] at h
    exact absurd h (by simp)
  obtain ⟨f, m, hb, _⟩ := (C99_bisection K hK hc nth hnth solver hs vs hv).1 h2
  rw [hb] at h
  injection h with h
  injection h with hA hB
  have sA : A.Sublist K := hA ▸ List.filter_sublist
  have sB : B.Sublist K := hB ▸ List.filter_sublist
  have mA : ∀ s, s ∈ A ↔ s ∈ K ∧ ∀ v ∈ s.vset, f v < m := by
    intro s
    rw [← hA, inducedBy, List.mem_filter, decide_eq_true_eq]
    simp [Simplex.vset]
  have mB : ∀ s, s ∈ B ↔ s ∈ K ∧ ∀ v ∈ s.vset, ¬f v < m := by
    intro s
    rw [← hB, inducedBy, List.mem_filter, decide_eq_true_eq]
    simp [Simplex.vset]
  have vA : ∀ v, Has A {v} ↔ Has K {v} ∧ f v < m := by
    intro v
    constructor
    · rintro ⟨s, hs, e⟩
      obtain ⟨a, b⟩ := (mA s).1 hs
      exact ⟨⟨s, a, e⟩, b v (by rw [e]; simp)⟩
    · rintro ⟨⟨s, hs, e⟩, hf⟩
      exact ⟨s, (mA s).2 ⟨hs, by rw [e]; simpa using hf⟩, e⟩
  have vB : ∀ v, Has B {v} ↔ Has K {v} ∧ ¬f v < m := by
    intro v
    constructor
    · rintro ⟨s, hs, e⟩
      obtain ⟨a, b⟩ := (mB s).1 hs
      exact ⟨⟨s, a, e⟩, b v (by rw [e]; simp)⟩
    · rintro ⟨⟨s, hs, e⟩, hf⟩
      exact ⟨s, (mB s).2 ⟨hs, by rw [e]; simpa using hf⟩, e⟩
  refine ⟨hK.sublist sA, hA ▸ inducedBy_closed hc _, sA, hK.sublist sB, hB ▸ inducedBy_closed hc _, sB, ?_, ?_, ?_⟩
  · intro s ha hb
    obtain ⟨v, hv⟩ := hK.vset_nonempty (sA.subset ha)
    exact ((mB s).1 hb).2 v hv (((mA s).1 ha).2 v hv)
  · intro v
    rw [vA, vB]
    tauto
  · intro s hs
    have hk : ∀ v ∈ s.vset, Has K {v} := fun v hv => hc s hs {v} (by simpa using hv) (by simp)
    rw [mA, mB]
    exact ⟨⟨fun h v hv => (vA v).2 ⟨hk v hv, h.2 v hv⟩, fun h => ⟨hs, fun v hv => ((vA v).1 (h v hv)).2⟩⟩,
      ⟨fun h v hv => (vB v).2 ⟨hk v hv, h.2 v hv⟩, fun h => ⟨hs, fun v hv => ((vB v).1 (h v hv)).2⟩⟩⟩

example : ∃ nth solver A B, bisect nth solver path3 = some (A, B) ∧ FaceClosed A ∧ FaceClosed B := by
  obtain ⟨solver, hs⟩ := exists_isSolver
  have hv := vertices_list path3_wf
  obtain ⟨f, m, h, _⟩ := (C99_bisection path3 path3_wf path3_closed _ Bootstrap.sort_isNthElement solver hs _ hv).1 (by decide)
  obtain ⟨_, hA, _, _, hB, _⟩ := C99_parts path3 path3_wf path3_closed _ Bootstrap.sort_isNthElement solver hs _ _ h
  exact ⟨_, solver, _, _, h, hA, hB⟩

end Aleph.HeatKernel
