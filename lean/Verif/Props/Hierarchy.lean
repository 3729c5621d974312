import Verif.Lemmas.HierarchyForest

/-!
# C113–C115: the extended persistence hierarchy
-/

namespace Aleph.Hierarchy

open Finset Aleph.Spec Aleph.Spec.Hierarchy ParentMap

variable {α : Type} {K : Complex α}

theorem graphOf_filtration (hK : IsFiltration K) : IsFiltration (graphOf K) := by
  refine ⟨hK.wf.sublist List.filter_sublist, ?_, List.Pairwise.sublist List.filter_sublist hK.order⟩
  intro s hs t hts hne
  rw [graphOf, List.mem_filter, decide_eq_true_eq] at hs
  obtain ⟨u, hu, rfl⟩ := hK.closed s hs.1 t hts hne
  refine ⟨u, ?_, rfl⟩
  rw [graphOf, List.mem_filter, decide_eq_true_eq]
  exact ⟨hu, (card_le_card hts).trans hs.2⟩

theorem graphOf_length : (graphOf K).length ≤ K.length := List.length_filter_le _ _

theorem skeleton_eq (hK : WF K) : (Complex.insertRange [] (K.filter fun s => decide (Complex.dim s ≤ 1))).1 = graphOf K := by
  have he : (K.filter fun s => decide (Complex.dim s ≤ 1)) = graphOf K := by
    unfold graphOf
    apply List.filter_congr
    intro s hs
    have := (hK.normal s hs).length_eq
    rw [Simplex.vset, ← this, Complex.dim]
    congr 1
    exact propext (by omega)
  rw [he]
  have hw : WF (graphOf K) := hK.sublist List.filter_sublist
  rw [insertRange_nodup [] _ hw.nonempty (by simpa using hw.distinct)]
  rfl

theorem mapM_index {S : Complex α} (hS : WF S) (rs : List ℕ) (h : ∀ r ∈ rs, r ∈ S.vertices) :
    ∃ is, (rs.mapM fun r => S.index [r]) = some is ∧ List.Forall₂ (fun i r => vsetAt S i = {r}) is rs := by
  induction rs with
  | nil => exact ⟨[], rfl, .nil⟩
  | cons r rs ih =>
    obtain ⟨is, e, hf⟩ := ih fun x hx => h x (List.mem_cons_of_mem _ hx)
    obtain ⟨i, hi⟩ := (mem_vertices_iff hS).1 (h r List.mem_cons_self)
    exact ⟨i :: is, by rw [List.mapM_cons, index_vertex hS hi, e]; rfl, .cons hi hf⟩

variable [LinearOrder α]

theorem hierarchy_spec (hK : IsFiltration K) (hn : K.length ≤ idxMax) (lf : Bool) {bfs : List ℕ → List (ℕ × ℕ) → ℕ → ℕ → ℕ} (hbfs : IsSearch bfs) :
    ∃ (st : State) (is : List ℕ), hierarchy lf bfs K = some (st.pairing ++ is.map (fun i => (i, idxMax)), st.edges) ∧ Inv (graphOf K) (graphOf K).length st ∧ is.Nodup ∧
      ∀ i, i ∈ is ↔ OldestAt (graphOf K) (graphOf K).length i := by
  have hS := graphOf_filtration hK
  have hw := hS.wf
  obtain ⟨tags, et, htags⟩ := tagEdges_spec hS
  obtain ⟨st, e, hI⟩ := loop_inv hS (graphOf_length.trans hn) lf hbfs htags (graphOf K) [] rfl (inv_init hw)
  obtain ⟨rep, hz⟩ := hI.zero
  obtain ⟨p', rs, er, _, rn, hrs⟩ := hz.repr.roots
  have hperm := List.perm_insertionSort (· ≤ ·) rs
  obtain ⟨is, ei, hf⟩ := mapM_index hw (rs.insertionSort (· ≤ ·)) fun r hr => ((hrs r).1 (hperm.subset hr)).1
  refine ⟨st, is, ?_, hI, ?_, ?_⟩
  · unfold hierarchy
    simp only [skeleton_eq hK.wf, et, e, er, ei]
  · have hn' := hperm.nodup_iff.2 rn
    rw [List.nodup_iff_injective_get]
    intro a b hab
    have ha := hf.get a.2 (by rw [← hf.length_eq]; exact a.2)
    have hb := hf.get b.2 (by rw [← hf.length_eq]; exact b.2)
    rw [show is.get ⟨a, a.2⟩ = is.get ⟨b, b.2⟩ from hab] at ha
    rw [ha] at hb
    exact Fin.ext ((List.Nodup.getElem_inj_iff hn').1 (singleton_injective hb))
  · intro i
    rw [hz.oldest_iff hw]
    constructor
    · intro hi
      have hflip : List.Forall₂ (fun r i => vsetAt (graphOf K) i = {r}) (rs.insertionSort (· ≤ ·)) is := hf.flip
      obtain ⟨r, hr, hv⟩ := forall₂_mem_right hflip hi
      have := (hrs r).1 (hperm.subset hr)
      exact ⟨r, this.1, this.2, hv⟩
    · rintro ⟨r, h1, h2, hv⟩
      obtain ⟨i', hi', hv'⟩ := forall₂_mem_right hf (hperm.symm.subset ((hrs r).2 ⟨h1, h2⟩))
      rwa [vsetAt_unique hw (by simp) hv hv']

/-- C113. For each filtered complex, the hierarchy is calculated without failure.  The pairs are, each once, the persistence pairs of the graph of
the complex whose creator is a vertex, and one entry for each unpaired vertex.  Positions are those of the graph, i.e. of the list of vertices and
edges. -/
theorem _root_.Aleph.C113_pairing (leftFirst : Bool) (bfs : List ℕ → List (ℕ × ℕ) → ℕ → ℕ → ℕ) (hbfs : IsSearch bfs) (K : Complex α)
    (hK : IsFiltration K) (hn : K.length ≤ idxMax) :
    ∃ pairs edges, hierarchy leftFirst bfs K = some (pairs, edges) ∧ pairs.Nodup ∧
      ∀ i j, (i, j) ∈ pairs ↔ dimAt (graphOf K) i = 0 ∧
        (PersPair (facets (graphOf K)) i j ∨ j = idxMax ∧ Unpaired (facets (graphOf K)) (graphOf K).length i) := by
  obtain ⟨st, is, e, hI, hnd, his⟩ := hierarchy_spec hK hn leftFirst hbfs
  have hS := graphOf_filtration hK
  have hw := hS.wf
  have hn' : (graphOf K).length ≤ idxMax := graphOf_length.trans hn
  refine ⟨_, _, e, ?_, ?_⟩
  · refine List.nodup_append.2 ⟨hI.nodup, hnd.map (fun a b h => (Prod.mk.inj h).1), ?_⟩
    rintro ⟨i, j⟩ hij x hx rfl
    obtain ⟨k, _, hk⟩ := List.mem_map.1 hx
    cases hk
    have := ((hI.pairing _ _).1 hij).1
    omega
  · intro i j
    rw [List.mem_append, hI.pairing]
    have hm : (i, j) ∈ is.map (fun i => (i, idxMax)) ↔ j = idxMax ∧ OldestAt (graphOf K) (graphOf K).length i := by
      rw [List.mem_map]
      constructor
      · rintro ⟨k, hk, he⟩
        cases he
        exact ⟨rfl, (his _).1 hk⟩
      · rintro ⟨rfl, h⟩
        exact ⟨i, (his i).2 h, rfl⟩
    rw [hm]
    constructor
    · rintro (⟨_, a, b⟩ | ⟨rfl, h⟩)
      · exact ⟨b, .inl a⟩
      · obtain ⟨v, hv, _⟩ := id h
        exact ⟨((dimAt_zero_iff hw).2 ⟨v, hv⟩).2, .inr ⟨rfl, (unpaired_vertex_iff hS hn' hv).2 h⟩⟩
    · rintro ⟨hd, hp | ⟨rfl, hu⟩⟩
      · exact .inl ⟨((pairFacts hS hn').lt _ _ hp).2.1, hp, hd⟩
      · obtain ⟨v, hv⟩ := (dimAt_zero_iff hw).1 ⟨hu.1, hd⟩
        exact .inr ⟨rfl, (unpaired_vertex_iff hS hn' hv).1 hu⟩

/-- C113. For graphs, these are the pairs of zero-dimensional persistent homology, including the ones of zero persistence. -/
theorem _root_.Aleph.C113_zero_dimensional (leftFirst lf : Bool) (bfs : List ℕ → List (ℕ × ℕ) → ℕ → ℕ → ℕ) (hbfs : IsSearch bfs) (inf : α)
    (K : Complex α) (hK : IsFiltration K) (hn : K.length ≤ idxMax) (hd : ∀ s ∈ K, #s.vset ≤ 2) :
    ∃ pairs edges pts pairs', hierarchy leftFirst bfs K = some (pairs, edges) ∧ zeroDimensional true lf inf K = some (pts, pairs') ∧ pairs.Perm pairs' := by
  have he : graphOf K = K := by
    unfold graphOf
    rw [List.filter_eq_self]
    intro s hs
    simpa using hd s hs
  obtain ⟨pairs, edges, e, hnd, hp⟩ := C113_pairing leftFirst bfs hbfs K hK hn
  obtain ⟨pts, pairs', e', hnd', _, hp'⟩ := C16_zero_dimensional_pairing true lf inf K hK hn
  refine ⟨pairs, edges, pts, pairs', e, e', (List.perm_ext_iff_of_nodup hnd hnd').2 ?_⟩
  rintro ⟨i, j⟩
  rw [hp, hp', he]
  simp

/-- A triangle, followed by a vertex and an edge. -/
def afterTriangle : Complex ℕ :=
  [⟨[0], 0⟩, ⟨[1], 0⟩, ⟨[2], 0⟩, ⟨[1, 0], 0⟩, ⟨[2, 0], 0⟩, ⟨[2, 1], 0⟩, ⟨[2, 1, 0], 0⟩, ⟨[3], 0⟩, ⟨[3, 0], 0⟩]

theorem afterTriangle_filtration : IsFiltration afterTriangle :=
  ⟨⟨by decide, by decide, by decide⟩, Closed1.faceClosed (by decide) (by unfold Closed1; decide), by unfold FacesFirst; decide⟩

/-- C113. Positions do not refer to the given complex: simplices of dimension two or more are not counted. -/
theorem _root_.Aleph.C113_positions :
    ∃ K : Complex ℕ, IsFiltration K ∧ K.length ≤ idxMax ∧ ∀ leftFirst bfs,
      ∃ pairs edges, hierarchy leftFirst bfs K = some (pairs, edges) ∧ (6, 7) ∈ pairs ∧ (7, 8) ∉ pairs ∧
        PersPair (facets K) 7 8 ∧ ¬ PersPair (facets K) 6 7 := by
  have hp : PersPair (facets afterTriangle) 7 8 := by
    obtain ⟨pts, pairs, e, _, _, h⟩ := C16_zero_dimensional_pairing true true 0 afterTriangle afterTriangle_filtration (by decide)
    have e' : zeroDimensional true true 0 afterTriangle =
        some ([(0, 0), (0, 0), (0, 0), (0, 0)], [(1, 3), (2, 4), (7, 8), (0, idxMax)]) := by decide
    rw [e] at e'
    cases e'
    rcases ((h 7 8).1 (by simp)).2 with ⟨h, _⟩ | ⟨h, _⟩
    · exact h
    · exact absurd h (by decide)
  refine ⟨afterTriangle, afterTriangle_filtration, by decide, fun lf bfs => ?_⟩
  refine ⟨[(1, 3), (2, 4), (6, 7), (0, idxMax)], [], ?_, by simp, ?_, hp, ?_⟩
  · cases lf <;> rfl
  · simp
  · intro h
    exact (pairFacts afterTriangle_filtration (by decide)).excl 7 6 8 hp h

/-- C114. The children of the edges of the hierarchy are, each once, the vertices that create a component of finite and non-zero persistence. -/
theorem _root_.Aleph.C114_children (leftFirst : Bool) (bfs : List ℕ → List (ℕ × ℕ) → ℕ → ℕ → ℕ) (hbfs : IsSearch bfs) (K : Complex α)
    (hK : IsFiltration K) (hn : K.length ≤ idxMax) :
    ∃ pairs edges, hierarchy leftFirst bfs K = some (pairs, edges) ∧ (edges.map (·.2)).Nodup ∧ ∀ y, y ∈ edges.map (·.2) ↔ Persistent K y := by
  obtain ⟨st, is, e, hI, _, _⟩ := hierarchy_spec hK hn leftFirst hbfs
  have hS := graphOf_filtration hK
  have hn' : (graphOf K).length ≤ idxMax := graphOf_length.trans hn
  refine ⟨_, _, e, hI.edges.children hS hn', fun y => ?_⟩
  rw [List.mem_map]
  constructor
  · rintro ⟨⟨p, _⟩, hpy, rfl⟩
    obtain ⟨k, hk, ⟨i, hi, hd⟩, hr⟩ := hI.edges.position hpy
    obtain ⟨o, hm, _⟩ := ParentRule.merges hr
    exact ⟨i, k, hi, (merges_iff_pair hS hn' hi).1 ⟨o, hm⟩, hd⟩
  · rintro ⟨i, j, hi, hp, hd⟩
    obtain ⟨o, hm⟩ := (merges_iff_pair hS hn' hi).2 hp
    obtain ⟨p, hpy, _⟩ := hI.edges.exists hS.wf ((pairFacts hS hn').lt _ _ hp).2.1 hm ⟨i, hi, hd⟩
    exact ⟨(p, y), hpy, rfl⟩

/-- C114. There are no cycles: with one parent per child, the hierarchy is a forest. -/
theorem _root_.Aleph.C114_forest (leftFirst : Bool) (bfs : List ℕ → List (ℕ × ℕ) → ℕ → ℕ → ℕ) (hbfs : IsSearch bfs) (K : Complex α)
    (hK : IsFiltration K) (hn : K.length ≤ idxMax) :
    ∃ pairs edges, hierarchy leftFirst bfs K = some (pairs, edges) ∧ (∀ x, ¬ Relation.TransGen (fun p y => (p, y) ∈ edges) x x) ∧
      ∀ p p' y, (p, y) ∈ edges → (p', y) ∈ edges → p = p' := by
  obtain ⟨st, is, e, hI, _, _⟩ := hierarchy_spec hK hn leftFirst hbfs
  have hS := graphOf_filtration hK
  refine ⟨_, _, e, hI.edges.acyclic hS, fun p p' y h h' => ?_⟩
  have := List.inj_on_of_nodup_map (hI.edges.children hS (graphOf_length.trans hn)) h h' rfl
  exact (Prod.mk.inj this).1

/-- C114. If the data never decreases along the filtration, or never increases, then each child descends from the first vertex of its connected
component; hence the forest has at most one non-trivial tree in each component of the complex. -/
theorem _root_.Aleph.C114_trees (leftFirst : Bool) (bfs : List ℕ → List (ℕ × ℕ) → ℕ → ℕ → ℕ) (hbfs : IsSearch bfs) (K : Complex α)
    (hK : IsFiltration K) (hn : K.length ≤ idxMax) (hmono : K.Pairwise (·.data ≤ ·.data) ∨ K.Pairwise (·.data ≥ ·.data)) :
    ∃ pairs edges, hierarchy leftFirst bfs K = some (pairs, edges) ∧
      ∀ p y, (p, y) ∈ edges → ∃ i r, vsetAt (graphOf K) i = {r} ∧ OldestAt (graphOf K) (graphOf K).length i ∧
        Joined (graphOf K) (graphOf K).length y r ∧ Relation.TransGen (fun p y => (p, y) ∈ edges) r y := by
  obtain ⟨st, is, e, hI, _, _⟩ := hierarchy_spec hK hn leftFirst hbfs
  have hS := graphOf_filtration hK
  refine ⟨_, _, e, hI.edges.connected hS ?_ le_rfl⟩
  exact hmono.imp (List.Pairwise.sublist List.filter_sublist) (List.Pairwise.sublist List.filter_sublist)

/-- C115. The edges of the hierarchy belong, in order, to the positions at which a component of non-zero persistence is merged into an older one.  The
parent is the vertex merged most recently into the older component if some shortest path between the critical vertices of the two components in the interlevel
set passes exactly two critical regions, and the oldest vertex of the older component if that path does not, or if there is none. -/
theorem _root_.Aleph.C115_parents (leftFirst : Bool) (bfs : List ℕ → List (ℕ × ℕ) → ℕ → ℕ → ℕ) (hbfs : IsSearch bfs) (K : Complex α)
    (hK : IsFiltration K) (hn : K.length ≤ idxMax) :
    ∃ pairs edges, hierarchy leftFirst bfs K = some (pairs, edges) ∧
      ∃ ts : List ℕ, ts.Pairwise (· < ·) ∧ List.Forall₂ (fun t e => ParentRule (graphOf K) t e.1 e.2) ts edges ∧
        ∀ t, t ∈ ts ↔ ∃ y o, Merges (graphOf K) t y o ∧ Lasting (graphOf K) t y := by
  obtain ⟨st, is, e, hI, _, _⟩ := hierarchy_spec hK hn leftFirst hbfs
  obtain ⟨ts, h1, h2, h3⟩ := hI.edges
  refine ⟨_, _, e, ts, h1, h2.imp fun _ _ h => h.2, fun t => ?_⟩
  rw [h3]
  constructor
  · exact fun h => h.2
  · rintro ⟨y, o, hm, hl⟩
    refine ⟨?_, y, o, hm, hl⟩
    obtain ⟨u, v, i, j, huv, ht, _⟩ := hm
    exact lt_of_vsetAt (by simp) ht

/-- In particular, if the shortest paths are unique, the parent is determined by the complex: two results have the same edges. -/
theorem parentRule_unique {S : Complex α} (hS : WF S) (hu : ∀ i t a b w w', Shortest (LevelEdge S i t) a w b → Shortest (LevelEdge S i t) a w' b → w = w')
    {t p p' y : ℕ} (h : ParentRule S t p y) (h' : ParentRule S t p' y) : p = p' := by
  obtain ⟨o, cy, co, a, b, i, j, hm, ly, lo, hab, hi, hj, hij, hp⟩ := h
  obtain ⟨o', cy', co', a', b', i', j', hm', ly', lo', hab', hi', hj', hij', hp'⟩ := h'
  obtain ⟨_, rfl⟩ := Merges.unique hS hm hm'
  have ecy := Latest.unique hS ly ly'
  have eco := Latest.unique hS lo lo'
  subst ecy
  subst eco
  have hsame : a = a' ∧ b = b' := by
    rcases hab with ⟨rfl, rfl⟩ | ⟨rfl, rfl⟩ <;> rcases hab' with ⟨rfl, rfl⟩ | ⟨rfl, rfl⟩
    · exact ⟨rfl, rfl⟩
    · have := vsetAt_unique hS (by simp) hi hj'
      have := vsetAt_unique hS (by simp) hj hi'
      omega
    · have := vsetAt_unique hS (by simp) hi hj'
      have := vsetAt_unique hS (by simp) hj hi'
      omega
    · exact ⟨rfl, rfl⟩
  obtain ⟨rfl, rfl⟩ := hsame
  have hii := vsetAt_unique hS (by simp) hi hi'
  subst hii
  rcases hp with ⟨rfl, w, hw, ht⟩ | ⟨rfl, hp⟩ <;> rcases hp' with ⟨rfl, w', hw', ht'⟩ | ⟨rfl, hp'⟩
  · rfl
  · rcases hp' with ⟨w', hw', ht'⟩ | hno
    · rw [hu _ _ _ _ _ _ hw hw'] at ht
      exact absurd ht ht'
    · exact absurd ⟨w, hw.1⟩ hno
  · rcases hp with ⟨w, hw, ht⟩ | hno
    · rw [hu _ _ _ _ _ _ hw hw'] at ht
      exact absurd ht' ht
    · exact absurd ⟨w', hw'.1⟩ hno
  · rfl

/-! ### Examples -/

/-- A function on a path: three valleys of depths 0, 1 and 2. -/
def valleys : Complex ℕ :=
  [⟨[0], 0⟩, ⟨[2], 1⟩, ⟨[4], 2⟩, ⟨[3], 4⟩, ⟨[3, 2], 4⟩, ⟨[4, 3], 4⟩, ⟨[1], 5⟩, ⟨[1, 0], 5⟩, ⟨[2, 1], 5⟩]

/-- The hypotheses hold for it. -/
example : IsFiltration valleys ∧ valleys.length ≤ idxMax ∧ (valleys.Pairwise (·.data ≤ ·.data) ∨ valleys.Pairwise (·.data ≥ ·.data)) ∧
    (∀ s ∈ valleys, #s.vset ≤ 2) ∧ ∃ bfs, IsSearch bfs :=
  ⟨⟨⟨by decide, by decide, by decide⟩, Closed1.faceClosed (by decide) (by unfold Closed1; decide), by unfold FacesFirst; decide⟩, by decide,
    .inl (by decide), by decide, exists_search⟩

/-- The second valley is the parent of the third one, and the first one of the second. -/
example : (hierarchy true (fun _ _ a b => if a < b then b - 1 else b + 1) valleys).map Prod.snd = some [(2, 4), (0, 2)] := by decide

end Aleph.Hierarchy
