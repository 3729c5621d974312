import Verif.Lemmas.SpanningTree
import Verif.Props.EdgeListReader

/-!
# Zero-dimensional persistent homology with respect to the lexicographic order of simplices
-/

namespace Aleph

open Finset Spec SpanningTree

variable {α : Type}

/-- Vertices of a vertex. -/
theorem vertices_single {K : Complex α} (hK : WF K) {s : Simplex α} (hs : s ∈ K) {v : ℕ} (h : s.vset = {v}) : s.vertices = [v] := by
  refine (hK.normal s hs).ext (List.pairwise_singleton _ _) fun x => ?_
  have : x ∈ s.vset ↔ x ∈ ({v} : Finset ℕ) := by rw [h]
  simpa [Simplex.vset] using this

/-- Vertices of an edge. -/
theorem vertices_pair {K : Complex α} (hK : WF K) {s : Simplex α} (hs : s ∈ K) {u v : ℕ} (huv : u < v) (h : s.vset = {u, v}) : s.vertices = [v, u] := by
  refine (hK.normal s hs).ext (by unfold Normal; simp [huv]) fun x => ?_
  have : x ∈ s.vset ↔ x ∈ ({u, v} : Finset ℕ) := by rw [h]
  simp only [Simplex.vset, List.mem_toFinset, mem_insert, mem_singleton] at this
  rw [this]
  simp [or_comm]

/-- The simplex at a position. -/
theorem simplex_at {K : Complex α} {i : ℕ} {s : Finset ℕ} (hs : s.Nonempty) (h : vsetAt K i = s) : ∃ t, K[i]? = some t ∧ t ∈ K ∧ t.vset = s := by
  have hi := lt_of_vsetAt hs h
  refine ⟨K[i], List.getElem?_eq_getElem hi, List.getElem_mem hi, ?_⟩
  rw [← h]
  unfold vsetAt
  rw [List.getElem?_eq_getElem hi]

/-- Sorting by vertices: positions are in lexicographic order. -/
theorem sortLex_lt {K : Complex α} (hK : WF K) {i j : ℕ} (hij : i < j) {s t : Simplex α} (hs : (K.sort Simplex.lt)[i]? = some s) (ht : (K.sort Simplex.lt)[j]? = some t) :
    Simplex.lexLt s.vertices t.vertices = true := by
  have h : K.sort Simplex.lt = K.sort (asLt fun s t => some (s.lt t)) := rfl
  have hp := sort_pairwise hK lex_strictTotal (fun s hs => ⟨hK.normal s hs, hK.nonempty s hs⟩)
  rw [← h, List.pairwise_iff_getElem] at hp
  obtain ⟨hi, rfl⟩ := List.getElem?_eq_some_iff.1 hs
  obtain ⟨hj, rfl⟩ := List.getElem?_eq_some_iff.1 ht
  have := hp i j hi hj hij
  rw [Option.some.injEq] at this
  exact this

/-- Sorting yields a filtration. -/
theorem sortLex_filtration {K : Complex α} (hK : WF K) (hc : FaceClosed K) : IsFiltration (K.sort Simplex.lt) := by
  have hperm := sort_perm K Simplex.lt
  refine ⟨hK.perm hperm, ?_, sortLex_facesFirst hK⟩
  intro s hs t ht hne
  obtain ⟨u, hu, h⟩ := hc s (hperm.mem_iff.1 hs) t ht hne
  exact ⟨u, hperm.mem_iff.2 hu, h⟩

/-- A vertex without edges is connected to itself only. -/
theorem eqvGen_isolated {r : ℕ → ℕ → Prop} {v : ℕ} (h : ∀ a b, r a b → a ≠ v ∧ b ≠ v) {a b : ℕ} (hab : Relation.EqvGen r a b) : a = v ↔ b = v := by
  induction hab with
  | rel a b hab => exact ⟨fun e => absurd e (h a b hab).1, fun e => absurd e (h a b hab).2⟩
  | refl a => rfl
  | symm a b _ ih => exact ih.symm
  | trans a b c _ _ ih1 ih2 => exact ih1.trans ih2

/-- In the lexicographic order, the components of a complete graph are destroyed by the edges of the first vertex. -/
theorem star_points (inf : α) {K : Complex α} (hK : WF K) (hc : FaceClosed K) (hlen : K.length ≤ idxMax) {n : ℕ} (h1 : 1 ≤ n) (hv : ∀ v, Has K {v} ↔ v < n)
    (he : ∀ u v, u < v → (Has K {u, v} ↔ v < n)) {inc : Bool} (hinc : inc = true ∨ 2 ≤ n) {p : List (ℕ × ℕ)} (hp : IsComplexPairing (K.sort Simplex.lt) inc p) :
    ∃ dv de : ℕ → α, (∀ v < n, HasData K {v} (dv v)) ∧ (∀ v, 1 ≤ v → v < n → HasData K {0, v} (de v)) ∧
      (diagramPoints inf (K.sort Simplex.lt) 0 p).Perm ((dv 0, inf) :: (List.range (n - 1)).map fun k => (dv (k + 1), de (k + 1))) := by
  have hF := sortLex_filtration hK hc
  have hperm := sort_perm K Simplex.lt
  have hlex : ∀ {i j : ℕ}, i < j → ∀ {s t : Simplex α}, (K.sort Simplex.lt)[i]? = some s → (K.sort Simplex.lt)[j]? = some t →
      Simplex.lexLt s.vertices t.vertices = true := fun hij => sortLex_lt hK hij
  have hlen' : (K.sort Simplex.lt).length ≤ idxMax := by rw [hperm.length_eq]; exact hlen
  generalize K.sort Simplex.lt = L at hF hperm hlex hlen' hp
  have hW := hF.wf
  have hf := pairFacts hF hlen'
  have hhas : ∀ t, Has L t ↔ Has K t := fun t => exists_congr fun s => and_congr_left fun _ => hperm.mem_iff
  have hpos : ∀ v, v < n → ∃ i, vsetAt L i = {v} := fun v h => (has_iff_at (by simp)).1 ((hhas _).2 ((hv v).2 h))
  have hepos : ∀ v, 1 ≤ v ∧ v < n → ∃ i, vsetAt L i = {0, v} := fun v h => (has_iff_at (by simp)).1 ((hhas _).2 ((he 0 v (by omega)).2 h.2))
  choose! pos hpos using hpos
  choose! epos hepos using hepos
  -- the order of vertices
  have hord : ∀ v w i, v < n → vsetAt L i = {w} → i < pos v → w < v := by
    intro v w i hvn hi hlt
    obtain ⟨s, s1, s2, s3⟩ := simplex_at (by simp) hi
    obtain ⟨t, t1, t2, t3⟩ := simplex_at (by simp) (hpos v hvn)
    have := hlex hlt s1 t1
    rw [vertices_single hW s2 s3, vertices_single hW t2 t3] at this
    simp only [Simplex.lexLt] at this
    by_contra hge
    rw [if_neg hge] at this
    split at this <;> cases this
  have hold : ∀ v, 1 ≤ v → v < n → OldestAt L (epos v) (pos v) ∧ ¬ OldestAt L (epos v + 1) (pos v) := by
    intro v h1v hvn
    constructor
    · refine ⟨v, hpos v hvn, fun i' w hi' hj => ?_⟩
      have hiso : v = v ↔ w = v := by
        refine eqvGen_isolated ?_ hj
        rintro a b ⟨hab, k, hk, hs⟩
        have key : ∀ x y, x < y → vsetAt L k = {x, y} → x ≠ v ∧ y ≠ v := by
          intro x y hxy hs
          obtain ⟨s, s1, s2, s3⟩ := simplex_at (by simp) hs
          obtain ⟨t, t1, t2, t3⟩ := simplex_at (by simp) (hepos v ⟨h1v, hvn⟩)
          have := hlex hk s1 t1
          rw [vertices_pair hW s2 hxy s3, vertices_pair hW t2 (by omega) t3] at this
          simp only [Simplex.lexLt] at this
          by_cases hyv : y < v
          · omega
          · rw [if_neg hyv] at this
            split at this
            · cases this
            · rw [if_neg (by omega)] at this
              split at this <;> cases this
        rcases Nat.lt_or_gt_of_ne hab with h | h
        · exact key a b h hs
        · rw [pair_comm] at hs
          exact (key b a h hs).symm
      have hwv := hiso.1 rfl
      subst hwv
      exact le_of_eq (vsetAt_unique hW (by simp) (hpos w hvn) hi')
    · rintro ⟨v', hv', ho⟩
      rw [hpos v hvn] at hv'
      cases singleton_injective hv'
      have hle := ho (pos 0) 0 (hpos 0 h1) (.symm _ _ (.rel _ _ ⟨by omega, epos v, by omega, hepos v ⟨h1v, hvn⟩⟩))
      rcases Nat.lt_or_ge (pos v) (pos 0) with h | h
      · exact absurd (hord 0 v (pos v) h1 (hpos v hvn) h) (by omega)
      · have e : pos v = pos 0 := by omega
        have := hpos v hvn
        rw [e, hpos 0 h1] at this
        exact absurd (singleton_injective this) (by omega)
  have hpair : ∀ v, 1 ≤ v → v < n → PersPair (facets L) (pos v) (epos v) := fun v h h' => (persPair_vertex_iff hW hF.closed (hpos v h')).2 (hold v h h')
  have hunp : Unpaired (facets L) L.length (pos 0) := by
    refine (unpaired_vertex_iff hF hlen' (hpos 0 h1)).2 ⟨0, hpos 0 h1, fun i' w hi' _ => ?_⟩
    by_contra hlt
    exact absurd (hord 0 w i' h1 hi' (by omega)) (by omega)
  have hdim : ∀ v < n, dimAt L (pos v) = 0 := fun v hvn => ((dimAt_zero_iff hW).2 ⟨v, hpos v hvn⟩).2
  have hinj : ∀ v < n, ∀ w < n, pos v = pos w → v = w := by
    intro v hvn w hwn e
    have := hpos v hvn
    rw [e, hpos w hwn] at this
    exact (singleton_injective this).symm
  have hfilter : (p.filter fun ij => dimAt L ij.1 = 0).Perm ((pos 0, idxMax) :: (List.range (n - 1)).map fun k => (pos (k + 1), epos (k + 1))) := by
    rw [List.perm_ext_iff_of_nodup (hp.1.filter _)]
    · rintro ⟨i, j⟩
      rw [List.mem_filter, hp.2.2, List.mem_cons, List.mem_map]
      simp only [decide_eq_true_eq, Prod.mk.injEq, List.mem_range]
      constructor
      · rintro ⟨hij, hd⟩
        have hi : i < L.length := by
          rcases hij with h | h
          · exact (hf.lt _ _ h).1
          · exact h.2.1.1
        obtain ⟨v, hvv⟩ := (dimAt_zero_iff hW).1 ⟨hi, hd⟩
        have hvn : v < n := (hv v).1 ((hhas _).1 ((has_iff_at (by simp)).2 ⟨i, hvv⟩))
        obtain rfl : i = pos v := vsetAt_unique hW (by simp) hvv (hpos v hvn)
        rcases Nat.eq_zero_or_pos v with rfl | hv0
        · rcases hij with h | h
          · exact absurd h (hunp.2 j).1
          · exact .inl ⟨rfl, h.1⟩
        · rcases hij with h | h
          · refine .inr ⟨v - 1, by omega, by rw [Nat.sub_add_cancel hv0], ?_⟩
            rw [Nat.sub_add_cancel hv0]
            exact hf.snd _ _ _ (hpair v hv0 hvn) h
          · exact absurd (hpair v hv0 hvn) (h.2.1.2 _).1
      · rintro (⟨rfl, rfl⟩ | ⟨k, hk, rfl, rfl⟩)
        · refine ⟨.inr ⟨rfl, hunp, hinc.imp_right fun h2 => ⟨epos 1, lt_of_vsetAt (by simp) (hepos 1 ⟨le_rfl, h2⟩), ?_⟩⟩, hdim 0 h1⟩
          rw [hdim 0 h1]
          unfold dimAt
          rw [hepos 1 ⟨le_rfl, h2⟩]
          decide
        · exact ⟨.inl (hpair (k + 1) (by omega) (by omega)), hdim (k + 1) (by omega)⟩
    · rw [List.nodup_cons]
      constructor
      · rw [List.mem_map]
        rintro ⟨k, hk, hkk⟩
        rw [List.mem_range] at hk
        have := hinj (k + 1) (by omega) 0 h1 (Prod.mk.inj hkk).1
        omega
      · refine List.Nodup.map_on ?_ List.nodup_range
        intro a ha b hb hab
        rw [List.mem_range] at ha hb
        have := hinj (a + 1) (by omega) (b + 1) (by omega) (Prod.mk.inj hab).1
        omega
  have hdata : ∀ i s, s.Nonempty → vsetAt L i = s → HasData K s (dataD inf L i) := by
    intro i s hs hi
    obtain ⟨t, t1, t2, t3⟩ := simplex_at hs hi
    exact ⟨t, hperm.mem_iff.1 t2, t3, by simp [dataD, t1]⟩
  refine ⟨fun v => dataD inf L (pos v), fun v => dataD inf L (epos v), fun v hvn => hdata _ _ (by simp) (hpos v hvn), fun v h1v hvn => hdata _ _ (by simp) (hepos v ⟨h1v, hvn⟩), ?_⟩
  have hltp : ∀ ij ∈ p, ij.1 < L.length := by
    rintro ⟨i, j⟩ hij
    rcases (hp.2.2 i j).1 hij with h | h
    · exact (hf.lt _ _ h).1
    · exact h.2.1.1
  rw [diagramPoints_eq_map inf hltp]
  refine (hfilter.map _).trans (List.Perm.of_eq ?_)
  rw [List.map_cons, List.map_map]
  refine congrArg₂ _ ?_ rfl
  simp [dataD, List.getElem?_eq_none hlen']

/-- The points of dimension zero of a connected graph whose vertices have the same data, for any order of its simplices: the weights of the edges of a spanning tree. -/
theorem points_tree_eq (inf : α) {K : Complex α} (hL : IsFiltration K) (hlen : K.length ≤ idxMax) {n : ℕ} (h1 : 1 ≤ n) {G : ℕ → ℕ → Prop} (hv : ∀ v, Has K {v} ↔ v < n)
    (he : ∀ u v, u < v → (Has K {u, v} ↔ G u v)) (hG : ∀ u v, G u v → u < v) (hc : ∀ a < n, ∀ b < n, Relation.EqvGen G a b) {w0 : α} {w : ℕ → ℕ → α}
    (hw0 : ∀ v x, HasData K {v} x → x = w0) (hw : ∀ u v x, u < v → HasData K {u, v} x → x = w u v) {inc : Bool} (hinc : inc = true ∨ 2 ≤ n) {p : List (ℕ × ℕ)}
    (hp : IsComplexPairing K inc p) :
    SpanningTree n G (tree K p) ∧ (diagramPoints inf K 0 p).Perm ((w0, inf) :: (tree K p).map fun e => (w0, w e.1 e.2)) := by
  have hW := hL.wf
  have hf := pairFacts hL hlen
  have hT := tree_spanning hL hlen hp h1 hv he hG hc
  refine ⟨hT, ?_⟩
  have hdata : ∀ i s, s.Nonempty → vsetAt K i = s → HasData K s (dataD inf K i) := by
    intro i s hs hi
    obtain ⟨t, t1, t2, t3⟩ := simplex_at hs hi
    exact ⟨t, t2, t3, by simp [dataD, t1]⟩
  have hjoin : ∀ a < n, ∀ b < n, Joined K K.length a b := by
    intro a ha b hb
    refine eqvGen_congr ?_ (hc a ha b hb)
    intro x y hxy
    obtain ⟨k, hk⟩ := (has_iff_at (by simp)).1 ((he x y (hG x y hxy)).2 hxy)
    exact .rel _ _ ⟨ne_of_lt (hG x y hxy), k, lt_of_vsetAt (by simp) hk, hk⟩
  -- the first vertex
  have hex : ∃ i, ∃ v, vsetAt K i = {v} := by
    obtain ⟨i, hi⟩ := (has_iff_at (by simp)).1 ((hv 0).2 h1)
    exact ⟨i, 0, hi⟩
  classical
  obtain ⟨v0, hv0⟩ := Nat.find_spec hex
  have hmin : ∀ i v, vsetAt K i = {v} → Nat.find hex ≤ i := fun i v h => Nat.find_min' hex ⟨v, h⟩
  generalize Nat.find hex = i0 at hv0 hmin
  have hlt0 : v0 < n := (hv v0).1 ((has_iff_at (by simp)).2 ⟨i0, hv0⟩)
  have hun : ∀ i, dimAt K i = 0 → (Unpaired (facets K) K.length i ↔ i = i0) := by
    intro i hd
    constructor
    · intro hu
      obtain ⟨v, hvv⟩ := (dimAt_zero_iff hW).1 ⟨hu.1, hd⟩
      obtain ⟨v', hv', ho⟩ := (unpaired_vertex_iff hL hlen hvv).1 hu
      have hvn : v' < n := (hv v').1 ((has_iff_at (by simp)).2 ⟨i, hv'⟩)
      exact le_antisymm (ho i0 v0 hv0 (hjoin _ hvn _ hlt0)) (hmin i v hvv)
    · rintro rfl
      exact (unpaired_vertex_iff hL hlen hv0).2 ⟨v0, hv0, fun i' w hi' _ => hmin i' w hi'⟩
  have hd0 : dimAt K i0 = 0 := ((dimAt_zero_iff hW).2 ⟨v0, hv0⟩).2
  have hm : ∀ ij ∈ merges K p, dataD inf K ij.1 = w0 ∧ dataD inf K ij.2 = w (edgeAt K ij.2).1 (edgeAt K ij.2).2 := by
    intro ij hij
    obtain ⟨d0, h⟩ := (mem_merges hL hlen hp).1 hij
    obtain ⟨v, hvv⟩ := (dimAt_zero_iff hW).1 ⟨(hf.lt _ _ h).1, d0⟩
    refine ⟨hw0 _ _ (hdata _ _ (by simp) hvv), ?_⟩
    have hin : edgeAt K ij.2 ∈ tree K p := List.mem_map_of_mem hij
    have hlt := hG _ _ (hT.edges _ hin)
    rcases edgeAt_spec hW (k := ij.2) with ⟨g1, g2⟩ | ⟨g1, -⟩
    · exact hw _ _ _ g1 (hdata _ _ (by simp) g2)
    · rw [g1] at hlt
      exact absurd hlt (lt_irrefl _)
  have hfilter : (p.filter fun ij => dimAt K ij.1 = 0).Perm ((i0, idxMax) :: merges K p) := by
    refine (List.perm_ext_iff_of_nodup (hp.1.filter _) ?_).2 ?_
    · rw [List.nodup_cons]
      refine ⟨fun h => ?_, hp.1.filter _⟩
      have := (hf.lt _ _ ((mem_merges hL hlen hp).1 h).2).2.1
      simp only at this
      omega
    · rintro ⟨i, j⟩
      rw [List.mem_filter, hp.2.2, List.mem_cons, mem_merges hL hlen hp]
      simp only [decide_eq_true_eq, Prod.mk.injEq]
      constructor
      · rintro ⟨h | h, hd⟩
        · exact .inr ⟨hd, h⟩
        · exact .inl ⟨(hun i hd).1 h.2.1, h.1⟩
      · rintro (⟨rfl, rfl⟩ | ⟨hd, h⟩)
        · refine ⟨.inr ⟨rfl, (hun _ hd0).2 rfl, hinc.imp_right fun h2 => ?_⟩, hd0⟩
          have hne : tree K p ≠ [] := by
            intro h0
            have := hT.size
            rw [h0] at this
            simp at this
            omega
          obtain ⟨e, hee⟩ := List.exists_mem_of_ne_nil _ hne
          obtain ⟨ij, hij, -⟩ := List.mem_map.1 hee
          obtain ⟨d0, h⟩ := (mem_merges hL hlen hp).1 hij
          have := (hf.lt _ _ h)
          exact ⟨ij.2, this.2.1, by rw [hd0, ← this.2.2]; omega⟩
        · exact ⟨.inl h, hd⟩
  have hltp : ∀ ij ∈ p, ij.1 < K.length := by
    rintro ⟨i, j⟩ hij
    rcases (hp.2.2 i j).1 hij with h | h
    · exact (hf.lt _ _ h).1
    · exact h.2.1.1
  rw [diagramPoints_eq_map inf hltp]
  refine (hfilter.map _).trans (List.Perm.of_eq ?_)
  rw [List.map_cons]
  refine congrArg₂ _ ?_ ?_
  · rw [hw0 _ _ (hdata _ _ (by simp) hv0)]
    simp [dataD, List.getElem?_eq_none hlen]
  · unfold tree
    rw [List.map_map]
    refine List.map_congr_left fun ij hij => ?_
    simp only [Function.comp, (hm ij hij).1, (hm ij hij).2]

theorem points_tree (inf : α) {K : Complex α} (hL : IsFiltration K) (hlen : K.length ≤ idxMax) {n : ℕ} (h1 : 1 ≤ n) {G : ℕ → ℕ → Prop} (hv : ∀ v, Has K {v} ↔ v < n)
    (he : ∀ u v, u < v → (Has K {u, v} ↔ G u v)) (hG : ∀ u v, G u v → u < v) (hc : ∀ a < n, ∀ b < n, Relation.EqvGen G a b) {w0 : α} {w : ℕ → ℕ → α}
    (hw0 : ∀ v x, HasData K {v} x → x = w0) (hw : ∀ u v x, u < v → HasData K {u, v} x → x = w u v) {inc : Bool} (hinc : inc = true ∨ 2 ≤ n) {p : List (ℕ × ℕ)}
    (hp : IsComplexPairing K inc p) :
    ∃ T, SpanningTree n G T ∧ (diagramPoints inf K 0 p).Perm ((w0, inf) :: T.map fun e => (w0, w e.1 e.2)) :=
  ⟨_, points_tree_eq inf hL hlen h1 hv he hG hc hw0 hw hinc hp⟩

end Aleph
