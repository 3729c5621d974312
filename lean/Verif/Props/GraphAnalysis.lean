import Verif.Lemmas.FlagLevels
import Verif.Model.GraphAnalysis
import Verif.Props.Degrees
import Verif.Props.Filesystem
import Verif.Props.Utilities
import Verif.Spec.GraphAnalysis

/-!
# C170: the tool `graph_analysis`
-/

namespace Aleph.GraphAnalysis

open Finset Spec Rips NetworkAnalysis

/-! ### Degrees and weights -/

theorem maxDegree_spec (ds : List ℕ) : IsGreatest {y | y = 0 ∨ y ∈ ds} (maxDegree ds) := by
  cases ds with
  | nil => simp [maxDegree, IsGreatest, upperBounds]
  | cons d ds =>
    have key : ∀ (l : List ℕ) (m : ℕ), IsGreatest {y | y = m ∨ y ∈ l} (l.foldl (fun m x => if m < x then x else m) m) := by
      intro l
      induction l with
      | nil => intro m; simp [IsGreatest, upperBounds]
      | cons x l ih =>
        intro m
        simp only [List.foldl_cons]
        obtain ⟨h1, h2⟩ := ih (if m < x then x else m)
        refine ⟨?_, ?_⟩
        · rcases h1 with h1 | h1
          · rw [h1]
            split
            · exact Or.inr List.mem_cons_self
            · exact Or.inl rfl
          · exact Or.inr (List.mem_cons_of_mem _ h1)
        · have hle := h2 (Or.inl rfl)
          rintro y (rfl | hy)
          · refine le_trans ?_ hle
            split <;> omega
          · rcases List.mem_cons.1 hy with rfl | hy
            · refine le_trans ?_ hle
              split <;> omega
            · exact h2 (Or.inr hy)
    obtain ⟨h1, h2⟩ := key ds d
    refine ⟨Or.inr (List.mem_cons.2 h1), ?_⟩
    rintro y (rfl | hy)
    · exact Nat.zero_le _
    · exact h2 (List.mem_cons.1 hy)

/-- A simplex without weight if it is a vertex. -/
def zeroed (s : Simplex ℕ) : Simplex ℕ := if Complex.dim s = 0 then s.withData 0 else s

theorem zeroed_vertices (s : Simplex ℕ) : (zeroed s).vertices = s.vertices := by
  unfold zeroed
  split <;> rfl

theorem zeroed_vset (s : Simplex ℕ) : (zeroed s).vset = s.vset := by
  unfold Simplex.vset
  rw [zeroed_vertices]

theorem zeroed_map (K : Complex ℕ) : (K.map zeroed).map (·.vertices) = K.map (·.vertices) := by
  rw [List.map_map]
  exact List.map_congr_left fun s _ => zeroed_vertices s

theorem replace_same {K : Complex ℕ} (hK : WF K) {n : ℕ} {s : Simplex ℕ} (h : K[n]? = some s) (d : ℕ) :
    K.replace n (s.withData d) = some (K.set n (s.withData d), true) := by
  have hlt : n < K.length := by
    by_contra hge
    rw [List.getElem?_eq_none (not_lt.1 hge)] at h
    cases h
  refine (C22_replace K hK n (s.withData d) hlt (hK.nonempty s (List.mem_of_getElem? h))).2 ?_
  rintro ⟨j, t, hj, ht, he⟩
  have hd := hK.distinct
  rw [List.nodup_iff_getElem?_ne_getElem?] at hd
  have e1 : (K.map (·.vertices))[j]? = some s.vertices := by
    have ht' : K[j]? = some t := ht
    rw [List.getElem?_map, ht']
    simpa [Simplex.eq, Simplex.withData] using he
  have e2 : (K.map (·.vertices))[n]? = some s.vertices := by
    rw [List.getElem?_map, h]
    rfl
  rcases lt_or_gt_of_ne hj with h' | h'
  · exact hd j n h' (by rw [List.length_map]; exact hlt) (e1.trans e2.symm)
  · exact hd n j h' (by
      by_contra hge
      rw [List.getElem?_eq_none (not_lt.1 hge)] at e1
      cases e1) (e2.trans e1.symm)

theorem zeroVertices_eq {K : Complex ℕ} (hK : WF K) : zeroVertices K = .ok (K.map zeroed) := by
  unfold zeroVertices
  generalize hf : (fun (K : Complex ℕ) i =>
      match K[i]? with
      | none => Except.error Failure.undefined
      | some s =>
        if Complex.dim s = 0 then
          match K.replace i (s.withData 0) with
          | none => .error .exception
          | some (L, success) => if success then .ok L else .error .exception
        else .ok K) = f
  have key : ∀ n ≤ K.length, (List.range n).foldlM f K = .ok ((K.take n).map zeroed ++ K.drop n) := by
    intro n
    induction n with
    | zero => intro _; simp [pure, Except.pure]
    | succ n ih =>
      intro hn
      rw [List.range_succ, List.foldlM_append, ih (by omega)]
      simp only [bind, Except.bind, List.foldlM_cons, List.foldlM_nil]
      have hlt : n < K.length := by omega
      have hlen : ((K.take n).map zeroed).length = n := by simp; omega
      have hget : ((K.take n).map zeroed ++ K.drop n)[n]? = some K[n] := by
        rw [List.getElem?_append_right (by omega), hlen, Nat.sub_self, List.getElem?_drop, Nat.add_zero, List.getElem?_eq_getElem hlt]
      have htake : (K.take (n + 1)).map zeroed = (K.take n).map zeroed ++ [zeroed K[n]] := by
        rw [List.take_add_one, List.getElem?_eq_getElem hlt, List.map_append]
        rfl
      have hdrop : K.drop n = K[n] :: K.drop (n + 1) := List.drop_eq_getElem_cons hlt
      have hwf : WF ((K.take n).map zeroed ++ K.drop n : Complex ℕ) := by
        refine hK.of_map_vertices (List.Perm.of_eq ?_)
        rw [List.map_append, zeroed_map, ← List.map_append, List.take_append_drop]
      have hstep : f ((K.take n).map zeroed ++ K.drop n) n = .ok ((K.take (n + 1)).map zeroed ++ K.drop (n + 1)) := by
        rw [← hf]
        simp only [hget]
        by_cases hz : Complex.dim K[n] = 0
        · rw [if_pos hz, replace_same hwf hget]
          simp only [if_true]
          rw [List.set_append_right _ _ (by omega), hlen, Nat.sub_self, hdrop, htake, List.set_cons_zero]
          simp [zeroed, hz]
        · rw [if_neg hz, htake, hdrop]
          simp [zeroed, hz]
      rw [hstep]
      rfl
  have := key K.length le_rfl
  rw [List.take_length, List.drop_length, List.append_nil] at this
  exact this

/-! ### The filtration -/

/-- The complex is a graph. -/
def _root_.Aleph.Spec.IsGraph {α : Type} (G : Complex α) : Prop := WF G ∧ FaceClosed G ∧ ∀ s ∈ G, #s.vset ≤ 2

/-- No vertex is isolated. -/
def _root_.Aleph.Spec.NoIsolated {α : Type} (G : Complex α) : Prop := ∀ v, Has G {v} → 0 < degree (sets G) v

theorem edgeClosed {α : Type} {G : Complex α} (h : IsGraph G) : EdgeClosed G := by
  rintro u v huv ⟨s, hs, hv⟩
  exact h.2.1 s hs {u} (by rw [hv]; simp) (by simp)

theorem degree_pos {α : Type} {G : Complex α} (h : IsGraph G) {v : ℕ} (hv : 0 < degree (sets G) v) : Has G {v} := by
  obtain ⟨t, ht⟩ := card_pos.1 hv
  obtain ⟨h1, h2, -⟩ := mem_filter.1 ht
  obtain ⟨s, hs, rfl⟩ := mem_sets.1 h1
  exact h.2.1 s hs {v} (singleton_subset_iff.2 h2) (singleton_nonempty v)

theorem expandGraph_spec (c : Context) (o : Orders ℕ) {G : Complex ℕ} (hG : IsGraph G) {rest : List (List Char)} {k : ℕ} (hk : IsExpansionArgument c.stoul rest k) :
    ∃ L, expandGraph c o G rest = .ok L ∧ WF L ∧ FaceClosed L ∧ ∀ t, Has L t ↔ t ∈ cliquesUpTo G k := by
  rcases hk with ⟨rfl, rfl⟩ | ⟨word, more, rfl, hk⟩
  · refine ⟨G, rfl, hG.1, hG.2.1, fun t => ?_⟩
    rw [mem_cliquesUpTo]
    constructor
    · rintro ⟨s, hs, rfl⟩
      refine ⟨hG.1.vset_nonempty hs, hG.2.2 s hs, fun v hv => hG.2.1 s hs _ (singleton_subset_iff.2 hv) (singleton_nonempty v), fun u hu v hv _ => ?_⟩
      exact hG.2.1 s hs _ (insert_subset hu (singleton_subset_iff.2 hv)) (insert_nonempty _ _)
    · rintro ⟨h1, h2, h3, h4⟩
      have := h1.card_pos
      rcases (show #t = 1 ∨ #t = 2 by omega) with h | h
      · obtain ⟨v, rfl⟩ := card_eq_one.1 h
        exact h3 v (by simp)
      · obtain ⟨u, v, huv, rfl⟩ := card_eq_two.1 h
        exact h4 u (by simp) v (by simp) huv
  · obtain ⟨L, e, h1, h2, -⟩ := C26_cliques o 0 G hG.1 (edgeClosed hG) k
    refine ⟨L, ?_, h1, C26_faceClosed o 0 G hG.1 (edgeClosed hG) k L e, fun t => ?_⟩
    · unfold expandGraph
      simp only [hk, e]
    · rw [h2, mem_cliquesUpTo]

/-- The degrees are in the order of the vertices. -/
theorem degrees_eq {α : Type} {G : Complex α} (hG : IsGraph G) (hi : NoIsolated G) : Curvature.degrees G = G.vertices.map (degree (sets G)) := by
  obtain ⟨g1, g2⟩ := C22_vertices G hG.1
  refine C82_degrees_partial G hG.1 _ g1 fun v => ?_
  rw [g2]
  exact ⟨hi v, degree_pos hG⟩

theorem vertices_eq {G L : Complex ℕ} (hG : IsGraph G) (hL : WF L) {k : ℕ} (h : ∀ t, Has L t ↔ t ∈ cliquesUpTo G k) : G.vertices = L.vertices := by
  obtain ⟨g1, g2⟩ := C22_vertices G hG.1
  refine eq_vertices hL g1 fun v => ?_
  rw [g2, h, mem_cliquesUpTo]
  unfold IsClique
  simp [Has]

/-- The facts about the filtration that are used. -/
structure IsDegreeFiltration (G : Complex ℕ) (k : ℕ) (exempt : Bool) (N : Complex ℕ) : Prop where
  wf : WF N
  closed : FaceClosed N
  has : ∀ t, Has N t ↔ t ∈ cliquesUpTo G k
  data : ∀ s ∈ N, if exempt = true ∧ #s.vset = 1 then s.data = 0 else IsGreatest {y | ∃ v ∈ s.vset, y = degree (sets G) v} s.data

theorem filtration_spec (c : Context) (o : Orders ℕ) {G : Complex ℕ} (hG : IsGraph G) (hi : NoIsolated G) {rest : List (List Char)} {k : ℕ}
    (hk : IsExpansionArgument c.stoul rest k) (exempt : Bool) :
    ∃ L M N, expandGraph c o G rest = .ok L ∧ assignMaximumData 0 L (Curvature.degrees G) = some M ∧ zeroIf exempt M = .ok N ∧
      IsDegreeFiltration G k exempt N := by
  obtain ⟨L, e1, h1, h2, h3⟩ := expandGraph_spec c o hG hk
  obtain ⟨g1, g2⟩ := C22_vertices L h1
  have hdeg := degrees_eq hG hi
  rw [vertices_eq hG h1 h3] at hdeg
  obtain ⟨M, e2, m1, m2⟩ := C27_maximum_data 0 L h1 h2 L.vertices g1 g2 (Curvature.degrees G) (by rw [hdeg, List.length_map])
  have hMwf : WF M := h1.of_map_vertices (List.Perm.of_eq m1)
  have hMhas := has_of_map_vertices (List.Perm.of_eq m1)
  have hdata : ∀ s ∈ M, IsGreatest {y | ∃ v ∈ s.vset, y = degree (sets G) v} s.data := by
    intro s hs
    have hset : {y | y = 0 ∨ ∃ v ∈ s.vset, ∃ i : ℕ, L.vertices[i]? = some v ∧ (Curvature.degrees G)[i]? = some y} =
        {y | y = 0 ∨ ∃ v ∈ s.vset, y = degree (sets G) v} := by
      ext y
      have : ∀ v ∈ s.vset, (∃ i : ℕ, L.vertices[i]? = some v ∧ (Curvature.degrees G)[i]? = some y) ↔ y = degree (sets G) v := by
        intro v hv
        rw [hdeg]
        constructor
        · rintro ⟨i, a1, a2⟩
          rw [List.getElem?_map, a1] at a2
          exact (Option.some.inj a2).symm
        · rintro rfl
          have hvL : v ∈ L.vertices := by
            rw [g2]
            obtain ⟨t, ht, e⟩ := (hMhas s.vset).1 ⟨s, hs, rfl⟩
            exact h2 t ht {v} (by rw [e]; exact singleton_subset_iff.2 hv) (singleton_nonempty v)
          obtain ⟨i, hi, e⟩ := List.getElem_of_mem hvL
          refine ⟨i, by rw [List.getElem?_eq_getElem hi, e], by rw [List.getElem?_map, List.getElem?_eq_getElem hi, e]; rfl⟩
      constructor
      · rintro (h | ⟨v, hv, h⟩)
        · exact Or.inl h
        · exact Or.inr ⟨v, hv, (this v hv).1 h⟩
      · rintro (h | ⟨v, hv, h⟩)
        · exact Or.inl h
        · exact Or.inr ⟨v, hv, (this v hv).2 h⟩
    have hm := m2 s hs
    rw [hset] at hm
    refine ⟨?_, fun y hy => hm.2 (Or.inr hy)⟩
    rcases hm.1 with h | h
    · obtain ⟨v, hv⟩ := hMwf.vset_nonempty hs
      have := hm.2 (Or.inr ⟨v, hv, rfl⟩)
      exact ⟨v, hv, by omega⟩
    · exact h
  have hcl : ∀ N : Complex ℕ, (∀ t, Has N t ↔ Has L t) → FaceClosed N := by
    intro N hN s hs t hts htne
    obtain ⟨r, hr, e⟩ := (hN s.vset).1 ⟨s, hs, rfl⟩
    exact (hN t).2 (h2 r hr t (by rw [e]; exact hts) htne)
  cases exempt with
  | false =>
    refine ⟨L, M, M, e1, e2, rfl, hMwf, hcl M hMhas, fun t => (hMhas t).trans (h3 t), fun s hs => ?_⟩
    rw [if_neg (by simp)]
    exact hdata s hs
  | true =>
    have hp : ((M.map zeroed).map (·.vertices)).Perm (M.map (·.vertices)) := List.Perm.of_eq (zeroed_map M)
    have hNhas : ∀ t, Has (M.map zeroed) t ↔ Has L t := fun t => (has_of_map_vertices hp t).trans (hMhas t)
    refine ⟨L, M, M.map zeroed, e1, e2, zeroVertices_eq hMwf, hMwf.of_map_vertices hp, hcl _ hNhas, fun t => (hNhas t).trans (h3 t), fun s hs => ?_⟩
    obtain ⟨r, hr, rfl⟩ := List.mem_map.1 hs
    rw [zeroed_vset]
    have := card_eq_dim hMwf hr
    by_cases hz : Complex.dim r = 0
    · rw [if_pos ⟨rfl, by omega⟩, zeroed, if_pos hz]
      rfl
    · rw [if_neg (by omega), zeroed, if_neg hz]
      exact hdata r hr

section Filtration

variable {G : Complex ℕ} {k : ℕ} {exempt : Bool} {N : Complex ℕ}

theorem IsDegreeFiltration.le_iff (h : IsDegreeFiltration G k exempt N) {s : Simplex ℕ} (hs : s ∈ N) (x : ℕ) :
    s.data ≤ x ↔ (exempt = true ∧ #s.vset = 1) ∨ ∀ v ∈ s.vset, degree (sets G) v ≤ x := by
  have hd := h.data s hs
  split at hd
  · next hc => simp [hd, hc]
  · next hc =>
    rw [or_iff_right hc]
    constructor
    · exact fun hle v hv => (hd.2 ⟨v, hv, rfl⟩).trans hle
    · intro hall
      obtain ⟨v, hv, e⟩ := hd.1
      rw [e]
      exact hall v hv

theorem IsDegreeFiltration.monotone (h : IsDegreeFiltration G k exempt N) : Spec.Monotone N := by
  intro s hs t ht hst
  rw [h.le_iff hs]
  rcases (h.le_iff ht t.data).1 le_rfl with ⟨h1, h2⟩ | h1
  · have := (h.wf.vset_nonempty hs).card_pos
    have := card_le_card hst
    exact Or.inl ⟨h1, by omega⟩
  · exact Or.inr fun v hv => h1 v (hst hv)

theorem IsDegreeFiltration.sublevel (h : IsDegreeFiltration G k exempt N) (x : ℕ) : Spec.sublevel N x = degreeCliques G k exempt x := by
  ext t
  unfold Spec.sublevel degreeCliques
  rw [mem_sets, mem_filter, ← h.has]
  constructor
  · rintro ⟨s, hs, rfl⟩
    obtain ⟨k1, k2⟩ := List.mem_filter.1 hs
    exact ⟨⟨s, k1, rfl⟩, (h.le_iff k1 x).1 (of_decide_eq_true k2)⟩
  · rintro ⟨⟨s, hs, rfl⟩, h1⟩
    exact ⟨s, List.mem_filter.2 ⟨hs, decide_eq_true ((h.le_iff hs x).2 h1)⟩, rfl⟩

theorem IsDegreeFiltration.sets (h : IsDegreeFiltration G k exempt N) : Spec.sets N = cliquesUpTo G k := by
  ext t
  rw [mem_sets]
  exact h.has t

theorem IsDegreeFiltration.length (h : IsDegreeFiltration G k exempt N) : N.length ≤ #(cliquesUpTo G k) := by
  have hnd : (N.map Simplex.vset).Nodup := List.Nodup.map_on (fun s hs t ht he => h.wf.eq_of_vset hs ht he) h.wf.nodup
  have hcd := List.toFinset_card_of_nodup hnd
  rw [List.length_map] at hcd
  rw [← hcd]
  refine card_le_card fun t ht => ?_
  rw [List.mem_toFinset, List.mem_map] at ht
  obtain ⟨s, hs, rfl⟩ := ht
  exact (h.has _).1 ⟨s, hs, rfl⟩

theorem IsDegreeFiltration.value (h : IsDegreeFiltration G k exempt N) {s : Simplex ℕ} (hs : s ∈ N) : IsDegreeValue exempt G s.data := by
  have hd := h.data s hs
  split at hd
  · next hc => exact Or.inl ⟨hc.1, hd⟩
  · obtain ⟨v, hv, e⟩ := hd.1
    exact Or.inr ⟨v, (mem_cliquesUpTo.1 ((h.has _).1 ⟨s, hs, rfl⟩)).2.2.1 v hv, e⟩

end Filtration

/-! ### The output -/

/-- A text with a line for each pair of numbers. -/
def _root_.Aleph.Spec.IsTable (rows : List (ℕ × ℕ)) (text : List Char) : Prop :=
  ∃ lines, List.Forall₂ (fun p l => ∃ a b, IsUsualNotation p.1 a ∧ IsUsualNotation p.2 b ∧ l = a ++ ['\t'] ++ b ++ ['\n']) rows lines ∧ text = lines.flatten

theorem content_spec (infinity top : ℕ) (D : Diagram ℕ) : IsTable (D.points.map (closedBy 4294967295 infinity top)) (content infinity top D) := by
  refine ⟨D.points.map fun p => Utilities.decimal (closedBy 4294967295 infinity top p).1 ++ ['\t'] ++ Utilities.decimal (closedBy 4294967295 infinity top p).2 ++ ['\n'], ?_, ?_⟩
  · rw [List.forall₂_map_left_iff, List.forall₂_map_right_iff]
    exact List.forall₂_same.2 fun p _ => ⟨_, _, Utilities.decimal_spec _, Utilities.decimal_spec _, rfl⟩
  · unfold content
    rw [← List.flatMap_def]
    refine List.flatMap_congr fun p _ => ?_
    unfold closedBy Diagram.isUnpaired unsignedMax
    by_cases h : p.2 = 4294967295 ∧ 0 < infinity
    · rw [if_pos (by simpa using h), if_pos h]
      rfl
    · rw [if_neg (by simpa using h), if_neg h]
      rfl

theorem withSlash_spec {directory : List Char} (h : directory ≠ []) :
    withSlash directory = .ok (if directory.getLast? = some '/' then directory else directory ++ ['/']) := by
  unfold withSlash
  cases hl : directory.getLast? with
  | none => exact absurd (List.getLast?_eq_none_iff.1 hl) h
  | some last =>
    by_cases hs : last = '/'
    · simp [hs]
    · simp [hs]

theorem diagrams_run (c : Context) (o : Orders ℕ) (files : List Char → Option (List Char)) (s : Settings) (filename : List Char) (rest : List (List Char)) {G : Complex ℕ}
    {k top : ℕ} (hR : readGraph c files filename = .ok G) (hG : IsGraph G) (hi : NoIsolated G) (hk : IsExpansionArgument c.stoul rest k)
    (htop : IsGreatest {y | y = 0 ∨ ∃ v, y = degree (sets G) v} top) (hmax : top < 4294967295) (hsize : #(cliquesUpTo G k) ≤ idxMax)
    (hd : s.outputDirectory ≠ []) :
    ∃ Ds, diagrams c o files s filename rest = .ok (top, (if s.outputDirectory.getLast? = some '/' then s.outputDirectory else s.outputDirectory ++ ['/']), Ds) ∧
      IsDegreeAnalysis 4294967295 s.zeroWeights s.calculateLoops G k (Ds.map fun D => (D.dimension, if D.dimension = 0 then D.removeDiagonal.points else D.points)) := by
  obtain ⟨L, M, N, e1, e2, e3, hN⟩ := filtration_spec c o hG hi hk s.zeroWeights
  have hinf : ∀ t ∈ N, t.data ≠ unsignedMax := by
    intro t ht he
    have : t.data ≤ top := by
      rcases hN.value ht with ⟨-, h⟩ | ⟨v, -, h⟩
      · omega
      · exact htop.2 (Or.inr ⟨v, h⟩)
    unfold unsignedMax at he
    omega
  obtain ⟨Ds, d1, d2⟩ := sorted_flag hN.wf hN.closed hN.monotone (hN.length.trans hsize) hinf s.calculateLoops
  have hm : maxDegree (Curvature.degrees G) = top := by
    obtain ⟨m1, m2⟩ := maxDegree_spec (Curvature.degrees G)
    rw [degrees_eq hG hi] at m1 m2 ⊢
    refine le_antisymm ?_ ?_
    · rcases m1 with h | h
      · omega
      · obtain ⟨v, -, e⟩ := List.mem_map.1 h
        exact htop.2 (Or.inr ⟨v, e.symm⟩)
    · rcases htop.1 with h | ⟨v, h⟩
      · omega
      · by_cases h0 : degree (sets G) v = 0
        · omega
        · refine m2 (Or.inr ?_)
          rw [h]
          exact List.mem_map_of_mem (((C22_vertices G hG.1).2 v).2 (degree_pos hG (Nat.pos_of_ne_zero h0)))
  refine ⟨Ds, ?_, ?_, ?_, ?_, ?_, ?_⟩
  · unfold diagrams
    simp only [hR, bind, Except.bind, e1, e2, e3, withSlash_spec hd, d1, hm]
  · rw [List.map_map]
    exact d2.ascending
  · intro e
    rw [List.map_map, List.mem_map, ← hN.sets]
    exact d2.dimensions e
  · intro E hE p hp
    obtain ⟨D, hD, rfl⟩ := List.mem_map.1 hE
    have hp' : p ∈ D.points := by
      simp only at hp
      split at hp
      · exact (List.mem_filter.1 hp).1
      · exact hp
    obtain ⟨t, ht, v1, v2⟩ := d2.values D hD p hp'
    refine ⟨by rw [v1]; exact hN.value ht, v2.imp_right ?_⟩
    rintro ⟨u, hu, v3, v4⟩
    exact ⟨v4, by rw [v3]; exact hN.value hu⟩
  · intro E hE h0 p hp
    obtain ⟨D, hD, rfl⟩ := List.mem_map.1 hE
    simp only at h0 hp
    rw [if_pos h0] at hp
    simpa using (List.mem_filter.1 hp).2
  · intro E hE x y hxy
    obtain ⟨D, hD, rfl⟩ := List.mem_map.1 hE
    have hb := d2.counts D hD x y
    rw [hN.sublevel, hN.sublevel] at hb
    simp only
    split
    · convert hb using 1
      rw [Diagram.removeDiagonal, List.countP_filter]
      refine List.countP_congr fun q hq => ?_
      simp only [Bool.and_eq_true, decide_eq_true_eq, Bool.not_eq_true', decide_eq_false_iff_not]
      change (q.1 ≤ x ∧ (q.2 = 4294967295 ∨ y < q.2)) ∧ ¬ q.1 = q.2 ↔ q.1 ≤ x ∧ (q.2 = 4294967295 ∨ y < q.2)
      rw [and_iff_left_iff_imp]
      rintro ⟨h1, h2⟩ he
      obtain ⟨t, ht, v1, -⟩ := d2.values D hD q hq
      rcases h2 with h2 | h2
      · exact hinf t ht (by rw [← v1, he, h2]; rfl)
      · omega
    · exact hb

/-- C170. The tool writes a file for each diagram of the degree filtration of a graph without isolated vertices: the cliques in which no vertex has a degree above the threshold; with
`-z`, all vertices are present from the start.  Names consist of the directory, the name of the input without directories and extension, and the dimension; they are all different.
Each file is a table of the points. -/
theorem _root_.Aleph.C170_files_partial (c : Context) (o : Orders ℕ) (files : List Char → Option (List Char)) (opts : List Opt) (filename : List Char) (rest : List (List Char))
    (G : Complex ℕ) (k top : ℕ) (hR : readGraph c files filename = .ok G) (hG : IsGraph G) (hi : NoIsolated G) (hk : IsExpansionArgument c.stoul rest k)
    (htop : IsGreatest {y | y = 0 ∨ ∃ v, y = degree (sets G) v} top) (hmax : top < 4294967295) (hsize : #(cliquesUpTo G k) ≤ idxMax)
    (hd : (settings c opts).outputDirectory ≠ []) :
    ∃ Es fs directory stem extension name, main c o files opts (filename :: rest) = .ok (0, fs) ∧
      IsDegreeAnalysis 4294967295 (settings c opts).zeroWeights (settings c opts).calculateLoops G k Es ∧
      (directory = (settings c opts).outputDirectory ∨ directory = (settings c opts).outputDirectory ++ ['/']) ∧ directory.getLast? = some '/' ∧
      Files.Filename filename name ∧ Files.Extension name stem extension ∧ (fs.map Prod.fst).Nodup ∧
      List.Forall₂ (fun E f => (∃ number, IsUsualNotation E.1 number ∧ f.1 = directory ++ stem ++ "_d".toList ++ number ++ ".txt".toList) ∧
        IsTable (E.2.map (closedBy 4294967295 (settings c opts).infinity top)) f.2) Es fs := by
  obtain ⟨Ds, h1, h2⟩ := diagrams_run c o files (settings c opts) filename rest hR hG hi hk htop hmax hsize hd
  set s := settings c opts
  set directory := if s.outputDirectory.getLast? = some '/' then s.outputDirectory else s.outputDirectory ++ ['/'] with hdir
  obtain ⟨name, n1, n2⟩ := (C138_extension filename _ _).1 ⟨rfl, rfl⟩
  refine ⟨_, outputs s.infinity top directory filename Ds, directory, Filesystem.stem filename, Filesystem.extension filename, name, ?_, h2, ?_, ?_, n1, n2, ?_, ?_⟩
  · have h1' : diagrams c o files (settings c opts) filename rest = .ok (top, directory, Ds) := h1
    unfold main
    simp only [h1']
    rfl
  · rw [hdir]
    split
    · exact Or.inl rfl
    · exact Or.inr rfl
  · rw [hdir]
    split
    · assumption
    · simp
  · unfold outputs
    have hdist : Ds.Pairwise fun D E => D.dimension ≠ E.dimension := by
      have := h2.ascending
      rw [List.map_map, List.pairwise_map] at this
      exact this.imp fun h => ne_of_lt h
    rw [List.map_map, List.Nodup, List.pairwise_map]
    refine hdist.imp fun {D E} hne he => hne ?_
    have e : ∀ D : Diagram ℕ, (if D.dimension = 0 then D.removeDiagonal else D).dimension = D.dimension := by
      intro D
      split <;> rfl
    simp only [Function.comp, e] at he
    have := List.append_cancel_left (List.append_cancel_right he)
    have hv := (Utilities.decimal_spec D.dimension).2.2.1
    rw [this, (Utilities.decimal_spec E.dimension).2.2.1] at hv
    exact hv.symm
  · unfold outputs
    rw [List.forall₂_map_left_iff, List.forall₂_map_right_iff]
    refine List.forall₂_same.2 fun D _ => ?_
    have e : (if D.dimension = 0 then D.removeDiagonal else D).dimension = D.dimension := by split <;> rfl
    have e' : (if D.dimension = 0 then D.removeDiagonal else D).points = if D.dimension = 0 then D.removeDiagonal.points else D.points := by split <;> rfl
    refine ⟨⟨_, Utilities.decimal_spec D.dimension, ?_⟩, ?_⟩
    · simp only [e]
    · have := content_spec s.infinity top (if D.dimension = 0 then D.removeDiagonal else D)
      rw [e'] at this
      exact this

theorem degrees_length {α : Type} {G : Complex α} (hG : IsGraph G) {v : ℕ} (h1 : Has G {v}) (h2 : degree (sets G) v = 0) : (Curvature.degrees G).length < G.vertices.length := by
  obtain ⟨g1, g2⟩ := C22_vertices G hG.1
  rw [C82_degrees_partial G hG.1 (G.vertices.filter fun v => 0 < degree (sets G) v) (g1.filter _), List.length_map]
  · exact List.length_filter_lt_length_iff_exists.2 ⟨v, (g2 v).2 h1, by simp [h2]⟩
  · intro v
    rw [List.mem_filter, decide_eq_true_eq, g2, and_iff_right_iff_imp]
    exact degree_pos hG

theorem foldlM_none {β γ : Type} {f : β → γ → Option β} {l : List γ} {x : γ} (hx : x ∈ l) (h : ∀ b, f b x = none) (b : β) : l.foldlM f b = none := by
  induction l generalizing b with
  | nil => cases hx
  | cons y l ih =>
    rw [List.foldlM_cons]
    rcases List.mem_cons.1 hx with rfl | hx
    · rw [h]
      rfl
    · cases f b y with
      | none => rfl
      | some b' => exact ih hx b'

theorem assignData_none {α : Type} {L : Complex α} (hL : WF L) {values : List α} (h : values.length < L.vertices.length) (init : α) (f : α → α → α) : assignData L values init f = none := by
  obtain ⟨g1, g2⟩ := C22_vertices L hL
  have hlt : L.vertices.length - 1 < L.vertices.length := by omega
  obtain ⟨s, hs, e⟩ := (g2 _).1 (List.getElem_mem hlt)
  have hnd : L.vertices.Nodup := g1.imp fun h => ne_of_lt h
  have hv : s.vertices = [L.vertices[L.vertices.length - 1]] := by
    have hn : s.vertices.Nodup := (hL.normal s hs).imp fun h => ne_of_gt h
    have hc := List.toFinset_card_of_nodup hn
    have e' : s.vertices.toFinset = {L.vertices[L.vertices.length - 1]} := e
    rw [e', card_singleton] at hc
    obtain ⟨a, ha⟩ := List.length_eq_one_iff.1 hc.symm
    rw [ha] at e' ⊢
    simpa using e'
  unfold assignData
  refine foldlM_none hs (fun S => ?_) []
  have hidx : vertexToIndex L L.vertices[L.vertices.length - 1] = L.vertices.length - 1 := by
    have hnone : L.vertices.idxOf? L.vertices[L.vertices.length - 1] ≠ none := by
      rw [ne_eq, List.idxOf?_eq_none_iff]
      simp
    obtain ⟨i, hi⟩ := Option.ne_none_iff_exists'.1 hnone
    obtain ⟨hlt', hget, -⟩ := List.findIdx?_eq_some_iff_getElem.1 hi
    have : i = L.vertices.length - 1 := (hnd.getElem_inj_iff).1 (by simpa using hget)
    unfold vertexToIndex
    rw [hi, this]
    rfl
  rw [hv]
  simp only [List.foldlM_cons, hidx, List.getElem?_eq_none (show values.length ≤ L.vertices.length - 1 by omega), Option.map_none]
  rfl

theorem assign_none {L : Complex ℕ} (hL : WF L) {values : List ℕ} (h : values.length < L.vertices.length) : assignMaximumData 0 L values = none := assignData_none hL h 0 max

/-- C170, disagreement: as soon as there is an isolated vertex (from a line with two equal fields), the program reads values that do not exist. -/
theorem _root_.Aleph.C170_isolated (c : Context) (o : Orders ℕ) (files : List Char → Option (List Char)) (opts : List Opt) (filename : List Char) (rest : List (List Char))
    (G : Complex ℕ) (k : ℕ) (hR : readGraph c files filename = .ok G) (hG : IsGraph G) (hi : ¬ NoIsolated G) (hk : IsExpansionArgument c.stoul rest k) :
    main c o files opts (filename :: rest) = .error .undefined := by
  obtain ⟨L, e1, h1, -, h3⟩ := expandGraph_spec c o hG hk
  unfold NoIsolated at hi
  push Not at hi
  obtain ⟨v, v1, v2⟩ := hi
  have hlen := degrees_length hG v1 (by omega)
  rw [vertices_eq hG h1 h3] at hlen
  have hd : diagrams c o files (settings c opts) filename rest = .error .undefined := by
    unfold diagrams
    simp only [hR, bind, Except.bind, e1, assign_none h1 hlen]
  unfold main
  simp only [hd]

/-- C170, disagreement: an empty name of the output directory has no last character. -/
theorem _root_.Aleph.C170_empty_directory (c : Context) (o : Orders ℕ) (files : List Char → Option (List Char)) (opts : List Opt) (filename : List Char) (rest : List (List Char))
    (G : Complex ℕ) (k : ℕ) (hR : readGraph c files filename = .ok G) (hG : IsGraph G) (hi : NoIsolated G) (hk : IsExpansionArgument c.stoul rest k)
    (hd : (settings c opts).outputDirectory = []) : main c o files opts (filename :: rest) = .error .undefined := by
  obtain ⟨L, M, N, e1, e2, e3, -⟩ := filtration_spec c o hG hi hk (settings c opts).zeroWeights
  have hd : diagrams c o files (settings c opts) filename rest = .error .undefined := by
    unfold diagrams
    simp only [hR, bind, Except.bind, e1, e2, e3, hd, withSlash, List.getLast?_nil]
  unfold main
  simp only [hd]

/-! ### Options and files -/

/-- C170. Options: each of them sets what it describes; if an option is repeated, the last one counts. -/
theorem _root_.Aleph.C170_options (c : Context) (opts : List Opt) :
    settings c [] = ⟨2, "/tmp".toList, false, false⟩ ∧
    (∀ opt, settings c (opts ++ [opt]) =
      match opt with
      | .infinity factor => { settings c opts with infinity := c.convert factor }
      | .output directory => { settings c opts with outputDirectory := directory }
      | .loops => { settings c opts with calculateLoops := true }
      | .zero => { settings c opts with zeroWeights := true }
      | .unknown => settings c opts) := by
  refine ⟨rfl, fun opt => ?_⟩
  have : settings c (opts ++ [opt]) = setOption c (settings c opts) opt := by
    unfold settings
    rw [List.foldl_append]
    rfl
  rw [this]
  cases opt <;> rfl

/-- C170. Calls that fail: without arguments, the result is −1; files that cannot be opened, lines with a single field, and invalid dimensions are exceptions. -/
theorem _root_.Aleph.C170_failures (c : Context) (o : Orders ℕ) (files : List Char → Option (List Char)) (opts : List Opt) :
    main c o files opts [] = .ok (-1, []) ∧
    (∀ filename rest, files filename = none → main c o files opts (filename :: rest) = .error .exception) ∧
    (∀ filename rest text ls b T, files filename = some text → Lines text ls b → EdgeLines true Strings.isSpace ls T → (∃ ts ∈ T, ts.length < 2) →
      main c o files opts (filename :: rest) = .error .exception) ∧
    ∀ filename word more G, readGraph c files filename = .ok G → c.stoul word = none → main c o files opts (filename :: word :: more) = .error .exception := by
  have key : ∀ filename rest e, diagrams c o files (settings c opts) filename rest = .error e → main c o files opts (filename :: rest) = .error e := by
    intro filename rest e h
    unfold main
    simp only [h]
  refine ⟨rfl, fun filename rest h => key _ _ _ ?_, fun filename rest text ls b T h hl hT hshort => key _ _ _ ?_, fun filename word more G hR hk => key _ _ _ ?_⟩
  · unfold diagrams readGraph
    simp only [h, bind, Except.bind]
  · have := (C77_read_partial ({ readWeights := true, trimLines := true } : EdgeListReader.Options) c.convert c.convert [] text hl hT).1 hshort
    unfold diagrams readGraph
    simp only [h, this, bind, Except.bind]
  · unfold diagrams expandGraph
    simp only [hR, hk, bind, Except.bind]

theorem first_split {β : Type} {p : β → Prop} {l : List β} {x : β} (hx : x ∈ l) (hp : p x) : ∃ before y after, l = before ++ y :: after ∧ p y ∧ ∀ z ∈ before, ¬ p z := by
  classical
  induction l with
  | nil => cases hx
  | cons a l ih =>
    by_cases ha : p a
    · exact ⟨[], a, l, rfl, ha, by simp⟩
    · have hx' : x ∈ l := by
        rcases List.mem_cons.1 hx with rfl | h
        · exact absurd hp ha
        · exact h
      obtain ⟨b, y, c, h1, h2, h3⟩ := ih hx'
      refine ⟨a :: b, y, c, by rw [h1]; rfl, h2, fun z hz => ?_⟩
      rcases List.mem_cons.1 hz with rfl | hz
      · exact ha
      · exact h3 z hz

/-- C170. Edge lists are graphs: their vertices are the numbers that occur in the lines, their edges are the pairs of different ones; weights are ignored.  There are no isolated
vertices if no line joins a number with itself. -/
theorem _root_.Aleph.C170_edge_list (c : Context) (files : List Char → Option (List Char)) (filename text : List Char) (hf : files filename = some text)
    {ls : List (List Char)} {b : Bool} (hl : Lines text ls b) {T : List (List (List Char))} (hT : EdgeLines true Strings.isSpace ls T) (hlen : ∀ ts ∈ T, 2 ≤ ts.length) :
    ∃ G, readGraph c files filename = .ok G ∧ IsGraph G ∧
      (∀ t, Has G t ↔ ∃ e ∈ T.map (edgeOf c.convert (labelID (labelsOf T)) fun f => (f.map c.convert).getD 0), t = {e.1} ∨ t = {e.2.1} ∨ t = {e.1, e.2.1}) ∧
      ((∀ e ∈ T.map (edgeOf c.convert (labelID (labelsOf T)) fun f => (f.map c.convert).getD 0), e.1 ≠ e.2.1) → NoIsolated G) := by
  obtain ⟨M, K, e, hK, hdata, -⟩ :=
    (C77_read_partial ({ readWeights := true, trimLines := true } : EdgeListReader.Options) c.convert c.convert [] text hl hT).2 hlen
  have hlabel : (fun a => (List.lookup a ([] : List (List Char × ℕ))).getD (labelID ((labelsOf T).filter fun b => (List.lookup b ([] : List (List Char × ℕ))).isNone) a)) =
      labelID (labelsOf T) := by
    funext a
    simp
  refine ⟨K, by unfold readGraph; simp only [hf, e], ?_⟩
  rw [hlabel] at hdata
  simp only [if_true] at hdata
  generalize T.map (edgeOf c.convert (labelID (labelsOf T)) fun f => (f.map c.convert).getD 0) = E at hdata ⊢
  have hhas : ∀ t, Has K t ↔ ∃ e ∈ E, t = {e.1} ∨ t = {e.2.1} ∨ t = {e.1, e.2.1} := by
    intro t
    rw [has_iff_hasData]
    constructor
    · rintro ⟨w, hw⟩
      cases (hdata t w).1 hw with
      | vertex u v w x hmem hx => exact ⟨_, hmem, hx.elim (fun h => Or.inl (by rw [h])) fun h => Or.inr (Or.inl (by rw [h]))⟩
      | edge u v w before after he hne hb => exact ⟨(u, v, w), by rw [he]; simp, Or.inr (Or.inr rfl)⟩
    · rintro ⟨⟨u, v, w⟩, he, rfl | rfl | rfl⟩
      · exact ⟨0, (hdata _ _).2 (.vertex u v w u he (Or.inl rfl))⟩
      · exact ⟨0, (hdata _ _).2 (.vertex u v w v he (Or.inr rfl))⟩
      · by_cases huv : u = v
        · subst huv
          exact ⟨0, (hdata _ _).2 (by simpa using EdgeListData.vertex (E := E) u u w u he (Or.inl rfl))⟩
        · obtain ⟨before, ⟨u', v', w'⟩, after, h1, h2, h3⟩ := first_split (p := fun e : ℕ × ℕ × ℕ => ({e.1, e.2.1} : Finset ℕ) = {u, v}) he rfl
          simp only at h2
          refine ⟨w', (hdata _ _).2 ?_⟩
          simp only
          rw [← h2]
          refine .edge u' v' w' before after h1 ?_ fun e he => by rw [h2]; exact h3 e he
          rintro rfl
          have := congrArg Finset.card h2
          rw [card_pair huv] at this
          simp at this
  refine ⟨⟨hK.wf, hK.closed, fun s hs => ?_⟩, hhas, fun hne v hv => ?_⟩
  · obtain ⟨e, -, h | h | h⟩ := (hhas s.vset).1 ⟨s, hs, rfl⟩
    · simp [h]
    · simp [h]
    · rw [h]
      exact card_le_two
  · obtain ⟨e, he, hcase⟩ := (hhas {v}).1 hv
    have hve : v = e.1 ∨ v = e.2.1 := by
      rcases hcase with h | h | h
      · exact Or.inl (by simpa using h)
      · exact Or.inr (by simpa using h)
      · have := congrArg Finset.card h
        rw [card_pair (hne e he)] at this
        simp at this
    refine card_pos.2 ⟨{e.1, e.2.1}, mem_filter.2 ⟨mem_sets.2 ((hhas _).2 ⟨e, he, Or.inr (Or.inr rfl)⟩), ?_, ?_⟩⟩
    · rcases hve with h | h <;> simp [h]
    · rw [card_pair (hne e he)]

/-! ### Concrete graphs -/

/-- The number of a sequence of digits. -/
def number (word : List Char) : ℕ := word.foldl (fun n c => 10 * n + (c.toNat - 48)) 0

/-- Numbers without sign. -/
def demo : Context := ⟨number, fun word => some (number word)⟩

/-- A triangle with a further edge, and an edge with an isolated vertex. -/
def demoFiles (name : List Char) : Option (List Char) :=
  if name = "data/paw.txt".toList then some "0 1\n1 2\n2 0\n2 3\n".toList
  else if name = "loop.txt".toList then some "0 1\n2 2\n".toList
  else none

/-- The complex that is read from the first file. -/
def paw : Complex ℕ := [⟨[0], 0⟩, ⟨[1], 0⟩, ⟨[1, 0], 0⟩, ⟨[2], 0⟩, ⟨[2, 0], 0⟩, ⟨[2, 1], 0⟩, ⟨[3], 0⟩, ⟨[3, 2], 0⟩]

theorem paw_read : readGraph demo demoFiles "data/paw.txt".toList = .ok paw := by decide +kernel

/-- The hypotheses of `C170_files_partial` hold. -/
example : IsGraph paw ∧ NoIsolated paw ∧ IsGreatest {y | y = 0 ∨ ∃ v, y = degree (sets paw) v} 3 ∧ (settings demo []).outputDirectory ≠ [] := by
  refine ⟨⟨⟨by decide, by decide, by decide⟩, ?_, by decide⟩, ?_, ⟨Or.inr ⟨2, by decide +kernel⟩, ?_⟩, by decide⟩
  · have : ∀ s ∈ paw, ∀ t ∈ s.vset.powerset, t.Nonempty → ∃ u ∈ paw, u.vset = t := by decide +kernel
    exact fun s hs t ht => this s hs t (mem_powerset.2 ht)
  · rintro v ⟨s, hs, e⟩
    have : ∀ s ∈ paw, ∀ v ∈ s.vset, 0 < degree (sets paw) v := by decide +kernel
    exact this s hs v (by rw [e]; simp)
  · rintro y (rfl | ⟨v, rfl⟩)
    · omega
    · by_cases h : v ∈ (sets paw).biUnion id
      · have : ∀ v ∈ (sets paw).biUnion id, degree (sets paw) v ≤ 3 := by decide +kernel
        exact this v h
      · have : degree (sets paw) v = 0 := by
          refine card_eq_zero.2 (filter_eq_empty_iff.2 fun t ht hv => h ?_)
          exact mem_biUnion.2 ⟨t, ht, hv.1⟩
        omega

/-- The output for this graph: components by default, the cycle with `-l`, all vertices at the start with `-z`, the cycle is filled by a triangle in the last call. -/
example :
    main demo (Orders.default ℕ) demoFiles [] ["data/paw.txt".toList] = .ok (0, [("/tmp/paw_d0.txt".toList, "1\t6\n2\t3\n".toList)]) ∧
    main demo (Orders.default ℕ) demoFiles [.loops, .zero, .output "out/".toList] ["data/paw.txt".toList] =
      .ok (0, [("out/paw_d0.txt".toList, "0\t6\n0\t2\n0\t3\n0\t3\n".toList), ("out/paw_d1.txt".toList, "3\t6\n".toList)]) ∧
    main demo (Orders.default ℕ) demoFiles [.zero, .infinity ['0']] ["data/paw.txt".toList, ['2']] =
      .ok (0, [("/tmp/paw_d0.txt".toList, "0\t4294967295\n0\t2\n0\t3\n0\t3\n".toList), ("/tmp/paw_d1.txt".toList, "3\t3\n".toList)]) := by
  refine ⟨?_, ?_, ?_⟩ <;> decide +kernel

/-- A case of `C170_isolated`. -/
example : main demo (Orders.default ℕ) demoFiles [] ["loop.txt".toList] = .error .undefined := by decide +kernel

end Aleph.GraphAnalysis
