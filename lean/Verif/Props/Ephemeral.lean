import Verif.Lemmas.FlagLevels
import Verif.Lemmas.Options
import Verif.Model.Ephemeral
import Verif.Props.ConnectivityAnalysis
import Verif.Props.Filesystem
import Verif.Props.GraphAnalysis
import Verif.Props.Smoothing
import Verif.Props.Utilities
import Verif.Spec.Ephemeral

/-!
# C182: the tool `ephemeral`
-/

namespace Aleph.Ephemeral

open Finset Spec NetworkAnalysis
open Smoothing (lastValue_unique)

variable {α : Type}

/-! ### Lists of diagrams -/

theorem finset_initial {S : Finset ℕ} (h : ∀ e ∈ S, ∀ e' < e, e' ∈ S) : S = range #S := by
  classical
  obtain ⟨m, hm⟩ : ∃ m, m ∉ S := Infinite.exists_notMem_finset S
  have hex : ∃ m, m ∉ S := ⟨m, hm⟩
  have he : S = range (Nat.find hex) := by
    ext x
    rw [mem_range]
    constructor
    · intro hx
      by_contra hge
      rcases (not_lt.1 hge).eq_or_lt with h' | h'
      · exact Nat.find_spec hex (h' ▸ hx)
      · exact Nat.find_spec hex (h x hx _ h')
    · intro hx
      by_contra hn
      exact Nat.find_min hex hx hn
  have hc := congrArg card he
  rw [card_range] at hc
  rw [hc]
  exact he

theorem list_initial {l : List ℕ} (hs : l.Pairwise (· < ·)) (h : ∀ e ∈ l, ∀ e' < e, e' ∈ l) : l = List.range l.length := by
  have hnd : l.Nodup := hs.imp fun h => ne_of_lt h
  have hf := finset_initial (S := l.toFinset) (by simpa using h)
  rw [List.toFinset_card_of_nodup hnd] at hf
  have hp : l.Perm (List.range l.length) := by
    refine (List.perm_ext_iff_of_nodup hnd List.nodup_range).2 fun x => ?_
    rw [← List.mem_toFinset, hf, mem_range, List.mem_range]
  exact hp.eq_of_pairwise (fun a b _ _ h1 h2 => absurd h1 (not_lt.2 h2.le)) hs List.pairwise_lt_range

section Diagrams

variable [LinearOrder α] {G : Complex α} {k : ℕ} {L : Complex α}

theorem data_of (h : IsExpansion G (fun w => w) k L) {s : Simplex α} (hs : s ∈ L) : ∃ t, HasData G t s.data := by
  have hpos := (mem_cliquesUpTo.1 ((h.has _).1 ⟨s, hs, rfl⟩)).1.card_pos
  by_cases hc : #s.vset = 1
  · exact ⟨_, h.vertices s hs hc⟩
  · obtain ⟨u, -, v, -, -, w, hw, e⟩ := (h.weights s hs (by omega)).1
    rw [e]
    exact ⟨_, hw⟩

/-- The diagrams, by their positions. -/
theorem resized (h : IsExpansion G (fun w => w) k L) (hw : ∀ u v w, u ≠ v → HasData G {u, v} w → ∀ y, HasData G {u} y → y ≤ w) (hG : WF G) {inf : α}
    (hinf : ∀ t y, HasData G t y → y ≠ inf) (keep : Bool) {n : ℕ} (hn : (if keep then 1 else 0) + k ≤ n) :
    ∃ (Ds : List (Diagram α)) (points : ℕ → List (α × α)), calculatePersistenceDiagrams .twist .vector inf L true keep = some Ds ∧ dimensionsFit (resize n Ds) = true ∧ (resize n Ds).length = n ∧
      (∀ e < n, ((resize n Ds)[e]?).map (·.points) = some (points e)) ∧ ∀ e, IsMatrixDiagram inf keep G k e (points e) := by
  obtain ⟨p, Ds, p1, p2, p3⟩ := C51_pipeline inf L h.filt h.size keep
  have hinfL : ∀ s ∈ L, s.data ≠ inf := fun s hs => by
    obtain ⟨t, ht⟩ := data_of h hs
    exact hinf t _ ht
  have hlt : ∀ ij ∈ p, ij.1 < L.length := by
    rintro ⟨i, j⟩ hij
    rcases (p1.2.2 i j).1 hij with g | g
    · exact ((pairFacts h.filt h.size).lt _ _ g).1
    · exact g.2.1.1
  have hmk : ∀ e, diagramPoints inf L e p ≠ [] → e ∈ Ds.map (·.dimension) := fun e h => List.mem_map.2 ⟨⟨e, diagramPoints inf L e p⟩, (p2.2 _).2 ⟨h, rfl⟩, rfl⟩
  have hfirst : ∀ e, (∃ t ∈ cliquesUpTo G k, #t = e + 2) → e ∈ Ds.map (·.dimension) := by
    rintro e ⟨t, ht, hcard⟩
    have hne : t.Nonempty := card_pos.1 (by omega)
    obtain ⟨m, hm⟩ := (SpanningTree.has_iff_at hne).1 ((h.has t).2 ht)
    obtain ⟨i, j, hj, hdj, hif, -, hpair⟩ := first_pair h.filt.wf (d := e) ⟨m, lt_of_vsetAt hne hm, by rw [dimAt, hm, hcard]; omega⟩ h.filt.closed
    apply hmk
    rw [diagramPoints_eq_map inf hlt]
    simp only [ne_eq, List.map_eq_nil_iff]
    refine List.ne_nil_of_mem (a := (i, j)) (List.mem_filter.2 ⟨(p1.2.2 i j).2 (Or.inl hpair), ?_⟩)
    rw [decide_eq_true_eq]
    simp only [facets, mem_filter, mem_range] at hif
    unfold dimAt at hdj ⊢
    simp only
    omega
  have hcreator : ∀ e ∈ Ds.map (·.dimension), ∃ t ∈ cliquesUpTo G k, #t = e + 1 := by
    intro e he
    obtain ⟨D, hD, rfl⟩ := List.mem_map.1 he
    obtain ⟨hne, hpts⟩ := (p2.2 D).1 hD
    rw [diagramPoints_eq_map inf hlt] at hpts
    obtain ⟨q, hq⟩ := List.exists_mem_of_ne_nil _ hne
    rw [hpts, List.mem_map] at hq
    obtain ⟨⟨i, j⟩, hij, -⟩ := hq
    obtain ⟨hij, hdi⟩ := List.mem_filter.1 hij
    rw [decide_eq_true_eq] at hdi
    simp only at hdi
    have hi := hlt _ hij
    have hpos := (h.filt.wf.vset_nonempty (List.getElem_mem hi)).card_pos
    refine ⟨L[i].vset, (h.has _).1 ⟨L[i], List.getElem_mem hi, rfl⟩, ?_⟩
    simp only [dimAt, vsetAt, List.getElem?_eq_getElem hi] at hdi
    simp only at hpos ⊢
    omega
  have hsub : ∀ e e', e' < e → (∃ t ∈ cliquesUpTo G k, #t = e + 1) → ∃ t ∈ cliquesUpTo G k, #t = e' + 2 := by
    rintro e e' hlt ⟨t, ht, hcard⟩
    obtain ⟨u, hu, hu2⟩ := exists_subset_card_eq (show e' + 2 ≤ #t by omega)
    obtain ⟨a1, a2, a3, a4⟩ := mem_cliquesUpTo.1 ht
    exact ⟨u, mem_cliquesUpTo.2 ⟨card_pos.1 (by omega), (card_le_card hu).trans a2, fun v hv => a3 v (hu hv), fun x hx y hy => a4 x (hu hx) y (hu hy)⟩, hu2⟩
  have hrange := list_initial p2.1 fun e he e' hlt' => hfirst e' (hsub e e' hlt' (hcreator e he))
  rw [List.length_map] at hrange
  have hdims : keep = false → ∀ e, e ∈ Ds.map (·.dimension) → ∃ t ∈ cliquesUpTo G k, #t = e + 2 := by
    rintro rfl e he
    obtain ⟨t, ht, hc⟩ := (diagram_dimensions h.filt h.size p1 p2 e).1 (by simpa using List.mem_map.1 he)
    exact ⟨t, (h.has t).1 (mem_sets.1 ht), hc⟩
  have hbound : Ds.length ≤ n := by
    rcases Nat.eq_zero_or_pos Ds.length with h0 | h0
    · omega
    · have hmem : Ds.length - 1 ∈ Ds.map (·.dimension) := by
        rw [hrange, List.mem_range]
        omega
      cases keep with
      | true =>
        obtain ⟨t, ht, hc⟩ := hcreator _ hmem
        have := (mem_cliquesUpTo.1 ht).2.1
        simp only [if_true] at hn
        omega
      | false =>
        obtain ⟨t, ht, hc⟩ := hdims rfl _ hmem
        have := (mem_cliquesUpTo.1 ht).2.1
        simp only [Bool.false_eq_true, if_false] at hn
        omega
  have hres : resize n Ds = Ds ++ List.replicate (n - Ds.length) ⟨0, []⟩ := by
    unfold resize
    rw [List.take_append, List.take_of_length_le hbound, List.take_replicate, Nat.min_eq_left (Nat.sub_le _ _)]
  have hdim : ∀ e (he : e < Ds.length), Ds[e].dimension = e := by
    intro e he
    have := congrArg (fun l => l[e]?) hrange
    simpa [he] using this
  refine ⟨Ds, fun e => pointsOfDimension e Ds, p3 _ _ _, ?_, ?_, ?_, ?_⟩
  · rw [hres, dimensionsFit, List.all_eq_true]
    rintro ⟨D, i⟩ hD
    rw [List.mem_zipIdx_iff_getElem?] at hD
    simp only [Bool.or_eq_true, beq_iff_eq] 
    rcases Nat.lt_or_ge i Ds.length with hi | hi
    · rw [List.getElem?_append_left hi, List.getElem?_eq_getElem hi] at hD
      have hD := Option.some.inj hD
      simp only at hD
      rw [← hD]
      exact Or.inr (hdim i hi)
    · rw [List.getElem?_append_right hi] at hD
      have := List.mem_of_getElem? hD
      have he := List.eq_of_mem_replicate this
      simp only at he
      rw [he]
      exact Or.inl rfl
  · rw [hres, List.length_append, List.length_replicate]
    omega
  · intro e he
    simp only
    rw [hres, pointsOfDimension_eq p2]
    rcases Nat.lt_or_ge e Ds.length with hi | hi
    · rw [List.getElem?_append_left hi, List.getElem?_eq_getElem hi, Option.map_some, ((p2.2 Ds[e]).1 (List.getElem_mem hi)).2, hdim e hi]
    · rw [List.getElem?_append_right hi, List.getElem?_replicate, if_pos (by omega), Option.map_some]
      by_contra hne
      have := hmk e fun h0 => hne (by rw [h0])
      rw [hrange, List.mem_range] at this
      omega
  · intro e
    refine ⟨?_, ?_, ?_⟩
    · intro q hq
      unfold pointsOfDimension at hq
      obtain ⟨D, hD, hq⟩ := List.mem_flatMap.1 hq
      obtain ⟨s, hs, e1, e2⟩ := diagram_values h.filt h.size h.sorted p1 p2 (List.mem_filter.1 hD).1 hq
      rw [e1]
      refine ⟨data_of h hs, e2.imp_right ?_⟩
      rintro ⟨t, ht, e3, e4⟩
      rw [e3] at e4 ⊢
      exact ⟨e1 ▸ e4, data_of h ht⟩
    · intro hcase x y
      cases keep with
      | true =>
        have := C51_persistent_betti inf L h.filt h.size h.sorted hinfL .twist .vector true Ds (p3 _ _ _) e x y
        rwa [h.sublevel hw hG x, h.sublevel hw hG y] at this
      | false => exact h.count hw hG hinfL p1 p2 e (by simpa using hcase) x y
    · intro hk hnone
      simp only
      rw [pointsOfDimension_eq p2]
      by_contra hne
      exact hnone (hdims hk e (hmk e hne))

end Diagrams

/-! ### Graphs -/

section Graphs

variable [LinearOrder α]

theorem isGraph [Zero α] {f : α → α} {v0 : α} {rows : List (List α)} {G : Complex α} (hG : IsMatrixGraph f v0 rows G) (hc : FaceClosed G) : IsGraph G := by
  refine ⟨hG.1, hc, fun s hs => ?_⟩
  have hd := (hG.2 s.vset s.data).1 ⟨s, hs, rfl, rfl⟩
  generalize s.vset = t at hd
  generalize s.data = w at hd
  cases hd with
  | vertex i _ => simp
  | edge y x w h _ _ => rw [card_pair (by omega)]

theorem graph_vertex [Zero α] {f : α → α} {v0 : α} {rows : List (List α)} {G : Complex α} (hG : IsMatrixGraph f v0 rows G) {v : ℕ} {y : α} (h : HasData G {v} y) : y = v0 := by
  rw [hG.2] at h
  generalize ht : ({v} : Finset ℕ) = t at h
  cases h with
  | vertex i _ => rfl
  | edge y x w hlt _ _ =>
    have := congrArg card ht
    rw [card_singleton, card_pair (by omega)] at this
    omega

theorem graph_edge [Zero α] {f : α → α} {v0 : α} {rows : List (List α)} {G : Complex α} (hG : IsMatrixGraph f v0 rows G) {u v : ℕ} (huv : u ≠ v) {y : α} (h : HasData G {u, v} y) :
    ∃ a b w, a < b ∧ entry rows a b = some w ∧ w ≠ 0 ∧ y = f w := by
  rw [hG.2] at h
  generalize ht : ({u, v} : Finset ℕ) = t at h
  cases h with
  | vertex i _ =>
    have := congrArg card ht
    rw [card_singleton, card_pair huv] at this
    omega
  | edge a b w hlt he hk => exact ⟨a, b, w, hlt, he, hk, rfl⟩

theorem graph_data [Zero α] {f : α → α} {v0 : α} {rows : List (List α)} {G : Complex α} (hG : IsMatrixGraph f v0 rows G) {t : Finset ℕ} {y : α} (h : HasData G t y) :
    y = v0 ∨ ∃ a b w, a < b ∧ entry rows a b = some w ∧ w ≠ 0 ∧ y = f w := by
  rw [hG.2] at h
  cases h with
  | vertex i _ => exact Or.inl rfl
  | edge a b w hlt he hk => exact Or.inr ⟨a, b, w, hlt, he, hk, rfl⟩

/-- A graph, sorted by its weights. -/
theorem graph_sorted {G : Complex α} (hG : IsGraph G) (hw : ∀ u v w, u ≠ v → HasData G {u, v} w → ∀ y, HasData G {u} y → y ≤ w)
    (hsize : #(cliquesUpTo G 1) ≤ idxMax) : IsExpansion G (fun w => w) 1 (G.sort (asLt (Filtration.data fun a b => decide (a < b)))) := by
  obtain ⟨g1, g2, g3⟩ := hG
  obtain ⟨s1, s2, -⟩ := sortData_spec g1
  have hm : Spec.Monotone G := by
    intro s hs t ht hst
    rcases hst.eq_or_ssubset with he | hss
    · rw [g1.eq_of_vset hs ht he]
    · have h1 := (g1.vset_nonempty hs).card_pos
      have h2 := card_lt_card hss
      have h3 := g3 t ht
      obtain ⟨v, hv⟩ := card_eq_one.1 (show #s.vset = 1 by omega)
      obtain ⟨a, b, hab, hab'⟩ := card_eq_two.1 (show #t.vset = 2 by omega)
      have hvt : v ∈ t.vset := hst (by rw [hv]; simp)
      rw [hab', mem_insert, mem_singleton] at hvt
      rcases hvt with rfl | rfl
      · exact hw v b t.data hab ⟨t, ht, hab', rfl⟩ _ ⟨s, hs, hv, rfl⟩
      · exact hw v a t.data hab.symm ⟨t, ht, by rw [hab', pair_comm], rfl⟩ _ ⟨s, hs, hv, rfl⟩
  have hhas : ∀ t, Has G t ↔ t ∈ cliquesUpTo G 1 := by
    intro t
    rw [mem_cliquesUpTo]
    constructor
    · rintro ⟨s, hs, rfl⟩
      refine ⟨g1.vset_nonempty hs, g3 s hs, fun v hv => g2 s hs _ (singleton_subset_iff.2 hv) (singleton_nonempty v), fun u hu v hv _ => ?_⟩
      exact g2 s hs _ (insert_subset hu (singleton_subset_iff.2 hv)) (insert_nonempty _ _)
    · rintro ⟨h1, h2, h3, h4⟩
      have := h1.card_pos
      rcases (show #t = 1 ∨ #t = 2 by omega) with h | h
      · obtain ⟨v, rfl⟩ := card_eq_one.1 h
        exact h3 v (by simp)
      · obtain ⟨u, v, huv, rfl⟩ := card_eq_two.1 h
        exact h4 u (by simp) v (by simp) huv
  refine ⟨RelevantEdges.sorted_filtration g1 g2 hm, ?_, s2, fun t => (PythonMatrix.has_perm s1 t).trans (hhas t), ?_, ?_⟩
  · rw [s1.length_eq]
    refine le_trans ?_ hsize
    have hnd : (G.map Simplex.vset).Nodup := List.Nodup.map_on (fun s hs t ht he => g1.eq_of_vset hs ht he) g1.nodup
    have hcd := List.toFinset_card_of_nodup hnd
    rw [List.length_map] at hcd
    rw [← hcd]
    refine card_le_card fun t ht => ?_
    rw [List.mem_toFinset, List.mem_map] at ht
    obtain ⟨s, hs, rfl⟩ := ht
    exact (hhas _).1 ⟨s, hs, rfl⟩
  · exact fun s hs _ => ⟨s, s1.mem_iff.1 hs, rfl, rfl⟩
  · intro s hs hcard
    have hs' := s1.mem_iff.1 hs
    obtain ⟨a, b, hab, he⟩ := card_eq_two.1 (show #s.vset = 2 by have := g3 s hs'; omega)
    refine ⟨⟨a, by rw [he]; simp, b, by rw [he]; simp, hab, _, ⟨s, hs', he, rfl⟩, rfl⟩, ?_⟩
    rintro y ⟨u, hu, v, hv, huv, w, ⟨t, ht, hte, rfl⟩, rfl⟩
    rw [he, mem_insert, mem_singleton] at hu hv
    have : t.vset = s.vset := by
      rw [hte, he]
      rcases hu with rfl | rfl <;> rcases hv with rfl | rfl
      · exact absurd rfl huv
      · rfl
      · exact pair_comm _ _
      · exact absurd rfl huv
    rw [g1.eq_of_vset ht hs' this]

/-- The expansion, followed by sorting. -/
theorem expand_spec [Zero α] (o : Orders α) {G : Complex α} (hG : IsGraph G) (hne : ∃ v, Has G {v}) (k : ℕ)
    (hw : ∀ u v w, u ≠ v → HasData G {u, v} w → (k = 0 ∨ 0 ≤ w) ∧ ∀ y, HasData G {u} y → y ≤ w) (hsize : #(cliquesUpTo G (max k 1)) ≤ idxMax) :
    ∃ L, expand o k G = .ok L ∧ IsExpansion G (fun w => w) (max k 1) (L.sort (asLt (Filtration.data fun a b => decide (a < b)))) := by
  rcases Nat.eq_zero_or_pos k with rfl | hk
  · exact ⟨G, rfl, graph_sorted hG (fun u v w h1 h2 => (hw u v w h1 h2).2) (by simpa using hsize)⟩
  · rw [max_eq_left hk] at hsize ⊢
    obtain ⟨L, h1, h2⟩ := expandGraph_spec o hG.1 (GraphAnalysis.edgeClosed hG) hne (g := fun w => w)
      (fun u v w h1 h2 => ⟨(hw u v w h1 h2).1.resolve_left (by omega), (hw u v w h1 h2).2⟩) k hsize
    have hmap : (G.map (withWeight fun w => w)) = G := by
      conv_rhs => rw [← List.map_id G]
      refine List.map_congr_left fun s _ => ?_
      unfold withWeight
      split <;> rfl
    rw [hmap] at h1
    unfold expandGraph at h1
    unfold expand
    rw [if_pos (by omega)]
    cases e1 : Rips.expand o 0 G k with
    | none => simp [e1] at h1
    | some M =>
      simp only [e1] at h1 ⊢
      cases e2 : Rips.assignMaximumWeight o 1 M with
      | none => simp [e2] at h1
      | some N =>
        simp only [e2] at h1 ⊢
        cases e3 : N.dimension with
        | none => simp [e3] at h1
        | some d =>
          simp only [e3, Except.ok.injEq] at h1
          rw [← h1] at h2
          exact ⟨N, rfl, h2⟩

end Graphs

/-! ### Files -/

section Program

variable [LinearOrder α] [Field α]

/-- The weight of all vertices. -/
def vertexWeight (lo hi : α) : AdjacencyMatrixReader.Strategy → α
  | .globalMaximum => hi
  | .globalMinimum => lo
  | .zero => 0

theorem readMatrix_spec (c : Context α) (strategy : AdjacencyMatrixReader.Strategy) (distance : Bool) {text : List Char} {rows : List (List α)} (h : IsMatrixFile c.number text rows) {lo hi : α}
    (hlo : IsLeast {v | ∃ y x, entry rows y x = some v} lo) (hhi : IsGreatest {v | ∃ y x, entry rows y x = some v} hi) (hz : distance = true → strategy = .zero) :
    ∃ G, readMatrix c strategy distance (some text) = .ok G ∧ FaceClosed G ∧ (∃ v, Has G {v}) ∧
      IsMatrixGraph (fun w => if distance then 1 - w else w) (vertexWeight lo hi strategy) rows G := by
  obtain ⟨⟨ls, b, ws, t1, t2, t3, t4⟩, hne, hr⟩ := h
  obtain ⟨a, l, hv, hread⟩ := C76_read_partial true strategy (functor distance) c.number text 0 [] ls b t1 ws t2 rows hne hr t3 t4
  obtain ⟨c1, c2, -, c4, -⟩ := C75_graph_partial true strategy (functor distance) rows hr a l hv lo hi hlo hhi
  have hdata : ∀ t w, HasData (AdjacencyMatrixReader.build true strategy (functor distance) rows.length a (a :: l)) t w ↔
      AdjacencyData (fun w => w ≠ 0) (fun w => if distance then 1 - w else w) (vertexWeight lo hi strategy) rows t w := by
    intro t w
    rw [c4]
    have e : AdjacencyMatrixReader.documentedWeight (functor distance) lo hi strategy = vertexWeight lo hi strategy := by
      cases distance with
      | false => cases strategy <;> rfl
      | true => rw [hz rfl]; rfl
    rw [e]
    simp only [true_and]
    exact Iff.rfl
  refine ⟨_, by simp only [readMatrix, hread], c2, ⟨0, ?_⟩, c1, hdata⟩
  exact has_iff_hasData.2 ⟨_, (hdata _ _).2 (.vertex 0 (List.length_pos_iff.2 hne))⟩

/-- The conditions for an analysis of a matrix: weights are at least those of the vertices, not infinite, and not negative if there are higher dimensions. -/
structure Fits (inf : α) (f : α → α) (v0 : α) (k : ℕ) (rows : List (List α)) : Prop where
  vertex : v0 ≠ inf
  edge : ∀ a b w, a < b → entry rows a b = some w → w ≠ 0 → v0 ≤ f w ∧ (k = 0 ∨ 0 ≤ f w) ∧ f w ≠ inf
  size : ∀ G, IsMatrixGraph f v0 rows G → #(cliquesUpTo G (max k 1)) ≤ idxMax

omit [LinearOrder α] [Field α] in
theorem replaceInfinity_points [DecidableEq α] [Neg α] (c : Context α) (infinity : α) (D : Diagram α) :
    (replaceInfinity c false infinity D).points = D.points.map fun p => if p.2 = c.inf ∧ infinity ≠ -c.inf then (p.1, infinity) else p := by
  unfold replaceInfinity isFinite Diagram.isUnpaired
  simp only [Bool.false_and, Bool.false_eq_true, if_false]
  by_cases h1 : infinity = c.inf
  · rw [if_neg (by simp [h1])]
    conv_lhs => rw [← List.map_id D.points]
    refine List.map_congr_left fun p _ => ?_
    split
    · next h => rw [h1, ← h.1]; rfl
    · rfl
  · by_cases h2 : infinity = -c.inf
    · rw [if_neg (by simp [h2])]
      simp [h2]
    · rw [if_pos (by simp [h1, h2])]
      refine List.map_congr_left fun p _ => ?_
      by_cases h3 : p.2 = c.inf <;> simp [h2, h3]

theorem processFile_spec (c : Context α) (o : Orders α) (s : Settings α) (strategy : AdjacencyMatrixReader.Strategy) {text : List Char} {rows : List (List α)}
    (h : IsMatrixFile c.number text rows) {lo hi : α} (hlo : IsLeast {v | ∃ y x, entry rows y x = some v} lo) (hhi : IsGreatest {v | ∃ y x, entry rows y x = some v} hi)
    (hz : s.distance = true → strategy = .zero) (hk : s.dimension + 2 < 4294967296)
    (hf : Fits c.inf (fun w => if s.distance then 1 - w else w) (vertexWeight lo hi strategy) s.dimension rows) :
    ∃ (G : Complex α) (Ds : List (Diagram α)) (points : ℕ → List (α × α)), processFile c o s strategy false (some text) = .ok Ds ∧
      IsMatrixGraph (fun w => if s.distance then 1 - w else w) (vertexWeight lo hi strategy) rows G ∧ Ds.length = numDiagrams s ∧
      (∀ e < numDiagrams s, (Ds[e]?).map (·.points) = some ((points e).map fun p => if p.2 = c.inf ∧ s.infinity ≠ -c.inf then (p.1, s.infinity) else p)) ∧
      ∀ e, IsMatrixDiagram c.inf s.keepUnpaired G (max s.dimension 1) e (points e) := by
  obtain ⟨G, r1, r2, r3, r4⟩ := readMatrix_spec c strategy s.distance h hlo hhi hz
  have hg := isGraph r4 r2
  have hw : ∀ u v w, u ≠ v → HasData G {u, v} w → (s.dimension = 0 ∨ 0 ≤ w) ∧ ∀ y, HasData G {u} y → y ≤ w := by
    intro u v w huv hd
    obtain ⟨a, b, w0, h1, h2, h3, rfl⟩ := graph_edge r4 huv hd
    obtain ⟨f1, f2, -⟩ := hf.edge a b w0 h1 h2 h3
    refine ⟨f2, fun y hy => ?_⟩
    rw [graph_vertex r4 hy]
    exact f1
  obtain ⟨L, e1, e2⟩ := expand_spec o hg r3 s.dimension hw (hf.size G r4)
  have hnum : numDiagrams s = (if s.keepUnpaired then 1 else 0) + s.dimension + 1 := by
    unfold numDiagrams
    refine Nat.mod_eq_of_lt ?_
    split <;> omega
  obtain ⟨Ds, points, d1, d2, d3, d4, d5⟩ := resized e2 (fun u v w h1 h2 => (hw u v w h1 h2).2) hg.1 (inf := c.inf) (by
    intro t y hy
    rcases graph_data r4 hy with rfl | ⟨a, b, w, h1, h2, h3, rfl⟩
    · exact hf.vertex
    · exact (hf.edge a b w h1 h2 h3).2.2) s.keepUnpaired (n := numDiagrams s) (by rw [hnum]; omega)
  refine ⟨G, (resize (numDiagrams s) Ds).map (replaceInfinity c false s.infinity), points, ?_, r4, by rw [List.length_map, d3], ?_, d5⟩
  · unfold processFile
    simp only [bind, Except.bind, r1, e1]
    simp only [diagramsOf, Bool.false_eq_true, if_false, d1, d2, if_true]
  · intro e he
    have := d4 e he
    rw [List.getElem?_map, Option.map_map]
    cases hD : (resize (numDiagrams s) Ds)[e]? with
    | none => rw [hD] at this; cases this
    | some D =>
      rw [hD, Option.map_some, Option.some.injEq] at this
      rw [Option.map_some, Function.comp_apply, replaceInfinity_points, this]

theorem processFile_length {c : Context α} {o : Orders α} {s : Settings α} {strategy : AdjacencyMatrixReader.Strategy} {reverse : Bool} {file : Option (List Char)} {Ds : List (Diagram α)}
    (h : processFile c o s strategy reverse file = .ok Ds) : Ds.length = numDiagrams s := by
  unfold processFile at h
  simp only [bind, Except.bind] at h
  split at h
  · cases h
  · split at h
    · cases h
    · unfold diagramsOf at h
      simp only at h
      split at h
      · cases h
      · split at h
        · rw [← Except.ok.inj h, List.length_map]
          simp only [resize, List.length_take, List.length_append, List.length_replicate]
          omega
        · cases h

theorem pass_cons (c : Context α) (o : Orders α) (files : List Char → Option (List Char)) (s : Settings α) (strategy : AdjacencyMatrixReader.Strategy) (reverse : Bool) (m : Collection α)
    (name : List Char) (names : List (List Char)) : pass c o files s strategy reverse m (name :: names) =
      match processFile c o s strategy reverse (files name) with
      | .error e => .error e
      | .ok Ds => pass c o files s strategy reverse (update m name Ds) names := by
  unfold pass
  rw [List.foldlM_cons]
  cases processFile c o s strategy reverse (files name) <;> rfl

theorem pass_ok {c : Context α} {o : Orders α} {files : List Char → Option (List Char)} {s : Settings α} {strategy : AdjacencyMatrixReader.Strategy} {reverse : Bool} {names : List (List Char)}
    (h : ∀ name ∈ names, ∃ Ds, processFile c o s strategy reverse (files name) = .ok Ds) (m : Collection α) : ∃ m', pass c o files s strategy reverse m names = .ok m' := by
  induction names generalizing m with
  | nil => exact ⟨m, rfl⟩
  | cons name names ih =>
    obtain ⟨Ds, hD⟩ := h name (by simp)
    rw [pass_cons, hD]
    exact ih (fun n hn => h n (List.mem_cons_of_mem _ hn)) _

theorem pass_error {c : Context α} {o : Orders α} {files : List Char → Option (List Char)} {s : Settings α} {strategy : AdjacencyMatrixReader.Strategy} {reverse : Bool} {names : List (List Char)}
    {name : List Char} (hn : name ∈ names) {e : Failure} (h : processFile c o s strategy reverse (files name) = .error e) (m : Collection α) :
    ∃ e, pass c o files s strategy reverse m names = .error e := by
  induction names generalizing m with
  | nil => cases hn
  | cons n names ih =>
    rw [pass_cons]
    cases hp : processFile c o s strategy reverse (files n) with
    | error e => exact ⟨e, rfl⟩
    | ok Ds =>
      rcases List.mem_cons.1 hn with rfl | hn
      · rw [h] at hp
        cases hp
      · exact ih hn _

theorem pass_of {c : Context α} {o : Orders α} {files : List Char → Option (List Char)} {s : Settings α} {strategy : AdjacencyMatrixReader.Strategy} {reverse : Bool} {names : List (List Char)}
    (hnd : names.Nodup) {m m' : Collection α} (h : pass c o files s strategy reverse m names = .ok m') :
    (∀ name ∈ names, ∃ Ds, processFile c o s strategy reverse (files name) = .ok Ds ∧ m' name = List.zipWith Diagram.merge (m name) Ds) ∧ ∀ name ∉ names, m' name = m name := by
  induction names generalizing m with
  | nil =>
    cases h
    simp
  | cons n names ih =>
    rw [List.nodup_cons] at hnd
    rw [pass_cons] at h
    cases hp : processFile c o s strategy reverse (files n) with
    | error e => rw [hp] at h; cases h
    | ok Ds =>
      rw [hp] at h
      obtain ⟨h1, h2⟩ := ih hnd.2 h
      constructor
      · intro name hname
        rcases List.mem_cons.1 hname with rfl | hin
        · refine ⟨Ds, hp, ?_⟩
          rw [h2 name hnd.1, update, if_pos rfl]
        · obtain ⟨Es, e1, e2⟩ := h1 name hin
          refine ⟨Es, e1, ?_⟩
          rw [e2, update, if_neg]
          rintro rfl
          exact hnd.1 hin
      · intro name hname
        rw [List.mem_cons, not_or] at hname
        rw [h2 name hname.2, update, if_neg hname.1]

end Program

/-! ### Options -/

/-- The argument of an option for the dimension. -/
def Opt.dimensionWord : Opt → Option (List Char)
  | .dimension w => some w
  | _ => none

/-- The argument of an option for infinity. -/
def Opt.infinityWord : Opt → Option (List Char)
  | .infinity w => some w
  | _ => none

/-- An option with an argument that is not a number. -/
def Bad (c : Context α) : Opt → Prop
  | .dimension w => c.stoul w = none
  | .infinity w => c.stod w = none
  | _ => False

theorem settings_none (c : Context α) (opts : List Opt) : settings c opts = none ↔ ∃ o ∈ opts, Bad c o := by
  refine foldlM_eq_none (fun s o => ?_) _ opts
  cases o <;> simp [setOption, Bad]

theorem flag_of_foldlM {step : Settings α → Opt → Option (Settings α)} {get : Settings α → Bool} {flag : Opt} (hset : ∀ s s', step s flag = some s' → get s' = true)
    (hkeep : ∀ s o s', o ≠ flag → step s o = some s' → get s' = get s) {init s : Settings α} {opts : List Opt} (h : opts.foldlM step init = some s) :
    get s = (get init || decide (flag ∈ opts)) := by
  induction opts generalizing init with
  | nil =>
    cases h
    simp
  | cons o opts ih =>
    rw [List.foldlM_cons] at h
    cases e : step init o with
    | none => rw [e] at h; cases h
    | some s1 =>
      rw [e] at h
      rw [ih h]
      by_cases ho : o = flag
      · subst ho
        simp [hset _ _ e]
      · rw [hkeep _ _ _ ho e]
        simp [Ne.symm ho]

theorem settings_spec (c : Context α) {opts : List Opt} {s : Settings α} (h : settings c opts = some s) :
    IsLastValue Opt.dimensionWord c.stoul 0 opts s.dimension ∧ IsLastValue Opt.infinityWord c.stod c.inf opts s.infinity ∧ s.keepUnpaired = decide (Opt.keepUnpaired ∈ opts) ∧
      s.distance = decide (Opt.distance ∈ opts) := by
  refine ⟨lastValue_of_foldlM (get := Settings.dimension) ?_ ?_ h, lastValue_of_foldlM (get := Settings.infinity) ?_ ?_ h, ?_, ?_⟩
  · intro s o s' w hp h
    cases o <;> simp only [Opt.dimensionWord, Option.some.injEq, reduceCtorEq] at hp
    subst hp
    simp only [setOption, Option.map_eq_some_iff] at h
    obtain ⟨a, ha, rfl⟩ := h
    exact ha
  · intro s o s' hp h
    cases o <;> simp only [Opt.dimensionWord, reduceCtorEq] at hp <;> simp only [setOption, Option.map_eq_some_iff, Option.some.injEq] at h
    · obtain ⟨a, ha, rfl⟩ := h
      rfl
    all_goals subst h; rfl
  · intro s o s' w hp h
    cases o <;> simp only [Opt.infinityWord, Option.some.injEq, reduceCtorEq] at hp
    subst hp
    simp only [setOption, Option.map_eq_some_iff] at h
    obtain ⟨a, ha, rfl⟩ := h
    exact ha
  · intro s o s' hp h
    cases o <;> simp only [Opt.infinityWord, reduceCtorEq] at hp <;> simp only [setOption, Option.map_eq_some_iff, Option.some.injEq] at h
    · obtain ⟨a, ha, rfl⟩ := h
      rfl
    all_goals subst h; rfl
  · refine (flag_of_foldlM (get := Settings.keepUnpaired) (flag := Opt.keepUnpaired) ?_ ?_ h).trans (by simp)
    · intro s s' h
      cases h
      rfl
    · intro s o s' hp h
      cases o <;> simp only [setOption, Option.map_eq_some_iff, Option.some.injEq] at h
      all_goals first
        | exact absurd rfl hp
        | (obtain ⟨a, ha, rfl⟩ := h; rfl)
        | rw [← h]
  · refine (flag_of_foldlM (get := Settings.distance) (flag := Opt.distance) ?_ ?_ h).trans (by simp)
    · intro s s' h
      cases h
      rfl
    · intro s o s' hp h
      cases o <;> simp only [setOption, Option.map_eq_some_iff, Option.some.injEq] at h
      all_goals first
        | exact absurd rfl hp
        | (obtain ⟨a, ha, rfl⟩ := h; rfl)
        | rw [← h]

/-! ### The program -/

/-- The name of the file for a dimension: a temporary file whose name contains the name of the input without its extension. -/
def _root_.Aleph.Spec.IsDimensionFile (path : List Char) (e : ℕ) (file : List Char) : Prop :=
  ∃ name stem extension number, Files.Filename path name ∧ Files.Extension name stem extension ∧ IsUsualNotation e number ∧
    file = "/tmp/".toList ++ stem ++ "_d".toList ++ number ++ ".txt".toList

theorem dimensionFile (path : List Char) (e : ℕ) :
    IsDimensionFile path e ("/tmp/".toList ++ Filesystem.stem (Filesystem.basename path) ++ "_d".toList ++ Utilities.decimal e ++ ".txt".toList) := by
  obtain ⟨name, h1⟩ : ∃ name, Files.Filename path name := ⟨_, (C138_basename path _).1 rfl⟩
  have h2 : Files.Filename name name := by
    rcases h1 with ⟨-, rfl⟩ | ⟨-, -, rfl⟩ | ⟨d, sl, -, h3, h4, -, -⟩
    · exact Or.inl ⟨rfl, rfl⟩
    · exact Or.inr (Or.inl ⟨by simp, by simp, rfl⟩)
    · exact Or.inr (Or.inr ⟨[], [], by simp, h3, h4, by simp, by simp⟩)
  rw [(C138_basename path name).2 h1]
  obtain ⟨name', e1, e2⟩ := (C138_extension name _ _).1 ⟨rfl, rfl⟩
  have : name' = name := ((C138_basename name name').2 e1).symm.trans ((C138_basename name name).2 h2)
  subst this
  exact ⟨_, _, _, _, h1, e2, Utilities.decimal_spec e, rfl⟩

theorem tableText [DecidableEq α] [Neg α] (c : Context α) (infinity : α) (d : ℕ) (points : List (α × α)) :
    diagramText c ⟨d, points.map fun p => if p.2 = c.inf ∧ infinity ≠ -c.inf then (p.1, infinity) else p⟩ = pointTable c.print c.inf infinity points := by
  unfold diagramText pointTable
  rw [List.flatMap_map]
  refine List.flatMap_congr fun p _ => ?_
  by_cases h : p.2 = c.inf ∧ infinity ≠ -c.inf
  · simp only [if_pos h]
    rfl
  · simp only [if_neg h]
    rfl

section Main

variable [LinearOrder α] [Field α]

omit [Field α] in
theorem extremes {rows : List (List α)} (hne : rows ≠ []) (hr : ∀ r ∈ rows, r.length = rows.length) :
    ∃ lo hi, IsLeast {v | ∃ y x, entry rows y x = some v} lo ∧ IsGreatest {v | ∃ y x, entry rows y x = some v} hi := by
  obtain ⟨a, l, hv⟩ : ∃ a l, rows.flatten = a :: l := by
    cases rows with
    | nil => exact absurd rfl hne
    | cons r rows =>
      cases r with
      | nil => simp at hr
      | cons a r => exact ⟨a, _, rfl⟩
  obtain ⟨h1, h2⟩ := AdjacencyMatrixReader.minmax_spec (a :: l) a
  have hset : {v | ∃ y x, entry rows y x = some v} = {v | v = a ∨ v ∈ a :: l} := by
    ext v
    show (∃ y x, entry rows y x = some v) ↔ (v = a ∨ v ∈ a :: l)
    rw [← AdjacencyMatrixReader.mem_flatten_iff, hv]
    simp
  rw [hset]
  exact ⟨_, _, h1, h2⟩

/-- C182. With the option for distances, the program writes one file for each dimension and each input; it contains the points of the cliques of the graph that the matrix describes, with the
weights `1 - w`.

Missing: correlations above one, for which edges would come before their vertices, and names that occur more than once. -/
theorem _root_.Aleph.C182_distance_partial (c : Context α) (o : Orders α) (files : List Char → Option (List Char)) (opts : List Opt) (names : List (List Char)) (k : ℕ)
    (hk : IsLastValue Opt.dimensionWord c.stoul 0 opts k) (infinity : α) (hinf : IsLastValue Opt.infinityWord c.stod c.inf opts infinity) (hgood : ∀ o ∈ opts, ¬Bad c o)
    (hd : Opt.distance ∈ opts) (hk2 : k + 2 < 4294967296) (hne : names ≠ []) (hnd : names.Nodup) (rows : List Char → List (List α))
    (hfile : ∀ name ∈ names, ∃ text, files name = some text ∧ IsMatrixFile c.number text (rows name)) (h0 : c.inf ≠ 0)
    (hle : ∀ name ∈ names, ∀ a b w, a < b → entry (rows name) a b = some w → w ≠ 0 → 0 ≤ 1 - w ∧ 1 - w ≠ c.inf)
    (hsize : ∀ name ∈ names, ∀ G, IsMatrixGraph (fun w => 1 - w) 0 (rows name) G → #(cliquesUpTo G (max k 1)) ≤ idxMax) :
    ∃ out : List Char → List (List Char × List Char), main c o files opts names = .ok (0, names.flatMap out) ∧
      ∀ name ∈ names, ∃ (G : Complex α) (points : ℕ → List (α × α)), IsMatrixGraph (fun w => 1 - w) 0 (rows name) G ∧
        (out name).length = (if Opt.keepUnpaired ∈ opts then 1 else 0) + k + 1 ∧
        ∀ e < (if Opt.keepUnpaired ∈ opts then 1 else 0) + k + 1, (∃ file, IsDimensionFile name e file ∧ (out name)[e]? = some (file, pointTable c.print c.inf infinity (points e))) ∧
          IsMatrixDiagram c.inf (decide (Opt.keepUnpaired ∈ opts)) G (max k 1) e (points e) := by
  obtain ⟨s, hs⟩ : ∃ s, settings c opts = some s := by
    cases e : settings c opts with
    | some s => exact ⟨s, rfl⟩
    | none =>
      obtain ⟨o, ho, hb⟩ := (settings_none c opts).1 e
      exact absurd hb (hgood o ho)
  obtain ⟨s1, s2, s3, s4⟩ := settings_spec c hs
  have e1 : s.dimension = k := lastValue_unique s1 hk
  have e2 : s.infinity = infinity := lastValue_unique s2 hinf
  have e4 : s.distance = true := by rw [s4]; simpa using hd
  have hnum : numDiagrams s = (if Opt.keepUnpaired ∈ opts then 1 else 0) + k + 1 := by
    unfold numDiagrams
    rw [s3, e1]
    simp only [decide_eq_true_eq]
    refine Nat.mod_eq_of_lt ?_
    split <;> omega
  have key : ∀ name ∈ names, ∃ (G : Complex α) (Ds : List (Diagram α)) (points : ℕ → List (α × α)), processFile c o s .zero false (files name) = .ok Ds ∧
      IsMatrixGraph (fun w => 1 - w) 0 (rows name) G ∧ Ds.length = numDiagrams s ∧
      (∀ e < numDiagrams s, (Ds[e]?).map (·.points) = some ((points e).map fun p => if p.2 = c.inf ∧ s.infinity ≠ -c.inf then (p.1, s.infinity) else p)) ∧
      ∀ e, IsMatrixDiagram c.inf s.keepUnpaired G (max s.dimension 1) e (points e) := by
    intro name hname
    obtain ⟨text, t1, t2⟩ := hfile name hname
    obtain ⟨lo, hi, hlo, hhi⟩ := extremes t2.2.1 t2.2.2
    have := processFile_spec c o s .zero t2 hlo hhi (fun _ => rfl) (by omega) (by
      simp only [e4, if_true]
      refine ⟨h0.symm, fun a b w h1 h2 h3 => ?_, fun G hG => ?_⟩
      · obtain ⟨l1, l2⟩ := hle name hname a b w h1 h2 h3
        exact ⟨l1, Or.inr l1, l2⟩
      · rw [e1]
        exact hsize name hname G hG)
    rw [t1]
    simpa only [e4, if_true, vertexWeight] using this
  obtain ⟨m, hm⟩ := pass_ok (c := c) (o := o) (files := files) (s := s) (strategy := .zero) (reverse := false) (names := names) (fun name hname => by
    obtain ⟨_, Ds, _, h, _⟩ := key name hname
    exact ⟨Ds, h⟩) fun _ => List.replicate (numDiagrams s) ⟨0, []⟩
  refine ⟨outputs c m, ?_, ?_⟩
  · unfold main
    rw [hs]
    simp only
    rw [if_neg (by have := List.length_pos_iff.2 hne; omega)]
    simp only [collect, e4, Bool.not_true, Bool.false_eq_true, if_false, hm]
  · intro name hname
    obtain ⟨G, Ds, points, p1, p2, p3, p4, p5⟩ := key name hname
    obtain ⟨Es, q1, q2⟩ := (pass_of hnd hm).1 name hname
    rw [p1] at q1
    cases q1
    refine ⟨G, points, p2, ?_, fun e he => ⟨?_, ?_⟩⟩
    · rw [outputs, List.length_map, List.length_zipIdx, q2, List.length_zipWith, List.length_replicate, p3, Nat.min_self, hnum]
    · rw [← hnum] at he
      refine ⟨_, dimensionFile name e, ?_⟩
      have hp := p4 e he
      rw [Option.map_eq_some_iff] at hp
      obtain ⟨D, hD, hpts⟩ := hp
      rw [outputs, List.getElem?_map, List.getElem?_zipIdx, q2, List.getElem?_zipWith, List.getElem?_replicate, if_pos he, hD]
      simp only [Option.map_some, Nat.zero_add, Diagram.merge, List.nil_append, hpts]
      rw [tableText, e2]
    · rw [← e1, ← s3]
      exact p5 e

/-- C182. Without this option, the files start with the points for the filtration by ascending weights: for the cliques of the graph, with vertices at the smallest entry of the matrix.

Missing: what follows are the points of a second calculation, which is documented to be one for descending weights, but see `C182_descending_witness`.  With an expansion, weights must not be negative,
see `C182_negative_witness`. -/
theorem _root_.Aleph.C182_ascending_partial (c : Context α) (o : Orders α) (files : List Char → Option (List Char)) (opts : List Opt) (names : List (List Char)) (k : ℕ)
    (hk : IsLastValue Opt.dimensionWord c.stoul 0 opts k) (infinity : α) (hinf : IsLastValue Opt.infinityWord c.stod c.inf opts infinity)
    (hd : Opt.distance ∉ opts) (hk2 : k + 2 < 4294967296) (hne : names ≠ []) (hnd : names.Nodup) (rows : List Char → List (List α)) (lo : List Char → α)
    (hfile : ∀ name ∈ names, ∃ text, files name = some text ∧ IsMatrixFile c.number text (rows name))
    (hlo : ∀ name ∈ names, IsLeast {v | ∃ y x, entry (rows name) y x = some v} (lo name))
    (hle : ∀ name ∈ names, ∀ a b w, entry (rows name) a b = some w → w ≠ c.inf ∧ (k = 0 ∨ 0 ≤ w))
    (hsize : ∀ name ∈ names, ∀ G, IsMatrixGraph (fun w => w) (lo name) (rows name) G → #(cliquesUpTo G (max k 1)) ≤ idxMax) (status : ℤ) (fs : List (List Char × List Char))
    (hrun : main c o files opts names = .ok (status, fs)) :
    ∃ out : List Char → List (List Char × List Char), status = 0 ∧ fs = names.flatMap out ∧
      ∀ name ∈ names, ∃ (G : Complex α) (points : ℕ → List (α × α)), IsMatrixGraph (fun w => w) (lo name) (rows name) G ∧
        (out name).length = (if Opt.keepUnpaired ∈ opts then 1 else 0) + k + 1 ∧
        ∀ e < (if Opt.keepUnpaired ∈ opts then 1 else 0) + k + 1,
          (∃ file rest, IsDimensionFile name e file ∧ (out name)[e]? = some (file, pointTable c.print c.inf infinity (points e) ++ rest)) ∧
          IsMatrixDiagram c.inf (decide (Opt.keepUnpaired ∈ opts)) G (max k 1) e (points e) := by
  unfold main at hrun
  cases hs : settings c opts with
  | none => rw [hs] at hrun; cases hrun
  | some s =>
  obtain ⟨s1, s2, s3, s4⟩ := settings_spec c hs
  have e1 : s.dimension = k := lastValue_unique s1 hk
  have e2 : s.infinity = infinity := lastValue_unique s2 hinf
  have e4 : s.distance = false := by rw [s4]; simpa using hd
  have hnum : numDiagrams s = (if Opt.keepUnpaired ∈ opts then 1 else 0) + k + 1 := by
    unfold numDiagrams
    rw [s3, e1]
    simp only [decide_eq_true_eq]
    refine Nat.mod_eq_of_lt ?_
    split <;> omega
  rw [hs] at hrun
  simp only at hrun
  rw [if_neg (by have := List.length_pos_iff.2 hne; omega)] at hrun
  simp only [collect, e4, Bool.not_false, if_true] at hrun
  cases hm1 : pass c o files s .globalMinimum false (fun _ => List.replicate (numDiagrams s) ⟨0, []⟩) names with
  | error e => rw [hm1] at hrun; cases hrun
  | ok m1 =>
  rw [hm1] at hrun
  simp only at hrun
  cases hm2 : pass c o files s .globalMaximum true m1 names with
  | error e => rw [hm2] at hrun; cases hrun
  | ok m2 =>
  rw [hm2] at hrun
  simp only [Except.ok.injEq, Prod.mk.injEq] at hrun
  obtain ⟨rfl, rfl⟩ := hrun
  refine ⟨outputs c m2, rfl, rfl, fun name hname => ?_⟩
  obtain ⟨text, t1, t2⟩ := hfile name hname
  obtain ⟨_, hi, _, hhi⟩ := extremes t2.2.1 t2.2.2
  have key := processFile_spec c o s .globalMinimum t2 (hlo name hname) hhi (by rw [e4]; intro h; cases h) (by omega) (by
    simp only [e4, Bool.false_eq_true, if_false]
    obtain ⟨a, b, hab⟩ := (hlo name hname).1
    refine ⟨(hle name hname a b _ hab).1, fun a b w h1 h2 h3 => ?_, fun G hG => ?_⟩
    · obtain ⟨l1, l2⟩ := hle name hname a b w h2
      exact ⟨(hlo name hname).2 ⟨a, b, h2⟩, by rwa [e1], l1⟩
    · rw [e1]
      exact hsize name hname G hG)
  simp only [e4, Bool.false_eq_true, if_false] at key
  obtain ⟨G, Ds, points, p1, p2, p3, p4, p5⟩ := key
  obtain ⟨Es, q1, q2⟩ := (pass_of hnd hm1).1 name hname
  rw [t1, p1] at q1
  cases q1
  obtain ⟨Fs, r1, r2⟩ := (pass_of hnd hm2).1 name hname
  have hlen := processFile_length r1
  refine ⟨G, points, p2, ?_, fun e he => ⟨?_, ?_⟩⟩
  · rw [outputs, List.length_map, List.length_zipIdx, r2, List.length_zipWith, q2, List.length_zipWith, List.length_replicate, p3, hlen, Nat.min_self, Nat.min_self, hnum]
  · rw [← hnum] at he
    refine ⟨_, diagramText c Fs[e], dimensionFile name e, ?_⟩
    have hp := p4 e he
    rw [Option.map_eq_some_iff] at hp
    obtain ⟨D, hD, hpts⟩ := hp
    rw [outputs, List.getElem?_map, List.getElem?_zipIdx, r2, List.getElem?_zipWith, q2, List.getElem?_zipWith, List.getElem?_replicate, if_pos he, hD, List.getElem?_eq_getElem (by omega)]
    simp only [Option.map_some, Nat.zero_add, Diagram.merge, List.nil_append, hpts, Option.some.injEq, Prod.mk.injEq, true_and]
    rw [← tableText c infinity 0 (points e), e2]
    simp only [diagramText, List.flatMap_append]
  · rw [← e1, ← s3]
    exact p5 e

/-- C182. The program ends with status -1 without names, and with an exception for an argument that is not a number.  It never ends normally if a file does not exist. -/
theorem _root_.Aleph.C182_failures (c : Context α) (o : Orders α) (files : List Char → Option (List Char)) (opts : List Opt) (names : List (List Char)) :
    ((∃ o ∈ opts, Bad c o) → main c o files opts names = .error .exception) ∧ ((∀ o ∈ opts, ¬Bad c o) → main c o files opts [] = .ok (-1, [])) ∧
      ((∃ name ∈ names, files name = none) → ∃ e, main c o files opts names = .error e) := by
  refine ⟨fun h => ?_, fun h => ?_, fun h => ?_⟩
  · unfold main
    rw [(settings_none c opts).2 h]
  · unfold main
    cases e : settings c opts with
    | none =>
      obtain ⟨o, ho, hb⟩ := (settings_none c opts).1 e
      exact absurd hb (h o ho)
    | some s => rfl
  · obtain ⟨name, hn, hf⟩ := h
    unfold main
    cases settings c opts with
    | none => exact ⟨_, rfl⟩
    | some s =>
      simp only
      rw [if_neg (by have := List.length_pos_of_mem hn; omega)]
      have hp : ∀ strategy reverse, processFile c o s strategy reverse (files name) = .error .exception := by
        intro strategy reverse
        rw [hf]
        rfl
      have hcollect : ∃ e, collect c o files s names = .error e := by
        unfold collect
        simp only
        split
        · obtain ⟨e, he⟩ := pass_error hn (hp .globalMinimum false) (fun _ => List.replicate (numDiagrams s) ⟨0, []⟩)
          rw [he]
          exact ⟨e, rfl⟩
        · exact pass_error hn (hp .zero false) _
      obtain ⟨e, he⟩ := hcollect
      rw [he]
      exact ⟨e, rfl⟩

end Main

/-! ### Examples -/

/-- Numbers, with a sign. -/
def sampleNumber : List Char → Option ℚ
  | '-' :: t => (MatrixReader.digits t).map fun n => -(n : ℚ)
  | t => (MatrixReader.digits t).map fun n => (n : ℚ)

/-- Integers. -/
def samplePrint (x : ℚ) : List Char := if x < 0 then '-' :: Utilities.decimal x.num.natAbs else Utilities.decimal x.num.natAbs

def sampleContext : Context ℚ := ⟨100, sampleNumber, sampleNumber, MatrixReader.digits, samplePrint⟩

/-- C182, disagreement: the second calculation sorts by ascending weights, too.  Here, there are edges of the weights 1, 2, and 3, so that the points for descending weights are (3,3), (3,2), and an unpaired one.
The last three lines of the file are different. -/
theorem _root_.Aleph.C182_descending_witness (files : List Char → Option (List Char)) (hf : files "a/m.txt".toList = some "3 1 2\n1 3 3\n2 3 3\n".toList) :
    main sampleContext (Orders.default ℚ) files [] ["a/m.txt".toList] = .ok (0, [("/tmp/m_d0.txt".toList, "1\t100\n1\t1\n1\t2\n3\t100\n3\t1\n3\t2\n".toList)]) ∧
      ((AdjacencyMatrixReader.read true .globalMaximum (fun _ _ w => w) sampleNumber "3 1 2\n1 3 3\n2 3 3\n".toList 0 []).bind fun r =>
        calculatePersistenceDiagrams .twist .vector 100 (r.2.sort (asLt (Filtration.data fun a b => decide (b < a))))).map (pointsOfDimension 0) = some [(3, 100), (3, 2), (3, 3)] := by
  have h1 : collect sampleContext (Orders.default ℚ) files ⟨0, 100, false, false⟩ ["a/m.txt".toList] =
      collect sampleContext (Orders.default ℚ) (fun _ => some "3 1 2\n1 3 3\n2 3 3\n".toList) ⟨0, 100, false, false⟩ ["a/m.txt".toList] := by
    simp only [collect, pass_cons, hf]
    rfl
  have h2 : main sampleContext (Orders.default ℚ) files [] ["a/m.txt".toList] =
      main sampleContext (Orders.default ℚ) (fun _ => some "3 1 2\n1 3 3\n2 3 3\n".toList) [] ["a/m.txt".toList] := by
    unfold main
    have : settings sampleContext [] = some ⟨0, 100, false, false⟩ := rfl
    rw [this]
    simp only [h1]
  rw [h2]
  constructor
  · decide +kernel
  · decide +kernel

/-- C182, disagreement: all edges of a triangle have the weight -1, but the triangle itself gets the weight 0, so that the file for dimension one contains the points (-1,0) instead of (-1,-1). -/
theorem _root_.Aleph.C182_negative_witness :
    main sampleContext (Orders.default ℚ) (fun _ => some "-1 -1 -1\n-1 -1 -1\n-1 -1 -1\n".toList) [.dimension "2".toList] ["a/m.txt".toList] =
      .ok (0, [("/tmp/m_d0.txt".toList, "-1\t100\n-1\t-1\n-1\t-1\n-1\t100\n-1\t-1\n-1\t-1\n".toList), ("/tmp/m_d1.txt".toList, "-1\t0\n-1\t0\n".toList), ("/tmp/m_d2.txt".toList, [])]) := by
  decide +kernel

/-- C182, disagreement: with distances, an entry above one leads to a point below the diagonal. -/
theorem _root_.Aleph.C182_distance_witness :
    main sampleContext (Orders.default ℚ) (fun _ => some "1 5\n5 1\n".toList) [.distance] ["a/m.txt".toList] = .ok (0, [("/tmp/m_d0.txt".toList, "0\t100\n0\t-4\n".toList)]) := by
  decide +kernel

/-- The number of cliques is bounded by the number of sets of vertices, so that the condition on their number holds for all matrices of moderate size. -/
theorem cliques_card [Zero α] {f : α → α} {v0 : α} {rows : List (List α)} {G : Complex α} (hG : IsMatrixGraph f v0 rows G) (k : ℕ) : #(cliquesUpTo G k) ≤ 2 ^ rows.length := by
  have : cliquesUpTo G k ⊆ (range rows.length).powerset := by
    intro t ht
    rw [mem_powerset]
    intro v hv
    obtain ⟨w, hw⟩ := has_iff_hasData.1 ((mem_cliquesUpTo.1 ht).2.2.1 v hv)
    rw [hG.2] at hw
    generalize he : ({v} : Finset ℕ) = t at hw
    cases hw with
    | vertex i hi => rw [singleton_injective he]; exact mem_range.2 hi
    | edge y x w hlt _ _ =>
      have := congrArg card he
      rw [card_singleton, card_pair (by omega)] at this
      omega
  refine (card_le_card this).trans ?_
  rw [card_powerset, card_range]

/-- The matrix of `C182_descending_witness`. -/
theorem sample_file : IsMatrixFile sampleContext.number "3 1 2\n1 3 3\n2 3 3\n".toList [[3, 1, 2], [1, 3, 3], [2, 3, 3]] := by
  refine ⟨⟨["3 1 2".toList, "1 3 3".toList, "2 3 3".toList], false, [[['3'], ['1'], ['2']], [['1'], ['3'], ['3']], [['2'], ['3'], ['3']]], ?_, ?_, by decide, ?_⟩, by simp, by simp⟩
  · exact .cons "3 1 2".toList _ _ _ (by decide) (.cons "1 3 3".toList _ _ _ (by decide) (.cons "2 3 3".toList _ _ _ (by decide) .nil))
  · have hw : ∀ a b c : Char, a ∉ whitespace → b ∉ whitespace → c ∉ whitespace → Words [a, ' ', b, ' ', c] [[a], [b], [c]] := by
      intro a b c ha hb hc
      refine .cons [] [a] ' ' [b, ' ', c] _ (by simp) (by simp) (by simpa using ha) (by decide) ?_
      refine .cons [] [b] ' ' [c] _ (by simp) (by simp) (by simpa using hb) (by decide) ?_
      exact .last [] [c] (by simp) (by simp) (by simpa using hc)
    exact .cons (hw '3' '1' '2' (by decide) (by decide) (by decide)) (.cons (hw '1' '3' '3' (by decide) (by decide) (by decide))
      (.cons (hw '2' '3' '3' (by decide) (by decide) (by decide)) .nil))
  · exact .cons (by decide +kernel) (.cons (by decide +kernel) (.cons (by decide +kernel) .nil))

theorem sample_entry {a b : ℕ} {w : ℚ} (h : entry [[3, 1, 2], [1, 3, 3], [2, 3, (3 : ℚ)]] a b = some w) : w = 1 ∨ w = 2 ∨ w = 3 := by
  have hm : w ∈ [[3, 1, 2], [1, 3, 3], [2, 3, (3 : ℚ)]].flatten := (AdjacencyMatrixReader.mem_flatten_iff _ w).2 ⟨a, b, h⟩
  simp at hm
  rcases hm with h | h | h | h | h | h | h | h | h <;> simp [h]

/-- The hypotheses of `C182_ascending_partial` hold for this matrix, with an expansion and a replacement for infinity; the program ends normally. -/
example : IsLastValue Opt.dimensionWord sampleContext.stoul 0 [.dimension "2".toList, .infinity "7".toList] 2 ∧
    IsLastValue Opt.infinityWord sampleContext.stod sampleContext.inf [.dimension "2".toList, .infinity "7".toList] 7 ∧
    IsLeast {v | ∃ y x, entry [[3, 1, 2], [1, 3, 3], [2, 3, (3 : ℚ)]] y x = some v} 1 ∧
    (∀ a b w, entry [[3, 1, 2], [1, 3, 3], [2, 3, (3 : ℚ)]] a b = some w → w ≠ sampleContext.inf ∧ (2 = 0 ∨ 0 ≤ w)) ∧
    (∀ G, IsMatrixGraph (fun w => w) 1 [[3, 1, 2], [1, 3, 3], [2, 3, (3 : ℚ)]] G → #(cliquesUpTo G (max 2 1)) ≤ idxMax) ∧
    main sampleContext (Orders.default ℚ) (fun _ => some "3 1 2\n1 3 3\n2 3 3\n".toList) [.dimension "2".toList, .infinity "7".toList] ["m.txt".toList] =
      .ok (0, [("/tmp/m_d0.txt".toList, "1\t7\n1\t1\n1\t2\n3\t-7\n3\t1\n3\t2\n".toList), ("/tmp/m_d1.txt".toList, "3\t3\n3\t3\n".toList), ("/tmp/m_d2.txt".toList, [])]) := by
  refine ⟨Or.inl ⟨[], _, _, _, rfl, rfl, by simp [Opt.dimensionWord], by decide +kernel⟩, Or.inl ⟨[_], _, [], _, rfl, rfl, by simp, by decide +kernel⟩, ⟨⟨0, 1, rfl⟩, ?_⟩, ?_, ?_, by decide +kernel⟩
  · rintro v ⟨y, x, h⟩
    rcases sample_entry h with rfl | rfl | rfl <;> norm_num
  · intro a b w h
    have : sampleContext.inf = 100 := rfl
    rw [this]
    rcases sample_entry h with rfl | rfl | rfl <;> norm_num
  · exact fun G hG => (cliques_card hG _).trans (by decide)

/-- The hypotheses of `C182_distance_partial` about entries hold for a matrix with correlations, which has distances 2 and 0. -/
example : (∀ a b w, a < b → entry [[1, -1, 0], [-1, 1, 1], [0, 1, (1 : ℚ)]] a b = some w → w ≠ 0 → 0 ≤ 1 - w ∧ 1 - w ≠ sampleContext.inf) ∧
    (∀ G, IsMatrixGraph (fun w => 1 - w) 0 [[1, -1, 0], [-1, 1, 1], [0, 1, (1 : ℚ)]] G → #(cliquesUpTo G (max 0 1)) ≤ idxMax) ∧
    main sampleContext (Orders.default ℚ) (fun _ => some "1 -1 0\n-1 1 1\n0 1 1\n".toList) [.distance, .infinity "7".toList] ["m.txt".toList] =
      .ok (0, [("/tmp/m_d0.txt".toList, "0\t7\n0\t2\n0\t0\n".toList)]) := by
  refine ⟨?_, fun G hG => (cliques_card hG _).trans (by decide), by decide +kernel⟩
  intro a b w _ h _
  have hm : w ∈ [[1, -1, 0], [-1, 1, 1], [0, 1, (1 : ℚ)]].flatten := (AdjacencyMatrixReader.mem_flatten_iff _ w).2 ⟨a, b, h⟩
  have : sampleContext.inf = 100 := rfl
  rw [this]
  simp at hm
  rcases hm with rfl | rfl | rfl | rfl | rfl | rfl | rfl | rfl | rfl <;> norm_num

end Aleph.Ephemeral
