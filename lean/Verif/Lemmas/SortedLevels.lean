import Verif.Lemmas.LevelDiagrams
import Verif.Props.Components
import Verif.Props.RelevantEdges
import Verif.Spec.Components

/-!
# Diagrams of complexes whose data is monotone
-/

namespace Aleph

open Finset Spec NetworkAnalysis

variable {α : Type} [LinearOrder α]

/-- Points of dimension zero count components. -/
theorem level_components {L : Complex α} (hL : IsFiltration L) (hn : L.length ≤ idxMax) (hs : L.Pairwise fun s t => s.data ≤ t.data) {inf : α}
    (hinf : ∀ s ∈ L, s.data ≠ inf) {p : List (ℕ × ℕ)} {Ds : List (Diagram α)} (hp : IsComplexPairing L false p) (hD : IsDiagramsOf inf L p Ds)
    (hrun : calculatePersistenceDiagrams .twist .vector inf L = some Ds) {D : Diagram α} (hmem : D ∈ Ds) (h0 : D.dimension = 0) {x y : α} (hxy : x ≤ y) :
    IsClassCount (verticesUpTo L x) (ConnectedUpTo L y) (D.removeDiagonal.points.countP fun p => p.1 ≤ x ∧ (p.2 = inf ∨ y < p.2)) := by
  obtain ⟨t, t1, t2⟩ := (diagram_dimensions hL hn hp hD 0).1 ⟨D, hmem, h0⟩
  obtain ⟨s, hs', e⟩ := mem_sets.1 t1
  have hc := C17_persistent_components inf L hL hn hs hinf .twist .vector true false (Or.inr ⟨s, hs', by rw [e]; omega⟩) Ds hrun x y
  rw [pointsOfDimension_eq hD, ← h0, ← ((hD.2 D).1 hmem).2] at hc
  rw [Diagram.removeDiagonal, List.countP_filter]
  convert hc using 1
  refine List.countP_congr fun q hq => ?_
  simp only [Bool.and_eq_true, decide_eq_true_eq, Bool.not_eq_true', decide_eq_false_iff_not, and_iff_left_iff_imp]
  rintro ⟨h1, h2⟩ he
  obtain ⟨s, hs'', e, -⟩ := diagram_values hL hn hs hp hD hmem hq
  rcases h2 with h2 | h2
  · rw [he, h2] at e
    exact hinf s hs'' e.symm
  · rw [← he] at h2
    exact absurd (hxy.trans_lt h2) (not_lt.2 h1)

/-- What the diagrams of a complex with monotone data are: they count persistent homology classes and components of sublevel sets, and their values are data of the complex. -/
structure IsSublevelAnalysis (inf : α) (K : Complex α) (Es : List (ℕ × List (α × α))) : Prop where
  homology : IsLevelAnalysis inf (sublevel K) (sets K) Es
  components : ∀ E ∈ Es, E.1 = 0 → ∀ x y, x ≤ y → IsClassCount (verticesUpTo K x) (ConnectedUpTo K y) (E.2.countP fun p => p.1 ≤ x ∧ (p.2 = inf ∨ y < p.2))
  values : ∀ E ∈ Es, ∀ p ∈ E.2, (∃ s ∈ K, p.1 = s.data) ∧ (p.2 = inf ∨ ∃ s ∈ K, p.2 = s.data)

theorem IsSublevelAnalysis.of_perm {inf : α} {K L : Complex α} {Es : List (ℕ × List (α × α))} (h : IsSublevelAnalysis inf L Es) (hp : L.Perm K) : IsSublevelAnalysis inf K Es := by
  have e1 : sublevel L = sublevel K := by
    funext x
    ext t
    unfold Spec.sublevel
    rw [mem_sets, mem_sets]
    simp only [List.mem_filter, hp.mem_iff]
  have e2 : sets L = sets K := by
    ext t
    rw [mem_sets, mem_sets]
    simp only [hp.mem_iff]
  refine ⟨e1 ▸ e2 ▸ h.homology, fun E hE h0 x y hxy => ?_, fun E hE p hq => ?_⟩
  · have := h.components E hE h0 x y hxy
    unfold verticesUpTo ConnectedUpTo at this ⊢
    simpa only [hp.mem_iff] using this
  · simpa only [hp.mem_iff] using h.values E hE p hq

/-- A complex that is already in the order of its data. -/
theorem ordered_levels {L : Complex α} (hL : IsFiltration L) (hn : L.length ≤ idxMax) (hs : L.Pairwise fun s t => s.data ≤ t.data) {inf : α} (hinf : ∀ s ∈ L, s.data ≠ inf) :
    ∃ Ds, calculatePersistenceDiagrams .twist .vector inf L = some Ds ∧ IsSublevelAnalysis inf L (Ds.map fun D => (D.dimension, D.removeDiagonal.points)) := by
  obtain ⟨p, Ds, p1, p2, p3⟩ := C51_pipeline inf L hL hn false
  refine ⟨Ds, p3 _ _ _, level_analysis hL hn hs hinf p1 p2, ?_, ?_⟩
  · intro E hE h0 x y hxy
    obtain ⟨D, hmem, rfl⟩ := List.mem_map.1 hE
    exact level_components hL hn hs hinf p1 p2 (p3 _ _ _) hmem h0 hxy
  · intro E hE q hq
    obtain ⟨D, hmem, rfl⟩ := List.mem_map.1 hE
    obtain ⟨s, hs', e, h2⟩ := diagram_values hL hn hs p1 p2 hmem (List.mem_filter.1 hq).1
    exact ⟨⟨s, hs', e⟩, h2.imp_right fun ⟨t, ht, e, _⟩ => ⟨t, ht, e⟩⟩

/-- A complex with monotone data, after sorting. -/
theorem sorted_levels {K : Complex α} (hK : WF K) (hc : FaceClosed K) (hm : Spec.Monotone K) (hn : K.length ≤ idxMax) {inf : α} (hinf : ∀ s ∈ K, s.data ≠ inf) :
    ∃ Ds, calculatePersistenceDiagrams .twist .vector inf (K.sort (asLt (Filtration.data fun a b => decide (a < b)))) = some Ds ∧
      IsSublevelAnalysis inf K (Ds.map fun D => (D.dimension, D.removeDiagonal.points)) := by
  obtain ⟨s1, s2, -⟩ := sortData_spec hK
  obtain ⟨Ds, h1, h2⟩ := ordered_levels (RelevantEdges.sorted_filtration hK hc hm) (by rw [s1.length_eq]; exact hn) s2 (fun s hs => hinf s (s1.mem_iff.1 hs))
  exact ⟨Ds, h1, h2.of_perm s1⟩

end Aleph
