import Verif.Model.SpectralAnalysis
import Verif.Spec.SpectralAnalysis
import Verif.Spec.Options
import Verif.Props.FlexSpectrum
import Verif.Props.FunctionAnalysis
import Verif.Props.NearestNeighbours
import Verif.Props.Smoothing
import Verif.Lemmas.ZeroDimOrder

/-!
# C187: the tool `spectral_analysis`
-/

namespace Aleph.SpectralAnalysis

open Finset Aleph.Spec Aleph.Spec.Peaks Aleph.Components
open Aleph.Spec.Spectrum (IsData)

section Order

variable {α : Type} [LinearOrder α]

/-- Vertices with the same data are sorted. -/
theorem sort_ties {K : Complex α} (hK : WF K) :
    (K.sort (asLt (Filtration.data fun a b => decide (b < a)))).Pairwise fun s t => s.data = t.data → ∀ i j, s.vset = {i} → t.vset = {j} → i < j := by
  have hst : StrictTotalOn Proper (Filtration.data fun a b : α => decide (b < a)) := by
    refine data_strictTotal (by simp) ?_ ?_
    · intro a b c; simp only [decide_eq_true_eq]; exact fun h1 h2 => lt_trans h2 h1
    · intro a b h; simp only [decide_eq_true_eq]; exact lt_or_gt_of_ne (Ne.symm h)
  have hS : ∀ s ∈ K, Proper s := fun s hs => ⟨hK.normal s hs, hK.nonempty s hs⟩
  have hp := sort_perm K (asLt (Filtration.data fun a b : α => decide (b < a)))
  refine (sort_pairwise hK hst hS).imp_of_mem ?_
  intro s t hs ht h hd i j hi hj
  have hs' := hp.subset hs
  have ht' := hp.subset ht
  rw [data_eq (hS s hs') (hS t ht'), Option.some.injEq, if_pos hd, if_pos (by rw [hi, hj]; simp)] at h
  have key : ∀ (u : Simplex α), u ∈ K → ∀ k, u.vset = {k} → u.vertices = [k] := by
    intro u hu k hk
    have hc := card_vset hK hu
    rw [hk, card_singleton] at hc
    obtain ⟨a, ha⟩ := List.length_eq_one_iff.1 hc.symm
    have : k ∈ u.vset := by rw [hk]; simp
    rw [Simplex.vset, ha] at this
    rw [ha]
    simp at this
    rw [this]
  rw [Simplex.lt, key s hs' i hi, key t ht' j hj] at h
  by_contra hij
  simp only [Simplex.lexLt] at h
  rw [if_neg hij] at h
  split at h <;> simp at h

end Order

variable {α : Type} [Field α] [LinearOrder α] [IsStrictOrderedRing α]

/-- What the reader yields. -/
structure Reads (samples : List (α × α)) (ys : List α) (maps : FlexSpectrum.Maps α α) (K : Complex α) : Prop where
  length : ys.length = samples.length
  filtration : IsFiltration K
  sorted : K.Pairwise fun s t => t.data ≤ s.data
  ties : K.Pairwise fun s t => s.data = t.data → ∀ i j, s.vset = {i} → t.vset = {j} → i < j
  path : ∀ t d, HasData K t d ↔ Spectrum.PathData ys t d
  value : ∀ i, maps.value i = samples[i]?.map Prod.fst
  intensity : ∀ i, maps.intensity i = ys[i]?

omit [IsStrictOrderedRing α] in
theorem read_sorted (parse : List Char → α × α) (normalize : Bool) (maps : FlexSpectrum.Maps α α) (text : List Char) (ls : List (List Char)) (b : Bool) (hl : Lines text ls b)
    (h2 : 2 ≤ (ls.filter fun l => decide (IsData l)).length) :
    ∃ K', (FlexSpectrum.read parse normalize maps text).2 = Complex.sort K' (asLt (Filtration.data fun a b => decide (b < a))) := by
  obtain ⟨h1, -⟩ := FlexSpectrum.loop_text parse maps text ls b hl _ rfl
  rw [List.length_map] at h1
  rw [FlexSpectrum.read]
  simp only
  rw [if_neg (by rw [h1]; omega)]
  exact ⟨_, rfl⟩

theorem reads (c : Context α) (normalize : Bool) (text : List Char) (ls : List (List Char)) (b : Bool) (hl : Lines text ls b) (samples : List (α × α))
    (hs : samples = (ls.filter fun l => decide (IsData l)).map c.parse) (hn : normalize = true → 2 ≤ samples.length ∧ 0 < (samples.map Prod.snd).sum) :
    ∃ maps K, FlexSpectrum.read c.parse normalize ⟨fun _ => none, fun _ => none⟩ text = (maps, K) ∧ Reads samples (intensities normalize samples) maps K := by
  have hys : samples.map Prod.snd = (ls.filter fun l => decide (IsData l)).map fun l => (c.parse l).2 := by
    rw [hs, List.map_map]
    rfl
  have hlen : (intensities normalize samples).length = samples.length := by
    unfold intensities
    split <;> simp
  have hmain : ∀ K, K = (FlexSpectrum.read c.parse normalize ⟨fun _ => none, fun _ => none⟩ text).2 →
      WF K ∧ FaceClosed K ∧ K.Pairwise (fun s t => t.data ≤ s.data) ∧ (∀ t d, HasData K t d ↔ Spectrum.PathData (intensities normalize samples) t d) ∧ FacesFirst K := by
    intro K hK
    cases normalize with
    | false =>
      have := C132_spectrum c.parse _ text ls b hl _ hys K hK
      simpa [intensities] using this
    | true =>
      obtain ⟨e1, e2, e3, e4, -, e6⟩ := C132_normalised_partial c.parse _ text ls b hl _ hys (by rw [List.length_map]; exact (hn rfl).1) (hn rfl).2 K hK
      exact ⟨e1, e2, e3, by simpa [intensities] using e4, e6⟩
  obtain ⟨e1, e2, e3, e4, e5⟩ := hmain _ rfl
  obtain ⟨m1, m2⟩ := C132_maps_partial c.parse normalize ⟨fun _ => none, fun _ => none⟩ text ls b hl samples hs
  refine ⟨(FlexSpectrum.read c.parse normalize ⟨fun _ => none, fun _ => none⟩ text).1, (FlexSpectrum.read c.parse normalize ⟨fun _ => none, fun _ => none⟩ text).2, rfl, hlen, ⟨e1, e2, e5⟩, e3, ?_, e4, ?_, ?_⟩
  · by_cases h2 : 2 ≤ samples.length
    · obtain ⟨K', hK'⟩ := read_sorted c.parse normalize ⟨fun _ => none, fun _ => none⟩ text ls b hl (by rw [hs, List.length_map] at h2; exact h2)
      rw [hK'] at e1 ⊢
      exact sort_ties (e1.perm (sort_perm K' _).symm)
    · generalize (FlexSpectrum.read c.parse normalize ⟨fun _ => none, fun _ => none⟩ text).2 = K at *
      have key : ∀ s ∈ K, s.vset = {0} := by
        intro s hs
        rcases (e4 _ _).1 ⟨s, hs, rfl, rfl⟩ with ⟨i, h, hi⟩ | ⟨i, _, _, _, _, hi, _⟩
        · have := (List.getElem?_eq_some_iff.1 hi).1
          rw [h]
          congr
          omega
        · have := (List.getElem?_eq_some_iff.1 hi).1
          omega
      have hl1 : K.length ≤ 1 := by
        by_contra hlt
        have h0 : 0 < K.length := by omega
        have h1 : 1 < K.length := by omega
        have := vsetAt_inj e1 h0 h1 (by rw [vsetAt_some (List.getElem?_eq_getElem h0), vsetAt_some (List.getElem?_eq_getElem h1), key _ (List.getElem_mem _), key _ (List.getElem_mem _)])
        omega
      rw [List.pairwise_iff_getElem]
      intro i j hi hj hij
      omega
  · intro i
    by_cases hi : i < samples.length
    · rw [(m1 i hi).1, List.getElem?_eq_getElem hi]
      rfl
    · rw [(m2 i (by omega)).1, List.getElem?_eq_none (by omega)]
      rfl
  · intro i
    by_cases hi : i < samples.length
    · rw [(m1 i hi).2]
      cases normalize with
      | false => simp [intensities, List.getElem?_eq_getElem hi]
      | true => simp [intensities, List.getElem?_eq_getElem hi, (hn rfl).1]
    · rw [(m2 i (by omega)).2, List.getElem?_eq_none (by omega)]
      split <;> rfl

section Pairs

omit [Field α] [IsStrictOrderedRing α]

/-- The facts about a path that are used for its pairs. -/
structure IsPath (ys : List α) (K : Complex α) : Prop where
  filtration : IsFiltration K
  sorted : K.Pairwise fun s t => t.data ≤ s.data
  ties : K.Pairwise fun s t => s.data = t.data → ∀ i j, s.vset = {i} → t.vset = {j} → i < j
  path : ∀ t d, HasData K t d ↔ Spectrum.PathData ys t d

/-- The number of simplices of a path. -/
theorem IsPath.length_le {ys : List α} {K : Complex α} (h : IsPath ys K) : K.length ≤ 2 * ys.length := by
  classical
  have h1 : #((range K.length).image (vsetAt K)) = K.length := by
    rw [card_image_of_injOn, card_range]
    intro i hi j hj hij
    exact vsetAt_inj h.filtration.wf (mem_range.1 hi) (mem_range.1 hj) hij
  have h2 : (range K.length).image (vsetAt K) ⊆ (range ys.length).image (fun i => ({i} : Finset ℕ)) ∪ (range ys.length).image fun i => ({i, i + 1} : Finset ℕ) := by
    intro t ht
    obtain ⟨k, hk, rfl⟩ := mem_image.1 ht
    have hk' := mem_range.1 hk
    rw [vsetAt_some (List.getElem?_eq_getElem hk')]
    rcases (h.path _ _).1 ⟨_, List.getElem_mem hk', rfl, rfl⟩ with ⟨i, e, hi⟩ | ⟨i, _, _, e, hi, _⟩
    · exact mem_union_left _ (mem_image.2 ⟨i, mem_range.2 (List.getElem?_eq_some_iff.1 hi).1, e.symm⟩)
    · exact mem_union_right _ (mem_image.2 ⟨i, mem_range.2 (List.getElem?_eq_some_iff.1 hi).1, e.symm⟩)
  have h3 := (card_le_card h2).trans (card_union_le _ _)
  have h4 := (card_image_le (s := range ys.length) (f := fun i => ({i} : Finset ℕ)))
  have h5 := (card_image_le (s := range ys.length) (f := fun i => ({i, i + 1} : Finset ℕ)))
  rw [card_range] at h4 h5
  omega

/-- The value at the position of a vertex. -/
theorem IsPath.vertex {ys : List α} {K : Complex α} (h : IsPath ys K) {i v : ℕ} (hv : vsetAt K i = {v}) :
    ∃ s, K[i]? = some s ∧ s.vset = {v} ∧ ys[v]? = some s.data := by
  have hi : i < K.length := by
    by_contra hlt
    simp [vsetAt, List.getElem?_eq_none (not_lt.1 hlt)] at hv
  rw [vsetAt_some (List.getElem?_eq_getElem hi)] at hv
  refine ⟨K[i], List.getElem?_eq_getElem hi, hv, ?_⟩
  rcases (h.path _ _).1 ⟨_, List.getElem_mem hi, rfl, rfl⟩ with ⟨j, e, hj⟩ | ⟨j, a, b, e, _⟩
  · rw [hv, singleton_inj] at e
    rw [e]
    exact hj
  · rw [hv] at e
    have := congrArg card e
    rw [card_pair (by omega)] at this
    simp at this

/-- The position of the vertex of a value. -/
theorem IsPath.position {ys : List α} {K : Complex α} (h : IsPath ys K) {v : ℕ} {a : α} (hv : ys[v]? = some a) : ∃ i, vsetAt K i = {v} := by
  obtain ⟨s, hs, e, -⟩ := (h.path {v} a).2 (Or.inl ⟨v, rfl, hv⟩)
  obtain ⟨i, hi, rfl⟩ := List.getElem_of_mem hs
  exact ⟨i, by rw [vsetAt_some (List.getElem?_eq_getElem hi)]; exact e⟩

/-- Higher vertices precede others. -/
theorem IsPath.higher {ys : List α} {K : Complex α} (h : IsPath ys K) {i j v w : ℕ} (hv : vsetAt K i = {v}) (hw : vsetAt K j = {w}) :
    (∃ a b, ys[v]? = some a ∧ ys[w]? = some b ∧ (a < b ∨ a = b ∧ w < v)) ↔ j < i := by
  obtain ⟨s, hs, es, ds⟩ := h.vertex hv
  obtain ⟨t, ht, et, dt⟩ := h.vertex hw
  obtain ⟨hi, rfl⟩ := List.getElem?_eq_some_iff.1 hs
  obtain ⟨hj, rfl⟩ := List.getElem?_eq_some_iff.1 ht
  constructor
  · rintro ⟨a, b, ha, hb, hab⟩
    rw [ds] at ha
    rw [dt] at hb
    cases ha
    cases hb
    by_contra hlt
    rcases (not_lt.1 hlt).lt_or_eq with hlt | rfl
    · have h1 := List.pairwise_iff_getElem.1 h.sorted i j hi hj hlt
      have h2 := List.pairwise_iff_getElem.1 h.ties i j hi hj hlt
      rcases hab with hab | ⟨hab, hwv⟩
      · exact absurd h1 (not_le.2 hab)
      · have := h2 hab v w es et
        omega
    · rw [hv, singleton_inj] at hw
      subst hw
      rcases hab with hab | ⟨_, hab⟩
      · exact lt_irrefl _ hab
      · omega
  · intro hlt
    have h1 := List.pairwise_iff_getElem.1 h.sorted j i hj hi hlt
    have h2 := List.pairwise_iff_getElem.1 h.ties j i hj hi hlt
    refine ⟨_, _, ds, dt, ?_⟩
    rcases h1.lt_or_eq with h1 | h1
    · exact Or.inl h1
    · exact Or.inr ⟨h1, h2 h1.symm w v et es⟩

theorem IsPath.connected {ys : List α} {K : Complex α} (h : IsPath ys K) (y : α) {v w : ℕ} {a b : α} (hv : ys[v]? = some a) (hw : ys[w]? = some b) :
    Relation.EqvGen (fun a b => a ≠ b ∧ ∃ s ∈ K, s.vset = {a, b} ∧ y ≤ s.data) v w ↔
      v = w ∨ ∀ k a, min v w ≤ k → k ≤ max v w → ys[k]? = some a → y ≤ a :=
  FunctionAnalysis.connected_iff (α := αᵒᵈ) (values := ys) (K := K) h.path y (List.getElem?_eq_some_iff.1 hv).1 (List.getElem?_eq_some_iff.1 hw).1

/-- Joined vertices lie in a run. -/
theorem IsPath.run {ys : List α} {K : Complex α} (h : IsPath ys K) {t : ℕ} {y : α} (ht : ∀ k (hk : k < K.length), k < t → y ≤ K[k].data) {v w : ℕ} {a b : α}
    (hv : ys[v]? = some a) (hw : ys[w]? = some b) (hne : v ≠ w) (hj : Joined K t v w) : ∀ k a, min v w ≤ k → k ≤ max v w → ys[k]? = some a → y ≤ a := by
  refine ((h.connected y hv hw).1 ?_).resolve_left hne
  unfold Spec.Joined at hj
  refine hj.mono ?_
  rintro p q ⟨hpq, k, hk, e⟩
  have hkl : k < K.length := by
    by_contra hlt
    simp [vsetAt, List.getElem?_eq_none (not_lt.1 hlt)] at e
    exact absurd (e ▸ mem_insert_self p {q}) (by simp)
  rw [vsetAt_some (List.getElem?_eq_getElem hkl)] at e
  exact ⟨hpq, _, List.getElem_mem hkl, e, ht k hkl hk⟩

/-- Vertices in a run are joined. -/
theorem IsPath.joined {ys : List α} {K : Complex α} (h : IsPath ys K) {t : ℕ} {y : α} (ht : ∀ k (hk : k < K.length), y ≤ K[k].data → k < t) {v w : ℕ} {a b : α}
    (hv : ys[v]? = some a) (hw : ys[w]? = some b) (hr : ∀ k a, min v w ≤ k → k ≤ max v w → ys[k]? = some a → y ≤ a) : Joined K t v w := by
  have := (h.connected y hv hw).2 (Or.inr hr)
  refine this.mono ?_
  rintro p q ⟨hpq, s, hs, e, hd⟩
  obtain ⟨k, hk, rfl⟩ := List.getElem_of_mem hs
  exact ⟨hpq, k, ht k hk hd, by rw [vsetAt_some (List.getElem?_eq_getElem hk)]; exact e⟩

end Pairs

omit [IsStrictOrderedRing α] in
/-- The pairs of a path. -/
theorem IsPath.pair {ys : List α} {K : Complex α} (h : IsPath ys K) (hn : K.length ≤ idxMax) {leftFirst : Bool} {inf : α} {pts : List (α × α)} {pairs : List (ℕ × ℕ)}
    (hz : zeroDimensional true leftFirst inf K = some (pts, pairs)) {i j : ℕ} (hij : (i, j) ∈ pairs) :
    ∃ v s, vsetAt K i = {v} ∧ K[i]? = some s ∧ ys[v]? = some s.data ∧
      ((j = idxMax ∧ ∀ w, ¬ Higher ys w v) ∨
        ∃ t, K[j]? = some t ∧ #t.vset = 2 ∧ t.data ≤ s.data ∧ IsGreatest {y | ∃ w, Higher ys w v ∧ RunAbove ys y v w} t.data) := by
  obtain ⟨pts', pairs', e, hnd, hpts, hmem⟩ := C16_zero_dimensional_pairing true leftFirst inf K h.filtration hn
  rw [hz] at e
  cases e
  obtain ⟨f1, f2, f3, f4⟩ := pairFacts h.filtration hn
  obtain ⟨hd, hp | ⟨rfl, hu⟩⟩ := (hmem i j).1 hij
  · obtain ⟨hi, hj, hdim⟩ := f1 _ _ hp.1
    obtain ⟨⟨v, hv, hold⟩, -, v', w, i', hv', hw, hlt, hnj, hjo⟩ := (C17_elder_rule true leftFirst inf K h.filtration hn pts pairs hz i j hj).1 hij
    obtain rfl : v = v' := singleton_injective (hv.symm.trans hv')
    obtain ⟨s, hs, es, ds⟩ := h.vertex hv
    obtain ⟨t, ht, et, dt⟩ := h.vertex hw
    have hne : v ≠ w := by
      rintro rfl
      exact hnj (Relation.EqvGen.refl _)
    have hrun := h.run (t := j + 1) (y := K[j].data) (by
      intro k hk hkj
      rcases (Nat.lt_succ_iff.1 hkj).lt_or_eq with hkj | rfl
      · exact List.pairwise_iff_getElem.1 h.sorted k j hk hj hkj
      · exact le_rfl) ds dt hne hjo
    refine ⟨v, s, hv, hs, ds, Or.inr ⟨K[j], List.getElem?_eq_getElem hj, ?_, ?_, ⟨w, (h.higher hv hw).2 hlt, hrun⟩, ?_⟩⟩
    · rw [hd, dimAt, vsetAt_some (List.getElem?_eq_getElem hj)] at hdim
      omega
    · exact hrun v _ (min_le_left _ _) (le_max_left _ _) ds
    · rintro y ⟨u, hu, hr⟩
      by_contra hlt'
      rw [not_le] at hlt'
      have hu' := hu
      obtain ⟨a, b, ha, hb, -⟩ := hu'
      obtain ⟨k, hk⟩ := h.position hb
      have hjo' := h.joined (t := j) (y := y) (by
        intro l hl hy
        by_contra hjl
        rcases (not_lt.1 hjl).lt_or_eq with hjl | rfl
        · exact absurd (lt_of_lt_of_le hlt' hy) (not_lt.2 (List.pairwise_iff_getElem.1 h.sorted j l hj hl hjl))
        · exact absurd hy (not_le.2 hlt')) ha hb hr
      have h1 := hold k u hk hjo'
      have h2 := (h.higher hv hk).1 hu
      omega
  · obtain ⟨v, hv, hold⟩ := ((C17_components true leftFirst inf K h.filtration hn pts pairs hz).1 i).1 hij
    obtain ⟨s, hs, es, ds⟩ := h.vertex hv
    refine ⟨v, s, hv, hs, ds, Or.inl ⟨rfl, ?_⟩⟩
    intro w hw
    have hw' := hw
    obtain ⟨a, b, ha, hb, -⟩ := hw'
    obtain ⟨k, hk⟩ := h.position hb
    obtain ⟨m, -, hm⟩ : ∃ m ∈ ys, ∀ y ∈ ys, m ≤ y := by
      have hne : ys.toFinset.Nonempty := ⟨a, List.mem_toFinset.2 (List.mem_of_getElem? ha)⟩
      exact ⟨ys.toFinset.min' hne, List.mem_toFinset.1 (min'_mem _ _), fun y hy => min'_le _ _ (List.mem_toFinset.2 hy)⟩
    have hjo := h.joined (t := K.length) (y := m) (fun k hk _ => hk) ha hb (fun k x _ _ hx => hm x (List.mem_of_getElem? hx))
    have h1 := hold k w hk hjo
    have h2 := (h.higher hv hk).1 hw
    omega

/-- The points of a path. -/
theorem IsPath.points {ys : List α} {K : Complex α} (h : IsPath ys K) (hn : K.length ≤ idxMax) (hne : ys ≠ []) {leftFirst : Bool} {inf : α} (hinf : inf ∉ ys)
    {pts : List (α × α)} {pairs : List (ℕ × ℕ)} (hz : zeroDimensional true leftFirst inf K = some (pts, pairs)) :
    (⟨0, pts⟩ : Diagram α).betti inf = 1 ∧ IsPeakDiagram ys ((pts.filter fun p => !decide (p.1 = p.2)).map (close inf)) := by
  obtain ⟨pts', pairs', e, hnd, hpts, hmem⟩ := C16_zero_dimensional_pairing true leftFirst inf K h.filtration hn
  rw [hz] at e
  cases e
  have hdinf : ∀ s ∈ K, s.data ∈ ys := by
    intro s hs
    rcases (h.path _ _).1 ⟨s, hs, rfl, rfl⟩ with ⟨k, _, e2⟩ | ⟨k, a, b, _, e2, e3, e4⟩
    · exact List.mem_of_getElem? e2
    · rw [e4]
      rcases min_choice a b with h | h <;> rw [h]
      · exact List.mem_of_getElem? e2
      · exact List.mem_of_getElem? e3
  have hval : ∀ p ∈ pts, p.1 ∈ ys ∧ (p.2 = inf ∨ p.2 ∈ ys ∧ p.2 ≤ p.1) := by
    intro p hp
    rw [hpts] at hp
    obtain ⟨⟨i, j⟩, hij, rfl⟩ := List.mem_map.1 hp
    obtain ⟨v, s, hv, hs, ds, h'⟩ := h.pair hn hz hij
    have e1 : dataD inf K i = s.data := by simp [dataD, hs]
    simp only [e1]
    refine ⟨List.mem_of_getElem? ds, ?_⟩
    rcases h' with ⟨rfl, -⟩ | ⟨t, ht, -, hle, -⟩
    · left
      simp [dataD, List.getElem?_eq_none hn]
    · have e2 : dataD inf K j = t.data := by simp [dataD, ht]
      rw [e2]
      exact Or.inr ⟨hdinf t (List.mem_of_getElem? ht), hle⟩
  have hcount : ∀ x y, y ≤ x → IsClassCount {i | ∃ a, ys[i]? = some a ∧ x ≤ a} (RunAbove ys y) (pts.countP fun p => x ≤ p.1 ∧ (p.2 = inf ∨ p.2 < y)) := by
    intro x y hxy
    obtain ⟨pts', pairs', Ds, e, hD, hperm⟩ := C16_agrees_with_reduction true leftFirst inf K h.filtration hn (Or.inl rfl) .twist .vector false
    rw [hz] at e
    cases e
    have hc := C17_persistent_components_superlevel inf K h.filtration hn h.sorted (fun s hs e => hinf (e ▸ hdinf s hs)) .twist .vector false true (Or.inl rfl) Ds hD x y
    have hf : (pointsOfDimension 0 Ds).filter (fun x => (true = true ∨ x.1 ≠ x.2 : Prop)) = pointsOfDimension 0 Ds := by simp
    rw [hf] at hperm
    rw [hperm.countP_eq]
    have hv : {v | ∃ s ∈ K, s.vset = {v} ∧ x ≤ s.data} = {i | ∃ a, ys[i]? = some a ∧ x ≤ a} := FunctionAnalysis.path_vertices (α := αᵒᵈ) (values := ys) (K := K) h.path x
    rw [hv] at hc
    refine FunctionAnalysis.isClassCount_congr ?_ hc
    rintro a ⟨va, ha, hax⟩ b ⟨vb, hb, hbx⟩
    rw [h.connected y ha hb]
    constructor
    · rintro (rfl | h)
      · intro k c hk hk' hc
        obtain rfl : k = a := by omega
        rw [ha] at hc
        rw [← Option.some.inj hc]
        exact hxy.trans hax
      · exact h
    · exact Or.inr
  have hne' : ys.toFinset.Nonempty := by
    obtain ⟨a, ha⟩ := List.exists_mem_of_ne_nil ys hne
    exact ⟨a, List.mem_toFinset.2 ha⟩
  obtain ⟨m, hm, hmin⟩ : ∃ m ∈ ys, ∀ y ∈ ys, m ≤ y :=
    ⟨ys.toFinset.min' hne', List.mem_toFinset.1 (min'_mem _ _), fun y hy => min'_le _ _ (List.mem_toFinset.2 hy)⟩
  obtain ⟨M, hM, hmax⟩ : ∃ m ∈ ys, ∀ y ∈ ys, y ≤ m :=
    ⟨ys.toFinset.max' hne', List.mem_toFinset.1 (max'_mem _ _), fun y hy => le_max' _ _ (List.mem_toFinset.2 hy)⟩
  have hall : ∀ i j, RunAbove ys m i j := fun i j k a _ _ ha => hmin a (List.mem_of_getElem? ha)
  have hV : ∀ x ∈ ys, ({i | ∃ a, ys[i]? = some a ∧ x ≤ a} : Set ℕ).Nonempty := by
    intro x hx
    obtain ⟨i, hi⟩ := List.getElem?_of_mem hx
    exact ⟨i, x, hi, le_rfl⟩
  have one1 := FunctionAnalysis.classCount_one (fun a _ b _ => hall a b) (hV M hM) (hcount M m (hmin M hM))
  have one2 := FunctionAnalysis.classCount_one (fun a _ b _ => hall a b) (hV m hm) (hcount m m le_rfl)
  have hbetti : (⟨0, pts⟩ : Diagram α).betti inf = 1 := by
    unfold Diagram.betti
    rw [← one2]
    refine List.countP_congr fun p hp => ?_
    simp only [Diagram.isUnpaired, decide_eq_true_eq]
    constructor
    · exact fun h => ⟨hmin _ (hval p hp).1, Or.inl h⟩
    · rintro ⟨_, h | h⟩
      · exact h
      · rcases (hval p hp).2 with h' | h'
        · exact h'
        · exact absurd (hmin _ h'.1) (not_le.2 h)
  refine ⟨hbetti, ?_⟩
  have hpos : 0 < pts.countP fun p => M ≤ p.1 ∧ (p.2 = inf ∨ p.2 < m) := by rw [one1]; exact Nat.one_pos
  obtain ⟨p, hp, hp'⟩ := List.countP_pos_iff.1 hpos
  rw [decide_eq_true_eq] at hp'
  have hp2 : p.2 = inf := by
    rcases hp'.2 with h | h
    · exact h
    · exact (hval p hp).2.resolve_right fun h' => absurd (hmin _ h'.1) (not_le.2 h)
  have hp1 : p.1 = M := le_antisymm (hmax _ (hval p hp).1) hp'.1
  obtain ⟨x, y⟩ := p
  simp only at hp1 hp2
  subst hp1 hp2
  have hperm : pts.Perm ((x, y) :: pts.erase (x, y)) := List.perm_cons_erase hp
  generalize pts.erase (x, y) = rest at hperm
  have hrest : ∀ q ∈ rest, q.2 ≠ y := by
    have : rest.countP (Diagram.isUnpaired y) = 0 := by
      have h1 := hperm.countP_eq (Diagram.isUnpaired y)
      unfold Diagram.betti at hbetti
      simp only at hbetti
      rw [hbetti, List.countP_cons_of_pos (by simp [Diagram.isUnpaired])] at h1
      omega
    intro q hq hqy
    have := List.countP_eq_zero.1 this q hq
    simp [Diagram.isUnpaired, hqy] at this
  have hxy : x ≠ y := fun e => hinf (e ▸ hM)
  refine ⟨x, rest.filter fun p => !decide (p.1 = p.2), ?_, hM, hmax, ?_, ?_⟩
  · have h1 := (hperm.filter (fun p => !decide (p.1 = p.2))).map (close y)
    rw [List.filter_cons_of_pos (by simpa using hxy), List.map_cons] at h1
    refine h1.trans ?_
    rw [show close y (x, y) = (x, 0) by simp [close, Diagram.isUnpaired]]
    refine List.Perm.cons _ ?_
    rw [List.map_congr_left (g := id), List.map_id]
    intro q hq
    have := hrest q (List.mem_of_mem_filter hq)
    simp [close, Diagram.isUnpaired, this]
  · intro q hq
    obtain ⟨hq1, hq2⟩ := List.mem_filter.1 hq
    obtain ⟨g1, g2⟩ := hval q (hperm.symm.subset (List.mem_cons_of_mem _ hq1))
    obtain ⟨g2, g3⟩ := g2.resolve_left (hrest q hq1)
    refine ⟨g1, g2, lt_of_le_of_ne g3 ?_⟩
    simp at hq2
    exact fun e => hq2 e.symm
  · intro a b hab
    have := hcount a b hab
    rw [hperm.countP_eq, List.countP_cons] at this
    convert this using 1
    rw [add_comm]
    congr 1
    · rw [List.countP_filter]
      refine List.countP_congr fun q hq => ?_
      have hq' := hrest q hq
      simp only [Bool.and_eq_true, decide_eq_true_eq, hq', false_or]
      constructor
      · exact fun h => h.1
      · intro h
        refine ⟨h, ?_⟩
        simp only [Bool.not_eq_true', decide_eq_false_iff_not]
        intro e
        exact absurd (lt_of_lt_of_le h.2 (hab.trans (h.1.trans e.le))) (lt_irrefl _)
    · by_cases hax : a ≤ x <;> simp [hax]

omit [IsStrictOrderedRing α] in
theorem assign_mem {x v : α} {m : List (α × α)} {e : α × α} (h : e ∈ assign x v m) : e = (x, v) ∨ e ∈ m := by
  induction m with
  | nil => simpa [assign] using h
  | cons d m ih =>
    simp only [assign] at h
    split at h
    · simpa using h
    · split at h
      · next hx =>
        rcases List.mem_cons.1 h with h | h
        · exact Or.inl (by rw [h, hx])
        · exact Or.inr (List.mem_cons_of_mem _ h)
      · rcases List.mem_cons.1 h with h | h
        · exact Or.inr (by rw [h]; exact List.mem_cons_self ..)
        · exact (ih h).imp_right (List.mem_cons_of_mem _)

omit [IsStrictOrderedRing α] in
theorem assign_self (x v : α) (m : List (α × α)) : (x, v) ∈ assign x v m := by
  induction m with
  | nil => simp [assign]
  | cons d m ih =>
    simp only [assign]
    split
    · simp
    · split
      · next hx => rw [hx]; simp
      · exact List.mem_cons_of_mem _ ih

omit [IsStrictOrderedRing α] in
theorem assign_keeps {x v : α} {m : List (α × α)} {k w : α} (h : (k, w) ∈ m) : ∃ w', (k, w') ∈ assign x v m := by
  induction m with
  | nil => simp at h
  | cons d m ih =>
    simp only [assign]
    split
    · exact ⟨w, List.mem_cons_of_mem _ h⟩
    · split
      · rcases List.mem_cons.1 h with h | h
        · exact ⟨v, by rw [← h]; simp⟩
        · exact ⟨w, List.mem_cons_of_mem _ h⟩
      · rcases List.mem_cons.1 h with h | h
        · exact ⟨w, by rw [h]; simp⟩
        · obtain ⟨w', h'⟩ := ih h
          exact ⟨w', List.mem_cons_of_mem _ h'⟩

omit [IsStrictOrderedRing α] in
theorem assign_sorted {x v : α} {m : List (α × α)} (h : m.Pairwise fun p q => p.1 < q.1) : (assign x v m).Pairwise fun p q => p.1 < q.1 := by
  induction m with
  | nil => simp [assign]
  | cons d m ih =>
    obtain ⟨h1, h2⟩ := List.pairwise_cons.1 h
    simp only [assign]
    split
    · next hx =>
      refine List.pairwise_cons.2 ⟨?_, h⟩
      intro q hq
      rcases List.mem_cons.1 hq with rfl | hq
      · exact hx
      · exact hx.trans (h1 q hq)
    · split
      · exact List.pairwise_cons.2 ⟨h1, h2⟩
      · next hx hx' =>
        refine List.pairwise_cons.2 ⟨?_, ih h2⟩
        intro q hq
        rcases assign_mem hq with rfl | hq
        · exact lt_of_le_of_ne (not_lt.1 hx) fun e => hx' e.symm
        · exact h1 q hq

omit [IsStrictOrderedRing α] in
/-- The loop over all pairs. -/
theorem transform_loop (maps : FlexSpectrum.Maps α α) (K : Complex α) (good : ℕ × ℕ → α × α → Prop) :
    ∀ (pairs : List (ℕ × ℕ)) (m : List (α × α)), (∀ ij ∈ pairs, ∃ e, good ij e ∧ ∀ m, transformPair maps K m ij = .ok (assign e.1 e.2 m)) →
      m.Pairwise (fun p q => p.1 < q.1) →
      ∃ T, pairs.foldlM (transformPair maps K) m = .ok T ∧ T.Pairwise (fun p q => p.1 < q.1) ∧ (∀ e ∈ T, e ∈ m ∨ ∃ ij ∈ pairs, good ij e) ∧
        (∀ e ∈ m, ∃ w, (e.1, w) ∈ T) ∧ ∀ ij ∈ pairs, ∃ e w, good ij e ∧ (e.1, w) ∈ T := by
  intro pairs
  induction pairs with
  | nil =>
    intro m _ hm
    exact ⟨m, rfl, hm, fun e he => Or.inl he, fun e he => ⟨e.2, he⟩, by simp⟩
  | cons ij pairs ih =>
    intro m h hm
    obtain ⟨e, he, hstep⟩ := h ij (by simp)
    obtain ⟨T, t1, t2, t3, t4, t5⟩ := ih (assign e.1 e.2 m) (fun ij hij => h ij (List.mem_cons_of_mem _ hij)) (assign_sorted hm)
    refine ⟨T, ?_, t2, ?_, ?_, ?_⟩
    · rw [List.foldlM_cons, hstep m]
      exact t1
    · intro e' he'
      rcases t3 e' he' with h' | ⟨ij', h1, h2⟩
      · rcases assign_mem h' with h' | h'
        · exact Or.inr ⟨ij, by simp, by rw [h']; exact he⟩
        · exact Or.inl h'
      · exact Or.inr ⟨ij', List.mem_cons_of_mem _ h1, h2⟩
    · intro e' he'
      obtain ⟨w, hw⟩ := assign_keeps (x := e.1) (v := e.2) (k := e'.1) (w := e'.2) he'
      exact t4 (e'.1, w) hw
    · intro ij' hij'
      rcases List.mem_cons.1 hij' with rfl | hij'
      · obtain ⟨w, hw⟩ := t4 _ (assign_self e.1 e.2 m)
        exact ⟨e, w, he, hw⟩
      · exact t5 ij' hij'

theorem Reads.isPath {samples : List (α × α)} {ys : List α} {maps : FlexSpectrum.Maps α α} {K : Complex α} (h : Reads samples ys maps K) : IsPath ys K :=
  ⟨h.filtration, h.sorted, h.ties, h.path⟩

theorem vertices_eq {K : Complex α} (hK : WF K) {s : Simplex α} (hs : s ∈ K) {v : ℕ} (h : s.vset = {v}) : s.vertices = [v] := by
  have hc := card_vset hK hs
  rw [h, card_singleton] at hc
  obtain ⟨a, ha⟩ := List.length_eq_one_iff.1 hc.symm
  have : v ∈ s.vset := by rw [h]; simp
  rw [Simplex.vset, ha] at this
  rw [ha]
  simp at this
  rw [this]

/-- The transformed spectrum. -/
theorem Reads.transform {samples : List (α × α)} {ys : List α} {maps : FlexSpectrum.Maps α α} {K : Complex α} (h : Reads samples ys maps K) (hn : K.length ≤ idxMax)
    {leftFirst : Bool} {inf : α} {pts : List (α × α)} {pairs : List (ℕ × ℕ)} (hz : zeroDimensional true leftFirst inf K = some (pts, pairs)) :
    ∃ T, pairs.foldlM (transformPair maps K) [] = .ok T ∧ IsTransformed (samples.map Prod.fst) ys T := by
  have hw := h.filtration.wf
  have hgood : ∀ ij ∈ pairs, ∃ e : α × α, (∃ v, vsetAt K ij.1 = {v} ∧ (samples.map Prod.fst)[v]? = some e.1 ∧ IsProminence ys v e.2) ∧
      ∀ m, transformPair maps K m ij = .ok (assign e.1 e.2 m) := by
    rintro ⟨i, j⟩ hij
    obtain ⟨v, s, hv, hs, ds, hcase⟩ := h.isPath.pair hn hz hij
    have hsv : s.vset = {v} := by rw [← vsetAt_some hs]; exact hv
    have hsK := List.mem_of_getElem? hs
    have hvert := vertices_eq hw hsK hsv
    have hlen : v < samples.length := by
      rw [← h.length]
      exact (List.getElem?_eq_some_iff.1 ds).1
    have hx : maps.value v = some samples[v].1 := by rw [h.value, List.getElem?_eq_getElem hlen]; rfl
    have hdim : s.dimension = some 0 := by simp [Simplex.dimension, hvert]
    have hx' : (samples.map Prod.fst)[v]? = some samples[v].1 := by rw [List.getElem?_map, List.getElem?_eq_getElem hlen]; rfl
    rcases hcase with ⟨rfl, hno⟩ | ⟨t, ht, hc, hle, hg⟩
    · refine ⟨(samples[v].1, |s.data - 0|), ⟨v, hv, hx', s.data, ds, Or.inl ⟨hno, by rw [sub_zero]⟩⟩, ?_⟩
      intro m
      have hd2 : (Simplex.ofRange [0, 1] (0 : α)).dimension = some 1 := rfl
      have hd3 : (Simplex.ofRange [0, 1] (0 : α)).data = 0 := rfl
      unfold transformPair Complex.get
      simp only [hs, if_neg (not_lt.2 hn), hdim, hd2, hd3, ne_eq, not_true_eq_false, or_self, if_false, hvert, List.getElem?_cons_zero, hx]
    · have hj := (List.getElem?_eq_some_iff.1 ht).1
      refine ⟨(samples[v].1, |s.data - t.data|), ⟨v, hv, hx', s.data, ds, Or.inr ⟨t.data, hg, abs_of_nonneg (sub_nonneg.2 hle)⟩⟩, ?_⟩
      intro m
      have hd2 : t.dimension = some 1 := by
        rw [card_vset hw (List.mem_of_getElem? ht)] at hc
        obtain ⟨a, b, e⟩ := List.length_eq_two.1 hc
        simp [Simplex.dimension, e]
      unfold transformPair Complex.get
      simp only [hs, if_pos hj, ht, hdim, hd2, ne_eq, not_true_eq_false, or_self, if_false, hvert, List.getElem?_cons_zero, hx]
  obtain ⟨T, t1, t2, t3, -, t5⟩ := transform_loop maps K
    (fun ij e => ∃ v, vsetAt K ij.1 = {v} ∧ (samples.map Prod.fst)[v]? = some e.1 ∧ IsProminence ys v e.2) pairs [] hgood (by simp)
  refine ⟨T, t1, t2, ?_, ?_⟩
  · intro x hx
    obtain ⟨v, hv⟩ := List.getElem?_of_mem hx
    have hv' : v < ys.length := by
      rw [h.length, ← List.length_map (f := Prod.fst)]
      exact (List.getElem?_eq_some_iff.1 hv).1
    obtain ⟨i, hi⟩ := h.isPath.position (List.getElem?_eq_getElem hv')
    obtain ⟨s, hs, es, -⟩ := h.isPath.vertex hi
    have : i ∈ pairs.map (·.1) := ((C17_counts leftFirst inf K h.filtration hn pts pairs hz).2.1 i).2 ⟨v, ((C22_vertices K hw).2 v).2 ⟨s, List.mem_of_getElem? hs, es⟩, hi⟩
    obtain ⟨ij, hij, rfl⟩ := List.mem_map.1 this
    obtain ⟨e, w, ⟨v', e1, e2, -⟩, hT⟩ := t5 ij hij
    rw [hi, singleton_inj] at e1
    subst e1
    rw [hv] at e2
    exact ⟨w, by rw [Option.some.inj e2]; exact hT⟩
  · intro e he
    rcases t3 e he with h' | ⟨_, _, v, _, h1, h2⟩
    · simp at h'
    · exact ⟨v, h1, h2⟩

theorem Reads.vertices {samples : List (α × α)} {ys : List α} {maps : FlexSpectrum.Maps α α} {K : Complex α} (h : Reads samples ys maps K) :
    K.vertices = List.range samples.length := by
  have hw := h.filtration.wf
  refine List.Perm.eq_of_pairwise (le := (· ≤ ·)) (fun a b _ _ h1 h2 => Nat.le_antisymm h1 h2) ?_ ?_ ?_
  · exact (C22_vertices K hw).1.imp fun h => le_of_lt h
  · exact List.pairwise_lt_range.imp fun h => le_of_lt h
  · refine (List.perm_ext_iff_of_nodup ((C22_vertices K hw).1.imp fun h => ne_of_lt h) List.nodup_range).2 fun v => ?_
    rw [(C22_vertices K hw).2, List.mem_range, ← h.length]
    constructor
    · rintro ⟨s, hs, hv⟩
      obtain ⟨i, hi, rfl⟩ := List.getElem_of_mem hs
      obtain ⟨_, _, _, hd⟩ := h.isPath.vertex (i := i) (v := v) (by rw [vsetAt_some (List.getElem?_eq_getElem hi)]; exact hv)
      exact (List.getElem?_eq_some_iff.1 hd).1
    · intro hv
      obtain ⟨i, hi⟩ := h.isPath.position (List.getElem?_eq_getElem hv)
      obtain ⟨s, hs, e, -⟩ := h.isPath.vertex hi
      exact ⟨s, List.mem_of_getElem? hs, e⟩

theorem Reads.identity {samples : List (α × α)} {ys : List α} {maps : FlexSpectrum.Maps α α} {K : Complex α} (h : Reads samples ys maps K) (c : Context α) :
    identity c maps K = .ok (((samples.map Prod.fst).zip ys).flatMap fun e => c.print e.1 ++ '\t' :: c.print e.2 ++ ['\n']) := by
  have hm : K.vertices.mapM (sample maps) = some ((samples.map Prod.fst).zip ys) := by
    rw [h.vertices, Smoothing.mapM_iff]
    refine List.forall₂_iff_get.2 ⟨by simp [h.length], ?_⟩
    intro i h1 h2
    simp only [List.length_range] at h1
    simp [sample, h.value, h.intensity, List.getElem?_eq_getElem h1, List.getElem?_eq_getElem (h.length.symm ▸ h1 : i < ys.length)]
  unfold SpectralAnalysis.identity
  rw [hm]
  simp [lines]

omit [IsStrictOrderedRing α] in
theorem settings_mode (opts : List Opt) : IsLastValue (fun o => match o with
    | .mode w => some w
    | _ => none) some "diagram".toList opts (settings opts).mode := by
  have h := lastValue_of_foldlM (Opt := Opt) (step := fun s o => some (setOption s o)) (get := Settings.mode) (conv := some) (pick := fun o => match o with
    | .mode w => some w
    | _ => none) (init := ⟨"diagram".toList, false⟩) (s := settings opts) (opts := opts) ?_ ?_ ?_
  · exact h
  · intro s o s' w ho hs
    cases o <;> simp at ho
    subst ho
    simp at hs
    rw [← hs]
    rfl
  · intro s o s' ho hs
    cases o <;> simp at ho
    all_goals
      simp at hs
      rw [← hs]
      rfl
  · unfold settings
    exact List.foldlM_pure (m := Option)

omit [IsStrictOrderedRing α] in
theorem settings_normalize (opts : List Opt) : (settings opts).normalize = true ↔ Opt.normalize ∈ opts := by
  have key : ∀ (opts : List Opt) (s : Settings), (opts.foldl setOption s).normalize = true ↔ s.normalize = true ∨ Opt.normalize ∈ opts := by
    intro opts
    induction opts with
    | nil => simp
    | cons o opts ih =>
      intro s
      rw [List.foldl_cons, ih]
      cases o <;> simp [setOption]
  rw [settings, key]
  simp

/-- What the program does before the output. -/
theorem main_start (c : Context α) (files : List Char → Option (List Char)) (opts : List Opt) (name : List Char) (rest : List (List Char)) (text : List Char)
    (hf : files name = some text) (ls : List (List Char)) (b : Bool) (hl : Lines text ls b) (samples : List (α × α))
    (hs : samples = (ls.filter fun l => decide (IsData l)).map c.parse) (hsize : 2 * samples.length ≤ 4294967295) (normalize : Bool)
    (hnorm : normalize = true ↔ Opt.normalize ∈ opts) (hn : normalize = true → 2 ≤ samples.length ∧ 0 < (samples.map Prod.snd).sum) :
    ∃ maps K pts pairs, Reads samples (intensities normalize samples) maps K ∧ K.length ≤ idxMax ∧ zeroDimensional true c.leftFirst c.inf K = some (pts, pairs) ∧
      main c files opts (name :: rest) =
        match (if (settings opts).mode = "diagram".toList then diagram c pts
          else if (settings opts).mode = "transformation".toList then transformation c maps K pairs
          else if (settings opts).mode = "identity".toList then identity c maps K
          else .ok [] : Except Failure (List Char)) with
        | .error e => .error e
        | .ok t => .ok (0, t) := by
  obtain ⟨maps, K, e1, e2⟩ := reads c normalize text ls b hl samples hs hn
  have hK : K.length ≤ idxMax := by
    have h1 := e2.isPath.length_le
    rw [e2.length] at h1
    exact h1.trans hsize
  obtain ⟨pts, pairs, hz, -⟩ := C16_zero_dimensional_pairing true c.leftFirst c.inf K e2.filtration hK
  have hset : (settings opts).normalize = normalize := by
    rw [Bool.eq_iff_iff, settings_normalize, hnorm]
  refine ⟨maps, K, pts, pairs, e2, hK, hz, ?_⟩
  unfold main
  simp only [hf, FlexSpectrum.readFile, hset, Option.map_some, e1, hz]
  generalize (if (settings opts).mode = "diagram".toList then diagram c pts
          else if (settings opts).mode = "transformation".toList then transformation c maps K pairs
          else if (settings opts).mode = "identity".toList then identity c maps K
          else .ok [] : Except Failure (List Char)) = t
  cases t <;> rfl

/-- **C187 (diagrams).** In the mode `diagram`, which is the default one, the points of the diagram of the superlevel sets of the spectrum are written, without
points on the diagonal: the largest intensity yields a point that is destroyed at zero, and all other points describe the runs of intensities above all thresholds.  With `-n`, intensities
are parts of the total intensity.

The property is violated in the other cases: a spectrum without samples violates an assertion, a spectrum whose total intensity is not positive is not scaled
properly, a single sample is not scaled at all, and zero need not be the smallest intensity. -/
theorem _root_.Aleph.C187_diagram_partial (c : Context α) (files : List Char → Option (List Char)) (opts : List Opt) (name : List Char) (rest : List (List Char)) (text : List Char)
    (hf : files name = some text) (ls : List (List Char)) (b : Bool) (hl : Lines text ls b) (samples : List (α × α))
    (hs : samples = (ls.filter fun l => decide (IsData l)).map c.parse) (hsize : 2 * samples.length ≤ 4294967295) (hne : samples ≠ []) (normalize : Bool)
    (hnorm : normalize = true ↔ Opt.normalize ∈ opts) (hn : normalize = true → 2 ≤ samples.length ∧ 0 < (samples.map Prod.snd).sum)
    (hinf : c.inf ∉ intensities normalize samples)
    (hmode : IsLastValue (fun o => match o with
      | .mode w => some w
      | _ => none) some "diagram".toList opts "diagram".toList) :
    ∃ P, IsPeakDiagram (intensities normalize samples) P ∧
      main c files opts (name :: rest) = .ok (0, (P.flatMap fun p => c.print p.1 ++ '\t' :: c.print p.2 ++ ['\n']) ++ ['\n']) := by
  obtain ⟨maps, K, pts, pairs, h1, h2, h3, h4⟩ := main_start c files opts name rest text hf ls b hl samples hs hsize normalize hnorm hn
  have hys : intensities normalize samples ≠ [] := by
    intro e
    have := h1.length
    rw [e] at this
    exact hne (List.length_eq_zero_iff.1 this.symm)
  obtain ⟨g1, g2⟩ := h1.isPath.points h2 hys hinf h3
  refine ⟨_, g2, ?_⟩
  rw [h4, if_pos (Smoothing.lastValue_unique (settings_mode opts) hmode)]
  unfold diagram
  simp only [g1, ne_eq, not_true_eq_false, if_false, Diagram.removeDiagonal, FunctionAnalysis.diagramText]
  simp

/-- **C187 (transformation).** In the mode `transformation`, the positions of all samples are written in ascending order, with their prominences: the differences between the intensities of
samples and the largest thresholds such that the samples are connected to higher ones. -/
theorem _root_.Aleph.C187_transformation_partial (c : Context α) (files : List Char → Option (List Char)) (opts : List Opt) (name : List Char) (rest : List (List Char)) (text : List Char)
    (hf : files name = some text) (ls : List (List Char)) (b : Bool) (hl : Lines text ls b) (samples : List (α × α))
    (hs : samples = (ls.filter fun l => decide (IsData l)).map c.parse) (hsize : 2 * samples.length ≤ 4294967295) (normalize : Bool)
    (hnorm : normalize = true ↔ Opt.normalize ∈ opts) (hn : normalize = true → 2 ≤ samples.length ∧ 0 < (samples.map Prod.snd).sum)
    (hmode : IsLastValue (fun o => match o with
      | .mode w => some w
      | _ => none) some "diagram".toList opts "transformation".toList) :
    ∃ T, IsTransformed (samples.map Prod.fst) (intensities normalize samples) T ∧
      main c files opts (name :: rest) = .ok (0, T.flatMap fun e => c.print e.1 ++ '\t' :: c.print e.2 ++ ['\n']) := by
  obtain ⟨maps, K, pts, pairs, h1, h2, h3, h4⟩ := main_start c files opts name rest text hf ls b hl samples hs hsize normalize hnorm hn
  obtain ⟨T, g1, g2⟩ := h1.transform h2 h3
  refine ⟨T, g2, ?_⟩
  have hm := Smoothing.lastValue_unique (settings_mode opts) hmode
  rw [h4, if_neg (by rw [hm]; decide), if_pos hm]
  unfold transformation
  simp [g1, lines]

/-- **C187 (identity).** In the mode `identity`, all samples are written in the order of the file, with their intensities or their parts of the total intensity. -/
theorem _root_.Aleph.C187_identity_partial (c : Context α) (files : List Char → Option (List Char)) (opts : List Opt) (name : List Char) (rest : List (List Char)) (text : List Char)
    (hf : files name = some text) (ls : List (List Char)) (b : Bool) (hl : Lines text ls b) (samples : List (α × α))
    (hs : samples = (ls.filter fun l => decide (IsData l)).map c.parse) (hsize : 2 * samples.length ≤ 4294967295) (normalize : Bool)
    (hnorm : normalize = true ↔ Opt.normalize ∈ opts) (hn : normalize = true → 2 ≤ samples.length ∧ 0 < (samples.map Prod.snd).sum)
    (hmode : IsLastValue (fun o => match o with
      | .mode w => some w
      | _ => none) some "diagram".toList opts "identity".toList) :
    main c files opts (name :: rest) =
      .ok (0, ((samples.map Prod.fst).zip (intensities normalize samples)).flatMap fun e => c.print e.1 ++ '\t' :: c.print e.2 ++ ['\n']) := by
  obtain ⟨maps, K, pts, pairs, h1, h2, h3, h4⟩ := main_start c files opts name rest text hf ls b hl samples hs hsize normalize hnorm hn
  have hm := Smoothing.lastValue_unique (settings_mode opts) hmode
  rw [h4, if_neg (by rw [hm]; decide), if_neg (by rw [hm]; decide), if_pos hm, h1.identity c]

/-- **C187 (failures).** Without a file, the program ends with the result -1.  A file that cannot be opened leads to an exception.  A file without samples violates an assertion in the
mode `diagram`.  Nothing is written in unknown modes. -/
theorem _root_.Aleph.C187_failures (c : Context α) (files : List Char → Option (List Char)) (opts : List Opt) (name : List Char) (rest : List (List Char)) :
    main c files opts [] = .ok (-1, []) ∧
    (files name = none → main c files opts (name :: rest) = .error .exception) ∧
    (∀ text ls b, files name = some text → Lines text ls b → (∀ l ∈ ls, ¬ IsData l) → Opt.normalize ∉ opts →
      IsLastValue (fun o => match o with
        | .mode w => some w
        | _ => none) some "diagram".toList opts "diagram".toList → main c files opts (name :: rest) = .error .assertion) ∧
    (∀ text ls b w, files name = some text → Lines text ls b → 2 * ls.length ≤ 4294967295 → Opt.normalize ∉ opts → w ≠ "diagram".toList → w ≠ "transformation".toList → w ≠ "identity".toList →
      IsLastValue (fun o => match o with
        | .mode w => some w
        | _ => none) some "diagram".toList opts w → main c files opts (name :: rest) = .ok (0, [])) := by
  refine ⟨rfl, ?_, ?_, ?_⟩
  · intro h
    simp [main, h, FlexSpectrum.readFile]
  · intro text ls b hf hl hno hnorm hmode
    have hnil : ls.filter (fun l => decide (IsData l)) = [] := by
      rw [List.filter_eq_nil_iff]
      intro l hl'
      simpa using hno l hl'
    obtain ⟨maps, K, pts, pairs, h1, h2, h3, h4⟩ := main_start c files opts name rest text hf ls b hl [] (by rw [hnil]; rfl) (by simp) false (by simp [hnorm]) (by simp)
    have hK : K = [] := by
      have := h1.isPath.length_le
      rw [h1.length] at this
      exact List.length_eq_zero_iff.1 (by simpa using this)
    subst hK
    have hp : pts = [] := by
      have : zeroDimensional true c.leftFirst c.inf ([] : Complex α) = some ([], []) := rfl
      rw [this] at h3
      cases h3
      rfl
    subst hp
    rw [h4, if_pos (Smoothing.lastValue_unique (settings_mode opts) hmode)]
    simp [diagram, Diagram.betti]
  · intro text ls b w hf hl hlen hnorm w1 w2 w3 hmode
    obtain ⟨maps, K, pts, pairs, h1, h2, h3, h4⟩ := main_start c files opts name rest text hf ls b hl _ rfl (by
      rw [List.length_map]
      have := List.length_filter_le (fun l => decide (IsData l)) ls
      omega) false (by simp [hnorm]) (by simp)
    have hm := Smoothing.lastValue_unique (settings_mode opts) hmode
    rw [h4, if_neg (by rw [hm]; exact w1), if_neg (by rw [hm]; exact w2), if_neg (by rw [hm]; exact w3)]

omit [IsStrictOrderedRing α] in
/-- If positions are distinct, the transformed spectrum contains the prominence of each sample, and nothing else.  Otherwise, only one of the samples at a position is kept. -/
theorem IsTransformed.distinct {xs ys : List α} {T : List (α × α)} (h : IsTransformed xs ys T) (hx : xs.Nodup) :
    (∀ i x, xs[i]? = some x → ∃ p, (x, p) ∈ T ∧ IsProminence ys i p) ∧ T.length = xs.length := by
  constructor
  · intro i x hi
    obtain ⟨p, hp⟩ := h.covers x (List.mem_of_getElem? hi)
    obtain ⟨j, hj, hp'⟩ := h.prominence _ hp
    obtain ⟨l1, e1⟩ := List.getElem?_eq_some_iff.1 hi
    obtain ⟨l2, e2⟩ := List.getElem?_eq_some_iff.1 hj
    obtain rfl : i = j := (hx.getElem_inj_iff).1 (e1.trans e2.symm)
    exact ⟨p, hp, hp'⟩
  · rw [← List.length_map (f := Prod.fst)]
    refine List.Perm.length_eq ?_
    refine (List.perm_ext_iff_of_nodup ?_ hx).2 ?_
    · exact List.pairwise_map.2 (h.sorted.imp fun h => ne_of_lt h)
    · intro x
      constructor
      · intro hx
        obtain ⟨e, he, rfl⟩ := List.mem_map.1 hx
        obtain ⟨i, hi, -⟩ := h.prominence e he
        exact List.mem_of_getElem? hi
      · intro hx
        obtain ⟨p, hp⟩ := h.covers x hx
        exact List.mem_map.2 ⟨_, hp, rfl⟩

/-! ### Examples -/

/-- The position of a line is its length, the intensity is given by the first digit. -/
private def c₀ (print : ℚ → List Char) : Context ℚ :=
  ⟨fun l => (l.length, if l.head? = some '2' then 2 else 1), print, 9, true⟩

private theorem lines₀ : Lines "2\n#\n10\n200".toList [['2'], ['#'], ['1', '0'], ['2', '0', '0']] true := by
  exact .cons ['2'] "#\n10\n200".toList _ _ (by decide) (.cons ['#'] "10\n200".toList _ _ (by decide) (.cons ['1', '0'] "200".toList _ _ (by decide) (.last ['2', '0', '0'] (by decide) (by decide))))

/-- A spectrum with the intensities 2, 1 and 2 has two points.  The first one is destroyed at zero, although the smallest intensity is one. -/
example (print : ℚ → List Char) : ∃ P : List (ℚ × ℚ), P.Perm [(2, 0), (2, 1)] ∧
    main (c₀ print) (fun _ => some "2\n#\n10\n200".toList) [] ["spectrum".toList] =
      .ok (0, (P.flatMap fun p => print p.1 ++ '\t' :: print p.2 ++ ['\n']) ++ ['\n']) := by
  obtain ⟨P, h1, h2⟩ := C187_diagram_partial (c₀ print) (fun _ => some "2\n#\n10\n200".toList) [] "spectrum".toList [] _ rfl _ _ lines₀ [(1, 2), (2, 1), (3, 2)]
    (by rw [show ([['2'], ['#'], ['1', '0'], ['2', '0', '0']] : List (List Char)).filter (fun l => decide (IsData l)) = [['2'], ['1', '0'], ['2', '0', '0']] by decide]; simp [c₀])
    (by simp) (by simp) false (by simp) (by simp) (by simp [intensities, c₀]) (Or.inr ⟨by simp, rfl⟩)
  refine ⟨P, ?_, h2⟩
  obtain ⟨m, Q, q1, q2, q3, q4, q5⟩ := h1.points
  simp only [intensities, Bool.false_eq_true, if_false, List.map_cons, List.map_nil] at q2 q3 q4 q5
  have hm : m = 2 := by
    refine le_antisymm ?_ (q3 2 (by simp))
    simp at q2
    rcases q2 with rfl | rfl | rfl <;> norm_num
  subst hm
  have hQ : ∀ p ∈ Q, p = (2, 1) := by
    rintro ⟨x, y⟩ hp
    obtain ⟨a1, a2, a3⟩ := q4 _ hp
    simp at a1 a2 a3
    rcases a1 with rfl | rfl | rfl <;> rcases a2 with rfl | rfl | rfl <;> first | rfl | (exfalso; revert a3; norm_num)
  have hlen : Q.length = 1 := by
    have hV : ∀ i, (∃ a, ([2, 1, 2] : List ℚ)[i]? = some a ∧ (2 : ℚ) ≤ a) ↔ i = 0 ∨ i = 2 := by
      intro i
      match i with
      | 0 => simp
      | 1 => simp
      | 2 => simp
      | i + 3 => simp
    have h02 : ¬ RunAbove [2, 1, 2] (2 : ℚ) 0 2 := fun h => absurd (h 1 1 (by decide) (by decide) rfl) (by norm_num)
    have h20 : ¬ RunAbove [2, 1, 2] (2 : ℚ) 2 0 := fun h => absurd (h 1 1 (by decide) (by decide) rfl) (by norm_num)
    have h := q5 2 2 le_rfl
    rw [if_pos le_rfl, List.countP_eq_length.2 (fun p hp => by rw [hQ p hp]; norm_num)] at h
    obtain ⟨R, r1, r2, r3⟩ := h
    have hR : R = {0, 2} := by
      ext v
      simp only [mem_insert, mem_singleton]
      constructor
      · intro hv
        exact (hV v).1 (r2 v hv)
      · rintro (rfl | rfl)
        · obtain ⟨w, ⟨hw, hr⟩, -⟩ := r3 0 ((hV 0).2 (Or.inl rfl))
          rcases (hV w).1 (r2 w hw) with rfl | rfl
          · exact hw
          · exact absurd hr h02
        · obtain ⟨w, ⟨hw, hr⟩, -⟩ := r3 2 ((hV 2).2 (Or.inr rfl))
          rcases (hV w).1 (r2 w hw) with rfl | rfl
          · exact absurd hr h20
          · exact hw
    have : #R = 2 := by rw [hR]; rfl
    omega
  obtain ⟨q, rfl⟩ := List.length_eq_one_iff.1 hlen
  rw [hQ q (by simp)] at q1
  exact q1

end Aleph.SpectralAnalysis
