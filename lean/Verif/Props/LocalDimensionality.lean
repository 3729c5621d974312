import Verif.Lemmas.Options
import Verif.Model.LocalDimensionality
import Verif.Props.DescriptorTool
import Verif.Props.Dimensionality
import Verif.Props.MeanShift
import Verif.Props.PrincipalComponents
import Verif.Spec.LocalDimensionality

/-!
# C184: the tool `local_dimensionality`
-/

namespace Aleph.LocalDimensionality

open Finset Spec
open VietorisRipsExample (Failure squared)

/-! ### Options -/

/-- The argument of an option for the (smallest) number of neighbours. -/
def Opt.neighboursWord : Opt → Option (List Char)
  | .neighbours w => some w
  | _ => none

/-- The argument of an option for the largest number of neighbours. -/
def Opt.maximumWord : Opt → Option (List Char)
  | .maximum w => some w
  | _ => none

/-- The argument of an option for the method. -/
def Opt.methodWord : Opt → Option (List Char)
  | .method w => some w
  | _ => none

/-- The argument of an option for the number of steps. -/
def Opt.stepsWord : Opt → Option (List Char)
  | .steps w => some w
  | _ => none

/-- The arguments of options are numbers where numbers are expected. -/
def Valid (c : Context) (opts : List Opt) : Prop :=
  ∀ o ∈ opts, ∀ w, o.neighboursWord = some w ∨ o.maximumWord = some w ∨ o.stepsWord = some w → c.stoull w ≠ none

/-- The conversion of a number to 32 bits. -/
def number (c : Context) (w : List Char) : Option ℕ := (c.stoull w).map (· % 4294967296)

theorem settings_none (c : Context) (opts : List Opt) : settings c opts = none ↔ ¬Valid c opts := by
  unfold settings
  rw [foldlM_eq_none (bad := fun o => ¬∀ w, o.neighboursWord = some w ∨ o.maximumWord = some w ∨ o.stepsWord = some w → c.stoull w ≠ none)]
  · unfold Valid
    push Not
    rfl
  · intro s o
    cases o <;> simp [setOption, Opt.neighboursWord, Opt.maximumWord, Opt.stepsWord]

theorem settings_spec (c : Context) {opts : List Opt} {s : Settings} (h : settings c opts = some s) :
    IsLastValue Opt.methodWord some "pca".toList opts s.method ∧ IsLastValue Opt.neighboursWord (number c) 8 opts s.k ∧ IsLastValue Opt.maximumWord (number c) 0 opts s.K ∧
    IsLastValue Opt.stepsWord (number c) 1 opts s.n ∧ (s.smooth = true ↔ Opt.smooth ∈ opts) := by
  unfold settings at h
  refine ⟨?_, ?_, ?_, ?_, ?_⟩
  · refine lastValue_of_foldlM (get := Settings.method) ?_ ?_ h
    · intro s o s' w hp h
      cases o <;> simp only [Opt.methodWord, Option.some.injEq, reduceCtorEq] at hp
      subst hp
      simp only [setOption, Option.some.injEq] at h
      rw [← h]
    · intro s o s' hp h
      cases o <;> simp only [Opt.methodWord, reduceCtorEq, setOption, Option.map_eq_some_iff, Option.some.injEq] at hp h <;>
        first | (subst h; rfl) | (obtain ⟨x, h1, rfl⟩ := h; rfl)
  · refine lastValue_of_foldlM (get := Settings.k) ?_ ?_ h
    · intro s o s' w hp h
      cases o <;> simp only [Opt.neighboursWord, Option.some.injEq, reduceCtorEq] at hp
      subst hp
      obtain ⟨x, h1, rfl⟩ := Option.map_eq_some_iff.1 h
      exact Option.map_eq_some_iff.2 ⟨x, h1, rfl⟩
    · intro s o s' hp h
      cases o <;> simp only [Opt.neighboursWord, reduceCtorEq, setOption, Option.map_eq_some_iff, Option.some.injEq] at hp h <;>
        first | (subst h; rfl) | (obtain ⟨x, h1, rfl⟩ := h; rfl)
  · refine lastValue_of_foldlM (get := Settings.K) ?_ ?_ h
    · intro s o s' w hp h
      cases o <;> simp only [Opt.maximumWord, Option.some.injEq, reduceCtorEq] at hp
      subst hp
      obtain ⟨x, h1, rfl⟩ := Option.map_eq_some_iff.1 h
      exact Option.map_eq_some_iff.2 ⟨x, h1, rfl⟩
    · intro s o s' hp h
      cases o <;> simp only [Opt.maximumWord, reduceCtorEq, setOption, Option.map_eq_some_iff, Option.some.injEq] at hp h <;>
        first | (subst h; rfl) | (obtain ⟨x, h1, rfl⟩ := h; rfl)
  · refine lastValue_of_foldlM (get := Settings.n) ?_ ?_ h
    · intro s o s' w hp h
      cases o <;> simp only [Opt.stepsWord, Option.some.injEq, reduceCtorEq] at hp
      subst hp
      obtain ⟨x, h1, rfl⟩ := Option.map_eq_some_iff.1 h
      exact Option.map_eq_some_iff.2 ⟨x, h1, rfl⟩
    · intro s o s' hp h
      cases o <;> simp only [Opt.stepsWord, reduceCtorEq, setOption, Option.map_eq_some_iff, Option.some.injEq] at hp h <;>
        first | (subst h; rfl) | (obtain ⟨x, h1, rfl⟩ := h; rfl)
  · suffices H : ∀ init, opts.foldlM (setOption c) init = some s → (s.smooth = true ↔ init.smooth = true ∨ Opt.smooth ∈ opts) by
      simpa using H _ h
    clear h
    induction opts with
    | nil =>
      intro init h
      simp only [List.foldlM_nil, pure, Option.some.injEq] at h
      simp [h]
    | cons o l ih =>
      intro init h
      rw [List.foldlM_cons] at h
      cases e : setOption c init o with
      | none =>
        rw [e] at h
        simp at h
      | some t =>
        rw [e] at h
        rw [ih t h, List.mem_cons]
        cases o <;> simp only [setOption, Option.map_eq_some_iff, Option.some.injEq] at e <;>
          first | (subst e; simp) | (obtain ⟨x, h1, rfl⟩ := e; simp)

/-! ### Distances -/

theorem search_congr (sort : (ℕ → ℕ → Bool) → List ℕ → List ℕ) (n : ℕ) {d d' : ℕ → ℕ → ℝ} (h : ∀ i < n, ∀ j < n, d i j = d' i j) (k : ℕ) :
    NearestNeighbours.neighbourSearch sort n d k = NearestNeighbours.neighbourSearch sort n d' k := by
  unfold NearestNeighbours.neighbourSearch
  have : ∀ i ∈ List.range n, NearestNeighbours.neighboursOf sort n d k i = NearestNeighbours.neighboursOf sort n d' k i := by
    intro i hi
    unfold NearestNeighbours.neighboursOf
    have e : ((List.range n).map fun j => d i j) = (List.range n).map fun j => d' i j :=
      List.map_congr_left fun j hj => h i (List.mem_range.1 hi) j (List.mem_range.1 hj)
    simp only [e]
  generalize List.range n = l at this
  induction l with
  | nil => rfl
  | cons i l ih => rw [List.mapM_cons, List.mapM_cons, this i (by simp), ih fun j hj => this j (by simp [hj])]

theorem distance_eq {pc : PointCloud ℝ} {rows : List (List ℝ)} (hpc : pc.Has rows) : ∀ i < rows.length, ∀ j < rows.length, distance pc i j = pointDistance rows i j :=
  fun _ hi _ hj => (DescriptorTool.distance_eq hpc hi hj).1

theorem coordinates_eq {pc : PointCloud ℝ} {rows : List (List ℝ)} (hpc : pc.Has rows) : coordinates pc = rows := by
  unfold coordinates
  have hn : pc.n = rows.length := hpc.count
  rw [hn]
  apply List.ext_getElem (by simp)
  intro i h1 h2
  simp [C71_get pc rows hpc i, List.getElem?_eq_getElem h2]

theorem pointDistance_nonneg (rows : List (List ℝ)) (i j : ℕ) : 0 ≤ pointDistance rows i j := Real.sqrt_nonneg _

/-! ### Estimates -/

theorem getD_spec {β : Type} {l : List β} {P : ℕ → β → Prop} (h : ∀ i x, l[i]? = some x → P i x) (d : β) {i : ℕ} (hi : i < l.length) : P i (l.getD i d) :=
  h i _ (by rw [List.getD_eq_getElem _ _ hi, List.getElem?_eq_getElem hi])

theorem estimates_spec (c : Context) (hsort : IsStdSort c.sort) (hsvd : Dimensionality.IsDecomposition c.svd) (s : Settings) {pc : PointCloud ℝ} {rows : List (List ℝ)} (hpc : pc.Has rows)
    (hsup : SupportsEstimates rows.length pc.d s.method s.k s.K) :
    ∃ l, estimates c s pc = .ok l ∧ l.length = rows.length ∧ AreEstimates rows pc.d s.method s.k s.K (fun i => l.getD i none) := by
  have hn : pc.n = rows.length := hpc.count
  have hcongr := fun k => search_congr c.sort rows.length (distance_eq hpc) k
  unfold estimates
  rcases hsup with ⟨e, h2, h1, hk⟩ | ⟨e, h0, hk⟩ | ⟨e, h1, hk, hK⟩
  · obtain ⟨l, l1, l2, l3⟩ := C106_local c.svd hsvd c.sort hsort rows pc.d hpc.dimension (pointDistance rows) s.k (by omega) h2 h1
    have e1 : Dimensionality.principal c.svd c.sort (coordinates pc) (distance pc) s.k = some l := by
      rw [coordinates_eq hpc, ← l1]
      unfold Dimensionality.principal
      rw [hcongr]
    rw [if_pos e, e1]
    refine ⟨l.map fun d : ℕ => some (d : ℝ), rfl, by simpa using l2, .inl ⟨e, fun i hi => ?_⟩⟩
    have hi' : i < l.length := by omega
    obtain ⟨ids, i1, i2, components, values, v1, v2⟩ := l3 i l[i] (List.getElem?_eq_getElem hi')
    have hcard : ids.length = s.k + 1 := by rw [← List.toFinset_card_of_nodup i1, i2.card]
    have hlen : (ids.map fun j => rows.getD j []).length = s.k + 1 := by rw [List.length_map, hcard]
    have hrow : ∀ row ∈ ids.map fun j => rows.getD j [], row.length = pc.d := by
      intro row hrow
      obtain ⟨j, hj, rfl⟩ := List.mem_map.1 hrow
      have hjn := i2.range j (List.mem_toFinset.2 hj)
      rw [List.getD_eq_getElem _ _ hjn]
      exact hpc.dimension _ (List.getElem_mem _)
    obtain ⟨components', values', w1, w2, w3, w4, w5, w6, w7, w8, -⟩ := C105_components_partial c.svd hsvd (ids.map fun j => rows.getD j []) pc.d (by omega)
      (fun h => by rw [h] at hlen; simp at hlen) hrow
    rw [v1] at w1
    simp only [Option.some.injEq, Prod.mk.injEq] at w1
    obtain ⟨rfl, rfl⟩ := w1
    obtain ⟨d, g1, g2, g3, g4⟩ := (C106_gap values).2 (by rw [w3, hlen]; omega)
    rw [v2, Option.some.injEq] at g1
    refine ⟨ids, values, d + 1, i1, i2, ⟨w3, w4, w5, fun a j => (components.getD a []).getD j 0, ?_, ?_⟩, ⟨by omega, g2, by simpa using g3, fun j hj => ?_⟩, ?_⟩
    · rw [w3]; exact w6
    · rw [w3]; exact fun a ha => ⟨w7 a ha, w8 a ha⟩
    · simpa using g4 j (by omega)
    · show (l.map fun d : ℕ => some (d : ℝ)).getD i none = _
      rw [List.getD_eq_getElem _ _ (by simpa using hi'), List.getElem_map, g1]
  · obtain ⟨l, l1, l2, l3⟩ := (C102_nearest c.sort rows.length (pointDistance rows) s.k).1 hk
    have e1 : Dimensionality.nearestNeighbours c.sort pc.n (distance pc) s.k = some l := by
      rw [hn, ← l1]
      unfold Dimensionality.nearestNeighbours
      rw [hcongr]
    rw [if_neg (by rw [e]; decide), if_pos e, if_pos h0, e1]
    refine ⟨l, rfl, l2, .inr (.inl ⟨e, h0, fun i hi t ht => ?_⟩)⟩
    exact getD_spec (P := fun i x => ∀ t, AscendingDistances rows.length (pointDistance rows) i t → IsNearestEstimate t s.k x) (fun i x hx t ht => l3 i x t hx ht) none (by omega) t ht
  · rcases e with e | e
    · obtain ⟨-, -, -, h⟩ := C103_regression_partial c.sort rows.length (pointDistance rows) s.k s.K hk
      obtain ⟨l, l1, l2, l3⟩ := h (by omega) hK
      have e1 : Dimensionality.regression c.sort pc.n (distance pc) s.k s.K = some l := by
        rw [hn, ← l1]
        unfold Dimensionality.regression
        simp only [hcongr]
      rw [if_neg (by rw [e]; decide), if_pos e, if_neg (by omega), if_pos hk, if_neg (by omega), e1]
      refine ⟨l, rfl, l2, .inr (.inr (.inl ⟨e, by omega, fun i hi t ht => ?_⟩))⟩
      exact getD_spec (P := fun i x => ∀ t, AscendingDistances rows.length (pointDistance rows) i t → IsRegressionEstimate t s.k s.K x) (fun i x hx t ht => l3 i x t hx ht) none (by omega) t ht
    · obtain ⟨-, -, -, h⟩ := C104_likelihood c.sort rows.length (pointDistance rows) s.k s.K hk
      obtain ⟨l, l1, l2, l3⟩ := h (by omega) hK
      have e1 : Dimensionality.likelihood c.sort pc.n (distance pc) s.k s.K = some l := by
        rw [hn, ← l1]
        unfold Dimensionality.likelihood
        simp only [hcongr]
      rw [if_neg (by rw [e]; decide), if_neg (by rw [e]; decide), if_pos e, if_neg (by omega), if_neg (by omega), e1]
      refine ⟨l.map some, rfl, by simpa using l2, .inr (.inr (.inr ⟨e, fun i hi t ht => ?_⟩))⟩
      have hi' : i < l.length := by omega
      obtain ⟨b1, b2⟩ := l3 i l[i] t (List.getElem?_eq_getElem hi') ht
      exact ⟨l[i], by simp [List.getElem?_eq_getElem hi'], b1, b2⟩

/-! ### Smoothing -/

theorem smoothValue_spec (data : List (Option ℝ)) (ids : List ℕ) (hn : ids.Nodup) (hne : ids ≠ []) (hr : ∀ j ∈ ids, j < data.length) (d : ℕ → ℝ) (hd : ∀ j, 0 ≤ d j) :
    ∃ x, smoothValue data (ids, ids.map d) = some x ∧ ((∃ j ∈ ids.toFinset, data.getD j none = none) → x = none) ∧
      ∀ v : ℕ → ℝ, (∀ j ∈ ids.toFinset, data.getD j none = some (v j)) →
        ∃ y, x = some y ∧ y * ∑ j ∈ ids.toFinset, inverseSquare (d j) = ∑ j ∈ ids.toFinset, inverseSquare (d j) * v j := by
  unfold smoothValue
  have hm : (ids.mapM fun index => data[index]?) = some (ids.map fun j => data.getD j none) :=
    mapM_eq_some _ _ _ fun j hj => by rw [List.getElem?_eq_getElem (hr j hj), List.getD_eq_getElem _ _ (hr j hj)]
  simp only [hm, Option.bind_eq_bind, Option.bind_some]
  refine ⟨_, rfl, ?_, ?_⟩
  · rintro ⟨j, hj, h⟩
    rw [if_neg]
    simp only [List.all_map, List.all_eq_true, Function.comp_apply]
    intro hall
    have := hall j (List.mem_toFinset.1 hj)
    rw [h] at this
    simp at this
  · intro v hv
    rw [if_pos]
    · obtain ⟨y, h1, h2⟩ := DataDescriptors.smoothValue_eq (data.map fun x => x.getD 0) ids hn hne (fun j hj => by simpa using hr j hj) d hd
      refine ⟨y, h1, h2.trans (sum_congr rfl fun j hj => ?_)⟩
      have hj' := hr j (List.mem_toFinset.1 hj)
      have := hv j hj
      rw [List.getD_eq_getElem _ _ hj'] at this
      simp [List.getElem?_eq_getElem hj', this]
    · simp only [List.all_map, List.all_eq_true, Function.comp_apply]
      intro j hj
      rw [hv j (List.mem_toFinset.2 hj)]
      rfl

theorem smoothStep_spec (nb : List (List ℕ × List ℝ)) (data : List (Option ℝ)) (hlen : data.length = nb.length) (dist : ℕ → ℕ → ℝ) (hd : ∀ i j, 0 ≤ dist i j)
    (h : ∀ i (hi : i < nb.length), nb[i].1.Nodup ∧ nb[i].1 ≠ [] ∧ (∀ j ∈ nb[i].1, j < nb.length) ∧ nb[i].2 = nb[i].1.map (dist i)) :
    ∃ l, smoothStep nb data = some l ∧ l.length = nb.length ∧ ∀ i (hi : i < nb.length), ((∃ j ∈ nb[i].1.toFinset, data.getD j none = none) → l.getD i none = none) ∧
      ∀ v : ℕ → ℝ, (∀ j ∈ nb[i].1.toFinset, data.getD j none = some (v j)) →
        ∃ y, l.getD i none = some y ∧ y * ∑ j ∈ nb[i].1.toFinset, inverseSquare (dist i j) = ∑ j ∈ nb[i].1.toFinset, inverseSquare (dist i j) * v j := by
  have hone : ∀ i (hi : i < nb.length), ∃ x, smoothValue data nb[i] = some x ∧ ((∃ j ∈ nb[i].1.toFinset, data.getD j none = none) → x = none) ∧
      ∀ v : ℕ → ℝ, (∀ j ∈ nb[i].1.toFinset, data.getD j none = some (v j)) →
        ∃ y, x = some y ∧ y * ∑ j ∈ nb[i].1.toFinset, inverseSquare (dist i j) = ∑ j ∈ nb[i].1.toFinset, inverseSquare (dist i j) * v j := by
    intro i hi
    obtain ⟨a1, a2, a3, a4⟩ := h i hi
    have := smoothValue_spec data nb[i].1 a1 a2 (fun j hj => by rw [hlen]; exact a3 j hj) (dist i) (hd i)
    rw [← a4] at this
    exact this
  have hall : ∀ e ∈ nb, smoothValue data e = some ((smoothValue data e).getD none) := by
    intro e he
    obtain ⟨i, hi, rfl⟩ := List.mem_iff_getElem.1 he
    obtain ⟨x, hx, -⟩ := hone i hi
    rw [hx]
    rfl
  refine ⟨nb.map fun e => (smoothValue data e).getD none, ?_, by simp, fun i hi => ?_⟩
  · unfold smoothStep
    rw [mapM_eq_some _ (fun e => (smoothValue data e).getD none) _ hall]
    simp [hlen]
  · obtain ⟨x, h1, h2, h3⟩ := hone i hi
    have : (nb.map fun e => (smoothValue data e).getD none).getD i none = x := by
      rw [List.getD_eq_getElem _ _ (by simpa using hi), List.getElem_map, h1]
      rfl
    rw [this]
    exact ⟨h2, h3⟩

theorem smoothed_spec (c : Context) (hsort : IsStdSort c.sort) (s : Settings) {pc : PointCloud ℝ} {rows : List (List ℝ)} (hpc : pc.Has rows) (hk : s.k < rows.length)
    (data : List (Option ℝ)) (hdata : data.length = rows.length) :
    ∃ l, smoothed c s pc data = some l ∧ l.length = rows.length ∧ IsSmoothing rows.length (pointDistance rows) s.k s.n (fun i => data.getD i none) fun i => l.getD i none := by
  have hn : pc.n = rows.length := hpc.count
  obtain ⟨nb, h1, h2, h3⟩ := C61_k_nearest c.sort hsort rows.length (pointDistance rows) (s.k + 1) hk
  unfold smoothed
  rw [hn, search_congr c.sort rows.length (distance_eq hpc), h1, Option.bind_some]
  have hnb : ∀ i (hi : i < nb.length), nb[i].1.Nodup ∧ nb[i].1 ≠ [] ∧ (∀ j ∈ nb[i].1, j < nb.length) ∧ nb[i].2 = nb[i].1.map (pointDistance rows i) := by
    intro i hi
    obtain ⟨a1, a2, a3, a4, -, -⟩ := h3 i hi
    exact ⟨a2, fun h => by rw [h] at a1; simp at a1, fun j hj => by rw [h2]; exact a3 j hj, a4⟩
  let T : ℕ → Finset ℕ := fun i => match nb[i]? with
    | some e => e.1.toFinset
    | none => ∅
  have hT : ∀ i (hi : i < nb.length), T i = nb[i].1.toFinset := by
    intro i hi
    simp only [T, List.getElem?_eq_getElem hi]
  suffices H : ∀ n, ∀ data : List (Option ℝ), data.length = nb.length → ∃ l, smoothLoop nb n data = some l ∧ l.length = nb.length ∧
      ∃ g : ℕ → ℕ → Option ℝ, (∀ i < nb.length, g 0 i = data.getD i none ∧ g n i = l.getD i none) ∧
      ∀ s < n, ∀ i < nb.length, ((∃ j ∈ T i, g s j = none) → g (s + 1) i = none) ∧
        ∀ x : ℕ → ℝ, (∀ j ∈ T i, g s j = some (x j)) → ∃ y, g (s + 1) i = some y ∧
          y * ∑ j ∈ T i, inverseSquare (pointDistance rows i j) = ∑ j ∈ T i, inverseSquare (pointDistance rows i j) * x j by
    obtain ⟨l, l1, l2, g, g1, g2⟩ := H s.n data (by omega)
    refine ⟨l, l1, by omega, T, fun i hi => ?_, g, by simpa only [h2] using g1, by simpa only [h2] using g2⟩
    have hi' : i < nb.length := by omega
    obtain ⟨a1, a2, a3, a4, a5, a6⟩ := h3 i hi'
    rw [hT i hi']
    refine ⟨fun j hj => a3 j (List.mem_toFinset.1 hj), by rw [List.toFinset_card_of_nodup a2, a1], fun a ha j hj hjn => ?_⟩
    exact a6 a (List.mem_toFinset.1 ha) j hj fun h => hjn (List.mem_toFinset.2 h)
  intro n
  induction n with
  | zero => exact fun data hdata => ⟨data, rfl, hdata, fun _ i => data.getD i none, fun i _ => ⟨rfl, rfl⟩, fun s hs => by omega⟩
  | succ n ih =>
    intro data hdata
    obtain ⟨l, l1, l2, l3⟩ := smoothStep_spec nb data hdata (pointDistance rows) (pointDistance_nonneg rows) hnb
    obtain ⟨l', m1, m2, g, g1, g2⟩ := ih l l2
    refine ⟨l', by rw [smoothLoop, l1, Option.bind_some, m1], m2, fun s i => match s with
      | 0 => data.getD i none
      | s + 1 => g s i, fun i hi => ⟨rfl, (g1 i hi).2⟩, fun s hs i hi => ?_⟩
    cases s with
    | zero =>
      simp only
      rw [(g1 i hi).1, hT i hi]
      exact l3 i hi
    | succ s => exact g2 s (by omega) i hi

/-! ### The tool -/

theorem list_eq_map {l : List (Option ℝ)} {n : ℕ} (h : l.length = n) : l = (List.range n).map fun i => l.getD i none := by
  apply List.ext_getElem (by simp [h])
  intro i h1 h2
  simp [List.getElem?_eq_getElem h1]

theorem main_eq (c : Context) (files : List Char → Option (List Char)) {opts : List Opt} {s : Settings} (hs : settings c opts = some s) (input : List Char) (more : List (List Char))
    {pc : PointCloud ℝ} (hload : loadPoints c (files input) = .ok pc) :
    main c files opts (input :: more) = match values c s pc with
      | .error e => .error e
      | .ok l => .ok (0, output c l) := by
  unfold main
  simp only [hs, hload]
  cases values c s pc <;> rfl

/-- C184. What `local_dimensionality` writes is a line for each point, in the order of the file, with an estimate of the dimension at this point: by the spectrum of the principal components of its
neighbours (`pca`), by means of distances for one number of neighbours (`nn`) or a range of them (`nn` with `-K`), or by the likelihood of distances (`mle`).  If desired, the estimates are smoothed.
The last options determine all parameters.  Missing, and wrong: the method `mst`, and parameters that are not supported (`C184_unsupported`); the largest number of neighbours of a range is not used
(C103). -/
theorem _root_.Aleph.C184_output_partial (c : Context) (hsort : IsStdSort c.sort) (hsvd : Dimensionality.IsDecomposition c.svd) (files : List Char → Option (List Char)) (opts : List Opt)
    (hv : Valid c opts) (input : List Char) (more : List (List Char)) (pc : PointCloud ℝ) (rows : List (List ℝ)) (hload : loadPoints c (files input) = .ok pc) (hpc : pc.Has rows) :
    ∃ method k K n, IsLastValue Opt.methodWord some "pca".toList opts method ∧ IsLastValue Opt.neighboursWord (number c) 8 opts k ∧ IsLastValue Opt.maximumWord (number c) 0 opts K ∧
      IsLastValue Opt.stepsWord (number c) 1 opts n ∧
      (SupportsEstimates rows.length pc.d method k K → (Opt.smooth ∈ opts → k < rows.length) →
        ∃ e f, AreEstimates rows pc.d method k K e ∧ (if Opt.smooth ∈ opts then IsSmoothing rows.length (pointDistance rows) k n e f else f = e) ∧
          main c files opts (input :: more) = .ok (0, ((List.range rows.length).map fun i => c.print (f i) ++ ['\n']).flatten)) := by
  cases hs : settings c opts with
  | none => exact absurd hv ((settings_none c opts).1 hs)
  | some s =>
    obtain ⟨k1, k2, k3, k4, k5⟩ := settings_spec c hs
    refine ⟨s.method, s.k, s.K, s.n, k1, k2, k3, k4, fun hsup hk => ?_⟩
    obtain ⟨l, l1, l2, l3⟩ := estimates_spec c hsort hsvd s hpc hsup
    have hout : ∀ l : List (Option ℝ), l.length = rows.length → output c l = ((List.range rows.length).map fun i => c.print (l.getD i none) ++ ['\n']).flatten := by
      intro l hl
      conv_lhs => rw [list_eq_map hl]
      unfold output
      rw [List.flatMap_def, List.map_map]
      rfl
    rw [main_eq c files hs input more hload]
    unfold values
    simp only [l1]
    by_cases hsm : Opt.smooth ∈ opts
    · obtain ⟨l', m1, m2, m3⟩ := smoothed_spec c hsort s hpc (hk hsm) l l2
      refine ⟨_, fun i => l'.getD i none, l3, by rw [if_pos hsm]; exact m3, ?_⟩
      simp only [k5.2 hsm, if_true, m1, orUndefined]
      rw [hout l' m2]
    · refine ⟨_, _, l3, by rw [if_neg hsm], ?_⟩
      have : s.smooth = false := by simpa using fun h => hsm (k5.1 h)
      simp only [this, Bool.false_eq_true, if_false]
      rw [hout l l2]

theorem smoothed_empty (c : Context) (hsort : IsStdSort c.sort) (s : Settings) (pc : PointCloud ℝ) (hn : pc.n ≠ 0) (h1 : s.n ≠ 0) : smoothed c s pc [] = none := by
  unfold smoothed
  by_cases hk : s.k + 1 ≤ pc.n
  · obtain ⟨nb, e1, e2, e3⟩ := C61_k_nearest c.sort hsort pc.n (distance pc) (s.k + 1) hk
    rw [e1, Option.bind_some]
    obtain ⟨m, hm⟩ := Nat.exists_eq_succ_of_ne_zero h1
    rw [hm, smoothLoop]
    have hpos : 0 < nb.length := by omega
    have hnone : smoothStep nb [] = none := by
      cases nb with
      | nil => simp at hpos
      | cons e nb =>
        obtain ⟨a1, -⟩ := e3 0 hpos
        simp only [List.getElem_cons_zero] at a1
        unfold smoothStep
        rw [List.mapM_cons]
        unfold smoothValue
        obtain ⟨ids, ds⟩ := e
        cases ids with
        | nil => simp at a1
        | cons j ids => rw [List.mapM_cons]; rfl
    rw [hnone]
    rfl
  · rw [C61_too_many c.sort pc.n (distance pc) (s.k + 1) (by omega), if_neg hn]
    rfl

/-- C184, disagreement: there are points, but no line is written for the method `mst`, for a method that is not known, and for a range of neighbours whose end is smaller than its begin; no error is
reported.  If smoothing is desired in addition, then the program reads behind the end of an array; the same happens if there are not enough points (by default, at least nine are required).  The
method `mle` requires an option for the largest number of neighbours, and raises an exception otherwise. -/
theorem _root_.Aleph.C184_unsupported (c : Context) (hsort : IsStdSort c.sort) (files : List Char → Option (List Char)) (opts : List Opt) (hv : Valid c opts) (input : List Char) (more : List (List Char))
    (pc : PointCloud ℝ) (hload : loadPoints c (files input) = .ok pc) (hn : pc.n ≠ 0) :
    ∃ method k K n, IsLastValue Opt.methodWord some "pca".toList opts method ∧ IsLastValue Opt.neighboursWord (number c) 8 opts k ∧ IsLastValue Opt.maximumWord (number c) 0 opts K ∧
      IsLastValue Opt.stepsWord (number c) 1 opts n ∧
      ((method ≠ "pca".toList ∧ method ≠ "nn".toList ∧ method ≠ "mle".toList) ∨ (method = "nn".toList ∧ K ≠ 0 ∧ K < k) →
        (Opt.smooth ∉ opts → main c files opts (input :: more) = .ok (0, [])) ∧ (Opt.smooth ∈ opts → n ≠ 0 → main c files opts (input :: more) = .error .undefined)) ∧
      (method = "mle".toList ∧ (K < k ∨ k = 0) ∨ method = "nn".toList ∧ K ≠ 0 ∧ k = 0 → main c files opts (input :: more) = .error .exception) ∧
      ((method = "pca".toList ∨ method = "nn".toList ∧ K = 0) ∧ pc.n ≤ k ∨ (method = "nn".toList ∨ method = "mle".toList) ∧ 0 < k ∧ k ≤ K ∧ pc.n < K →
        main c files opts (input :: more) = .error .undefined) := by
  cases hs : settings c opts with
  | none => exact absurd hv ((settings_none c opts).1 hs)
  | some s =>
    obtain ⟨k1, k2, k3, k4, k5⟩ := settings_spec c hs
    refine ⟨s.method, s.k, s.K, s.n, k1, k2, k3, k4, ?_, ?_, ?_⟩
    · intro h
      have he : estimates c s pc = .ok [] := by
        unfold estimates
        rcases h with ⟨h1, h2, h3⟩ | ⟨h1, h2, h3⟩
        · rw [if_neg h1, if_neg h2, if_neg h3]
          split <;> rfl
        · rw [if_neg (by rw [h1]; decide), if_pos h1, if_neg h2, if_neg (by omega)]
      constructor
      · intro hsm
        have : s.smooth = false := by simpa using fun h => hsm (k5.1 h)
        rw [main_eq c files hs input more hload]
        unfold values
        simp only [he, this]
        rfl
      · intro hsm h0
        rw [main_eq c files hs input more hload]
        unfold values
        simp only [he, k5.2 hsm, if_true, smoothed_empty c hsort s pc hn h0, orUndefined]
    · intro h
      have he : estimates c s pc = .error .exception := by
        unfold estimates
        rcases h with ⟨h1, h2⟩ | ⟨h1, h2, h3⟩
        · rw [if_neg (by rw [h1]; decide), if_neg (by rw [h1]; decide), if_pos h1]
          by_cases hlt : s.k > s.K
          · rw [if_pos hlt]
          · rw [if_neg hlt, if_pos (by omega)]
        · rw [if_neg (by rw [h1]; decide), if_pos h1, if_neg h2, if_pos (by omega), if_pos h3]
      rw [main_eq c files hs input more hload]
      unfold values
      simp only [he]
    · intro h
      have he : estimates c s pc = .error .undefined := by
        unfold estimates
        rcases h with ⟨h1 | ⟨h1, h0⟩, h2⟩ | ⟨h1 | h1, h0, h2, h3⟩
        · have hlen : (coordinates pc).length = pc.n := by simp [coordinates]
          have : Dimensionality.principal c.svd c.sort (coordinates pc) (distance pc) s.k = none := by
            unfold Dimensionality.principal
            rw [hlen, C61_too_many c.sort pc.n (distance pc) (s.k + 1) (by omega), if_neg hn]
            rfl
          rw [if_pos h1, this]
          rfl
        · rw [if_neg (by rw [h1]; decide), if_pos h1, if_pos h0, (C102_nearest c.sort pc.n (distance pc) s.k).2 hn (by omega)]
          rfl
        · rw [if_neg (by rw [h1]; decide), if_pos h1, if_neg (by omega), if_pos h2, if_neg (by omega),
            (C103_regression_partial c.sort pc.n (distance pc) s.k s.K h2).2.2.1 hn h3]
          rfl
        · rw [if_neg (by rw [h1]; decide), if_neg (by rw [h1]; decide), if_pos h1, if_neg (by omega), if_neg (by omega),
            (C104_likelihood c.sort pc.n (distance pc) s.k s.K h2).2.2.1 hn h3]
          rfl
      rw [main_eq c files hs input more hload]
      unfold values
      simp only [he]

/-- C184. Without a file, the tool does nothing but report failure.  Arguments of options that are not numbers, and files with lines of different lengths, raise an exception.  A file that cannot
be opened is treated like a file without points. -/
theorem _root_.Aleph.C184_failures (c : Context) (files : List Char → Option (List Char)) (opts : List Opt) :
    (¬Valid c opts → ∀ args, main c files opts args = .error .exception) ∧
    (Valid c opts → main c files opts [] = .ok (-1, []) ∧
      ∀ input more, (files input = none → ∃ pc, loadPoints c (files input) = .ok pc ∧ pc.Has []) ∧
        ∀ text, files input = some text → (∀ pc, loadPoints c (files input) = .ok pc ↔ PointCloud.load c.convert text = some pc) ∧
          (PointCloud.load c.convert text = none → main c files opts (input :: more) = .error .exception)) := by
  constructor
  · intro h args
    unfold main
    simp only [(settings_none c opts).2 h]
  · intro hv
    cases hs : settings c opts with
    | none => exact absurd hv ((settings_none c opts).1 hs)
    | some s =>
      refine ⟨by unfold main; simp only [hs], fun input more => ⟨fun h => ⟨_, by rw [h]; rfl, ⟨rfl, by simp, rfl⟩⟩, fun text h => ⟨fun pc => ?_, fun hl => ?_⟩⟩⟩
      · rw [h]
        unfold loadPoints
        cases hl : PointCloud.load c.convert text <;> simp only [hl] <;> simp
      · unfold main
        simp only [hs, h, loadPoints, hl]

/-- The hypotheses of the theorems can be met: three points in the plane, and one neighbour. -/
example : ∃ c : Context, IsStdSort c.sort ∧ Dimensionality.IsDecomposition c.svd ∧ Valid c [.neighbours ['1'], .smooth, .unknown] ∧
    (PointCloud.mk 3 2 [(0 : ℝ), 0, 1, 0, 0, 3]).Has [[0, 0], [1, 0], [0, 3]] ∧ SupportsEstimates 3 2 "pca".toList 1 0 ∧ number c ['1'] = some 1 := by
  obtain ⟨svd, hsvd⟩ := Dimensionality.exists_isDecomposition
  obtain ⟨sort, hsort⟩ := exists_isStdSort ℕ
  refine ⟨⟨fun _ => 0, fun _ => some 1, fun _ => [], sort, svd⟩, hsort, hsvd, ?_, ⟨rfl, by simp, rfl⟩, .inl ⟨rfl, by omega, by omega, by omega⟩, rfl⟩
  intro o _ w _
  simp

end Aleph.LocalDimensionality
