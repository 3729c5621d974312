import Verif.Lemmas.FlagLevels
import Verif.Lemmas.LexOrder
import Verif.Lemmas.Options
import Verif.Model.SparseTool
import Verif.Props.FloydWarshall
import Verif.Props.GmlWriter
import Verif.Props.GraphAnalysis
import Verif.Props.Kahan
import Verif.Props.SparseReader
import Verif.Props.Utilities
import Verif.Props.VietorisRips
import Verif.Spec.IndicatorTool
import Verif.Spec.Options
import Verif.Spec.SparseTool

/-!
# Weights, diagrams, files and centralities of the tool `sparse_adjacency_matrices`
-/

namespace Aleph.SparseTool

open Finset Spec Rips Spec.Sparse
open SparseReader (Failure Labels)

variable {α : Type}

/-! ### Weights -/

theorem vertexIndex_get {K : Complex α} (f : ℕ → α) {v : ℕ} (hv : v ∈ K.vertices) : (K.vertices.map f)[vertexToIndex K v]? = some (f v) := by
  have hnone : K.vertices.idxOf? v ≠ none := by rw [ne_eq, List.idxOf?_eq_none_iff]; simpa using hv
  obtain ⟨i, hi⟩ := Option.ne_none_iff_exists'.1 hnone
  obtain ⟨hlt, hget, -⟩ := List.findIdx?_eq_some_iff_getElem.1 hi
  unfold vertexToIndex
  rw [hi, Option.getD_some, List.getElem?_map, List.getElem?_eq_getElem hlt, show K.vertices[i] = v by simpa using hget]
  rfl

theorem assignData_eq {K : Complex α} (hK : WF K) (hc : FaceClosed K) (f : ℕ → α) (init : α) (functor : α → α → α) :
    assignData K (K.vertices.map f) init functor = some (K.map fun s => s.withData (s.vertices.foldl (fun d v => functor d (f v)) init)) := by
  obtain ⟨-, g2⟩ := C22_vertices K hK
  have hfold : ∀ vs : List ℕ, (∀ v ∈ vs, v ∈ K.vertices) → ∀ d, vs.foldlM (fun d v => ((K.vertices.map f)[vertexToIndex K v]?).map (functor d)) d =
      some (vs.foldl (fun d v => functor d (f v)) d) := by
    intro vs
    induction vs with
    | nil => intro _ d; rfl
    | cons v vs ih =>
      intro h d
      rw [List.foldlM_cons, vertexIndex_get f (h v (by simp))]
      exact ih (fun u hu => h u (by simp [hu])) _
  have hs : ∀ s ∈ K, s.vertices.foldlM (fun d v => ((K.vertices.map f)[vertexToIndex K v]?).map (functor d)) init = some (s.vertices.foldl (fun d v => functor d (f v)) init) := by
    intro s hs
    refine hfold _ (fun v hv => ?_) _
    rw [g2]
    exact hc s hs {v} (by simpa [Simplex.vset] using hv) (by simp)
  refine (assignData_loop hK (fun s => s.vertices.foldlM (fun d v => ((K.vertices.map f)[vertexToIndex K v]?).map (functor d)) init) K [] [] rfl rfl fun s h => by
    simp only [hs s h, Option.isSome_some]).trans ?_
  have hm : ∀ M : Complex α, (∀ s ∈ M, s ∈ K) → (M.filterMap fun s => (s.vertices.foldlM (fun d v => ((K.vertices.map f)[vertexToIndex K v]?).map (functor d)) init).map s.withData) =
      M.map fun s => s.withData (s.vertices.foldl (fun d v => functor d (f v)) init) := by
    intro M hM
    induction M with
    | nil => rfl
    | cons s M ih =>
      rw [List.filterMap_cons, hs s (hM s (by simp)), List.map_cons, ih fun t ht => hM t (by simp [ht])]
      rfl
  rw [List.nil_append, hm K fun _ h => h]

theorem foldl_sum [AddCommMonoid α] (f : ℕ → α) (vs : List ℕ) (d : α) : vs.foldl (fun d v => d + f v) d = d + (vs.map f).sum := by
  induction vs generalizing d with
  | nil => simp
  | cons v vs ih => rw [List.foldl_cons, ih, List.map_cons, List.sum_cons, add_assoc]

theorem foldl_max_spec [LinearOrder α] (f : ℕ → α) (vs : List ℕ) (d : α) : IsGreatest {y | y = d ∨ ∃ v ∈ vs, y = f v} (vs.foldl (fun d v => max d (f v)) d) := by
  induction vs generalizing d with
  | nil => simp [IsGreatest, upperBounds]
  | cons v vs ih =>
    rw [List.foldl_cons]
    obtain ⟨h1, h2⟩ := ih (max d (f v))
    refine ⟨?_, ?_⟩
    · rcases h1 with h1 | ⟨u, hu, h1⟩
      · rcases max_choice d (f v) with e | e
        · exact Or.inl (h1.trans e)
        · exact Or.inr ⟨v, by simp, h1.trans e⟩
      · exact Or.inr ⟨u, by simp [hu], h1⟩
    · have hle := h2 (Or.inl rfl)
      rintro y (rfl | ⟨u, hu, rfl⟩)
      · exact (le_max_left _ _).trans hle
      · rcases List.mem_cons.1 hu with rfl | hu
        · exact (le_max_right _ _).trans hle
        · exact h2 (Or.inr ⟨u, hu, rfl⟩)

section Filtration

variable [LinearOrder α] [Field α] [IsStrictOrderedRing α]

omit [IsStrictOrderedRing α] in
theorem isWeight_unique {sum : Bool} {f : ℕ → α} {t : Finset ℕ} {y z : α} (h1 : IsWeight sum f t y) (h2 : IsWeight sum f t z) : y = z := by
  unfold IsWeight at h1 h2
  split at h1
  · rw [if_pos ‹_›] at h2
    rw [h1, h2]
  · rw [if_neg ‹_›] at h2
    exact h1.unique h2

theorem isWeight_mono {sum : Bool} {f : ℕ → α} (hf : ∀ v, 0 ≤ f v) {s t : Finset ℕ} (hst : s ⊆ t) {y z : α} (h1 : IsWeight sum f s y) (h2 : IsWeight sum f t z) : y ≤ z := by
  unfold IsWeight at h1 h2
  split at h1
  · rw [if_pos ‹_›] at h2
    rw [h1, h2]
    exact sum_le_sum_of_subset_of_nonneg hst fun v _ _ => hf v
  · rw [if_neg ‹_›] at h2
    obtain ⟨v, hv, e⟩ := h1.1
    exact h2.2 ⟨v, hst hv, e⟩

/-- A complex whose data are the weights of its simplices. -/
structure IsWeighted (sum : Bool) (f : ℕ → α) (K N : Complex α) : Prop where
  wf : WF N
  closed : FaceClosed N
  has : ∀ t, Has N t ↔ Has K t
  length : N.length = K.length
  data : ∀ s ∈ N, IsWeight sum f s.vset s.data

omit [IsStrictOrderedRing α] in
theorem IsWeighted.perm {sum : Bool} {f : ℕ → α} {K M N : Complex α} (h : IsWeighted sum f K M) (hp : N.Perm M) : IsWeighted sum f K N := by
  have hh : ∀ t, Has N t ↔ Has M t := fun t => exists_congr fun s => and_congr_left fun _ => hp.mem_iff
  refine ⟨h.wf.perm hp, ?_, fun t => (hh t).trans (h.has t), hp.length_eq.trans h.length, fun s hs => h.data s (hp.subset hs)⟩
  intro s hs t ht hne
  exact (hh t).2 (h.closed s (hp.subset hs) t ht hne)

omit [IsStrictOrderedRing α] in
theorem IsWeighted.sets {sum : Bool} {f : ℕ → α} {K N : Complex α} (h : IsWeighted sum f K N) : Spec.sets N = Spec.sets K := by
  ext t
  rw [mem_sets, mem_sets]
  exact h.has t

theorem IsWeighted.monotone {sum : Bool} {f : ℕ → α} (hf : ∀ v, 0 ≤ f v) {K N : Complex α} (h : IsWeighted sum f K N) : Spec.Monotone N :=
  fun s hs t ht hst => isWeight_mono hf hst (h.data s hs) (h.data t ht)

omit [IsStrictOrderedRing α] in
theorem IsWeighted.sublevel {sum : Bool} {f : ℕ → α} {K N : Complex α} (h : IsWeighted sum f K N) (x : α) : Spec.sublevel N x = weightLevel sum f (Spec.sets K) x := by
  classical
  ext t
  unfold Spec.sublevel weightLevel
  rw [mem_sets, mem_filter, ← h.sets, mem_sets]
  constructor
  · rintro ⟨s, hs, rfl⟩
    obtain ⟨k1, k2⟩ := List.mem_filter.1 hs
    exact ⟨⟨s, k1, rfl⟩, s.data, of_decide_eq_true k2, h.data s k1⟩
  · rintro ⟨⟨s, hs, rfl⟩, y, hy, hw⟩
    rw [← isWeight_unique (h.data s hs) hw] at hy
    exact ⟨s, List.mem_filter.2 ⟨hs, decide_eq_true hy⟩, rfl⟩

omit [IsStrictOrderedRing α] in
theorem assign_spec (c : Context α) (s : Settings α) (hs : s.sum = true ∨ s.superlevel = false) {K : Complex α} (hK : WF K) (hc : FaceClosed K) (f : ℕ → α) (hlo : ∀ v, c.lo ≤ f v) :
    ∃ L, assign c s K (K.vertices.map f) = some L ∧ IsWeighted s.sum f K L := by
  have key : ∀ (init : α) (functor : α → α → α) (L : Complex α), L = K.map (fun s => s.withData (s.vertices.foldl (fun d v => functor d (f v)) init)) →
      (∀ s' ∈ K, IsWeight s.sum f s'.vset (s'.vertices.foldl (fun d v => functor d (f v)) init)) → IsWeighted s.sum f K L := by
    intro init functor L hL hw
    have hv : L.map (·.vertices) = K.map (·.vertices) := by
      rw [hL, List.map_map]
      rfl
    have hh := has_of_map_vertices (List.Perm.of_eq hv)
    refine ⟨hK.of_map_vertices (List.Perm.of_eq hv), ?_, hh, by rw [hL, List.length_map], ?_⟩
    · intro a ha t hta htne
      obtain ⟨r, hr, e⟩ := (hh a.vset).1 ⟨a, ha, rfl⟩
      exact (hh t).2 (hc r hr t (by rw [e]; exact hta) htne)
    · intro a ha
      rw [hL] at ha
      obtain ⟨r, hr, rfl⟩ := List.mem_map.1 ha
      exact hw r hr
  unfold assign
  by_cases h : s.sum = true
  · rw [if_pos h, assignData_eq hK hc]
    refine ⟨_, rfl, key 0 (fun a b => a + b) _ rfl fun t ht => ?_⟩
    unfold IsWeight
    rw [if_pos h, foldl_sum, zero_add, Simplex.vset, List.sum_toFinset _ ((hK.normal t ht).imp fun h => ne_of_gt h)]
  · rw [if_neg h, if_neg (by simpa using hs.resolve_left h), assignMaximumData, assignData_eq hK hc]
    refine ⟨_, rfl, key c.lo max _ rfl fun t ht => ?_⟩
    unfold IsWeight
    rw [if_neg h]
    obtain ⟨h1, h2⟩ := foldl_max_spec f t.vertices c.lo
    have hm : ∀ v, v ∈ t.vset ↔ v ∈ t.vertices := fun v => by simp [Simplex.vset]
    refine ⟨?_, ?_⟩
    · rcases h1 with h1 | ⟨v, hv, h1⟩
      · obtain ⟨v, hv⟩ := hK.vset_nonempty ht
        refine ⟨v, hv, le_antisymm ?_ (h2 (Or.inr ⟨v, (hm v).1 hv, rfl⟩))⟩
        rw [h1]
        exact hlo v
      · exact ⟨v, (hm v).2 hv, h1⟩
    · rintro y ⟨v, hv, rfl⟩
      exact h2 (Or.inr ⟨v, (hm v).1 hv, rfl⟩)

theorem nodeValue_nonneg (normalise : Bool) (A : Finset (Finset ℕ)) (top v : ℕ) : (0 : α) ≤ nodeValue normalise A top v := by
  unfold nodeValue
  split
  · positivity
  · positivity

omit [LinearOrder α] [Field α] [IsStrictOrderedRing α] in
theorem isTopDegree_pos {K : Complex α} (hi : NoIsolated K) {top : ℕ} (ht : IsTopDegree (sets K) top) : 1 ≤ top := by
  obtain ⟨v, hv, e⟩ := ht.1
  rw [e]
  exact hi v (mem_sets.1 hv)

/-- One step of the loop, for a graph without isolated nodes. -/
theorem filtrationStep_spec (c : Context α) (hlo : c.lo ≤ 0) (s : Settings α) (hs : s.sum = true ∨ s.superlevel = false) {m : ℕ} (hm : s.normalise = true → m ≤ 1) {K : Complex α} (hK : IsGraph K)
    (hi : NoIsolated K) {top : ℕ} (ht : IsTopDegree (sets K) top) :
    ∃ L, filtrationStep c s (m : α) K = .ok (((if s.normalise then 1 else max m top : ℕ) : α), L.sort (asLt (Filtration.data fun a b => decide (a < b)))) ∧
      IsWeighted s.sum (nodeValue s.normalise (sets K) top) K L := by
  have hdeg := GraphAnalysis.degrees_eq hK hi
  have htop := isTopDegree_pos hi ht
  have hmax : updateMaximum (m : α) ((Curvature.degrees K).map fun d : ℕ => (d : α)) = ((max m top : ℕ) : α) := by
    obtain ⟨v, hv, e⟩ := ht.1
    have hmem : v ∈ K.vertices := ((C22_vertices K hK.1).2 v).2 (mem_sets.1 hv)
    have hle : ∀ u ∈ K.vertices, degree (sets K) u ≤ top := fun u hu => ht.2 ⟨u, mem_sets.2 (((C22_vertices K hK.1).2 u).1 hu), rfl⟩
    rw [hdeg, List.map_map]
    have key : ∀ (l : List ℕ) (x : ℕ), l.foldl (fun (a : α) u => max a ((degree (sets K) u : ℕ) : α)) (x : α) = ((l.foldl (fun a u => max a (degree (sets K) u)) x : ℕ) : α) := by
      intro l
      induction l with
      | nil => intro x; rfl
      | cons u l ih =>
        intro x
        rw [List.foldl_cons, List.foldl_cons, ← ih, Nat.cast_max]
    cases hvs : K.vertices with
    | nil => rw [hvs] at hmem; cases hmem
    | cons u us =>
      rw [List.map_cons]
      unfold updateMaximum
      simp only [List.foldl_map, Function.comp_apply]
      rw [key, ← Nat.cast_max]
      congr 2
      obtain ⟨h1, h2⟩ := foldl_max_spec (fun u => degree (sets K) u) us (degree (sets K) u)
      rw [hvs] at hmem hle
      refine le_antisymm ?_ ?_
      · rcases h1 with h1 | ⟨w, hw, h1⟩
        · rw [h1]; exact hle u (by simp)
        · rw [h1]; exact hle w (by simp [hw])
      · rw [e]
        rcases List.mem_cons.1 hmem with rfl | h
        · exact h2 (Or.inl rfl)
        · exact h2 (Or.inr ⟨v, h, rfl⟩)
  have hval : (if s.normalise then ((Curvature.degrees K).map fun d : ℕ => (d : α)).map (fun d => d / ((max m top : ℕ) : α)) else (Curvature.degrees K).map fun d : ℕ => (d : α)) =
      K.vertices.map (nodeValue s.normalise (sets K) top) := by
    rw [hdeg]
    unfold nodeValue
    cases hn : s.normalise with
    | false => simp [Function.comp_def]
    | true =>
      have : max m top = top := by have := hm hn; omega
      simp [Function.comp_def, this]
  obtain ⟨L, h1, h2⟩ := assign_spec c s hs hK.1 hK.2.1 (nodeValue s.normalise (sets K) top) fun v => hlo.trans (nodeValue_nonneg _ _ _ _)
  refine ⟨L, ?_, h2⟩
  unfold filtrationStep
  simp only [hmax, hval, h1]
  congr 2
  cases s.normalise <;> simp

end Filtration

/-! ### Diagrams -/

theorem pointsOfDimension_none {Ds : List (Diagram α)} {d : ℕ} (h : ¬∃ D ∈ Ds, D.dimension = d) : pointsOfDimension d Ds = [] := by
  unfold pointsOfDimension
  rw [List.filter_eq_nil_iff.2 fun D hD => by simpa using fun e => h ⟨D, hD, e⟩]
  rfl

theorem pointsOfDimension_mem {Ds : List (Diagram α)} (hasc : (Ds.map (·.dimension)).Pairwise (· < ·)) {D : Diagram α} (hD : D ∈ Ds) : pointsOfDimension D.dimension Ds = D.points := by
  unfold pointsOfDimension
  induction Ds with
  | nil => cases hD
  | cons E Ds ih =>
    rw [List.map_cons, List.pairwise_cons] at hasc
    rcases List.mem_cons.1 hD with rfl | hD'
    · rw [List.filter_cons_of_pos (by simp), List.filter_eq_nil_iff.2]
      · simp
      · intro E hE
        have := hasc.1 _ (List.mem_map_of_mem hE)
        simp only [decide_eq_true_eq]
        omega
    · have := hasc.1 _ (List.mem_map_of_mem hD')
      rw [List.filter_cons_of_neg (by simp only [decide_eq_true_eq]; omega)]
      exact ih hasc.2 hD'

section

variable [LinearOrder α] [Field α] [IsStrictOrderedRing α]

/-- The diagrams of a weighted graph. -/
theorem diagrams_spec {sum : Bool} {f : ℕ → α} (hf : ∀ v, 0 ≤ f v) {K N : Complex α} (h : IsWeighted sum f K N) {inf : α} (hinf : ∀ t ∈ sets K, ∀ y, IsWeight sum f t y → y ≠ inf)
    (hn : K.length ≤ idxMax) :
    ∃ Ds, calculatePersistenceDiagrams .twist .vector inf (N.sort (asLt (Filtration.data fun a b => decide (a < b)))) true true = some Ds ∧ (Ds.map (·.dimension)).Pairwise (· < ·) ∧
      (∀ D ∈ Ds, IsGraphDiagram inf sum f (sets K) D.dimension D.removeDiagonal.points) ∧ ∀ d, (¬∃ D ∈ Ds, D.dimension = d) → IsGraphDiagram inf sum f (sets K) d [] := by
  have hinf' : ∀ s ∈ N, s.data ≠ inf := fun s hs => hinf s.vset (mem_sets.2 ((h.has _).1 ⟨s, hs, rfl⟩)) _ (h.data s hs)
  have hlen : N.length ≤ idxMax := by rw [h.length]; exact hn
  obtain ⟨Ds, e, hD⟩ := sorted_flag h.wf h.closed (h.monotone hf) hlen hinf' true
  obtain ⟨s1, s2, -⟩ := sortData_spec h.wf
  have hS := h.perm s1
  have hcount : ∀ d x y, IsPersistentBetti (weightLevel sum f (sets K) x) (weightLevel sum f (sets K) y) d ((pointsOfDimension d Ds).countP fun p => p.1 ≤ x ∧ (p.2 = inf ∨ y < p.2)) := by
    intro d x y
    have := C51_persistent_betti inf _ (RelevantEdges.sorted_filtration h.wf h.closed (h.monotone hf)) (by rw [s1.length_eq]; exact hlen) s2 (fun s hs => hinf' s (s1.mem_iff.1 hs)) .twist .vector true
      Ds e d x y
    rw [hS.sublevel, hS.sublevel] at this
    exact this
  refine ⟨Ds, e, hD.ascending, fun D hDm => ⟨fun x y hxy => ?_, fun p hp => ?_⟩, fun d hd => ⟨fun x y _ => ?_, by simp⟩⟩
  · have hb := hcount D.dimension x y
    rw [pointsOfDimension_mem hD.ascending hDm] at hb
    convert hb using 1
    rw [Diagram.removeDiagonal, List.countP_filter]
    refine List.countP_congr fun q hq => ?_
    simp only [Bool.and_eq_true, decide_eq_true_eq, Bool.not_eq_true', decide_eq_false_iff_not, and_iff_left_iff_imp]
    rintro ⟨h1, h2⟩ he
    obtain ⟨t, ht, v1, -⟩ := hD.values D hDm q hq
    rcases h2 with h2 | h2
    · exact hinf' t ht (by rw [← v1, he, h2])
    · rw [← he] at h2
      exact absurd (hxy.trans_lt h2) (not_lt.2 h1)
  · obtain ⟨hp1, hp2⟩ := List.mem_filter.1 hp
    obtain ⟨t, ht, v1, v2⟩ := hD.values D hDm p hp1
    have hm : ∀ s ∈ N, s.vset ∈ sets K := fun s hs => mem_sets.2 ((h.has _).1 ⟨s, hs, rfl⟩)
    refine ⟨⟨t.vset, hm t ht, by rw [v1]; exact h.data t ht⟩, v2.imp_right ?_⟩
    rintro ⟨u, hu, v3, v4⟩
    refine ⟨u.vset, hm u hu, by rw [v3]; exact h.data u hu, lt_of_le_of_ne v4 ?_⟩
    simpa using hp2
  · have := hcount d x y
    rw [pointsOfDimension_none hd] at this
    exact this

end

/-! ### Files -/

/-- A number below `n` in the names of files, padded with zeroes to as many digits as `n` has. -/
def _root_.Aleph.Spec.IsPadded (n i : ℕ) (text : List Char) : Prop :=
  ∃ (k : ℕ) (s t : List Char), text = List.replicate k '0' ++ s ∧ IsUsualNotation i s ∧ IsUsualNotation n t ∧ k + s.length = max s.length t.length

/-- The number of a file. -/
noncomputable def number (n i : ℕ) : List Char := (Utilities.format i n '0').getD []

theorem number_padded {n i : ℕ} (hi : i < n) : IsPadded n i (number n i) := by
  obtain ⟨k, s, t, h1, h2, h3, h4⟩ := C126_format i n '0' (by omega)
  exact ⟨k, s, t, by rw [number, h1]; rfl, h2, h3, h4⟩

theorem name_eq (directory : List Char) {n i : ℕ} (hi : i < n) (e : List Char) : name directory i n e = .ok (directory ++ number n i ++ e) := by
  obtain ⟨k, s, t, h1, -⟩ := C126_format i n '0' (by omega)
  unfold name number
  rw [h1]
  rfl

theorem name_inj {n i j : ℕ} (hi : i < n) (hj : j < n) {directory e e' : List Char} (h : directory ++ number n i ++ e = directory ++ number n j ++ e') : i = j ∧ e = e' := by
  obtain ⟨s, t, h1, h2, h3, h4, h5, -⟩ := C126_order i j n hi.le hj.le (by omega)
  have e1 : number n i = s := by rw [number, h1]; rfl
  have e2 : number n j = t := by rw [number, h2]; rfl
  rw [List.append_assoc, List.append_assoc, e1, e2] at h
  obtain ⟨h6, h7⟩ := List.append_inj (List.append_cancel_left h) h3
  exact ⟨by rw [← h4, ← h5, h6], h7⟩

theorem ending_inj {d d' : ℕ} (h : ending d = ending d') : d = d' := by
  unfold ending at h
  have := List.append_cancel_left (List.append_cancel_right h)
  rw [← (Utilities.decimal_spec d).2.2.1, ← (Utilities.decimal_spec d').2.2.1, this]

theorem mapM_ok {β γ : Type} {f : β → Except Failure γ} {g : β → γ} {l : List β} (h : ∀ x ∈ l, f x = .ok (g x)) : l.mapM f = .ok (l.map g) := by
  induction l with
  | nil => rfl
  | cons x l ih =>
    rw [List.mapM_cons, h x (by simp), ih fun y hy => h y (by simp [hy])]
    rfl

theorem contents_right {before out : List (List Char × List Char)} {n t : List Char} (h : FileContents out n t) : FileContents (before ++ out) n t := by
  obtain ⟨a, b, rfl, hb⟩ := h
  exact ⟨before ++ a, b, by simp, hb⟩

theorem contents_left {out after : List (List Char × List Char)} {n t : List Char} (h : FileContents out n t) (ha : ∀ x ∈ after, x.1 ≠ n) : FileContents (out ++ after) n t := by
  obtain ⟨a, b, rfl, hb⟩ := h
  refine ⟨a, b ++ after, by simp, fun x hx => ?_⟩
  rcases List.mem_append.1 hx with hx | hx
  · exact hb x hx
  · exact ha x hx

/-- The files of one graph. -/
noncomputable def filesOf [LinearOrder α] [Mul α] (c : Context α) (infinity maxDegree : α) (maxDimension : ℕ) (directory : List Char) (n i : ℕ) (Ds : List (Diagram α)) : List (List Char × List Char) :=
  (List.range (maxDimension + 1)).map (fun d => (directory ++ number n i ++ ending d, [])) ++
    Ds.map fun D => (directory ++ number n i ++ ending D.dimension, content c infinity maxDegree D.removeDiagonal)

theorem diagramFiles_eq [LinearOrder α] [Mul α] (c : Context α) (infinity maxDegree : α) (maxDimension : ℕ) (directory : List Char) {n i : ℕ} (hi : i < n) {K : Complex α} {Ds : List (Diagram α)}
    (h : calculatePersistenceDiagrams .twist .vector c.inf K true true = some Ds) :
    diagramFiles c infinity maxDegree maxDimension directory n i K = .ok (filesOf c infinity maxDegree maxDimension directory n i Ds) := by
  unfold diagramFiles filesOf
  simp only [h, bind, Except.bind]
  rw [mapM_ok (g := fun d => (directory ++ number n i ++ ending d, [])) fun d _ => by rw [name_eq directory hi]; rfl]
  simp only
  rw [mapM_ok (g := fun D => (directory ++ number n i ++ ending D.dimension, content c infinity maxDegree D.removeDiagonal)) fun D _ => by rw [name_eq directory hi]; rfl]

theorem filesOf_names [LinearOrder α] [Mul α] (c : Context α) (infinity maxDegree : α) (m : ℕ) (directory : List Char) (n i : ℕ) (Ds : List (Diagram α)) :
    ∀ x ∈ filesOf c infinity maxDegree m directory n i Ds, ∃ d, x.1 = directory ++ number n i ++ ending d := by
  intro x hx
  rcases List.mem_append.1 hx with hx | hx
  · obtain ⟨d, -, rfl⟩ := List.mem_map.1 hx
    exact ⟨d, rfl⟩
  · obtain ⟨D, -, rfl⟩ := List.mem_map.1 hx
    exact ⟨D.dimension, rfl⟩

theorem filesOf_contents [LinearOrder α] [Mul α] (c : Context α) (infinity maxDegree : α) {m : ℕ} (directory : List Char) (n i : ℕ) {Ds : List (Diagram α)}
    (hasc : (Ds.map (·.dimension)).Pairwise (· < ·)) :
    (∀ D ∈ Ds, FileContents (filesOf c infinity maxDegree m directory n i Ds) (directory ++ number n i ++ ending D.dimension) (content c infinity maxDegree D.removeDiagonal)) ∧
    ∀ d ≤ m, (¬∃ D ∈ Ds, D.dimension = d) → FileContents (filesOf c infinity maxDegree m directory n i Ds) (directory ++ number n i ++ ending d) [] := by
  have hne : ∀ d d', directory ++ number n i ++ ending d = directory ++ number n i ++ ending d' → d = d' := fun d d' h => ending_inj (List.append_cancel_left h)
  constructor
  · intro D hD
    refine contents_right ?_
    obtain ⟨a, b, rfl⟩ := List.append_of_mem hD
    refine ⟨a.map fun D => (directory ++ number n i ++ ending D.dimension, content c infinity maxDegree D.removeDiagonal),
      b.map fun D => (directory ++ number n i ++ ending D.dimension, content c infinity maxDegree D.removeDiagonal), by simp, ?_⟩
    intro x hx he
    obtain ⟨E, hE, rfl⟩ := List.mem_map.1 hx
    rw [List.map_append, List.map_cons, List.pairwise_append, List.pairwise_cons] at hasc
    have := hasc.2.1.1 _ (List.mem_map_of_mem hE)
    have := hne _ _ he
    omega
  · intro d hd hn
    refine contents_left ?_ ?_
    · have hr : List.range (m + 1) = List.range d ++ d :: (List.range' (d + 1) (m - d)) := by
        rw [List.range_eq_range', List.range_eq_range', ← List.range'_succ, show m - d + 1 = m + 1 - d by omega]
        have := List.range'_append_1 (s := 0) (m := d) (n := m + 1 - d)
        rw [Nat.zero_add] at this
        rw [this, show d + (m + 1 - d) = m + 1 by omega]
      rw [hr, List.map_append, List.map_cons]
      refine ⟨_, _, rfl, fun x hx he => ?_⟩
      obtain ⟨d', hd', rfl⟩ := List.mem_map.1 hx
      have := hne _ _ he
      rw [List.mem_range'_1] at hd'
      omega
    · intro x hx he
      obtain ⟨D, hD, rfl⟩ := List.mem_map.1 hx
      exact hn ⟨D, hD, hne _ _ he⟩

/-- All files with diagrams. -/
theorem allDiagramFiles_spec [LinearOrder α] [Mul α] (c : Context α) (infinity maxDegree : α) (m : ℕ) (directory : List Char) (n : ℕ) (Ks : List (Complex α)) (D : Complex α → List (Diagram α))
    (hD : ∀ K ∈ Ks, calculatePersistenceDiagrams .twist .vector c.inf K true true = some (D K)) (hasc : ∀ K ∈ Ks, ((D K).map (·.dimension)).Pairwise (· < ·)) (index : ℕ) (hn : index + Ks.length ≤ n) :
    ∃ fs, allDiagramFiles c infinity maxDegree m directory n index Ks = .ok fs ∧ (∀ x ∈ fs, ∃ i d, index ≤ i ∧ i < n ∧ x.1 = directory ++ number n i ++ ending d) ∧
      ∀ (j : ℕ) (K : Complex α), Ks[j]? = some K →
        (∀ E ∈ D K, FileContents fs (directory ++ number n (index + j) ++ ending E.dimension) (content c infinity maxDegree E.removeDiagonal)) ∧
        ∀ d ≤ m, (¬∃ E ∈ D K, E.dimension = d) → FileContents fs (directory ++ number n (index + j) ++ ending d) [] := by
  induction Ks generalizing index with
  | nil => exact ⟨[], rfl, by simp, by simp⟩
  | cons K Ks ih =>
    rw [List.length_cons] at hn
    obtain ⟨fs, e, f1, f2⟩ := ih (fun L hL => hD L (by simp [hL])) (fun L hL => hasc L (by simp [hL])) (index + 1) (by omega)
    refine ⟨filesOf c infinity maxDegree m directory n index (D K) ++ fs, ?_, ?_, ?_⟩
    · unfold allDiagramFiles
      simp only [bind, Except.bind, diagramFiles_eq c infinity maxDegree m directory (show index < n by omega) (hD K (by simp)), e]
    · intro x hx
      rcases List.mem_append.1 hx with hx | hx
      · obtain ⟨d, hd⟩ := filesOf_names c infinity maxDegree m directory n index (D K) x hx
        exact ⟨index, d, le_rfl, by omega, hd⟩
      · obtain ⟨i, d, h1, h2, h3⟩ := f1 x hx
        exact ⟨i, d, by omega, h2, h3⟩
    · intro j L hL
      cases j with
      | zero =>
        simp only [List.getElem?_cons_zero, Option.some.injEq] at hL
        subst hL
        obtain ⟨g1, g2⟩ := filesOf_contents c infinity maxDegree (m := m) directory n index (hasc K (by simp))
        have hne : ∀ d, ∀ x ∈ fs, x.1 ≠ directory ++ number n (index + 0) ++ ending d := by
          intro d x hx he
          obtain ⟨i, d', h1, h2, h3⟩ := f1 x hx
          rw [h3] at he
          have := (name_inj h2 (by omega) he).1
          omega
        exact ⟨fun E hE => contents_left (g1 E hE) (hne _), fun d hd hn' => contents_left (g2 d hd hn') (hne _)⟩
      | succ j =>
        rw [List.getElem?_cons_succ] at hL
        obtain ⟨g1, g2⟩ := f2 j L hL
        rw [show index + (j + 1) = index + 1 + j by omega]
        exact ⟨fun E hE => contents_right (g1 E hE), fun d hd hn' => contents_right (g2 d hd hn')⟩

theorem content_eq [LinearOrder α] [Mul α] (c : Context α) (infinity maxDegree : α) (D : Diagram α) : content c infinity maxDegree D = diagramTable c.print c.inf (infinity * maxDegree) D.points := by
  unfold content diagramTable Diagram.isUnpaired
  refine List.flatMap_congr fun p _ => ?_
  by_cases h : p.2 = c.inf
  · simp [h]
  · simp [h]

/-! ### Centralities -/

theorem mapM_forall₂ {β γ : Type} {f : β → Option γ} {R : β → γ → Prop} {l : List β} (h : ∀ x ∈ l, ∃ y, f x = some y ∧ R x y) : ∃ ys, l.mapM f = some ys ∧ List.Forall₂ R l ys := by
  induction l with
  | nil => exact ⟨[], rfl, .nil⟩
  | cons x l ih =>
    obtain ⟨y, h1, h2⟩ := h x (by simp)
    obtain ⟨ys, h3, h4⟩ := ih fun z hz => h z (by simp [hz])
    exact ⟨y :: ys, by rw [List.mapM_cons, h1, h3]; rfl, .cons h2 h4⟩

theorem vertexOrder_sortLex {K : Complex α} (hK : WF K) : IsVertexOrder K.sortLex K.vertices := by
  have hp : K.sortLex.Perm K := sort_perm _ _
  have hL : WF K.sortLex := hK.perm hp
  have hv : ∀ s ∈ K.sortLex, #s.vset = 1 → s.vertices = [s.vertices.headD 0] := by
    intro s hs h1
    have hn : s.vertices.Nodup := (hL.normal s hs).imp fun h => ne_of_gt h
    rw [Simplex.vset, List.toFinset_card_of_nodup hn] at h1
    obtain ⟨a, ha⟩ := List.length_eq_one_iff.1 h1
    rw [ha]
    rfl
  have key : ((List.filter (fun s => s.vset.card = 1) K.sortLex).map fun s => s.vertices.headD 0) = K.vertices := by
    have hpw : K.sortLex.Pairwise fun s t => Simplex.lexLt s.vertices t.vertices = true := by
      rw [List.pairwise_iff_getElem]
      intro i j hi hj hij
      exact sortLex_lt hK hij (List.getElem?_eq_getElem hi) (List.getElem?_eq_getElem hj)
    refine eq_vertices hK ?_ fun v => ?_
    · rw [List.pairwise_map]
      refine (List.Pairwise.and_mem.1 (hpw.filter _)).imp ?_
      rintro s t ⟨hs, ht, hlt⟩
      obtain ⟨hs1, hs2⟩ := List.mem_filter.1 hs
      obtain ⟨ht1, ht2⟩ := List.mem_filter.1 ht
      rw [hv s hs1 (by simpa using hs2), hv t ht1 (by simpa using ht2)] at hlt
      simpa [Simplex.lexLt] using hlt
    · rw [List.mem_map]
      constructor
      · rintro ⟨s, hs, rfl⟩
        obtain ⟨hs1, hs2⟩ := List.mem_filter.1 hs
        refine ⟨s, hp.subset hs1, ?_⟩
        conv_lhs => rw [Simplex.vset, hv s hs1 (by simpa using hs2)]
        rfl
      · rintro ⟨s, hs, e⟩
        have hc : #s.vset = 1 := by rw [e]; rfl
        have hs' : s ∈ K.sortLex := hp.symm.subset hs
        refine ⟨s, List.mem_filter.2 ⟨hs', by simpa using hc⟩, ?_⟩
        rw [Simplex.vset, hv s hs' hc] at e
        simpa using e
  unfold IsVertexOrder
  rw [← key, List.map_map]
  refine List.map_congr_left fun s hs => ?_
  obtain ⟨hs1, hs2⟩ := List.mem_filter.1 hs
  conv_lhs => rw [Simplex.vset, hv s hs1 (by simpa using hs2)]
  rfl

section

variable [LinearOrder α] [Field α] [IsStrictOrderedRing α]

theorem hops_of_path {L : Complex α} (h0 : ∀ u v x, u ≠ v → HasData L {u, v} x → x = 0) {u v : ℕ} {l : α} (h : PathLength L 1 u v l) : ∃ n : ℕ, l = n ∧ Hops (sets L) u v n := by
  induction h with
  | nil v _ => exact ⟨0, by simp, .nil v⟩
  | @cons u m v x l hne hx _ ih =>
    obtain ⟨n, rfl, hn⟩ := ih
    have := h0 u m x hne hx
    obtain ⟨s, hs, e, -⟩ := hx
    refine ⟨n + 1, ?_, .cons hne (mem_sets.2 ⟨s, hs, e⟩) hn⟩
    rw [this, if_neg (by simp)]
    push_cast
    ring

theorem path_of_hops {L : Complex α} (h0 : ∀ u v x, u ≠ v → HasData L {u, v} x → x = 0) {u v n : ℕ} (h : Hops (sets L) u v n) (hv : Has L {v}) : PathLength L 1 u v (n : α) := by
  induction h with
  | nil v => simpa using PathLength.nil v hv
  | @cons u m v n hne hm _ ih =>
    obtain ⟨s, hs, e⟩ := mem_sets.1 hm
    have hd : HasData L {u, m} s.data := ⟨s, hs, e, rfl⟩
    have := PathLength.cons (w := (1 : α)) hne hd (ih hv)
    rw [h0 u m _ hne hd, if_neg (by simp)] at this
    convert this using 1
    push_cast
    ring

theorem rowSum_loop {A : Finset (Finset ℕ)} {u : ℕ} (M : SymMatrix (WithTop α)) (i : ℕ) {js vs : List ℕ}
    (h : List.Forall₂ (fun j v => (M.get i j = some ⊤ ∧ ¬∃ n, Hops A u v n) ∨ ∃ n : ℕ, M.get i j = some ((n : α) : WithTop α) ∧ IsLeast {n | Hops A u v n} n) js vs) (k : Kahan α) :
    ∃ (l : List α) (total : ℕ), js.foldlM (fun k j =>
      match M.get i j with
      | none => none
      | some none => some k
      | some (some x) => some (Kahan.add k x)) k = some (l.foldl Kahan.add k) ∧ IsFarness A u vs total ∧ l.sum = (total : α) := by
  induction h generalizing k with
  | nil => exact ⟨[], 0, rfl, .nil, by simp⟩
  | @cons j v js vs hjv _ ih =>
    rcases hjv with ⟨e, hn⟩ | ⟨n, e, hn⟩
    · obtain ⟨l, total, h1, h2, h3⟩ := ih k
      refine ⟨l, total, ?_, .separate hn h2, h3⟩
      rw [List.foldlM_cons, e]
      exact h1
    · obtain ⟨l, total, h1, h2, h3⟩ := ih (Kahan.add k n)
      refine ⟨n :: l, n + total, ?_, .reached hn h2, by rw [List.sum_cons, h3]; push_cast; rfl⟩
      rw [List.foldlM_cons, e]
      exact h1

theorem closeness_spec {K : Complex α} (hK : IsGraph K) (h0 : ∀ u v x, u ≠ v → HasData K {u, v} x → x = 0) :
    ∃ values, closenessCentrality K.sortLex = some values ∧ List.Forall₂ (IsCloseness (sets K) K.vertices) K.vertices values := by
  have hp : K.sortLex.Perm K := sort_perm _ _
  have hhas : ∀ t x, HasData K.sortLex t x ↔ HasData K t x := fun t x => exists_congr fun s => and_congr_left fun _ => hp.mem_iff
  have hsets : sets K.sortLex = sets K := by
    ext t
    rw [mem_sets, mem_sets]
    exact exists_congr fun s => and_congr_left fun _ => hp.mem_iff
  have h0' : ∀ u v x, u ≠ v → HasData K.sortLex {u, v} x → x = 0 := fun u v x h hx => h0 u v x h ((hhas _ _).1 hx)
  have hve : ∀ v, Has K.sortLex {v} ↔ v ∈ K.vertices := fun v => by
    rw [(C22_vertices K hK.1).2]
    exact exists_congr fun s => and_congr_left fun _ => hp.mem_iff
  have hedge : EdgeClosed K.sortLex := by
    rintro u v huv ⟨s, hs, e⟩
    obtain ⟨r, hr, e'⟩ := hK.2.1 s (hp.subset hs) {u} (by rw [e]; simp) (by simp)
    exact ⟨r, hp.symm.subset hr, e'⟩
  obtain ⟨M, m1, m2, m3⟩ := C31_floyd_warshall K.sortLex (hK.1.perm hp) hedge (1 : α) zero_le_one (fun u v x h hx => (h0' u v x h hx).ge) K.vertices (vertexOrder_sortLex hK.1)
  have hrow : ∀ i u, K.vertices[i]? = some u → ∃ total : ℕ, rowSum M M.numRows i = some (total : α) ∧ IsFarness (sets K) u K.vertices total := by
    intro i u hu
    have hf : List.Forall₂ (fun j v => (M.get i j = some ⊤ ∧ ¬∃ n, Hops (sets K) u v n) ∨ ∃ n : ℕ, M.get i j = some ((n : α) : WithTop α) ∧ IsLeast {n | Hops (sets K) u v n} n)
        (List.range M.numRows) K.vertices := by
      rw [List.forall₂_iff_get]
      refine ⟨by simp [m2], fun j h1 h2 => ?_⟩
      have hj : K.vertices[j]? = some K.vertices[j] := List.getElem?_eq_getElem h2
      obtain ⟨d, d1, d2, d3⟩ := m3 i j u _ hu hj
      have hvj : Has K.sortLex {K.vertices[j]} := (hve _).2 (List.getElem_mem h2)
      simp only [List.get_eq_getElem, List.getElem_range]
      cases d with
      | top =>
        refine Or.inl ⟨d1, ?_⟩
        rintro ⟨n, hn⟩
        exact d2.1 rfl ⟨_, path_of_hops h0' (by rw [hsets]; exact hn) hvj⟩
      | coe l =>
        obtain ⟨l1, l2⟩ := (d3 l).1 rfl
        obtain ⟨n, rfl, hn⟩ := hops_of_path h0' l1
        rw [hsets] at hn
        refine Or.inr ⟨n, d1, hn, fun k hk => ?_⟩
        have := l2 (path_of_hops h0' (by rw [hsets]; exact hk) hvj)
        exact_mod_cast this
    obtain ⟨l, total, h1, h2, h3⟩ := rowSum_loop M i hf (Kahan.init 0)
    refine ⟨total, ?_, h2⟩
    refine (congrArg (Option.map Kahan.sum) h1).trans ?_
    rw [Option.map_some, ← h3]
    have := C49_accumulate l (0 : α)
    rw [zero_add] at this
    rw [← this]
    rfl
  obtain ⟨ys, y1, y2⟩ := mapM_forall₂ (f := fun i => (rowSum M M.numRows i).map fun sum => if sum = 0 then none else some ((M.numRows : α) / sum))
    (R := fun i y => ∀ u, K.vertices[i]? = some u → IsCloseness (sets K) K.vertices u y) (l := List.range M.numRows) (by
      intro i hi
      have hi' : i < K.vertices.length := by rw [← m2]; simpa using hi
      obtain ⟨total, t1, t2⟩ := hrow i _ (List.getElem?_eq_getElem hi')
      refine ⟨_, by rw [t1]; rfl, fun u hu => ⟨total, ?_, ?_⟩⟩
      · rw [List.getElem?_eq_getElem hi', Option.some.injEq] at hu
        rw [← hu]
        exact t2
      · rw [m2]
        by_cases h : total = 0
        · simp [h]
        · have h' : (total : α) ≠ 0 := by exact_mod_cast h
          simp only [if_neg h', if_neg h])
  refine ⟨ys, ?_, ?_⟩
  · unfold closenessCentrality
    rw [m1]
    exact y1
  · have hl := y2.length_eq
    rw [List.length_range, m2] at hl
    rw [List.forall₂_iff_get] at y2 ⊢
    refine ⟨hl, fun i h1 h2 => ?_⟩
    exact y2.2 i (by rw [List.length_range, m2]; exact h1) h2 _ (by simp)

end

end Aleph.SparseTool
