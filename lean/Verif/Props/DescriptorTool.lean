import Verif.Lemmas.Options
import Verif.Model.DescriptorTool
import Verif.Props.DataDensities
import Verif.Props.DiagramJson
import Verif.Props.EccentricityExample
import Verif.Spec.DescriptorTool

/-!
# C178: the tool `point_cloud_data_descriptors`
-/

namespace Aleph.DescriptorTool

open Finset Spec
open VietorisRipsExample (Failure squared)

/-! ### Options -/

/-- The argument of an option for the bandwidth. -/
def Opt.bandwidthWord : Opt → Option (List Char)
  | .bandwidth w => some w
  | _ => none

/-- The argument of an option for the dimension. -/
def Opt.dimensionWord : Opt → Option (List Char)
  | .dimension w => some w
  | _ => none

/-- The argument of an option for the descriptor. -/
def Opt.descriptorWord : Opt → Option (List Char)
  | .descriptor w => some w
  | _ => none

/-- The argument of an option for the threshold. -/
def Opt.epsilonWord : Opt → Option (List Char)
  | .epsilon w => some w
  | _ => none

/-- The argument of an option for the number of neighbours. -/
def Opt.neighboursWord : Opt → Option (List Char)
  | .neighbours w => some w
  | _ => none

/-- The argument of an option for the order of eccentricities. -/
def Opt.powerWord : Opt → Option (List Char)
  | .power w => some w
  | _ => none

/-- The arguments of options are numbers where numbers are expected. -/
def Valid (c : Context) (opts : List Opt) : Prop :=
  ∀ o ∈ opts, (∀ w, o.bandwidthWord = some w ∨ o.epsilonWord = some w → c.stod w ≠ none) ∧
    ∀ w, o.dimensionWord = some w ∨ o.neighboursWord = some w ∨ o.powerWord = some w → c.stoul w ≠ none

theorem settings_none (c : Context) (opts : List Opt) : settings c opts = none ↔ ¬Valid c opts := by
  unfold settings
  rw [foldlM_eq_none (bad := fun o => ¬((∀ w, o.bandwidthWord = some w ∨ o.epsilonWord = some w → c.stod w ≠ none) ∧
    ∀ w, o.dimensionWord = some w ∨ o.neighboursWord = some w ∨ o.powerWord = some w → c.stoul w ≠ none))]
  · unfold Valid
    push Not
    rfl
  · intro s o
    cases o <;> simp [setOption, Opt.bandwidthWord, Opt.epsilonWord, Opt.dimensionWord, Opt.neighboursWord, Opt.powerWord]

theorem flag_of_foldlM {σ : Type} {step : σ → Opt → Option σ} {get : σ → Bool} {flag : Opt} (hset : ∀ s s', step s flag = some s' → get s' = true)
    (hkeep : ∀ s o s', o ≠ flag → step s o = some s' → get s' = get s) {init s : σ} (h0 : get init = false) {opts : List Opt} (h : opts.foldlM step init = some s) :
    get s = true ↔ flag ∈ opts := by
  suffices H : ∀ init, opts.foldlM step init = some s → (get s = true ↔ get init = true ∨ flag ∈ opts) by
    have := H init h
    simpa [h0] using this
  clear h h0 init
  induction opts with
  | nil =>
    intro init h
    simp only [List.foldlM_nil, pure, Option.some.injEq] at h
    simp [h]
  | cons o l ih =>
    intro init h
    rw [List.foldlM_cons] at h
    cases e : step init o with
    | none =>
      rw [e] at h
      simp at h
    | some t =>
      rw [e] at h
      have := ih t h
      rw [this, List.mem_cons]
      by_cases ho : o = flag
      · subst ho
        simp [hset _ _ e]
      · rw [hkeep _ _ _ ho e]
        simp [Ne.symm ho]

theorem settings_spec (c : Context) {opts : List Opt} {s : Settings} (h : settings c opts = some s) :
    IsLastValue Opt.bandwidthWord c.stod (1 / 100) opts s.h ∧ IsLastValue Opt.dimensionWord c.stoul 0 opts s.dimension ∧
    IsLastValue Opt.descriptorWord some "density".toList opts s.descriptor ∧ IsLastValue Opt.epsilonWord c.stod 0 opts s.epsilon ∧
    IsLastValue Opt.neighboursWord c.stoul 10 opts s.k ∧ IsLastValue Opt.powerWord c.stoul 2 opts s.p ∧
    (s.invert = true ↔ Opt.invert ∈ opts) ∧ (s.normalize = true ↔ Opt.normalize ∈ opts) ∧ (s.removeUnpaired = true ↔ Opt.removeUnpaired ∈ opts) := by
  unfold settings at h
  refine ⟨?_, ?_, ?_, ?_, ?_, ?_, ?_, ?_, ?_⟩
  · refine lastValue_of_foldlM (get := Settings.h) ?_ ?_ h
    · intro s o s' w hp h
      cases o <;> simp only [Opt.bandwidthWord, Option.some.injEq, reduceCtorEq] at hp
      subst hp
      obtain ⟨x, h1, rfl⟩ := Option.map_eq_some_iff.1 h
      exact h1
    · intro s o s' hp h
      cases o <;> simp only [Opt.bandwidthWord, reduceCtorEq, setOption, Option.map_eq_some_iff, Option.some.injEq] at hp h <;>
        first | (subst h; rfl) | (obtain ⟨x, h1, rfl⟩ := h; rfl)
  · refine lastValue_of_foldlM (get := Settings.dimension) ?_ ?_ h
    · intro s o s' w hp h
      cases o <;> simp only [Opt.dimensionWord, Option.some.injEq, reduceCtorEq] at hp
      subst hp
      obtain ⟨x, h1, rfl⟩ := Option.map_eq_some_iff.1 h
      exact h1
    · intro s o s' hp h
      cases o <;> simp only [Opt.dimensionWord, reduceCtorEq, setOption, Option.map_eq_some_iff, Option.some.injEq] at hp h <;>
        first | (subst h; rfl) | (obtain ⟨x, h1, rfl⟩ := h; rfl)
  · refine lastValue_of_foldlM (get := Settings.descriptor) ?_ ?_ h
    · intro s o s' w hp h
      cases o <;> simp only [Opt.descriptorWord, Option.some.injEq, reduceCtorEq] at hp
      subst hp
      simp only [setOption, Option.some.injEq] at h
      rw [← h]
    · intro s o s' hp h
      cases o <;> simp only [Opt.descriptorWord, reduceCtorEq, setOption, Option.map_eq_some_iff, Option.some.injEq] at hp h <;>
        first | (subst h; rfl) | (obtain ⟨x, h1, rfl⟩ := h; rfl)
  · refine lastValue_of_foldlM (get := Settings.epsilon) ?_ ?_ h
    · intro s o s' w hp h
      cases o <;> simp only [Opt.epsilonWord, Option.some.injEq, reduceCtorEq] at hp
      subst hp
      obtain ⟨x, h1, rfl⟩ := Option.map_eq_some_iff.1 h
      exact h1
    · intro s o s' hp h
      cases o <;> simp only [Opt.epsilonWord, reduceCtorEq, setOption, Option.map_eq_some_iff, Option.some.injEq] at hp h <;>
        first | (subst h; rfl) | (obtain ⟨x, h1, rfl⟩ := h; rfl)
  · refine lastValue_of_foldlM (get := Settings.k) ?_ ?_ h
    · intro s o s' w hp h
      cases o <;> simp only [Opt.neighboursWord, Option.some.injEq, reduceCtorEq] at hp
      subst hp
      obtain ⟨x, h1, rfl⟩ := Option.map_eq_some_iff.1 h
      exact h1
    · intro s o s' hp h
      cases o <;> simp only [Opt.neighboursWord, reduceCtorEq, setOption, Option.map_eq_some_iff, Option.some.injEq] at hp h <;>
        first | (subst h; rfl) | (obtain ⟨x, h1, rfl⟩ := h; rfl)
  · refine lastValue_of_foldlM (get := Settings.p) ?_ ?_ h
    · intro s o s' w hp h
      cases o <;> simp only [Opt.powerWord, Option.some.injEq, reduceCtorEq] at hp
      subst hp
      obtain ⟨x, h1, rfl⟩ := Option.map_eq_some_iff.1 h
      exact h1
    · intro s o s' hp h
      cases o <;> simp only [Opt.powerWord, reduceCtorEq, setOption, Option.map_eq_some_iff, Option.some.injEq] at hp h <;>
        first | (subst h; rfl) | (obtain ⟨x, h1, rfl⟩ := h; rfl)
  · refine flag_of_foldlM (get := Settings.invert) ?_ ?_ rfl h
    · intro s s' h
      simp only [setOption, Option.some.injEq] at h
      rw [← h]
    · intro s o s' hp h
      cases o <;> simp only [ne_eq, reduceCtorEq, not_true_eq_false, not_false_eq_true, setOption, Option.map_eq_some_iff, Option.some.injEq] at hp h <;>
        first | (subst h; rfl) | (obtain ⟨x, h1, rfl⟩ := h; rfl)
  · refine flag_of_foldlM (get := Settings.normalize) ?_ ?_ rfl h
    · intro s s' h
      simp only [setOption, Option.some.injEq] at h
      rw [← h]
    · intro s o s' hp h
      cases o <;> simp only [ne_eq, reduceCtorEq, not_true_eq_false, not_false_eq_true, setOption, Option.map_eq_some_iff, Option.some.injEq] at hp h <;>
        first | (subst h; rfl) | (obtain ⟨x, h1, rfl⟩ := h; rfl)
  · refine flag_of_foldlM (get := Settings.removeUnpaired) ?_ ?_ rfl h
    · intro s s' h
      simp only [setOption, Option.some.injEq] at h
      rw [← h]
    · intro s o s' hp h
      cases o <;> simp only [ne_eq, reduceCtorEq, not_true_eq_false, not_false_eq_true, setOption, Option.map_eq_some_iff, Option.some.injEq] at hp h <;>
        first | (subst h; rfl) | (obtain ⟨x, h1, rfl⟩ := h; rfl)

/-! ### Values -/

theorem distance_eq {pc : PointCloud ℝ} {rows : List (List ℝ)} (hpc : pc.Has rows) {i j : ℕ} (hi : i < rows.length) (hj : j < rows.length) :
    distance pc i j = pointDistance rows i j ∧ squared pc i j = pointDistance rows i j ^ 2 :=
  VietorisRipsExample.distances (c := ⟨0, Real.sqrt, fun _ => 0, fun _ => none, fun _ => []⟩) rfl hpc hi hj

theorem list_eq_map {l : List ℝ} {n : ℕ} (h : l.length = n) : l = (List.range n).map fun i => l.getD i 0 := by
  apply List.ext_getElem (by simp [h])
  intro i h1 h2
  simp [List.getElem?_eq_getElem h1]

theorem getD_some {l : List ℝ} {i : ℕ} (h : i < l.length) : l[i]? = some (l.getD i 0) := by
  rw [List.getD_eq_getElem _ _ h, List.getElem?_eq_getElem h]

theorem descriptor_spec (c : Context) (hsort : IsStdSort c.sort) (s : Settings) {pc : PointCloud ℝ} {rows : List (List ℝ)} (hpc : pc.Has rows)
    (hsup : IsSupported rows.length s.descriptor s.k s.h s.p) :
    ∃ f, calculateDataDescriptor c s pc = .ok (some ((List.range rows.length).map f)) ∧ IsDescriptor rows s.descriptor s.k s.h s.p f := by
  have hn : pc.n = rows.length := hpc.count
  unfold calculateDataDescriptor
  rw [hn]
  rcases hsup with ⟨e, hk⟩ | ⟨e, hp⟩ | ⟨e, hh⟩
  · rw [if_pos e]
    rcases hk with hk | h0
    · obtain ⟨l, l1, l2, l3⟩ := (C91_density c.sort hsort rows.length (distance pc) s.k).1 hk
      refine ⟨fun i => l.getD i 0, by rw [l1, ← list_eq_map l2], .inl ⟨e, fun i hi => ?_⟩⟩
      obtain ⟨⟨T, t1, t2⟩, -⟩ := l3 i _ (getD_some (by omega))
      refine ⟨T, ⟨t1.range, t1.card, ?_⟩, ?_⟩
      · intro a ha j hj hjT
        rw [← (distance_eq hpc hi (t1.range a ha)).1, ← (distance_eq hpc hi hj).1]
        exact t1.nearest a ha j hj hjT
      · rw [t2]
        congr 1
        exact sum_congr rfl fun j hj => (distance_eq hpc hi (t1.range j hj)).1
    · rw [h0]
      exact ⟨fun _ => 0, rfl, .inl ⟨e, fun i hi => by omega⟩⟩
  · rw [if_neg (by rw [e]; decide), if_pos e]
    obtain ⟨l, l1, l2, l3⟩ := (C89_eccentricities rows.length (distance pc) s.p fun _ _ => Real.sqrt_nonneg _).1 hp
    refine ⟨fun i => l.getD i 0, by rw [l1, ← list_eq_map l2], .inr (.inl ⟨e, fun i hi => ?_⟩)⟩
    have hx := l3 i _ (getD_some (by omega))
    unfold IsEccentricity at hx ⊢
    split at hx
    · rename_i h0
      rw [if_pos h0]
      have : {d | ∃ j < rows.length, j ≠ i ∧ d = distance pc i j} = {d | ∃ j < rows.length, j ≠ i ∧ d = pointDistance rows i j} := by
        ext d
        refine exists_congr fun j => and_congr_right fun hj => ?_
        rw [(distance_eq hpc hi hj).1]
      rwa [this] at hx
    · rename_i h0
      rw [if_neg h0]
      refine ⟨hx.1, hx.2.trans (sum_congr rfl fun j hj => ?_)⟩
      rw [(distance_eq hpc hi (mem_range.1 (mem_erase.1 hj).2)).1]
  · rw [if_neg (by rw [e]; decide), if_neg (by rw [e]; decide), if_pos e, DataDescriptors.estimate_eq hh]
    refine ⟨_, rfl, .inr (.inr ⟨e, fun i hi => ?_⟩)⟩
    have h0 : (rows.length : ℝ) ≠ 0 := by
      have : 0 < rows.length := by omega
      positivity
    unfold DataDescriptors.codeDensity
    rw [div_mul_cancel₀ _ h0]
    have hf : (range rows.length).filter (fun j => squared pc i j ≤ s.h ^ 2) = (range rows.length).filter (fun j => pointDistance rows i j ^ 2 ≤ s.h ^ 2) :=
      filter_congr fun j hj => by rw [(distance_eq hpc hi (mem_range.1 hj)).2]
    rw [hf]
    refine sum_congr rfl fun j hj => ?_
    rw [(distance_eq hpc hi (mem_range.1 (mem_filter.1 hj).1)).2]

theorem extremes {n : ℕ} (f : ℕ → ℝ) {x : ℝ} {l : List ℝ} (h : (List.range n).map f = x :: l) :
    IsLeast {y | ∃ i < n, y = f i} (l.foldl min x) ∧ IsGreatest {y | ∃ i < n, y = f i} (l.foldl max x) := by
  have hset : {y | y ∈ x :: l} = {y | ∃ i < n, y = f i} := by
    ext y
    rw [← h]
    simp [eq_comm]
  rw [← hset]
  exact ⟨EccentricityExample.foldl_min_least l x, EccentricityExample.foldl_max_greatest l x⟩

theorem invert_spec (n : ℕ) (f : ℕ → ℝ) : ∃ g, invertValues ((List.range n).map f) = (List.range n).map g ∧ IsReflected n f g := by
  cases h : (List.range n).map f with
  | nil =>
    obtain rfl : n = 0 := by simpa using h
    exact ⟨f, rfl, fun _ _ i hi => by omega⟩
  | cons x l =>
    obtain ⟨-, h2⟩ := extremes f h
    refine ⟨fun i => l.foldl max x - f i, ?_, fun largest hl i _ => by rw [hl.unique h2]⟩
    unfold invertValues
    simp only [← h, List.map_map]
    rfl

theorem normalize_spec (n : ℕ) (f : ℕ → ℝ) : ∃ g, normalizeValues ((List.range n).map f) = (List.range n).map g ∧ IsRescaled n f g := by
  cases h : (List.range n).map f with
  | nil =>
    obtain rfl : n = 0 := by simpa using h
    exact ⟨f, rfl, fun _ _ _ _ i hi => by omega⟩
  | cons x l =>
    obtain ⟨h1, h2⟩ := extremes f h
    by_cases e : l.foldl min x = l.foldl max x
    · refine ⟨f, ?_, ?_⟩
      · unfold normalizeValues
        simp only [if_pos e, h]
      · intro least largest g1 g2 i _
        rw [g1.unique h1, g2.unique h2]
        exact ⟨fun hlt => absurd e hlt.ne, fun _ => rfl⟩
    · refine ⟨fun i => (f i - l.foldl min x) / (l.foldl max x - l.foldl min x), ?_, ?_⟩
      · unfold normalizeValues
        simp only [if_neg e, ← h, List.map_map]
        rfl
      · intro least largest g1 g2 i _
        rw [g1.unique h1, g2.unique h2]
        exact ⟨fun _ => div_mul_cancel₀ _ (sub_ne_zero.2 (Ne.symm e)), fun h => absurd h e⟩

theorem transformed_spec (s : Settings) (n : ℕ) (f : ℕ → ℝ) :
    ∃ g e, transformed s ((List.range n).map f) = (List.range n).map e ∧ (if s.invert = true then IsReflected n f g else g = f) ∧ (if s.normalize = true then IsRescaled n g e else e = g) := by
  obtain ⟨g, h1, h2⟩ : ∃ g, (if s.invert = true then invertValues ((List.range n).map f) else (List.range n).map f) = (List.range n).map g ∧ if s.invert = true then IsReflected n f g else g = f := by
    split
    · exact invert_spec n f
    · exact ⟨f, rfl, rfl⟩
  obtain ⟨e, h3, h4⟩ : ∃ e, (if s.normalize = true then normalizeValues ((List.range n).map g) else (List.range n).map g) = (List.range n).map e ∧ if s.normalize = true then IsRescaled n g e else e = g := by
    split
    · exact normalize_spec n g
    · exact ⟨g, rfl, rfl⟩
  refine ⟨g, e, ?_, h2, h4⟩
  unfold transformed
  simp only [h1, h3]

/-! ### The output -/

theorem blank_of {g : List Char} (h : ∀ c ∈ g, c = ' ' ∨ c = '\n') : JsonBlank g := fun c hc => (h c hc).imp_right Or.inl

theorem joined_elements {ts : List (List Char)} {vs : List Json} (h : List.Forall₂ IsJson ts vs) (hne : ts ≠ []) {g : List Char} (hg : JsonBlank g) :
    IsElements (g ++ joined ts) vs := by
  induction h generalizing g with
  | nil => exact absurd rfl hne
  | @cons t v ts vs ht hs ih =>
    have h0 : IsJson (g ++ t) v := by
      have := IsJson.blank g t [] v hg DiagramJson.blank_nil ht
      simpa using this
    cases ts with
    | nil =>
      cases hs
      simpa [joined] using IsElements.one _ _ h0
    | cons u us =>
      have := IsElements.cons _ _ _ _ h0 (ih (by simp) (g := ['\n']) (blank_of (by simp)))
      simpa [joined] using this

theorem output_json {ts : List (List Char)} {vs : List Json} (h : List.Forall₂ IsJson ts vs) : IsJson (output ts) (.object [("diagrams".toList, .array vs)]) := by
  have harr : IsJson ('[' :: ('\n' :: joined ts ++ ['\n', ' ', ' ']) ++ [']']) (.array vs) := by
    cases h with
    | nil =>
      have := IsJson.emptyArray ['\n', '\n', ' ', ' '] (blank_of (by simp))
      simpa [joined] using this
    | @cons t v ts vs ht hs =>
      have h1 := joined_elements (List.Forall₂.cons ht hs) (by simp) (g := ['\n']) (blank_of (by simp))
      have h2 := DiagramJson.elements_end h1 (g := ['\n', ' ', ' ']) (blank_of (by simp))
      exact IsJson.array _ _ h2
  have h2 := IsJson.blank [' '] _ ['\n'] _ (blank_of (by simp)) (blank_of (by simp)) harr
  have h3 := IsJson.object _ _ (IsMembers.one ['\n'] "diagrams".toList [] _ _ (blank_of (by simp)) (by unfold JsonPlain; decide) DiagramJson.blank_nil h2)
  have h4 := IsJson.blank [] _ ['\n'] _ DiagramJson.blank_nil (blank_of (by simp)) h3
  have e : output ts = [] ++ ('{' :: (['\n'] ++ '"' :: "diagrams".toList ++ '"' :: [] ++ ':' :: ([' '] ++ ('[' :: ('\n' :: joined ts ++ ['\n', ' ', ' ']) ++ [']']) ++ ['\n'])) ++ ['}']) ++ ['\n'] := by
    unfold output
    simp
  rw [e]
  exact h4

theorem diagramText_json (c : Context) (hprint : ∀ x, JsonPlain (c.print x)) (s : Settings) {input : List Char} (hin : JsonPlain input) (D : Diagram ℝ) :
    IsJson (diagramText c s input D) (diagramReport c.inf c.print input D.dimension
      (if s.removeUnpaired = true then D.removeDiagonal.points.filter (fun p => p.2 ≠ c.inf) else D.removeDiagonal.points)) := by
  unfold diagramText
  have h := fun D : Diagram ℝ => C112_write_partial c.inf (Nat.toDigits 10) c.print input [] D DiagramJson.isDecimal_toDigits hprint hin (by simp)
  simp only
  split
  · next hs =>
    have h' := h (D.removeDiagonal.removeUnpaired c.inf)
    have e : (D.removeDiagonal.removeUnpaired c.inf).points = D.removeDiagonal.points.filter (fun p => p.2 ≠ c.inf) := by
      unfold Diagram.removeUnpaired Diagram.isUnpaired
      simp
    unfold DiagramJson.diagramValue at h'
    rw [e] at h'
    simpa [diagramReport, Diagram.removeUnpaired, Diagram.removeDiagonal] using h'
  · next hs =>
    have h' := h D.removeDiagonal
    simpa [diagramReport, DiagramJson.diagramValue, Diagram.removeDiagonal] using h'

theorem loadPoints_none (c : Context) : loadPoints c none = .ok PointCloud.empty := rfl

/-- C178. What `point_cloud_data_descriptors` writes is a JSON text with an array that contains, for each dimension below that of the Vietoris–Rips complex of the points, a diagram: its dimension,
its points, their number, the number of points at infinity, and the name of the file.  The diagrams describe how the complex grows if points are added by ascending values of the descriptor, which
are subtracted from their maximum (`--invert`) and scaled to the unit interval (`--normalize`) beforehand if this is desired; points on the diagonal are removed, and points at infinity
(`--remove-unpaired`) if this is desired.  The last options determine all parameters.  Missing, and wrong: the exponentials of the descriptor `gaussian` use the bandwidth instead of its square (C90);
the name must not contain characters that have to be escaped (C112); the largest dimension is not reported; parameters that are not supported (`C178_unsupported`). -/
theorem _root_.Aleph.C178_output_partial (c : Context) (hsort : IsStdSort c.sort) (hprint : ∀ x, JsonPlain (c.print x)) (o : Orders ℝ) (files : List Char → Option (List Char)) (opts : List Opt)
    (hv : Valid c opts) (input : List Char) (hin : JsonPlain input) (more : List (List Char)) (pc : PointCloud ℝ) (rows : List (List ℝ)) (hload : loadPoints c (files input) = .ok pc) (hpc : pc.Has rows) :
    ∃ name k h p ε dim, IsLastValue Opt.descriptorWord some "density".toList opts name ∧ IsLastValue Opt.neighboursWord c.stoul 10 opts k ∧ IsLastValue Opt.bandwidthWord c.stod (1 / 100) opts h ∧
      IsLastValue Opt.powerWord c.stoul 2 opts p ∧ IsLastValue Opt.epsilonWord c.stod 0 opts ε ∧ IsLastValue Opt.dimensionWord c.stoul 0 opts dim ∧
      (IsSupported rows.length name k h p → ripsSize rows.length (if dim = 0 then pc.d + 1 else dim) ≤ idxMax →
        ∃ f f' g, IsDescriptor rows name k h p f ∧ (if Opt.invert ∈ opts then IsReflected rows.length f f' else f' = f) ∧ (if Opt.normalize ∈ opts then IsRescaled rows.length f' g else g = f') ∧
          ((∀ i < rows.length, c.lo ≤ g i ∧ g i < c.inf) → ∃ Es text, main c o files opts (input :: more) = .ok (0, text) ∧
            IsStarAnalysis c.inf g (ripsBelow rows.length (pointDistance rows) (if dim = 0 then pc.d + 1 else dim) ε) Es ∧
            IsJson text (.object [("diagrams".toList, .array (Es.map fun E =>
              diagramReport c.inf c.print input E.1 (if Opt.removeUnpaired ∈ opts then E.2.filter (fun p => p.2 ≠ c.inf) else E.2)))]))) := by
  have hn : pc.n = rows.length := hpc.count
  cases hs : settings c opts with
  | none => exact absurd hv ((settings_none c opts).1 hs)
  | some s =>
    obtain ⟨k1, k2, k3, k4, k5, k6, k7, k8, k9⟩ := settings_spec c hs
    refine ⟨s.descriptor, s.k, s.h, s.p, s.epsilon, s.dimension, k3, k5, k1, k6, k4, k2, fun hsup hsize => ?_⟩
    obtain ⟨f, f1, f2⟩ := descriptor_spec c hsort s hpc hsup
    obtain ⟨f', g, g1, g2, g3⟩ := transformed_spec s rows.length f
    refine ⟨f, f', g, f2, by simpa only [k7] using g2, by simpa only [k8] using g3, fun hb => ?_⟩
    obtain ⟨K, Ds, r1, r2, -, r4⟩ := EccentricityExample.filtered_run o (M := distance pc) (k := if s.dimension = 0 then pc.d + 1 else s.dimension) (ε := s.epsilon) (hi := c.inf) g
      (fun v hv => (hb v hv).1) (fun v hv => (hb v hv).2.le) (inf := c.inf) (fun v hv => (hb v hv).2.ne) hsize .unused
    have r4 := r4 (by simp)
    have hbelow : ripsBelow rows.length (distance pc) (if s.dimension = 0 then pc.d + 1 else s.dimension) s.epsilon =
        ripsBelow rows.length (pointDistance rows) (if s.dimension = 0 then pc.d + 1 else s.dimension) s.epsilon := by
      unfold ripsBelow
      refine filter_congr fun t ht => ?_
      rw [mem_powerset] at ht
      refine and_congr_right fun _ => and_congr_right fun _ => ?_
      refine forall₂_congr fun u hu => forall₂_congr fun v hv => ?_
      rw [(distance_eq hpc (mem_range.1 (ht hu)) (mem_range.1 (ht hv))).1]
    rw [hbelow] at r4
    refine ⟨_, output (Ds.map (diagramText c s input)), ?_, r4, ?_⟩
    · have : diagrams c o s (files input) = .ok Ds := by
        unfold diagrams
        simp only [bind, Except.bind, hload, f1, hn, finalValues, g1, r1]
        unfold EccentricityExample.filtered at r2
        simp only [r2]
      unfold main
      simp only [hs, this]
    · refine output_json ?_
      rw [List.map_map, List.forall₂_map_left_iff, List.forall₂_map_right_iff, List.forall₂_same]
      intro D _
      have := diagramText_json c hprint s hin D
      simpa only [k9, Function.comp_apply] using this

theorem no_values (o : Orders ℝ) (lo : ℝ) {n : ℕ} (hn : n ≠ 0) (M : ℕ → ℕ → ℝ) (ε : ℝ) (d : ℕ) : Rips.buildVietorisRipsWithValues o 0 lo n M ε d [] = none := by
  obtain ⟨K, hrun, hK, hv, he, hd1, hd2, hdim⟩ := ripsSkeleton_spec (0 : ℝ) n M ε
  obtain ⟨E, h1, h2, h3, h4, h5⟩ := C26_cliques o (0 : ℝ) K hK (rips_edgeClosed hv he) d
  have hE : E ≠ [] := by
    rintro rfl
    have : Has ([] : Complex ℝ) {0} := by
      rw [h3, rips_clique_iff hv he]
      refine ⟨by simp, by simp, by simp; omega, ?_⟩
      intro a ha b hb hab
      simp only [mem_singleton] at ha hb
      omega
    obtain ⟨s, hs, -⟩ := this
    cases hs
  unfold Rips.buildVietorisRipsWithValues
  rw [hrun]
  simp only [h1]
  obtain ⟨s, E', rfl⟩ := List.exists_cons_of_ne_nil hE
  have hne := h2.nonempty s (by simp)
  obtain ⟨v, vs, e⟩ := List.exists_cons_of_ne_nil hne
  have : Rips.assignMaximumData lo (s :: E') [] = none := by
    unfold Rips.assignMaximumData Rips.assignData
    rw [List.foldlM_cons, e, List.foldlM_cons]
    simp
  rw [this]

/-- C178, disagreement: there are points, but the tool reads behind the end of an array if the descriptor is not known, if more neighbours are required than there are points (the default value is 10), and
for the eccentricity of order zero of a single point. -/
theorem _root_.Aleph.C178_unsupported (c : Context) (o : Orders ℝ) (files : List Char → Option (List Char)) (opts : List Opt) (hv : Valid c opts) (input : List Char) (more : List (List Char))
    (pc : PointCloud ℝ) (hload : loadPoints c (files input) = .ok pc) (hn : pc.n ≠ 0) :
    ∃ name k p, IsLastValue Opt.descriptorWord some "density".toList opts name ∧ IsLastValue Opt.neighboursWord c.stoul 10 opts k ∧ IsLastValue Opt.powerWord c.stoul 2 opts p ∧
      ((name ≠ "density".toList ∧ name ≠ "eccentricity".toList ∧ name ≠ "gaussian".toList) ∨ (name = "density".toList ∧ pc.n < k) ∨ (name = "eccentricity".toList ∧ p = 0 ∧ pc.n = 1) →
        IsStdSort c.sort → main c o files opts (input :: more) = .error .undefined) := by
  cases hs : settings c opts with
  | none => exact absurd hv ((settings_none c opts).1 hs)
  | some s =>
    obtain ⟨k1, k2, k3, k4, k5, k6, k7, k8, k9⟩ := settings_spec c hs
    refine ⟨s.descriptor, s.k, s.p, k3, k5, k6, fun h hsort => ?_⟩
    have key : diagrams c o s (files input) = .error .undefined := by
      unfold diagrams
      rcases h with ⟨e1, e2, e3⟩ | ⟨e, hk⟩ | ⟨e, hp, h1⟩
      · have hd : calculateDataDescriptor c s pc = .ok (some []) := by
          unfold calculateDataDescriptor
          rw [if_neg e1, if_neg e2, if_neg e3]
        have hf : finalValues c s pc.n (some []) = [] := by
          unfold finalValues transformed
          cases s.invert <;> cases s.normalize <;> rfl
        simp only [bind, Except.bind, hload, hd, hf, no_values o c.lo hn]
      · have hd : calculateDataDescriptor c s pc = .error .undefined := by
          unfold calculateDataDescriptor
          rw [if_pos e, (C91_density c.sort hsort pc.n (distance pc) s.k).2 hk hn]
        simp only [bind, Except.bind, hload, hd]
      · have hd : calculateDataDescriptor c s pc = .error .undefined := by
          unfold calculateDataDescriptor
          rw [if_neg (by rw [e]; decide), if_pos e, hp, h1, (C89_eccentricities 1 (distance pc) 0 fun _ _ => Real.sqrt_nonneg _).2 ⟨rfl, rfl⟩]
        simp only [bind, Except.bind, hload, hd]
    unfold main
    simp only [hs, key]

/-- C178. Without a file, the tool does nothing but report failure.  Arguments of options that are not numbers, and files with lines of different lengths, raise an exception.  A file that cannot
be opened is treated like a file without points. -/
theorem _root_.Aleph.C178_failures (c : Context) (o : Orders ℝ) (files : List Char → Option (List Char)) (opts : List Opt) :
    (¬Valid c opts → ∀ args, main c o files opts args = .error .exception) ∧
    (Valid c opts → main c o files opts [] = .ok (-1, []) ∧
      ∀ input more, (files input = none → ∃ pc, loadPoints c (files input) = .ok pc ∧ pc.Has []) ∧
        ∀ text, files input = some text → (∀ pc, loadPoints c (files input) = .ok pc ↔ PointCloud.load c.convert text = some pc) ∧
          (PointCloud.load c.convert text = none → main c o files opts (input :: more) = .error .exception)) := by
  constructor
  · intro h args
    unfold main
    simp only [(settings_none c opts).2 h]
  · intro hv
    cases hs : settings c opts with
    | none => exact absurd hv ((settings_none c opts).1 hs)
    | some s =>
      refine ⟨by unfold main; simp only [hs], fun input more => ⟨fun h => ⟨_, by rw [h]; rfl, ⟨rfl, by simp, rfl⟩⟩, fun text h => ⟨fun pc => ?_, fun hl => ?_⟩⟩⟩
      · rw [h]
        unfold loadPoints
        cases hl : PointCloud.load c.convert text <;> simp only [hl] <;> simp
      · unfold main diagrams
        simp only [hs, bind, Except.bind, h, loadPoints, hl]

/-- The hypotheses of the theorems can be met: three points on a line, with eccentricities of order zero that are subtracted from their maximum. -/
example : Valid ⟨1000, -1000, fun _ => 0, fun _ => some 5, fun _ => some 0, fun _ => [], fun _ l => l⟩ [.descriptor "eccentricity".toList, .epsilon ['5'], .power ['0'], .invert] ∧
    IsLastValue Opt.descriptorWord some "density".toList [.descriptor "eccentricity".toList, .epsilon ['5'], .power ['0'], .invert] "eccentricity".toList ∧
    (⟨3, 1, [0, 1, 3]⟩ : PointCloud ℝ).Has [[0], [1], [3]] ∧ IsSupported 3 "eccentricity".toList 10 (1 / 100) 0 ∧ ripsSize 3 2 ≤ idxMax ∧
    IsDescriptor [[0], [1], [3]] "eccentricity".toList 10 (1 / 100) 0 (fun i => [3, 2, 3].getD i 0) ∧
    IsReflected 3 (fun i => [3, 2, 3].getD i 0) (fun i => [0, 1, 0].getD i 0) ∧ ∀ i < 3, (-1000 : ℝ) ≤ [0, 1, 0].getD i 0 ∧ ([0, 1, 0].getD i 0 : ℝ) < 1000 := by
  refine ⟨?_, .inl ⟨[], _, _, _, rfl, rfl, by simp [Opt.descriptorWord], rfl⟩, ⟨rfl, by simp, rfl⟩, .inr (.inl ⟨rfl, .inr (by decide)⟩), by decide, .inr (.inl ⟨rfl, ?_⟩), ?_, ?_⟩
  · intro o _
    exact ⟨fun _ _ => by simp, fun _ _ => by simp⟩
  · intro i hi
    simp only [List.length_cons, List.length_nil, Nat.zero_add] at hi ⊢
    unfold IsEccentricity
    rw [if_pos rfl]
    constructor
    · refine ⟨if i = 0 then 2 else if i = 1 then 2 else 0, by split_ifs <;> norm_num, by split_ifs <;> omega, ?_⟩
      rw [EccentricityExample.distance_demo i _ hi (by split_ifs <;> norm_num)]
      interval_cases i <;> norm_num
    · rintro _ ⟨j, hj, -, rfl⟩
      rw [EccentricityExample.distance_demo i j hi hj]
      interval_cases i <;> interval_cases j <;> norm_num
  · intro largest hl i hi
    have : largest = 3 := hl.unique ⟨⟨0, by norm_num, by norm_num⟩, by
      rintro _ ⟨j, hj, rfl⟩
      interval_cases j <;> norm_num⟩
    subst this
    interval_cases i <;> norm_num
  · intro i hi
    interval_cases i <;> norm_num

end Aleph.DescriptorTool
