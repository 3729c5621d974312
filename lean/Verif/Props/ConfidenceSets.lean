import Verif.Model.ConfidenceSets
import Verif.Spec.ConfidenceSets
import Verif.Lemmas.Options
import Verif.Props.Bootstrap
import Verif.Props.IndicatorTool
import Verif.Props.StepFunctionSum
import Verif.Props.Smoothing

/-!
# C183: the tool `persistence_indicator_function_confidence_sets`
-/

namespace Aleph.Step

open Spec

section General

variable {α : Type} [LinearOrder α]

theorem add_isStep {f g : Fn α} (hf : IsStepFunction f) {a b y : α} (h : add f a b y = some g) : IsStepFunction g := by
  unfold add at h
  split at h
  · next hab =>
    rw [← Option.some.inj h]
    exact insert_isStep hf hab
  · cases h

theorem nil_isStep : IsStepFunction ([] : Fn α) := ⟨by simp, List.Pairwise.nil⟩

theorem exists_bounds (f : Fn α) (hf : f ≠ []) : ∃ lo hi, ∀ e ∈ f, lo ≤ e.a ∧ e.b ≤ hi := by
  induction f with
  | nil => exact absurd rfl hf
  | cons e f ih =>
    by_cases h : f = []
    · subst h
      exact ⟨e.a, e.b, by simp⟩
    · obtain ⟨lo, hi, hb⟩ := ih h
      refine ⟨min lo e.a, Max.max hi e.b, fun e' he' => ?_⟩
      rcases List.mem_cons.1 he' with rfl | he'
      · exact ⟨min_le_right _ _, le_max_right _ _⟩
      · exact ⟨(min_le_left _ _).trans (hb e' he').1, (hb e' he').2.trans (le_max_left _ _)⟩

theorem clean_isStep {f : Fn α} (hf : IsStepFunction f) : IsStepFunction (clean f) := by
  by_cases h : f = []
  · subst h
    exact nil_isStep
  · obtain ⟨lo, hi, hb⟩ := exists_bounds f h
    exact (clean_spec f hf lo hi hb).1

theorem sum_isStep [Ring α] {next previous : α → α} {f g h : Fn α} (hf : IsStepFunction f) (hs : sum next previous f g = some h) : IsStepFunction h := by
  unfold sum at hs
  split at hs
  · rw [← Option.some.inj hs]
    exact hf
  · rename_i x l _
    rw [Option.map_eq_some_iff] at hs
    obtain ⟨s, h1, rfl⟩ := hs
    refine clean_isStep ?_
    have key : ∀ (l : List α) (s s' : Fn α × α), IsStepFunction s.1 → l.foldlM (sumStep next previous f g) s = some s' → IsStepFunction s'.1 := by
      intro l
      induction l with
      | nil =>
        intro s s' hi h
        rw [← Option.some.inj h]
        exact hi
      | cons y l ih =>
        intro s s' hi h
        rw [List.foldlM_cons, Option.bind_eq_bind, Option.bind_eq_some_iff] at h
        obtain ⟨t, ht, h⟩ := h
        refine ih t s' ?_ h
        unfold sumStep at ht
        simp only at ht
        split at ht
        · rw [Option.map_eq_some_iff] at ht
          obtain ⟨k, hk, rfl⟩ := ht
          exact add_isStep hi hk
        · split at ht
          · rw [Option.bind_eq_some_iff] at ht
            obtain ⟨k, hk, ht⟩ := ht
            rw [Option.map_eq_some_iff] at ht
            obtain ⟨k', hk', rfl⟩ := ht
            exact add_isStep (add_isStep hi hk) hk'
          · rw [Option.map_eq_some_iff] at ht
            obtain ⟨k, hk, rfl⟩ := ht
            exact add_isStep hi hk
    exact key l _ _ nil_isStep h1

theorem readLines_isStep (scan : List Char → Option (α × α)) : ∀ (n : ℕ) (lines : List (List Char)) (f g : Fn α), lines.length ≤ n → IsStepFunction f → readLines scan lines f = some g → IsStepFunction g := by
  intro n
  induction n with
  | zero =>
    intro lines f g hl hf h
    rw [List.eq_nil_of_length_eq_zero (Nat.le_zero.1 hl), readLines] at h
    rwa [← Option.some.inj h]
  | succ n ih =>
    intro lines f g hl hf h
    cases lines with
    | nil =>
      rw [readLines] at h
      rwa [← Option.some.inj h]
    | cons l lines =>
      simp only [List.length_cons] at hl
      unfold readLines at h
      split at h
      · exact ih _ _ _ (by omega) hf h
      · split at h
        · rwa [← Option.some.inj h]
        · simp only [List.length_cons] at hl
          split at h
          · exact ih _ _ _ (by omega) hf h
          · split at h
            · rw [Option.bind_eq_some_iff] at h
              obtain ⟨k, hk, h⟩ := h
              exact ih _ _ _ (by omega) (add_isStep hf hk) h
            · exact ih _ _ _ (by omega) hf h

theorem read_isStep {scan : List Char → Option (α × α)} {text : List Char} {g : Fn α} (h : read scan [] text = some g) : IsStepFunction g :=
  readLines_isStep scan _ _ _ _ le_rfl nil_isStep h

theorem pif_isStep [Ring α] {next : α → α} {inf : α} {D : List (α × α)} {f : Fn α} (h : Pif.pif next inf D = some f) : IsStepFunction f := by
  have key : ∀ (n : ℕ) (l : List (Pif.Event α)) (first : Bool) (active : ℕ) (previous : α) (f g : Fn α), IsStepFunction f → Pif.loop next n l first active previous f = some g → IsStepFunction g := by
    intro n
    induction n with
    | zero =>
      intro l first active previous f g hf h
      cases l with
      | nil =>
        rw [Pif.loop] at h
        rwa [← Option.some.inj h]
      | cons => rw [Pif.loop] at h; cases h
    | succ n ih =>
      intro l first active previous f g hf h
      cases l with
      | nil =>
        rw [Pif.loop] at h
        rwa [← Option.some.inj h]
      | cons e l =>
        rw [Pif.loop] at h
        split at h
        · split at h
          · exact ih _ _ _ _ _ _ hf h
          · rw [Option.bind_eq_some_iff] at h
            obtain ⟨k, hk, h⟩ := h
            exact ih _ _ _ _ _ _ (add_isStep hf hk) h
        · rw [Option.bind_eq_some_iff] at h
          obtain ⟨k, hk, h⟩ := h
          exact ih _ _ _ _ _ _ (add_isStep hf hk) h
  exact key _ _ _ _ _ _ _ nil_isStep h

end General

section Interval

variable {α : Type} [LinearOrder α] [Ring α] [IsStrictOrderedRing α]

theorem eval_single {a b : α} (h : a < b) (y : α) {x : α} (h1 : a ≤ x) (h2 : x ≤ b) : eval [⟨a, b, y⟩] x = y := by
  have hf : IsStepFunction [(⟨a, b, y⟩ : Interval α)] := ⟨by simpa using h, by simp⟩
  exact eval_only hf (e := ⟨a, b, y⟩) ⟨by simp, h1, h2, by simp⟩

omit [IsStrictOrderedRing α] in
theorem eval_empty (x : α) : eval ([] : Fn α) x = 0 := rfl

/-- The sum of two functions with the same interval. -/
theorem sum_single (next previous : α → α) {a b : α} (h : a < b) (x y : α) : sum next previous [⟨a, b, x⟩] [⟨a, b, y⟩] = some [⟨a, b, x + y⟩] := by
  have hd : ((domain [(⟨a, b, x⟩ : Interval α)] ++ domain [⟨a, b, y⟩]).insertionSort (· ≤ ·)).dedup = [a, b] := by
    simp [domain, List.insertionSort, List.orderedInsert, h.le, h.ne, not_le.2 h]
  unfold sum
  rw [hd]
  simp only [List.foldlM_cons, List.foldlM_nil, sumStep]
  rw [eval_single h x le_rfl h.le, eval_single h x h.le le_rfl, eval_single h y le_rfl h.le, eval_single h y h.le le_rfl]
  simp [add, h, insert, clean, h.ne, join]

theorem sum_first (next previous : α → α) {a b : α} (h : a < b) (y : α) : sum next previous [] [⟨a, b, y⟩] = some [⟨a, b, y⟩] := by
  have hd : ((domain ([] : Fn α) ++ domain [⟨a, b, y⟩]).insertionSort (· ≤ ·)).dedup = [a, b] := by
    simp [domain, List.insertionSort, h.le, h.ne]
  unfold sum
  rw [hd]
  simp only [List.foldlM_cons, List.foldlM_nil, sumStep]
  rw [eval_single h y le_rfl h.le, eval_single h y h.le le_rfl]
  simp [eval_empty, add, h, insert, clean, h.ne, join]

end Interval

end Aleph.Step

namespace Aleph.ConfidenceSets

open Spec Step Bootstrap IndicatorTool

/-- The points of a diagram that are considered: neither unpaired nor on the diagonal. -/
noncomputable def _root_.Aleph.Spec.properPoints (inf : ℝ) (points : List (ℝ × ℝ)) : List (ℝ × ℝ) := points.filter fun p => p.1 ≠ p.2 ∧ p.2 ≠ inf

/-- The function that belongs to a file: it is either contained in the file, or it is the indicator function of the diagram in the file. -/
def _root_.Aleph.Spec.IsFileFunction (c : Context) (steps : Bool) (file : Option (List Char)) (f : Fn ℝ) : Prop :=
  if steps then ∃ text, file = some text ∧ Step.read c.scan [] text = some f
  else ∃ points, IsDiagramFile c.convert file points ∧ Pif.pif c.next c.inf (properPoints c.inf points) = some f

theorem proper_eq (inf : ℝ) (D : Diagram ℝ) : (D.removeDiagonal.removeUnpaired inf).points = properPoints inf D.points := by
  simp only [Diagram.removeDiagonal, Diagram.removeUnpaired, properPoints, List.filter_filter]
  refine List.filter_congr fun p _ => ?_
  simp only [Diagram.isUnpaired, Bool.decide_and]
  rw [Bool.and_comm]
  simp

theorem loadOne_iff (c : Context) (steps : Bool) (file : Option (List Char)) (f : Fn ℝ) : loadOne c steps file = .ok f ↔ IsFileFunction c steps file f := by
  unfold loadOne IsFileFunction
  cases steps with
  | true =>
    simp only [if_true]
    cases file with
    | none => simp
    | some text =>
      cases h : Step.read c.scan [] text with
      | none => simp [h]
      | some g => simp [h]
  | false =>
    simp only [Bool.false_eq_true, if_false]
    constructor
    · intro h
      cases hl : TextReaders.loadDiagram c.convert file with
      | none => rw [hl] at h; cases h
      | some D =>
        rw [hl] at h
        simp only [proper_eq] at h
        refine ⟨D.points, ok_load hl, ?_⟩
        cases hp : Pif.pif c.next c.inf (properPoints c.inf D.points) with
        | none => rw [hp] at h; cases h
        | some g =>
          rw [hp] at h
          simp only [Except.ok.injEq] at h
          rw [h]
    · rintro ⟨points, h1, h2⟩
      rw [load_ok h1]
      simp only [proper_eq, h2]

theorem loadAll_iff (c : Context) (steps : Bool) (files : List Char → Option (List Char)) (args : List (List Char)) (fs : List (Fn ℝ)) :
    loadAll c steps files args = .ok fs ↔ List.Forall₂ (fun path f => IsFileFunction c steps (files path) f) args fs := by
  induction args generalizing fs with
  | nil => simp [loadAll, eq_comm]
  | cons path args ih =>
    rw [loadAll]
    constructor
    · intro h
      cases h1 : loadOne c steps (files path) with
      | error e => rw [h1] at h; cases h
      | ok f =>
        rw [h1] at h
        cases h2 : loadAll c steps files args with
        | error e => simp only [h2] at h; cases h
        | ok gs =>
          simp only [h2, Except.ok.injEq] at h
          rw [← h]
          exact .cons ((loadOne_iff _ _ _ _).1 h1) ((ih gs).1 h2)
    · intro h
      cases h with
      | cons h1 h2 =>
        rw [(loadOne_iff _ _ _ _).2 h1]
        simp only [(ih _).2 h2]

theorem file_isStep {c : Context} {steps : Bool} {file : Option (List Char)} {f : Fn ℝ} (h : IsFileFunction c steps file f) : IsStepFunction f := by
  unfold IsFileFunction at h
  split at h
  · obtain ⟨text, -, h⟩ := h
    exact read_isStep h
  · obtain ⟨points, -, h⟩ := h
    exact pif_isStep h

/-! ### Means and deviations -/

theorem sumOf_iff (c : Context) (fs : List (Fn ℝ)) (s u : Fn ℝ) : fs.foldlM (Step.sum c.next c.previous) s = some u ↔ SumOf (Step.sum c.next c.previous) s fs u := by
  induction fs generalizing s with
  | nil =>
    constructor
    · intro h
      rw [← Option.some.inj h]
      exact .nil s
    · intro h
      cases h
      rfl
  | cons f fs ih =>
    rw [List.foldlM_cons, Option.bind_eq_bind, Option.bind_eq_some_iff]
    constructor
    · rintro ⟨t, h1, h2⟩
      exact .cons _ _ t _ _ h1 ((ih t).1 h2)
    · intro h
      cases h with
      | cons _ _ t _ _ h1 h2 => exact ⟨t, h1, (ih t).2 h2⟩

theorem sumOf_isStep {next previous : ℝ → ℝ} {fs : List (Fn ℝ)} {s u : Fn ℝ} (hs : IsStepFunction s) (h : SumOf (Step.sum next previous) s fs u) : IsStepFunction u := by
  induction h with
  | nil => exact hs
  | cons s f t u fs h1 _ ih => exact ih (sum_isStep hs h1)

theorem rebuild_mapValues {f : Fn ℝ} (hf : IsStepFunction f) (g : ℝ → ℝ) : rebuild g f = mapValues g f := rebuild_eq hf g

theorem mapValues_isStep {f : Fn ℝ} (hf : IsStepFunction f) (g : ℝ → ℝ) : IsStepFunction (mapValues g f) := map_isStep hf g

theorem mean_iff (c : Context) {fs : List (Fn ℝ)} (hne : fs ≠ []) (m : Fn ℝ) : mean c.next c.previous fs = some m ↔ MeanOf (Step.sum c.next c.previous) fs m := by
  have hn : (fs.length : ℝ) ≠ 0 := by
    have := List.length_pos_iff.2 hne
    exact_mod_cast this.ne'
  unfold mean MeanOf
  rw [Option.bind_eq_some_iff]
  refine exists_congr fun s => ?_
  rw [sumOf_iff]
  refine and_congr_right fun h => ?_
  rw [sdiv, if_neg hn, Option.some.injEq, smul, rebuild_mapValues (sumOf_isStep nil_isStep h), eq_comm]
  have : (fun y : ℝ => y * (1 / (fs.length : ℝ))) = fun y : ℝ => y / (fs.length : ℝ) := by
    funext y
    ring
  rw [this]

theorem meanOf_isStep {next previous : ℝ → ℝ} {fs : List (Fn ℝ)} {m : Fn ℝ} (h : MeanOf (Step.sum next previous) fs m) : IsStepFunction m := by
  obtain ⟨s, h1, rfl⟩ := h
  exact mapValues_isStep (sumOf_isStep nil_isStep h1) _

theorem deviation_iff (c : Context) (hlow : c.lowest ≤ 0) {n : ℕ} (hn : 0 < n) {m r : Fn ℝ} (hm : IsStepFunction m) (hr : IsStepFunction r) {d : ℝ} (h : deviation c n m r = some d) :
    0 ≤ d ∧ ∀ q, (DifferByAtMost (Step.sum c.next c.previous) r m (q / √(n : ℝ)) ↔ d ≤ q) ∧ (DifferByLess (Step.sum c.next c.previous) r m (q / √(n : ℝ)) ↔ d < q) := by
  have hs : 0 < √(n : ℝ) := Real.sqrt_pos.2 (by exact_mod_cast hn)
  unfold deviation at h
  generalize √(n : ℝ) = s at hs h ⊢
  rw [Option.map_eq_some_iff] at h
  obtain ⟨k, hk, rfl⟩ := h
  have hneg : Step.neg m = mapValues (fun y => -y) m := rebuild_mapValues hm _
  rw [hneg] at hk
  have hks := sum_isStep hr hk
  have he : Step.abs (Step.smul k s) = mapValues (fun y => |y| * s) k := by
    rw [Step.smul, rebuild_mapValues hks, Step.abs, rebuild_mapValues (mapValues_isStep hks _)]
    simp [mapValues, abs_mul, abs_of_pos hs]
  rw [he]
  have hmax := C50_maximum c.lowest (mapValues (fun y => |y| * s) k) (by
    intro e he
    obtain ⟨e', -, rfl⟩ := List.mem_map.1 he
    exact hlow.trans (mul_nonneg (abs_nonneg _) hs.le))
  generalize hM : Step.max c.lowest (mapValues (fun y => |y| * s) k) = M at hmax ⊢
  have hbound : 0 ≤ M ∧ ∀ t, 0 ≤ t → ((∀ e ∈ k, |e.y| ≤ t) ↔ M ≤ t * s) := by
    by_cases hk0 : k = []
    · subst hk0
      have hM0 : M = 0 := by
        rw [← hM]
        exact hmax.2
      rw [hM0]
      exact ⟨le_rfl, fun t ht => by simp [mul_nonneg ht hs.le]⟩
    · have hg := hmax.1 (by simpa [mapValues] using hk0)
      obtain ⟨hg1, hg2⟩ := hg
      obtain ⟨e0, he0, hy0⟩ : ∃ e ∈ k, |e.y| * s = M := by
        simpa [image, mapValues] using hg1
      refine ⟨hy0 ▸ mul_nonneg (abs_nonneg _) hs.le, fun t _ => ?_⟩
      constructor
      · intro h
        rw [← hy0]
        exact mul_le_mul_of_nonneg_right (h e0 he0) hs.le
      · intro h e he
        have : |e.y| * s ≤ M := hg2 (by simp only [image, mapValues, List.map_map, Set.mem_ofPred_eq, List.mem_map]; exact ⟨e, he, rfl⟩)
        exact le_of_mul_le_mul_right (this.trans h) hs
  have key : ∀ t, DifferByAtMost (Step.sum c.next c.previous) r m t ↔ 0 ≤ t ∧ M ≤ t * s := by
    intro t
    unfold DifferByAtMost
    rw [hk]
    constructor
    · rintro ⟨ht, d, hd, h⟩
      rw [← Option.some.inj hd] at h
      exact ⟨ht, (hbound.2 t ht).1 h⟩
    · rintro ⟨ht, h⟩
      exact ⟨ht, k, rfl, (hbound.2 t ht).2 h⟩
  refine ⟨hbound.1, fun q => ⟨?_, ?_⟩⟩
  · rw [key, div_mul_cancel₀ _ hs.ne']
    exact ⟨fun h => h.2, fun h => ⟨div_nonneg (hbound.1.trans h) hs.le, h⟩⟩
  · unfold DifferByLess
    constructor
    · rintro ⟨t, ht, hw⟩
      rw [lt_div_iff₀ hs] at ht
      exact ((key t).1 hw).2.trans_lt ht
    · intro h
      exact ⟨M / s, div_lt_div_of_pos_right h hs, (key _).2 ⟨div_nonneg hbound.1 hs.le, by rw [div_mul_cancel₀ _ hs.ne']⟩⟩

/-! ### Options -/

/-- The argument of an option for the level. -/
def Opt.alphaWord : Opt → Option (List Char)
  | .alpha w => some w
  | _ => none

/-- The argument of an option for the number of samples. -/
def Opt.samplesWord : Opt → Option (List Char)
  | .bootstrap w => some w
  | _ => none

/-- The option for files with step functions. -/
def Opt.isSteps : Opt → Prop
  | .readStepFunctions => True
  | _ => False

/-- Unknown options, and options whose arguments are not numbers. -/
def Bad (c : Context) : Opt → Prop
  | .alpha w => c.stod w = none
  | .bootstrap w => c.stoul w = none
  | .readStepFunctions => False
  | .unknown => True

theorem settings_spec (c : Context) {opts : List Opt} {s : Settings} (h : settings c opts = some s) :
    IsLastValue Opt.alphaWord c.stod (1 / 20) opts s.alpha ∧ IsLastValue Opt.samplesWord (fun w => (c.stoul w).map (· % 4294967296)) 50 opts s.numBootstrapSamples := by
  refine ⟨lastValue_of_foldlM (get := Settings.alpha) ?_ ?_ h, lastValue_of_foldlM (get := Settings.numBootstrapSamples) ?_ ?_ h⟩
  · intro s o s' w hp h
    cases o <;> simp only [Opt.alphaWord, Option.some.injEq, reduceCtorEq] at hp
    subst hp
    simp only [setOption, Option.map_eq_some_iff] at h
    obtain ⟨a, ha, rfl⟩ := h
    exact ha
  · intro s o s' hp h
    cases o with
    | alpha w => cases hp
    | bootstrap w =>
      simp only [setOption, Option.map_eq_some_iff] at h
      obtain ⟨a, ha, rfl⟩ := h
      rfl
    | readStepFunctions =>
      cases h
      rfl
    | unknown => cases h
  · intro s o s' w hp h
    cases o <;> simp only [Opt.samplesWord, Option.some.injEq, reduceCtorEq] at hp
    subst hp
    simp only [setOption, Option.map_eq_some_iff] at h
    obtain ⟨a, ha, rfl⟩ := h
    simp [ha]
  · intro s o s' hp h
    cases o with
    | bootstrap w => cases hp
    | alpha w =>
      simp only [setOption, Option.map_eq_some_iff] at h
      obtain ⟨a, ha, rfl⟩ := h
      rfl
    | readStepFunctions =>
      cases h
      rfl
    | unknown => cases h

theorem settings_steps (c : Context) {opts : List Opt} {s : Settings} (h : settings c opts = some s) : s.readStepFunctions = true ↔ ∃ o ∈ opts, o.isSteps := by
  have key : ∀ (opts : List Opt) (s s' : Settings), opts.foldlM (setOption c) s = some s' → (s'.readStepFunctions = true ↔ s.readStepFunctions = true ∨ ∃ o ∈ opts, o.isSteps) := by
    intro opts
    induction opts with
    | nil =>
      intro s s' h
      rw [← Option.some.inj h]
      simp
    | cons o opts ih =>
      intro s s' h
      rw [List.foldlM_cons, Option.bind_eq_bind, Option.bind_eq_some_iff] at h
      obtain ⟨t, ht, h⟩ := h
      rw [ih t s' h]
      have : t.readStepFunctions = true ↔ s.readStepFunctions = true ∨ o.isSteps := by
        cases o with
        | alpha w =>
          simp only [setOption, Option.map_eq_some_iff] at ht
          obtain ⟨a, ha, rfl⟩ := ht
          simp [Opt.isSteps]
        | bootstrap w =>
          simp only [setOption, Option.map_eq_some_iff] at ht
          obtain ⟨a, ha, rfl⟩ := ht
          simp [Opt.isSteps]
        | readStepFunctions =>
          cases ht
          simp [Opt.isSteps]
        | unknown => cases ht
      rw [this]
      simp [or_assoc]
  rw [key opts _ s h]
  simp

theorem settings_none (c : Context) (opts : List Opt) : settings c opts = none ↔ ∃ o ∈ opts, Bad c o := by
  refine foldlM_eq_none (fun s o => ?_) _ opts
  cases o <;> simp [setOption, Bad]

theorem samples_lt {c : Context} {opts : List Opt} {B : ℕ} (hB : IsLastValue Opt.samplesWord (fun w => (c.stoul w).map (· % 4294967296)) 50 opts B) : B < 2 ^ 32 := by
  rcases hB with ⟨_, _, _, w, _, _, _, h⟩ | ⟨_, h⟩
  · rw [Option.map_eq_some_iff] at h
    obtain ⟨n, -, rfl⟩ := h
    have := Nat.mod_lt n (show 0 < 4294967296 by norm_num)
    omega
  · omega

/-! ### The program -/

theorem resample_ne {α : Type} {draw : ℕ → ℕ} {data : List α} (h : ∀ i, draw i < data.length) (hne : data ≠ []) : resample draw data ≠ [] := by
  intro he
  have := (resample_mapM h).2.1
  rw [he] at this
  exact hne (List.eq_nil_of_length_eq_zero this.symm)

open Classical in
/-- The quantile of the deviations. -/
theorem process_spec (c : Context) (hlow : c.lowest ≤ 0) (s : Settings) (hB : s.numBootstrapSamples < 2 ^ 32) (h0 : 0 ≤ s.alpha) (h1 : s.alpha < 1) (hpos : 0 < s.numBootstrapSamples) {fs : List (Fn ℝ)} (hne : fs ≠ [])
    (hdraw : Spec.InRange c.draw fs) {m : Fn ℝ} (hm : MeanOf (Step.sum c.next c.previous) fs m) {rep : ℕ → Fn ℝ} (hrep : ∀ k < s.numBootstrapSamples, MeanOf (Step.sum c.next c.previous) (resample (c.draw k) fs) (rep k))
    {dev : ℕ → ℝ} (hdev : ∀ k < s.numBootstrapSamples, deviation c fs.length m (rep k) = some (dev k)) :
    ∃ q, process c s fs = .ok [("/tmp/Mean_plus_confidence.txt".toList, output c fs.length m q)] ∧ 0 ≤ q ∧
      (1 - s.alpha) * s.numBootstrapSamples ≤ ((List.range s.numBootstrapSamples).countP fun k => decide (DifferByAtMost (Step.sum c.next c.previous) (rep k) m (q / √(fs.length : ℝ)))) ∧
      (((List.range s.numBootstrapSamples).countP fun k => decide (DifferByLess (Step.sum c.next c.previous) (rep k) m (q / √(fs.length : ℝ))) : ℕ) : ℝ) < (1 - s.alpha) * s.numBootstrapSamples := by
  have hlen : 0 < fs.length := List.length_pos_iff.2 hne
  have hr : makeReplicates c.draw s.numBootstrapSamples fs (mean c.next c.previous) = some ((List.range s.numBootstrapSamples).map fun k => some (rep k)) := by
    rw [((C87_replicates c.draw s.numBootstrapSamples fs (mean c.next c.previous)).2 hdraw hne).1]
    congr 1
    exact List.map_congr_left fun k hk => (mean_iff c (resample_ne (hdraw k) hne) _).2 (hrep k (List.mem_range.1 hk))
  have hr2 : ((List.range s.numBootstrapSamples).map fun k => some (rep k)).mapM id = some ((List.range s.numBootstrapSamples).map rep) := by
    rw [Smoothing.mapM_iff, List.forall₂_map_left_iff, List.forall₂_map_right_iff, List.forall₂_same]
    exact fun k _ => rfl
  have hr3 : ((List.range s.numBootstrapSamples).map rep).mapM (deviation c fs.length m) = some ((List.range s.numBootstrapSamples).map dev) := by
    rw [Smoothing.mapM_iff, List.forall₂_map_left_iff, List.forall₂_map_right_iff, List.forall₂_same]
    exact fun k hk => hdev k (List.mem_range.1 hk)
  obtain ⟨i, hi, hiB, i1, i2⟩ := index_eq hB (a := 1 - s.alpha) (by linarith) (by linarith) hpos
  have hi' : ConfidenceSets.index s.numBootstrapSamples (1 - s.alpha) = some i := hi
  have hspec := fun k (hk : k ∈ List.range s.numBootstrapSamples) => deviation_iff c hlow hlen (meanOf_isStep hm) (meanOf_isStep (hrep k (List.mem_range.1 hk))) (hdev k (List.mem_range.1 hk))
  obtain ⟨E, hE⟩ : ∃ E, E = (List.range s.numBootstrapSamples).map dev := ⟨_, rfl⟩
  have hElen : E.length = s.numBootstrapSamples := by simp [hE]
  have hp := List.perm_insertionSort (· ≤ ·) E
  have hsort : (E.insertionSort (· ≤ ·)).Pairwise (· ≤ ·) := List.pairwise_insertionSort _ _
  have hil : i < (E.insertionSort (· ≤ ·)).length := by rw [hp.length_eq, hElen]; exact hiB
  obtain ⟨q, hq⟩ : ∃ q, (E.insertionSort (· ≤ ·))[i]? = some q := ⟨_, List.getElem?_eq_getElem hil⟩
  obtain ⟨k1, k2, k3⟩ := sorted_counts hsort hq
  rw [hp.countP_eq] at k1 k2
  have hqE : q ∈ E := hp.mem_iff.1 (List.mem_of_getElem? hq)
  have hcount : ∀ P : ℝ → Bool, E.countP P = (List.range s.numBootstrapSamples).countP fun k => P (dev k) := by
    intro P
    rw [hE, List.countP_map]
    rfl
  refine ⟨q, ?_, ?_, ?_, ?_⟩
  · unfold process
    have hnil : (E.insertionSort (· ≤ ·)).isEmpty = false := by
      rw [List.isEmpty_eq_false_iff]
      intro h
      rw [h] at hil
      simp at hil
    rw [hr]
    simp only [hr2, (mean_iff c hne m).2 hm, hr3, ← hE, hnil, hi', hq, Bool.false_eq_true, if_false]
  · rw [hE] at hqE
    obtain ⟨k, hk, rfl⟩ := List.mem_map.1 hqE
    exact (hspec k hk).1
  · have : (List.range s.numBootstrapSamples).countP (fun k => decide (DifferByAtMost (Step.sum c.next c.previous) (rep k) m (q / √(fs.length : ℝ)))) = E.countP fun x => decide (x ≤ q) := by
      rw [hcount]
      exact List.countP_congr fun k hk => by simp only [decide_eq_true_eq]; exact ((hspec k hk).2 q).1
    rw [this]
    have : ((i + 1 : ℕ) : ℝ) ≤ (E.countP fun x => decide (x ≤ q) : ℕ) := by exact_mod_cast k2
    push_cast at this
    linarith
  · have : (List.range s.numBootstrapSamples).countP (fun k => decide (DifferByLess (Step.sum c.next c.previous) (rep k) m (q / √(fs.length : ℝ)))) = E.countP fun x => decide (x < q) := by
      rw [hcount]
      exact List.countP_congr fun k hk => by simp only [decide_eq_true_eq]; exact ((hspec k hk).2 q).2
    rw [this]
    have : ((E.countP fun x => decide (x < q) : ℕ) : ℝ) ≤ i := by exact_mod_cast k1
    linarith

theorem forall₂_range {β : Type} {B : ℕ} {R : ℕ → β → Prop} {l : List β} (h : List.Forall₂ R (List.range B) l) (d : β) : ∃ f : ℕ → β, l = (List.range B).map f ∧ ∀ k < B, R k (f k) := by
  refine ⟨fun k => l.getD k d, ?_, ?_⟩
  · refine List.ext_getElem (by simp [← h.length_eq]) fun i h1 h2 => ?_
    simp [h1]
  · intro k hk
    have := h.get (i := k) (by simpa using hk) (by rw [← h.length_eq]; simpa using hk)
    have hl : k < l.length := by rw [← h.length_eq]; simpa using hk
    simpa [hl] using this

/-- The steps of a program that ends in an ordinary way. -/
theorem process_ok (c : Context) (s : Settings) {fs : List (Fn ℝ)} (hne : fs ≠ []) (hdraw : Spec.InRange c.draw fs) (hpos : 0 < s.numBootstrapSamples) {out : List (List Char × List Char)} (h : process c s fs = .ok out) :
    ∃ (m : Fn ℝ) (rep : ℕ → Fn ℝ) (dev : ℕ → ℝ) (i : ℕ), MeanOf (Step.sum c.next c.previous) fs m ∧
      (∀ k < s.numBootstrapSamples, MeanOf (Step.sum c.next c.previous) (resample (c.draw k) fs) (rep k)) ∧
      (∀ k < s.numBootstrapSamples, deviation c fs.length m (rep k) = some (dev k)) ∧ ConfidenceSets.index s.numBootstrapSamples (1 - s.alpha) = some i ∧ i < s.numBootstrapSamples := by
  unfold process at h
  rw [((C87_replicates c.draw s.numBootstrapSamples fs (mean c.next c.previous)).2 hdraw hne).1] at h
  simp only at h
  split at h
  · next reps m h1 h2 =>
    rw [Smoothing.mapM_iff, List.forall₂_map_left_iff] at h1
    obtain ⟨rep, rfl, hrep⟩ := forall₂_range h1 []
    split at h
    · cases h
    · next theta h3 =>
      rw [Smoothing.mapM_iff, List.forall₂_map_left_iff] at h3
      obtain ⟨dev, rfl, hdev⟩ := forall₂_range h3 0
      split at h
      · next he =>
        exfalso
        rw [List.isEmpty_iff] at he
        have := (List.perm_insertionSort (· ≤ ·) ((List.range s.numBootstrapSamples).map dev)).length_eq
        rw [he] at this
        simp at this
        omega
      · split at h
        · cases h
        · next i hi =>
          split at h
          · cases h
          · next q hq =>
            refine ⟨m, rep, dev, i, (mean_iff c hne m).1 h2, fun k hk => (mean_iff c (resample_ne (hdraw k) hne) _).1 (hrep k hk), hdev, hi, ?_⟩
            obtain ⟨hl, -⟩ := List.getElem?_eq_some_iff.1 hq
            rw [(List.perm_insertionSort _ _).length_eq] at hl
            simpa using hl
  · cases h

theorem write_step (print : ℝ → List Char) (f : Fn ℝ) : IsStepText print f (Step.write print f) := IndicatorTool.write_spec print f

open Classical in
/-- C183. Partial, because sums of step functions may be wrong (C50).  If the program ends in an ordinary way for at least one file, it writes one file, which contains the mean of all functions and a band of
constant width around the mean.  The half width of the band is the smallest number such that at least the fraction `1 - alpha` of the replicates of the mean differs from the mean by at most this number.
The mean and the differences are those that the addition of step functions yields. -/
theorem _root_.Aleph.C183_band_partial (c : Context) (files : List Char → Option (List Char)) (opts : List Opt) (args : List (List Char)) (alpha : ℝ) (B : ℕ) (hlow : c.lowest ≤ 0)
    (halpha : IsLastValue Opt.alphaWord c.stod (1 / 20) opts alpha) (hB : IsLastValue Opt.samplesWord (fun w => (c.stoul w).map (· % 4294967296)) 50 opts B) (hargs : args ≠ [])
    (hdraw : Spec.InRange c.draw args) (z : ℤ) (out : List (List Char × List Char)) (h : main c files opts args = .ok (z, out)) :
    ∃ fs m tm tu tl r, z = 0 ∧ out = [("/tmp/Mean_plus_confidence.txt".toList, tm ++ "\n\n".toList ++ tu ++ "\n\n".toList ++ tl ++ "\n".toList)] ∧
      List.Forall₂ (fun path f => IsFileFunction c (decide (∃ o ∈ opts, o.isSteps)) (files path) f) args fs ∧ MeanOf (Step.sum c.next c.previous) fs m ∧
      IsStepText c.print m tm ∧ IsStepText c.print (mapValues (fun y => y + r) m) tu ∧ IsStepText c.print (mapValues (fun y => y - r) m) tl ∧ 0 ≤ r ∧
      (1 - alpha) * B ≤ ((List.range B).countP fun k => decide (∃ rep, MeanOf (Step.sum c.next c.previous) (resample (c.draw k) fs) rep ∧ DifferByAtMost (Step.sum c.next c.previous) rep m r)) ∧
      (((List.range B).countP fun k => decide (∃ rep, MeanOf (Step.sum c.next c.previous) (resample (c.draw k) fs) rep ∧ DifferByLess (Step.sum c.next c.previous) rep m r) : ℕ) : ℝ) < (1 - alpha) * B := by
  unfold main at h
  cases hs : settings c opts with
  | none => rw [hs] at h; cases h
  | some s =>
    obtain ⟨e1, e2⟩ := settings_spec c hs
    have hsa : s.alpha = alpha := Smoothing.lastValue_unique e1 halpha
    have hsB : s.numBootstrapSamples = B := Smoothing.lastValue_unique e2 hB
    have hst : s.readStepFunctions = decide (∃ o ∈ opts, o.isSteps) := by
      rw [Bool.eq_iff_iff, settings_steps c hs, decide_eq_true_eq]
    rw [hs] at h
    simp only at h
    split at h
    · cases h
    · next ha =>
      split at h
      · cases h
      · next hb =>
        rw [not_not] at ha hb
        have hie : args.isEmpty = false := by simpa using hargs
        simp only [hie, Bool.false_eq_true, if_false] at h
        cases hl : loadAll c s.readStepFunctions files args with
        | error e => rw [hl] at h; cases h
        | ok fs =>
          rw [hl] at h
          simp only at h
          have hload := (loadAll_iff c _ files args fs).1 hl
          have hlen := hload.length_eq
          have hne : fs ≠ [] := by
            rintro rfl
            exact hargs (List.eq_nil_of_length_eq_zero hlen)
          have hdraw' : Spec.InRange c.draw fs := fun k i => hlen ▸ hdraw k i
          cases hp : process c s fs with
          | error e => rw [hp] at h; cases h
          | ok o =>
            rw [hp] at h
            simp only [Except.ok.injEq, Prod.mk.injEq] at h
            obtain ⟨rfl, rfl⟩ := h
            obtain ⟨m, rep, dev, i, hm, hrep, hdev, hi, hiB⟩ := process_ok c s hne hdraw' hb hp
            have hlt : s.alpha < 1 := by
              rcases lt_or_eq_of_le ha.2 with h | h
              · exact h
              · exfalso
                rcases index_none (hsB ▸ samples_lt hB) (a := 1 - s.alpha) (by linarith) with h' | ⟨j, h', hj⟩
                · rw [show ConfidenceSets.index s.numBootstrapSamples (1 - s.alpha) = none from h'] at hi
                  cases hi
                · rw [show ConfidenceSets.index s.numBootstrapSamples (1 - s.alpha) = some j from h'] at hi
                  have := Option.some.inj hi
                  omega
            obtain ⟨q, hproc, hq0, c1, c2⟩ := process_spec c hlow s (hsB ▸ samples_lt hB) ha.1 hlt hb hne hdraw' hm hrep hdev
            rw [hproc] at hp
            have hms := meanOf_isStep hm
            have hunique : ∀ k < B, ∀ P : Fn ℝ → Prop, (∃ r, MeanOf (Step.sum c.next c.previous) (resample (c.draw k) fs) r ∧ P r) ↔ P (rep k) := by
              intro k hk P
              rw [← hsB] at hk
              constructor
              · rintro ⟨r, h1, h2⟩
                have h1' := (mean_iff c (resample_ne (hdraw' k) hne) _).2 h1
                rw [(mean_iff c (resample_ne (hdraw' k) hne) _).2 (hrep k hk)] at h1'
                rwa [Option.some.inj h1']
              · exact fun h => ⟨_, hrep k hk, h⟩
            refine ⟨fs, m, _, _, _, q / √(fs.length : ℝ), rfl, (Except.ok.inj hp).symm, hst ▸ hload, hm, write_step _ _, ?_, ?_, div_nonneg hq0 (Real.sqrt_nonneg _), ?_, ?_⟩
            · rw [addScalar, rebuild_mapValues hms]
              have : (fun y => q / √(fs.length : ℝ) + y) = fun y => y + q / √(fs.length : ℝ) := by
                funext y
                ring
              rw [this]
              exact write_step _ _
            · rw [addScalar, rebuild_mapValues hms]
              have : (fun y => -(q / √(fs.length : ℝ)) + y) = fun y => y - q / √(fs.length : ℝ) := by
                funext y
                ring
              rw [this]
              exact write_step _ _
            · rw [hsa, hsB] at c1
              refine c1.trans_eq ?_
              congr 1
              exact List.countP_congr fun k hk => by simp only [decide_eq_true_eq]; exact (hunique k (List.mem_range.1 hk) fun f => DifferByAtMost (Step.sum c.next c.previous) f m (q / √(fs.length : ℝ))).symm
            · rw [hsa, hsB] at c2
              refine lt_of_eq_of_lt ?_ c2
              congr 1
              exact List.countP_congr fun k hk => by simp only [decide_eq_true_eq]; exact hunique k (List.mem_range.1 hk) fun f => DifferByLess (Step.sum c.next c.previous) f m (q / √(fs.length : ℝ))

/-! ### Functions with a common interval -/

theorem mean_common (next previous : ℝ → ℝ) {a b : ℝ} (hab : a < b) {ys : List ℝ} (hne : ys ≠ []) :
    MeanOf (Step.sum next previous) (ys.map fun y => [⟨a, b, y⟩]) [⟨a, b, average ys⟩] := by
  have key : ∀ (ys : List ℝ) (x : ℝ), SumOf (Step.sum next previous) [⟨a, b, x⟩] (ys.map fun y => [⟨a, b, y⟩]) [⟨a, b, x + ys.sum⟩] := by
    intro ys
    induction ys with
    | nil =>
      intro x
      rw [List.sum_nil, add_zero]
      exact .nil _
    | cons y ys ih =>
      intro x
      have := ih (x + y)
      rw [add_assoc] at this
      exact .cons _ _ _ _ _ (sum_single next previous hab x y) this
  cases ys with
  | nil => exact absurd rfl hne
  | cons y ys =>
    refine ⟨[⟨a, b, y + ys.sum⟩], .cons _ _ _ _ _ (sum_first next previous hab y) (key ys y), ?_⟩
    simp [mapValues, average]

theorem resample_map {α β : Type} (draw : ℕ → ℕ) (g : α → β) (data : List α) : resample draw (data.map g) = (resample draw data).map g := by
  unfold resample
  rw [List.length_map, List.map_filterMap]
  simp

open Classical in
/-- C183. For functions that are constant on a common interval, the program writes the mean of their values and the confidence interval of the mean: at least the fraction `1 - alpha` of the replicates of
the mean is contained in the interval, and this is not true of a smaller interval. -/
theorem _root_.Aleph.C183_common_interval (c : Context) (files : List Char → Option (List Char)) (opts : List Opt) (args : List (List Char)) (alpha : ℝ) (B : ℕ) (a b : ℝ) (ys : List ℝ) (hlow : c.lowest ≤ 0)
    (hgood : ∀ o ∈ opts, ¬Bad c o) (halpha : IsLastValue Opt.alphaWord c.stod (1 / 20) opts alpha)
    (hB : IsLastValue Opt.samplesWord (fun w => (c.stoul w).map (· % 4294967296)) 50 opts B) (h0 : 0 ≤ alpha) (h1 : alpha < 1) (hpos : 0 < B) (hargs : args ≠ [])
    (hdraw : Spec.InRange c.draw args) (hab : a < b)
    (hfiles : List.Forall₂ (fun path y => IsFileFunction c (decide (∃ o ∈ opts, o.isSteps)) (files path) [⟨a, b, y⟩]) args ys) :
    ∃ tm tu tl r, main c files opts args = .ok (0, [("/tmp/Mean_plus_confidence.txt".toList, tm ++ "\n\n".toList ++ tu ++ "\n\n".toList ++ tl ++ "\n".toList)]) ∧
      IsStepText c.print [⟨a, b, average ys⟩] tm ∧ IsStepText c.print [⟨a, b, average ys + r⟩] tu ∧ IsStepText c.print [⟨a, b, average ys - r⟩] tl ∧ 0 ≤ r ∧
      (1 - alpha) * B ≤ ((List.range B).countP fun k => decide (|average (resample (c.draw k) ys) - average ys| ≤ r)) ∧
      (((List.range B).countP fun k => decide (|average (resample (c.draw k) ys) - average ys| < r) : ℕ) : ℝ) < (1 - alpha) * B := by
  obtain ⟨s, hs⟩ : ∃ s, settings c opts = some s := by
    cases e : settings c opts with
    | some s => exact ⟨s, rfl⟩
    | none =>
      obtain ⟨o, ho, hb⟩ := (settings_none c opts).1 e
      exact absurd hb (hgood o ho)
  obtain ⟨e1, e2⟩ := settings_spec c hs
  have hsa : s.alpha = alpha := Smoothing.lastValue_unique e1 halpha
  have hsB : s.numBootstrapSamples = B := Smoothing.lastValue_unique e2 hB
  have hst : s.readStepFunctions = decide (∃ o ∈ opts, o.isSteps) := by
    rw [Bool.eq_iff_iff, settings_steps c hs, decide_eq_true_eq]
  have hlen := hfiles.length_eq
  have hne : ys ≠ [] := by
    rintro rfl
    exact hargs (List.eq_nil_of_length_eq_zero hlen)
  obtain ⟨fs, hfs⟩ : ∃ fs, fs = ys.map fun y => ([⟨a, b, y⟩] : Fn ℝ) := ⟨_, rfl⟩
  have hfne : fs ≠ [] := by simpa [hfs] using hne
  have hflen : fs.length = ys.length := by simp [hfs]
  have hload : loadAll c s.readStepFunctions files args = .ok fs := by
    rw [loadAll_iff, hst, hfs, List.forall₂_map_right_iff]
    exact hfiles
  have hdraw' : Spec.InRange c.draw fs := fun k i => by
    rw [hflen, ← hlen]
    exact hdraw k i
  have hdrawy : Spec.InRange c.draw ys := fun k i => by
    rw [← hlen]
    exact hdraw k i
  have hm : MeanOf (Step.sum c.next c.previous) fs [⟨a, b, average ys⟩] := hfs ▸ mean_common _ _ hab hne
  have hrep : ∀ k, MeanOf (Step.sum c.next c.previous) (resample (c.draw k) fs) [⟨a, b, average (resample (c.draw k) ys)⟩] := by
    intro k
    rw [hfs, resample_map]
    exact mean_common _ _ hab (resample_ne (hdrawy k) hne)
  have hdiff : ∀ k, Step.sum c.next c.previous [⟨a, b, average (resample (c.draw k) ys)⟩] (mapValues (fun y => -y) [⟨a, b, average ys⟩]) = some [⟨a, b, average (resample (c.draw k) ys) + -average ys⟩] :=
    fun k => sum_single _ _ hab _ _
  have hdev : ∀ k, ∃ d, deviation c fs.length [⟨a, b, average ys⟩] [⟨a, b, average (resample (c.draw k) ys)⟩] = some d := by
    intro k
    unfold deviation
    rw [Step.neg, rebuild_mapValues (meanOf_isStep hm), hdiff]
    exact ⟨_, rfl⟩
  choose dev hdev using hdev
  obtain ⟨q, hproc, hq0, c1, c2⟩ := process_spec c hlow s (hsB ▸ samples_lt hB) (hsa ▸ h0) (hsa ▸ h1) (hsB ▸ hpos) hfne hdraw' hm (fun k _ => hrep k) (fun k _ => hdev k)
  have hr0 : 0 ≤ q / √(fs.length : ℝ) := div_nonneg hq0 (Real.sqrt_nonneg _)
  have hat : ∀ k r, DifferByAtMost (Step.sum c.next c.previous) [⟨a, b, average (resample (c.draw k) ys)⟩] [⟨a, b, average ys⟩] r ↔ 0 ≤ r ∧ |average (resample (c.draw k) ys) - average ys| ≤ r := by
    intro k r
    unfold DifferByAtMost
    rw [hdiff]
    simp [sub_eq_add_neg]
  have hms := meanOf_isStep hm
  refine ⟨_, _, _, q / √(fs.length : ℝ), ?_, write_step _ _, write_step _ _, write_step _ _, hr0, ?_, ?_⟩
  · unfold main
    rw [hs]
    have hie : args.isEmpty = false := by simpa using hargs
    simp only [hsa, hsB, h0, h1.le, hpos, and_self, not_true_eq_false, if_false, hie, Bool.false_eq_true, hload, hproc, output]
    rw [addScalar, addScalar, rebuild_mapValues hms, rebuild_mapValues hms]
    have e1 : q / √(fs.length : ℝ) + average ys = average ys + q / √(fs.length : ℝ) := by ring
    have e2 : -(q / √(fs.length : ℝ)) + average ys = average ys - q / √(fs.length : ℝ) := by ring
    simp only [mapValues, List.map_cons, List.map_nil, e1, e2]
  · rw [hsa, hsB] at c1
    refine c1.trans_eq ?_
    congr 1
    refine List.countP_congr fun k _ => ?_
    simp only [decide_eq_true_eq, hat]
    exact ⟨fun h => h.2, fun h => ⟨hr0, h⟩⟩
  · rw [hsa, hsB] at c2
    refine lt_of_eq_of_lt ?_ c2
    congr 1
    refine List.countP_congr fun k _ => ?_
    simp only [decide_eq_true_eq, DifferByLess, hat]
    exact ⟨fun h => ⟨_, h, abs_nonneg _, le_rfl⟩, fun ⟨r', hr', _, hle⟩ => hle.trans_lt hr'⟩

/-- C183. The function that belongs to a file with a diagram counts the active intervals, if all finite points lie on the same side of the diagonal and the numbers are fine enough. -/
theorem _root_.Aleph.C183_indicator (c : Context) (file : Option (List Char)) (points : List (ℝ × ℝ)) (hfile : IsDiagramFile c.convert file points) (hsize : 2 * (properPoints c.inf points).length < 2 ^ 32)
    (hnext : NextFits c.next (properPoints c.inf points)) (hside : (∀ p ∈ properPoints c.inf points, p.1 ≤ p.2) ∨ ∀ p ∈ properPoints c.inf points, p.2 ≤ p.1) :
    ∃ f, IsFileFunction c false file f ∧ IsStepFunction f ∧ ∀ t, Regular c.next (properPoints c.inf points) t → eval f t = (activeIntervals (properPoints c.inf points) t : ℝ) := by
  have hd : ∀ p ∈ properPoints c.inf points, p.1 ≠ p.2 ∧ p.2 ≠ c.inf := fun p hp => by simpa using (List.mem_filter.1 hp).2
  have : ∃ f, Pif.pif c.next c.inf (properPoints c.inf points) = some f ∧ IsStepFunction f ∧
      ∀ t, Regular c.next (properPoints c.inf points) t → eval f t = (activeIntervals (properPoints c.inf points) t : ℝ) := by
    rcases hside with h | h
    · exact C40_active_intervals_partial c.next c.inf _ h hsize hnext fun p hp he => absurd he (hd p hp).1
    · exact C40_inverted_partial c.next c.inf _ h (fun p hp => (hd p hp).2) hsize hnext fun p hp he => absurd he (hd p hp).1
  obtain ⟨f, h1, h2, h3⟩ := this
  exact ⟨f, ⟨points, hfile, h1⟩, h2, h3⟩

open Classical in
/-- C183. Unknown options, options without numbers, levels outside of the unit interval, and a number of samples that vanishes raise an exception; so does the first file that cannot be used.  Without any files,
nothing happens.  For the level 1, there is never a result. -/
theorem _root_.Aleph.C183_failures (c : Context) (files : List Char → Option (List Char)) (opts : List Opt) (args : List (List Char)) :
    ((∃ o ∈ opts, Bad c o) → main c files opts args = .error .exception) ∧
    ∀ alpha B, (∀ o ∈ opts, ¬Bad c o) → IsLastValue Opt.alphaWord c.stod (1 / 20) opts alpha → IsLastValue Opt.samplesWord (fun w => (c.stoul w).map (· % 4294967296)) 50 opts B →
      (alpha < 0 ∨ 1 < alpha ∨ B = 0 → main c files opts args = .error .exception) ∧
      (0 ≤ alpha → alpha ≤ 1 → 0 < B → main c files opts [] = .ok (0, []) ∧
        (∀ before path after, args = before ++ path :: after → (∀ p ∈ before, ∃ f, IsFileFunction c (decide (∃ o ∈ opts, o.isSteps)) (files p) f) →
          (files path = none ∨ (¬(∃ o ∈ opts, o.isSteps) ∧ ¬∃ points, IsDiagramFile c.convert (files path) points)) → main c files opts args = .error .exception) ∧
        (alpha = 1 → args ≠ [] → Spec.InRange c.draw args → ∃ e, main c files opts args = .error e)) := by
  refine ⟨fun h => ?_, fun alpha B hgood halpha hB => ?_⟩
  · unfold main
    rw [(settings_none c opts).2 h]
  · obtain ⟨s, hs⟩ : ∃ s, settings c opts = some s := by
      cases e : settings c opts with
      | some s => exact ⟨s, rfl⟩
      | none =>
        obtain ⟨o, ho, hb⟩ := (settings_none c opts).1 e
        exact absurd hb (hgood o ho)
    obtain ⟨e1, e2⟩ := settings_spec c hs
    have hsa : s.alpha = alpha := Smoothing.lastValue_unique e1 halpha
    have hsB : s.numBootstrapSamples = B := Smoothing.lastValue_unique e2 hB
    have hst : s.readStepFunctions = decide (∃ o ∈ opts, o.isSteps) := by
      rw [Bool.eq_iff_iff, settings_steps c hs, decide_eq_true_eq]
    refine ⟨?_, fun h0 h1 hpos => ⟨?_, ?_, ?_⟩⟩
    · intro h
      unfold main
      rw [hs]
      simp only [hsa, hsB]
      by_cases hr : 0 ≤ alpha ∧ alpha ≤ 1
      · rcases h with h | h | h
        · exact absurd hr.1 (not_le.2 h)
        · exact absurd hr.2 (not_le.2 h)
        · simp [hr, h]
      · rw [if_pos hr]
    · unfold main
      rw [hs]
      simp [hsa, hsB, h0, h1, hpos]
    · rintro before path after rfl hbefore hbad
      have hone : loadOne c s.readStepFunctions (files path) = .error .exception := by
        unfold loadOne
        rcases hbad with h | ⟨h, h'⟩
        · rw [h]
          cases s.readStepFunctions <;> rfl
        · rw [hst, decide_eq_false h]
          simp only [Bool.false_eq_true, if_false]
          cases hl : TextReaders.loadDiagram c.convert (files path) with
          | none => rfl
          | some D => exact absurd ⟨_, ok_load hl⟩ h'
      have hall : loadAll c s.readStepFunctions files (before ++ path :: after) = .error .exception := by
        induction before with
        | nil => rw [List.nil_append, loadAll, hone]
        | cons p before ih =>
          obtain ⟨f, hf⟩ := hbefore p (by simp)
          rw [← hst] at hf
          rw [List.cons_append, loadAll, (loadOne_iff _ _ _ _).2 hf, ih fun p hp => hbefore p (by simp [hp])]
      unfold main
      rw [hs]
      have hie : (before ++ path :: after).isEmpty = false := by simp
      simp only [hsa, hsB, h0, h1, hpos, and_self, not_true_eq_false, if_false, hie, Bool.false_eq_true, hall]
    · intro ha hne hdraw
      cases hmain : main c files opts args with
      | error e => exact ⟨e, rfl⟩
      | ok x =>
        exfalso
        unfold main at hmain
        rw [hs] at hmain
        have hie : args.isEmpty = false := by simpa using hne
        simp only [hsa, hsB, h0, h1, hpos, and_self, not_true_eq_false, if_false, hie, Bool.false_eq_true] at hmain
        cases hl : loadAll c s.readStepFunctions files args with
        | error e => rw [hl] at hmain; cases hmain
        | ok fs =>
          rw [hl] at hmain
          have hlen := ((loadAll_iff c _ files args fs).1 hl).length_eq
          have hfne : fs ≠ [] := by
            rintro rfl
            exact hne (List.eq_nil_of_length_eq_zero hlen)
          cases hp : process c s fs with
          | error e => simp only [hp] at hmain; cases hmain
          | ok o =>
            obtain ⟨m, rep, dev, i, -, -, -, hi, hiB⟩ := process_ok c s hfne (fun k i => hlen ▸ hdraw k i) (hsB ▸ hpos) hp
            rcases index_none (hsB ▸ samples_lt hB) (a := 1 - s.alpha) (by linarith) with h' | ⟨j, h', hj⟩
            · rw [show ConfidenceSets.index s.numBootstrapSamples (1 - s.alpha) = none from h'] at hi
              cases hi
            · rw [show ConfidenceSets.index s.numBootstrapSamples (1 - s.alpha) = some j from h'] at hi
              have := Option.some.inj hi
              omega

/-- C183, disagreement: the mean of a single function, which vanishes between 10 and 20, is 1 there. -/
theorem _root_.Aleph.C183_gap_witness : let f : Fn ℚ := [⟨0, 10, 1⟩, ⟨20, 30, 1⟩]
    eval f 15 = 0 ∧ (mean (fun x => x + 1 / 100) (fun x => x - 1 / 100) [f]).map (fun m => eval m 15) = some 1 := by decide +kernel

/-! ### Examples -/

/-- Numbers, for the examples. -/
noncomputable def sampleScan (l : List Char) : Option (ℝ × ℝ) :=
  if l = "0 1".toList then some (0, 1) else if l = "2 1".toList then some (2, 1) else if l = "0 3".toList then some (0, 3) else if l = "2 3".toList then some (2, 3) else none

/-- An environment with two files, and random numbers that alternate between both. -/
noncomputable def sampleContext : Context := ⟨100, fun x => x + 1, fun x => x - 1, -1, fun _ => 0, fun _ => "0".toList, sampleScan, fun _ => some (1 / 2), fun _ => some 5, fun k i => (k * i) % 2⟩

def sampleFiles (path : List Char) : Option (List Char) :=
  if path = "f".toList then some "0 1\n2 1\n".toList else if path = "g".toList then some "0 3\n2 3".toList else none

theorem sample_f : IsFileFunction sampleContext true (sampleFiles "f".toList) [⟨0, 2, 1⟩] := by
  refine ⟨"0 1\n2 1\n".toList, by decide, ?_⟩
  rw [Step.read, show Strings.getlines [] "0 1\n2 1\n".toList = ["0 1".toList, "2 1".toList] by decide]
  simp [readLines, sampleContext, sampleScan, Step.add, Step.insert]

theorem sample_g : IsFileFunction sampleContext true (sampleFiles "g".toList) [⟨0, 2, 3⟩] := by
  refine ⟨"0 3\n2 3".toList, by decide, ?_⟩
  rw [Step.read, show Strings.getlines [] "0 3\n2 3".toList = ["0 3".toList, "2 3".toList] by decide]
  simp [readLines, sampleContext, sampleScan, Step.add, Step.insert]

/-- All conditions of `C183_common_interval` hold for the example; hence, those of `C183_band_partial` hold, too. -/
example : sampleContext.lowest ≤ 0 ∧ (∀ o ∈ [Opt.alpha [], .readStepFunctions], ¬Bad sampleContext o) ∧ IsLastValue Opt.alphaWord sampleContext.stod (1 / 20) [Opt.alpha [], .readStepFunctions] (1 / 2) ∧
    IsLastValue Opt.samplesWord (fun w => (sampleContext.stoul w).map (· % 4294967296)) 50 [Opt.alpha [], .readStepFunctions] 50 ∧ Spec.InRange sampleContext.draw ["f".toList, "g".toList] ∧
    (∃ o ∈ [Opt.alpha [], .readStepFunctions], o.isSteps) ∧
    List.Forall₂ (fun path y => IsFileFunction sampleContext true (sampleFiles path) [⟨0, 2, y⟩]) ["f".toList, "g".toList] [1, 3] := by
  refine ⟨by norm_num [sampleContext], by simp [Bad, sampleContext], ?_, ?_, ?_, by simp [Opt.isSteps], .cons sample_f (.cons sample_g .nil)⟩
  · exact .inl ⟨[], .alpha [], [.readStepFunctions], [], rfl, rfl, by simp [Opt.alphaWord], rfl⟩
  · exact .inr ⟨by simp [Opt.samplesWord], rfl⟩
  · intro k i
    exact Nat.mod_lt _ (by norm_num)

end Aleph.ConfidenceSets
