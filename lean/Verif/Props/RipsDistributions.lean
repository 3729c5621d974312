import Verif.Model.RipsDistributions
import Verif.Spec.RipsDistributions
import Verif.Lemmas.Options
import Verif.Props.Kahan
import Verif.Props.PointCloud
import Verif.Props.Utilities
import Verif.Props.VietorisRipsExample

/-!
# C176: the tool `rips_distributions`
-/

namespace Aleph.RipsDistributions

open Finset Spec

/-- The argument of an option for the distance. -/
def Opt.distanceWord : Opt → Option (List Char)
  | .distance w => some w
  | _ => none

/-- The argument of an option for the threshold. -/
def Opt.epsilonWord : Opt → Option (List Char)
  | .epsilon w => some w
  | _ => none

theorem settings_spec (c : Context) {opts : List Opt} {s : Settings} (h : settings c opts = some s) :
    IsLastValue Opt.distanceWord some "euclidean".toList opts s.functor ∧ IsLastValue Opt.epsilonWord c.stod 0 opts s.epsilon := by
  unfold settings at h
  constructor
  · refine lastValue_of_foldlM (get := Settings.functor) ?_ ?_ h
    · intro s o s' w hp h
      cases o <;> simp only [Opt.distanceWord, Option.some.injEq, reduceCtorEq] at hp
      subst hp
      simp only [setOption, Option.some.injEq] at h
      rw [← h]
    · intro s o s' hp h
      cases o <;> simp only [Opt.distanceWord, reduceCtorEq, setOption, Option.map_eq_some_iff, Option.some.injEq] at hp h
      · obtain ⟨x, h1, rfl⟩ := h; rfl
      · rw [← h]
  · refine lastValue_of_foldlM (get := Settings.epsilon) ?_ ?_ h
    · intro s o s' w hp h
      cases o <;> simp only [Opt.epsilonWord, Option.some.injEq, reduceCtorEq] at hp
      subst hp
      obtain ⟨x, h1, rfl⟩ := Option.map_eq_some_iff.1 h
      exact h1
    · intro s o s' hp h
      cases o <;> simp only [Opt.epsilonWord, reduceCtorEq, setOption, Option.some.injEq] at hp h
      · rw [← h]
      · rw [← h]

theorem settings_none (c : Context) (opts : List Opt) : settings c opts = none ↔ ∃ w, Opt.epsilon w ∈ opts ∧ c.stod w = none := by
  unfold settings
  rw [foldlM_eq_none (bad := fun o => ∃ w, o = .epsilon w ∧ c.stod w = none)]
  · constructor
    · rintro ⟨o, ho, w, rfl, h⟩
      exact ⟨w, ho, h⟩
    · rintro ⟨w, ho, h⟩
      exact ⟨_, ho, w, rfl, h⟩
  · intro s o
    cases o <;> simp [setOption]

/-- The distances that are calculated by a functor. -/
def Computes (M : Metric) (rows : List (List ℝ)) (d : ℕ → ℕ → ℝ) (pc : PointCloud ℝ) : Prop := ∀ i < rows.length, ∀ j < rows.length, converted M pc i j = d i j

theorem euclidean_computes {pc : PointCloud ℝ} {rows : List (List ℝ)} (hpc : pc.Has rows) : Computes euclidean rows (pointDistance rows) pc := fun _ hi _ hj =>
  (VietorisRipsExample.distances (c := ⟨0, Real.sqrt, fun _ => 0, fun _ => none, fun _ => []⟩) rfl hpc hi hj).1

theorem manhattan_computes {pc : PointCloud ℝ} {rows : List (List ℝ)} (hpc : pc.Has rows) : Computes manhattan rows (manhattanDistance rows) pc := by
  intro i hi j hj
  unfold converted manhattan
  rw [C71_get pc rows hpc, C71_get pc rows hpc, ← List.getD_eq_getElem?_getD, ← List.getD_eq_getElem?_getD]
  obtain ⟨⟨d, h1, h2, h3⟩, -⟩ := C60_values (-1 : ℝ) (rows.getD i []) (rows.getD j []) (by
    rw [List.getD_eq_getElem _ _ hi, List.getD_eq_getElem _ _ hj, hpc.dimension _ (List.getElem_mem hi), hpc.dimension _ (List.getElem_mem hj)])
  simp only [h1, id, Option.getD_some]
  rcases h2.lt_or_eq with h | h
  · have := (h3 h).1
    norm_num at this
  · rw [h]
    rfl

theorem filter_lt (n i : ℕ) : (List.range n).filter (fun j => i < j) = List.range' (i + 1) (n - (i + 1)) := by
  induction n with
  | zero => simp
  | succ n ih =>
    rw [List.range_succ, List.filter_append, ih]
    by_cases h : i < n
    · rw [show n + 1 - (i + 1) = (n - (i + 1)) + 1 by omega, List.range'_1_concat]
      simp only [h, decide_true, List.filter_cons_of_pos, List.filter_nil]
      congr 2
      omega
    · rw [show n + 1 - (i + 1) = n - (i + 1) by omega]
      simp [h]

theorem pairwise_spec {M : Metric} {pc : PointCloud ℝ} {rows : List (List ℝ)} {d : ℕ → ℕ → ℝ} (hpc : pc.Has rows) (h : Computes M rows d pc) :
    pairwiseDistances M pc = squaredDistances rows.length d := by
  have hn : pc.n = rows.length := hpc.count
  unfold pairwiseDistances squaredDistances
  rw [hn]
  split
  · next h0 => rw [h0]; rfl
  · refine List.flatMap_congr fun i hi => ?_
    rw [filter_lt]
    refine List.map_congr_left fun j hj => ?_
    have h1 := List.mem_range.1 hi
    have h2 := List.mem_range'_1.1 hj
    rw [h i h1 j (by omega), sq]

theorem degrees_spec {M : Metric} {pc : PointCloud ℝ} {rows : List (List ℝ)} {d : ℕ → ℕ → ℝ} (hpc : pc.Has rows) (h : Computes M rows d pc) (h0 : ∀ i, d i i = 0) {ε : ℝ} (hε : 0 < ε) :
    calculateDegrees M pc ε = ((List.range rows.length).map fun i => #(otherNeighbours rows.length d ε i) + 1, (List.range rows.length).map fun i => ∑ j ∈ otherNeighbours rows.length d ε i, d i j) := by
  classical
  have hn : pc.n = rows.length := hpc.count
  unfold calculateDegrees
  rw [if_neg hε.ne', hn]
  have key : ∀ i ∈ List.range rows.length, (((List.range rows.length).map fun j => (j, converted M pc i j)).filter fun e => e.2 < ε) =
      ((List.range rows.length).filter fun j => d i j < ε).map fun j => (j, d i j) := by
    intro i hi
    have e1 : ((List.range rows.length).map fun j => (j, converted M pc i j)) = (List.range rows.length).map fun j => (j, d i j) :=
      List.map_congr_left fun j hj => by rw [h i (List.mem_range.1 hi) j (List.mem_range.1 hj)]
    rw [e1, List.filter_map]
    rfl
  have hset : ∀ i < rows.length, ((List.range rows.length).filter fun j => d i j < ε).toFinset = insert i (otherNeighbours rows.length d ε i) := by
    intro i hi
    ext j
    simp only [List.mem_toFinset, List.mem_filter, List.mem_range, decide_eq_true_eq, mem_insert, otherNeighbours, mem_filter, mem_range]
    constructor
    · rintro ⟨h1, h2⟩
      by_cases hji : j = i
      · exact Or.inl hji
      · exact Or.inr ⟨h1, hji, h2⟩
    · rintro (rfl | ⟨h1, h2, h3⟩)
      · exact ⟨hi, by rw [h0]; exact hε⟩
      · exact ⟨h1, h3⟩
  have hnd : ∀ i, ((List.range rows.length).filter fun j => d i j < ε).Nodup := fun i => List.nodup_range.filter _
  have hnot : ∀ i, i ∉ otherNeighbours rows.length d ε i := fun i hi => (mem_filter.1 hi).2.1 rfl
  simp only [Rips.radiusSearch, List.map_map, Prod.mk.injEq]
  constructor
  · refine List.map_congr_left fun i hi => ?_
    simp only [Function.comp_apply]
    rw [key i hi, List.length_map, ← List.toFinset_card_of_nodup (hnd i), hset i (List.mem_range.1 hi), card_insert_of_notMem (hnot i)]
  · refine List.map_congr_left fun i hi => ?_
    simp only [Function.comp_apply]
    rw [key i hi, (C49_accumulate_sorted _ _ (List.Perm.refl _) (0 : ℝ)).1, zero_add, List.map_map]
    have : (List.map ((fun x => x.2) ∘ fun j => (j, d i j)) (List.filter (fun j => decide (d i j < ε)) (List.range rows.length))).sum =
        ∑ j ∈ ((List.range rows.length).filter fun j => d i j < ε).toFinset, d i j := by
      rw [List.sum_toFinset _ (hnd i)]
      rfl
    rw [this, hset i (List.mem_range.1 hi), sum_insert (hnot i), h0, zero_add]

theorem elements_eq : ∀ ws : List (List Char), elements ws = [','].intercalate ws
  | [] => rfl
  | [w] => by simp [elements, List.intercalate]
  | w :: v :: ws => by
    have ih := elements_eq (v :: ws)
    rw [List.intercalate, List.intersperse_cons_cons, List.flatten_cons, List.flatten_cons] at *
    simp only [elements, List.flatMap_cons, List.cons_append, List.nil_append] at *
    rw [← ih]

theorem json_eq {words : List (List Char)} (h : words ≠ []) (name : List Char) : containerAsJSON words name = jsonMember name words := by
  unfold containerAsJSON jsonMember
  have : words.isEmpty = false := by simpa using h
  rw [this, elements_eq]
  simp

/-- The distances that the tool supports. -/
def _root_.Aleph.Spec.IsMetricOfName (rows : List (List ℝ)) (name : List Char) (d : ℕ → ℕ → ℝ) : Prop :=
  name = "euclidean".toList ∧ d = pointDistance rows ∨ name = "manhattan".toList ∧ d = manhattanDistance rows

theorem calculate_spec {pc : PointCloud ℝ} {rows : List (List ℝ)} (hpc : pc.Has rows) {name : List Char} {d : ℕ → ℕ → ℝ} (h : IsMetricOfName rows name d) (ε : ℝ) :
    ∃ M, Computes M rows d pc ∧ (∀ i, d i i = 0) ∧ calculate name pc ε = (pairwiseDistances M pc, calculateDegrees M pc ε) := by
  rcases h with ⟨rfl, rfl⟩ | ⟨rfl, rfl⟩
  · refine ⟨euclidean, euclidean_computes hpc, fun i => ?_, by simp [calculate]⟩
    unfold pointDistance
    have : List.zipWith (fun x y : ℝ => (x - y) ^ 2) (rows.getD i []) (rows.getD i []) = (rows.getD i []).map fun _ => 0 := by
      rw [List.zipWith_self]
      simp
    rw [this]
    simp
  · refine ⟨manhattan, manhattan_computes hpc, fun i => ?_, by simp [calculate]⟩
    unfold manhattanDistance
    have : List.zipWith (fun x y : ℝ => |x - y|) (rows.getD i []) (rows.getD i []) = (rows.getD i []).map fun _ => 0 := by
      rw [List.zipWith_self]
      simp
    rw [this]
    simp

theorem squared_ne_nil {n : ℕ} (hn : 2 ≤ n) (d : ℕ → ℕ → ℝ) : squaredDistances n d ≠ [] := by
  intro h
  unfold squaredDistances at h
  rw [List.flatMap_eq_nil_iff] at h
  have h0 := h 0 (List.mem_range.2 (by omega))
  rw [List.map_eq_nil_iff, List.filter_eq_nil_iff] at h0
  exact h0 1 (List.mem_range.2 (by omega)) (by simp)

/-- C176. For at least two points, the output contains the squares of the distances of all pairs of points, each of them once.  If the threshold is positive, it contains two further lists, with one value for
each point: one more than the number of other points whose distance is below the threshold, and the sum of the distances to these points.  The last options determine the distance and the threshold; their
default values are the Euclidean distance and zero.  Missing, and wrong: each point is counted as its own neighbour; for a single point and a threshold, the output is not a JSON text (`C176_single_point`). -/
theorem _root_.Aleph.C176_output_partial (c : Context) (files : List Char → Option (List Char)) (opts : List Opt) (hv : ∀ w, Opt.epsilon w ∈ opts → c.stod w ≠ none) (filename : List Char)
    (more : List (List Char)) (text : List Char) (hfile : files filename = some text) (pc : PointCloud ℝ) (hload : PointCloud.load c.convert text = some pc) (rows : List (List ℝ)) (hpc : pc.Has rows)
    (h2 : 2 ≤ rows.length) :
    ∃ name ε, IsLastValue Opt.distanceWord some "euclidean".toList opts name ∧ IsLastValue Opt.epsilonWord c.stod 0 opts ε ∧ ∀ d, IsMetricOfName rows name d →
      (ε = 0 → main c files opts (filename :: more) = some (0, "{\n".toList ++ jsonMember "distances".toList ((squaredDistances rows.length d).map c.print) ++ "}\n".toList)) ∧
      (0 < ε → ∃ degrees, List.Forall₂ (fun i t => IsUsualNotation (#(otherNeighbours rows.length d ε i) + 1) t) (List.range rows.length) degrees ∧
        main c files opts (filename :: more) = some (0, "{\n".toList ++ jsonMember "distances".toList ((squaredDistances rows.length d).map c.print) ++ ",\n".toList ++
          jsonMember "unweighted_degrees".toList degrees ++ ",\n".toList ++
          jsonMember "weighted_degrees".toList ((List.range rows.length).map fun i => c.print (∑ j ∈ otherNeighbours rows.length d ε i, d i j)) ++ "}\n".toList)) := by
  cases hs : settings c opts with
  | none =>
    obtain ⟨w, h1, h2⟩ := (settings_none c opts).1 hs
    exact absurd h2 (hv w h1)
  | some s =>
    obtain ⟨k1, k2⟩ := settings_spec c hs
    refine ⟨_, _, k1, k2, fun d hd => ?_⟩
    obtain ⟨M, m1, m2, m3⟩ := calculate_spec hpc hd s.epsilon
    have hmain : main c files opts (filename :: more) = some (0, output c (calculate s.functor pc s.epsilon)) := by
      unfold main
      simp only [hs, hfile, hload]
    have hsq : (squaredDistances rows.length d).map c.print ≠ [] := by simpa using squared_ne_nil h2 d
    constructor
    · intro h0
      rw [hmain, m3, pairwise_spec hpc m1]
      unfold output calculateDegrees
      rw [if_pos h0, json_eq hsq]
      simp
    · intro h0
      have hr : rows.length ≠ 0 := by omega
      refine ⟨(List.range rows.length).map fun i => Utilities.decimal (#(otherNeighbours rows.length d s.epsilon i) + 1), ?_, ?_⟩
      · rw [List.forall₂_map_right_iff, List.forall₂_same]
        intro i _
        exact Utilities.decimal_spec _
      · rw [hmain, m3, pairwise_spec hpc m1, degrees_spec hpc m1 m2 h0]
        unfold output
        rw [json_eq hsq]
        simp only [List.map_map]
        have e1 : ∀ {β : Type} (f : ℕ → β), ((List.range rows.length).map f).isEmpty = false := by
          intro β f
          simp [hr]
        rw [e1, e1, json_eq (by simp [hr]), json_eq (by simp [hr])]
        simp only [Bool.false_eq_true, if_false, List.append_assoc]
        rfl

/-- C176, disagreement: for a single point and a threshold, the first member of the object is missing, but not the comma behind it, so that the text is not a JSON text. -/
theorem _root_.Aleph.C176_single_point (c : Context) (files : List Char → Option (List Char)) (opts : List Opt) (hv : ∀ w, Opt.epsilon w ∈ opts → c.stod w ≠ none) (filename : List Char)
    (more : List (List Char)) (text : List Char) (hfile : files filename = some text) (pc : PointCloud ℝ) (hload : PointCloud.load c.convert text = some pc) (row : List ℝ) (hpc : pc.Has [row]) :
    ∃ name ε, IsLastValue Opt.distanceWord some "euclidean".toList opts name ∧ IsLastValue Opt.epsilonWord c.stod 0 opts ε ∧ ∀ d, IsMetricOfName [row] name d → 0 < ε →
      ∃ rest, main c files opts (filename :: more) = some (0, "{\n,".toList ++ rest) := by
  cases hs : settings c opts with
  | none =>
    obtain ⟨w, h1, h2⟩ := (settings_none c opts).1 hs
    exact absurd h2 (hv w h1)
  | some s =>
    obtain ⟨k1, k2⟩ := settings_spec c hs
    refine ⟨_, _, k1, k2, fun d hd h0 => ?_⟩
    obtain ⟨M, m1, m2, m3⟩ := calculate_spec hpc hd s.epsilon
    have hmain : main c files opts (filename :: more) = some (0, output c (calculate s.functor pc s.epsilon)) := by
      unfold main
      simp only [hs, hfile, hload]
    rw [hmain, m3, pairwise_spec hpc m1, degrees_spec hpc m1 m2 h0]
    unfold output
    simp only [squaredDistances, List.length_singleton, List.range_one, List.flatMap_cons, List.flatMap_nil, containerAsJSON]
    simp

/-- C176. Arguments that are not numbers and files with lines of different lengths raise an exception, and without arguments the tool fails.  For files that cannot be opened, and for unknown distances, the
object is empty. -/
theorem _root_.Aleph.C176_failures (c : Context) (files : List Char → Option (List Char)) (opts : List Opt) :
    ((∃ w, Opt.epsilon w ∈ opts ∧ c.stod w = none) → ∀ args, main c files opts args = none) ∧
    ((∀ w, Opt.epsilon w ∈ opts → c.stod w ≠ none) → main c files opts [] = some (-1, []) ∧
      (∀ filename more, files filename = none → main c files opts (filename :: more) = some (0, "{\n}\n".toList)) ∧
      (∀ filename more text, files filename = some text → PointCloud.load c.convert text = none → main c files opts (filename :: more) = none) ∧
      ∀ filename more text pc, files filename = some text → PointCloud.load c.convert text = some pc →
        (∀ name', IsLastValue Opt.distanceWord some "euclidean".toList opts name' → name' ≠ "euclidean".toList ∧ name' ≠ "manhattan".toList) →
        main c files opts (filename :: more) = some (0, "{\n}\n".toList)) := by
  constructor
  · intro h args
    unfold main
    simp only [(settings_none c opts).2 h]
  · intro hv
    cases hs : settings c opts with
    | none =>
      obtain ⟨w, h1, h2⟩ := (settings_none c opts).1 hs
      exact absurd h2 (hv w h1)
    | some s =>
      obtain ⟨k1, k2⟩ := settings_spec c hs
      have hempty : ∀ M : Metric, pairwiseDistances M PointCloud.empty = [] ∧ calculateDegrees M PointCloud.empty s.epsilon = ([], []) := by
        intro M
        refine ⟨by simp [pairwiseDistances, PointCloud.empty], ?_⟩
        unfold calculateDegrees
        split
        · rfl
        · simp [Rips.radiusSearch, PointCloud.empty]
      have hout : output c ([], [], []) = "{\n}\n".toList := by
        simp [output, containerAsJSON]
      refine ⟨by unfold main; simp only [hs], ?_, ?_, ?_⟩
      · intro filename more h
        unfold main
        simp only [hs, h]
        have : calculate s.functor PointCloud.empty s.epsilon = ([], [], []) := by
          unfold calculate
          split
          · rw [(hempty _).1, (hempty _).2]
          · split
            · rw [(hempty _).1, (hempty _).2]
            · rfl
        rw [this, hout]
      · intro filename more text h1 h2
        unfold main
        simp only [hs, h1, h2]
      · intro filename more text pc h1 h2 h3
        unfold main
        simp only [hs, h1, h2]
        have : calculate s.functor pc s.epsilon = ([], [], []) := by
          unfold calculate
          rw [if_neg (h3 _ k1).1, if_neg (h3 _ k1).2]
        rw [this, hout]

/-- The hypotheses of the theorems can be met: a file with two points whose Manhattan distance is 7. -/
example : PointCloud.load (fun w : List Char => if w = ['3'] then (3 : ℝ) else if w = ['4'] then 4 else 0) "0 0\n3 4\n".toList = some ⟨2, 2, [0, 0, 3, 4]⟩ ∧
    (⟨2, 2, [0, 0, 3, 4]⟩ : PointCloud ℝ).Has [[0, 0], [3, 4]] ∧ manhattanDistance [[0, 0], [3, 4]] 0 1 = 7 ∧ IsMetricOfName [[0, 0], [3, 4]] "manhattan".toList (manhattanDistance [[0, 0], [3, 4]]) := by
  refine ⟨?_, ⟨rfl, by simp, rfl⟩, by norm_num [manhattanDistance], .inr ⟨rfl, rfl⟩⟩
  rfl

end Aleph.RipsDistributions
