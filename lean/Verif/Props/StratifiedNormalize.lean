import Verif.Model.StratifiedNormalize
import Verif.Spec.StratifiedNormalize
import Verif.Props.Statistics
import Verif.Props.StratifiedGraph

/-!
# C191: Normalisation of weights of graphs
-/

namespace Aleph.StratifiedNormalize

open Spec Spec.Strata Statistics

theorem weights_eq {K : Complex ℝ} (hK : WF K) : weights K = edgeWeights K := by
  unfold weights edgeWeights
  congr 1
  refine List.filter_congr fun s hs => ?_
  rw [StratifiedGraph.card_vset_eq (hK.normal s hs)]
  unfold Complex.dim
  have := List.length_pos_iff.2 (hK.nonempty s hs)
  rw [Bool.eq_iff_iff]
  simp only [beq_iff_eq, decide_eq_true_eq]
  omega

theorem edgeWeights_map (K : Complex ℝ) (f : ℝ → ℝ) : edgeWeights (K.map fun s => s.withData (f s.data)) = (edgeWeights K).map f := by
  unfold edgeWeights
  rw [List.filter_map, List.map_map, List.map_map]
  rfl

theorem foldl_min_spec (l : List ℝ) : ∀ x, l.foldl min x ∈ x :: l ∧ ∀ y ∈ x :: l, l.foldl min x ≤ y := by
  induction l with
  | nil => intro x; simp
  | cons a l ih =>
    intro x
    rw [List.foldl_cons]
    obtain ⟨h1, h2⟩ := ih (min x a)
    constructor
    · rcases List.mem_cons.1 h1 with h | h
      · rw [h]
        rcases min_choice x a with h' | h' <;> rw [h'] <;> simp
      · exact List.mem_cons_of_mem _ (List.mem_cons_of_mem _ h)
    · intro y hy
      have hm := h2 (min x a) List.mem_cons_self
      rcases List.mem_cons.1 hy with rfl | hy
      · exact le_trans hm (min_le_left _ _)
      · rcases List.mem_cons.1 hy with rfl | hy
        · exact le_trans hm (min_le_right _ _)
        · exact h2 y (List.mem_cons_of_mem _ hy)

theorem foldl_max_spec (l : List ℝ) : ∀ x, l.foldl max x ∈ x :: l ∧ ∀ y ∈ x :: l, y ≤ l.foldl max x := by
  induction l with
  | nil => intro x; simp
  | cons a l ih =>
    intro x
    rw [List.foldl_cons]
    obtain ⟨h1, h2⟩ := ih (max x a)
    constructor
    · rcases List.mem_cons.1 h1 with h | h
      · rw [h]
        rcases max_choice x a with h' | h' <;> rw [h'] <;> simp
      · exact List.mem_cons_of_mem _ (List.mem_cons_of_mem _ h)
    · intro y hy
      have hm := h2 (max x a) List.mem_cons_self
      rcases List.mem_cons.1 hy with rfl | hy
      · exact le_trans (le_max_left _ _) hm
      · rcases List.mem_cons.1 hy with rfl | hy
        · exact le_trans (le_max_right _ _) hm
        · exact h2 y (List.mem_cons_of_mem _ hy)

/-- C191. Normalisation of the weights of a graph with two different weights of edges: an increasing linear function of the weights.  For `abs`, zero remains, and the largest absolute value of the edges is one; for `minmax`,
the smallest weight of an edge is -1, and the largest one is 1; for `standardize`, the mean of the weights of edges is zero, and their variance is one. -/
theorem _root_.Aleph.C191_normalize (mode : Mode) (hmode : mode ≠ .none ∧ mode ≠ .unknown) (K : Complex ℝ) (hK : WF K) (hne : ¬Constant (edgeWeights K)) :
    ∃ a b, 0 < a ∧ ∃ L, normalize mode K = .ok L ∧ L = K.map (fun s => ⟨s.vertices, a * s.data + b⟩) ∧
      (mode = .abs → b = 0 ∧ (∀ w ∈ edgeWeights L, |w| ≤ 1) ∧ ∃ w ∈ edgeWeights L, |w| = 1) ∧
      (mode = .minmax → (∀ w ∈ edgeWeights L, -1 ≤ w ∧ w ≤ 1) ∧ -1 ∈ edgeWeights L ∧ 1 ∈ edgeWeights L) ∧
      (mode = .standardize → mean (edgeWeights L) = 0 ∧ variance (edgeWeights L) = 1) := by
  have hw := weights_eq hK
  rcases hl : edgeWeights K with _ | ⟨x, l⟩
  · exfalso; apply hne; rw [hl]; intro y hy; simp at hy
  · rw [hl] at hne
    obtain ⟨hlo, hlo'⟩ := foldl_min_spec l x
    obtain ⟨hhi, hhi'⟩ := foldl_max_spec l x
    have hdiff : l.foldl min x ≠ l.foldl max x := by
      intro h
      apply hne
      intro y hy z hz
      have h1 := hlo' y hy
      have h2 := hhi' y hy
      have h3 := hlo' z hz
      have h4 := hhi' z hz
      linarith
    have hlt : l.foldl min x < l.foldl max x := lt_of_le_of_ne (hlo' _ hhi) hdiff
    have hlen : 2 ≤ (x :: l).length := by
      rcases l with _ | ⟨y, l⟩
      · exact absurd rfl hdiff
      · simp
    have hstart : ∀ m, m ≠ .none → normalize m K = (match m with
        | .abs => .ok (K.map fun s => s.withData (s.data / max |l.foldl min x| |l.foldl max x|))
        | .minmax => .ok (K.map fun s => s.withData (2 * ((s.data - l.foldl min x) / (l.foldl max x - l.foldl min x)) - 1))
        | .standardize =>
          match sampleMean (x :: l), sampleStandardDeviation (x :: l) with
          | some mu, some sigma => .ok (K.map fun s => s.withData ((s.data - mu) / sigma))
          | _, _ => .error .undefined
        | _ => .error .mode) := by
      intro m hm
      unfold normalize
      rw [if_neg hm, hw, hl]
      dsimp only
      rw [if_neg hdiff]
      cases m <;> rfl
    generalize hlo0 : l.foldl min x = lo at *
    generalize hhi0 : l.foldl max x = hi at *
    cases mode with
    | none => exact absurd rfl hmode.1
    | unknown => exact absurd rfl hmode.2
    | abs =>
      have hpos : 0 < max |lo| |hi| := by
        by_contra h
        have h1 : |lo| ≤ 0 := le_trans (le_max_left _ _) (not_lt.1 h)
        have h2 : |hi| ≤ 0 := le_trans (le_max_right _ _) (not_lt.1 h)
        rw [abs_nonpos_iff] at h1 h2
        rw [h1, h2] at hlt
        exact lt_irrefl _ hlt
      have hbound : ∀ y ∈ x :: l, |y| ≤ max |lo| |hi| := by
        intro y hy
        rw [abs_le]
        have h1 := hlo' y hy
        have h2 := hhi' y hy
        have h3 := neg_abs_le lo
        have h4 := le_abs_self hi
        have h5 := le_max_left |lo| |hi|
        have h6 := le_max_right |lo| |hi|
        constructor <;> linarith
      have hfun : ∀ s : Simplex ℝ, s.withData (s.data / max |lo| |hi|) = ⟨s.vertices, (1 / max |lo| |hi|) * s.data + 0⟩ := by
        intro s
        unfold Simplex.withData
        rw [add_zero, one_div_mul_eq_div]
      refine ⟨1 / max |lo| |hi|, 0, by positivity, _, hstart .abs hmode.1, List.map_congr_left fun s _ => hfun s, fun _ => ⟨rfl, ?_, ?_⟩, fun h => by simp at h, fun h => by simp at h⟩
      · rw [edgeWeights_map K fun y => y / max |lo| |hi|, hl]
        intro w hw'
        obtain ⟨y, hy, rfl⟩ := List.mem_map.1 hw'
        rw [abs_div, abs_of_pos hpos, div_le_one hpos]
        exact hbound y hy
      · rw [edgeWeights_map K fun y => y / max |lo| |hi|, hl]
        rcases max_choice |lo| |hi| with h | h
        · refine ⟨_, List.mem_map_of_mem hlo, ?_⟩
          rw [abs_div, abs_of_pos hpos, h]
          rw [h] at hpos
          exact div_self hpos.ne'
        · refine ⟨_, List.mem_map_of_mem hhi, ?_⟩
          rw [abs_div, abs_of_pos hpos, h]
          rw [h] at hpos
          exact div_self hpos.ne'
    | minmax =>
      have hpos : 0 < hi - lo := by linarith
      have hfun : ∀ s : Simplex ℝ, s.withData (2 * ((s.data - lo) / (hi - lo)) - 1) = ⟨s.vertices, (2 / (hi - lo)) * s.data + (-(2 * lo / (hi - lo)) - 1)⟩ := by
        intro s
        unfold Simplex.withData
        congr 1
        field_simp
        ring
      refine ⟨2 / (hi - lo), -(2 * lo / (hi - lo)) - 1, by positivity, _, hstart .minmax hmode.1, List.map_congr_left fun s _ => hfun s, fun h => by simp at h, fun _ => ?_, fun h => by simp at h⟩
      rw [edgeWeights_map K fun y => 2 * ((y - lo) / (hi - lo)) - 1, hl]
      refine ⟨?_, ?_, ?_⟩
      · intro w hw'
        obtain ⟨y, hy, rfl⟩ := List.mem_map.1 hw'
        have h1 : 0 ≤ (y - lo) / (hi - lo) := div_nonneg (by linarith [hlo' y hy]) hpos.le
        have h2 : (y - lo) / (hi - lo) ≤ 1 := (div_le_one hpos).2 (by linarith [hhi' y hy])
        constructor <;> linarith
      · refine List.mem_map.2 ⟨lo, hlo, ?_⟩
        rw [sub_self, zero_div]; norm_num
      · refine List.mem_map.2 ⟨hi, hhi, ?_⟩
        rw [div_self hpos.ne']; norm_num
    | standardize =>
      have hne' : x :: l ≠ [] := by simp
      obtain ⟨hv0, hv1, hv2, _, sigma, hs0, hs1, hs2⟩ := (C85_variance (x :: l)).2 hlen
      have hmean := sampleMean_some hne'
      have hvar : variance (x :: l) ≠ 0 := fun h => hne (hv2.1 h)
      have hsig : 0 < sigma := by
        rcases hs1.lt_or_eq with h | h
        · exact h
        · exfalso; apply hvar; rw [← hs2, ← h, zero_mul]
      have hres : normalize .standardize K = .ok (K.map fun s => s.withData ((s.data - mean (x :: l)) / sigma)) := by
        rw [hstart .standardize hmode.1]
        dsimp only
        rw [hmean, hs0]
      have hlin : ∀ y, (y - mean (x :: l)) / sigma = (1 / sigma) * y + (-(mean (x :: l) / sigma)) := by
        intro y; field_simp; ring
      refine ⟨1 / sigma, -(mean (x :: l) / sigma), by positivity, _, hres, List.map_congr_left fun s _ => ?_, fun h => by simp at h, fun h => by simp at h, fun _ => ?_⟩
      · unfold Simplex.withData; rw [hlin]
      · rw [edgeWeights_map K fun y => (y - mean (x :: l)) / sigma, hl, show (fun y => (y - mean (x :: l)) / sigma) = fun y => (1 / sigma) * y + (-(mean (x :: l) / sigma)) from funext hlin]
        constructor
        · have h1 := C85_mean_affine (x :: l) (1 / sigma) (-(mean (x :: l) / sigma))
          rw [hmean, sampleMean_some (by simp)] at h1
          simp only [Option.map_some, Option.some.injEq] at h1
          rw [h1]; ring
        · rw [variance_affine hne', ← hs2]
          field_simp

/-- C191. Other cases: nothing is changed without a strategy or without edges; weights that are all the same violate an assertion; unknown strategies raise an exception. -/
theorem _root_.Aleph.C191_failures (mode : Mode) (K : Complex ℝ) (hK : WF K) :
    (mode = .none ∨ edgeWeights K = [] → normalize mode K = .ok K) ∧
    (mode ≠ .none → edgeWeights K ≠ [] → Constant (edgeWeights K) → normalize mode K = .error .assertion) ∧
    (¬Constant (edgeWeights K) → normalize .unknown K = .error .mode) := by
  have hw := weights_eq hK
  refine ⟨?_, ?_, ?_⟩
  · rintro (h | h)
    · unfold normalize; rw [if_pos h]
    · unfold normalize
      split
      · rfl
      · rw [hw, h]
  · intro hm hne hc
    unfold normalize
    rw [if_neg hm, hw]
    rcases hl : edgeWeights K with _ | ⟨x, l⟩
    · exact absurd hl hne
    · dsimp only
      rw [hl] at hc
      rw [if_pos (hc _ (foldl_min_spec l x).1 _ (foldl_max_spec l x).1)]
  · intro hne
    unfold normalize
    rw [if_neg (by decide), hw]
    rcases hl : edgeWeights K with _ | ⟨x, l⟩
    · exfalso; apply hne; rw [hl]; intro y hy; simp at hy
    · dsimp only
      rw [if_neg]
      intro h
      apply hne
      rw [hl]
      intro y hy z hz
      have h1 := (foldl_min_spec l x).2 y hy
      have h2 := (foldl_max_spec l x).2 y hy
      have h3 := (foldl_min_spec l x).2 z hz
      have h4 := (foldl_max_spec l x).2 z hz
      linarith

/-- A path with different weights. -/
example : WF ([⟨[0], 0⟩, ⟨[1], 0⟩, ⟨[2], 0⟩, ⟨[1, 0], -1⟩, ⟨[2, 1], 3⟩] : Complex ℝ) ∧ ¬Constant (edgeWeights [⟨[0], 0⟩, ⟨[1], 0⟩, ⟨[2], 0⟩, ⟨[1, 0], -1⟩, ⟨[2, 1], 3⟩]) := by
  constructor
  · refine ⟨?_, ?_, ?_⟩
    · simp [Normal]
    · simp
    · simp
  · intro h
    have h1 : edgeWeights [⟨[0], 0⟩, ⟨[1], 0⟩, ⟨[2], 0⟩, ⟨[1, 0], -1⟩, ⟨[2, 1], 3⟩] = [-1, 3] := by
      simp [edgeWeights, Simplex.vset]
    rw [h1] at h
    have := h (-1) (by simp) 3 (by simp)
    norm_num at this

end Aleph.StratifiedNormalize
