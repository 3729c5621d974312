import Verif.Lemmas.Curvature
import Verif.Model.MultiScaleSkeleton
import Verif.Props.BetaSkeleton
import Verif.Props.HeatKernel
import Verif.Props.NearestNeighbours
import Verif.Props.PointCloud
import Verif.Props.Utilities
import Verif.Props.VietorisRipsExample
import Verif.Spec.MultiScaleSkeleton

/-!
# C185: the tool `multi_scale_skeleton`
-/

namespace Aleph.MultiScaleSkeleton

open Finset Spec
open VietorisRipsExample (Failure squared)
open HeatKernel (IsSolver)

/-! ### Distances -/

theorem dist_comm (rows : List (List ℝ)) (i j : ℕ) : pointDistance rows i j = pointDistance rows j i := by
  unfold pointDistance
  congr 2
  rw [List.zipWith_comm]
  congr 1
  funext x y
  ring

theorem gabriel_symm {n : ℕ} {rows : List (List ℝ)} {i j : ℕ} (h : IsGabriel n (pointDistance rows) i j) : IsGabriel n (pointDistance rows) j i := by
  refine ⟨h.1.symm, fun r hr h1 h2 => ?_⟩
  have := h.2 r hr h2 h1
  rw [dist_comm rows j i]
  linarith

/-! ### The skeleton -/

/-- The Gabriel graph of the points, with lengths. -/
structure IsSkeleton (rows : List (List ℝ)) (K : Complex ℝ) : Prop where
  wf : WF K
  closed : FaceClosed K
  vertices : K.vertices = List.range rows.length
  edges : ∀ i j, i < rows.length → j < rows.length → i ≠ j → (Has K {i, j} ↔ IsGabriel rows.length (pointDistance rows) i j)
  data : ∀ i j x, i ≠ j → HasData K {i, j} x → x = pointDistance rows i j
  inside : ∀ s ∈ K, ∀ v ∈ s.vertices, v < rows.length

theorem skeleton_spec {pc : PointCloud ℝ} {rows : List (List ℝ)} (hpc : pc.Has rows) : ∃ K, skeleton pc = some K ∧ IsSkeleton rows K := by
  have hn : pc.n = rows.length := hpc.count
  have hD : ∀ i < pc.n, ((pc.get i).getD []).length = pc.d := by
    intro i hi
    rw [C71_get pc rows hpc, List.getElem?_eq_getElem (by omega), Option.getD_some]
    exact hpc.dimension _ (List.getElem_mem _)
  have hd : ∀ i < pc.n, ∀ j < pc.n, Real.sqrt (squared pc i j) = pointDistance rows i j := by
    intro i hi j hj
    rw [(VietorisRipsExample.distances (c := ⟨0, Real.sqrt, fun _ => 0, fun _ => none, fun _ => []⟩) rfl hpc (hn ▸ hi) (hn ▸ hj)).2]
    exact Real.sqrt_sq (Real.sqrt_nonneg _)
  have hdist : ∀ i < pc.n, ∀ j < pc.n, Real.sqrt (squared pc i j) ^ 2 = coordSum (fun x y => (x - y) ^ 2) ((pc.get i).getD []) ((pc.get j).getD []) := by
    intro i hi j hj
    rw [hd i hi j hj, C71_get pc rows hpc, C71_get pc rows hpc, ← List.getD_eq_getElem?_getD, ← List.getD_eq_getElem?_getD, pointDistance, Real.sq_sqrt]
    · rfl
    · exact coordSum_nonneg (fun x y : ℝ => (x - y) ^ 2) (fun x y => sq_nonneg _) _ _
  obtain ⟨K, h1, h2, h3, -, h4, -, h6⟩ := C63_skeleton pc.n pc.d (fun i => (pc.get i).getD []) hD (fun i j => Real.sqrt (squared pc i j)) hdist 1
  obtain ⟨⟨K', h1', h7⟩, -⟩ := C63_gabriel pc.n pc.d (fun i => (pc.get i).getD []) hD (fun i j => Real.sqrt (squared pc i j)) hdist
  obtain rfl : K = K' := Option.some.inj (h1.symm.trans h1')
  have hins : ∀ s ∈ K, ∀ v ∈ s.vertices, v < rows.length := by
    intro s hs v hv
    have hv' : v ∈ s.vset := List.mem_toFinset.2 hv
    rcases (h4 s.vset).1 ⟨s, hs, rfl⟩ with ⟨i, hi, e⟩ | ⟨i, j, hij, hj, e, -⟩
    · rw [e, mem_singleton] at hv'
      omega
    · rw [e, mem_insert, mem_singleton] at hv'
      omega
  have hedge : ∀ i j, i < j → j < rows.length → (Has K {i, j} ↔ IsGabriel rows.length (pointDistance rows) i j) := by
    intro i j hij hj
    rw [h7 i j hij (by omega), IsGabriel, hn]
    constructor
    · intro h
      refine ⟨hij.ne, fun r hr k1 k2 => ?_⟩
      have := h r hr k1 k2
      rwa [hd i (by omega) j (by omega), hd r (by omega) i (by omega), hd r (by omega) j (by omega)] at this
    · intro h r hr k1 k2
      rw [hd i (by omega) j (by omega), hd r (by omega) i (by omega), hd r (by omega) j (by omega)]
      exact h.2 r hr k1 k2
  refine ⟨K, h1, h2, h3, ?_, ?_, ?_, hins⟩
  · refine HeatKernel.vertexList_unique (HeatKernel.vertices_list h2) ⟨List.pairwise_lt_range, fun v => ?_⟩
    rw [List.mem_range, h4]
    constructor
    · exact fun h => Or.inl ⟨v, by omega, rfl⟩
    · rintro (⟨i, hi, e⟩ | ⟨i, j, hij, hj, e, -⟩)
      · rw [singleton_inj] at e
        omega
      · have := congrArg card e
        rw [card_singleton, card_pair hij.ne] at this
        omega
  · intro i j hi hj hij
    rcases lt_or_gt_of_ne hij with h | h
    · exact hedge i j h hj
    · rw [pair_comm, hedge j i h hi]
      exact ⟨gabriel_symm, gabriel_symm⟩
  · have key : ∀ i j x, i < j → HasData K {i, j} x → x = pointDistance rows i j := by
      intro i j x hij hx
      obtain ⟨s, hs, e, -⟩ := id hx
      have hi := hins s hs i (List.mem_toFinset.1 (by change i ∈ s.vset; rw [e]; simp))
      have hj := hins s hs j (List.mem_toFinset.1 (by change j ∈ s.vset; rw [e]; simp))
      rw [h6 i j x hij hx, hd i (by omega) j (by omega)]
    intro i j x hij hx
    rcases lt_or_gt_of_ne hij with h | h
    · exact key i j x h hx
    · rw [pair_comm] at hx
      rw [key j i x h hx, dist_comm]

/-! ### Scales -/

theorem indexOf_range {n v : ℕ} (h : v < n) : HeatKernel.indexOf (List.range n) v = some v :=
  (HeatKernel.indexOf_iff List.nodup_range).2 (by rw [List.getElem?_range h])

/-- Edges at a vertex. -/
def edgeAt (k : ℕ) (s : Simplex ℝ) : Bool := Complex.dim s = 1 ∧ k ∈ s.vertices

theorem edge_form {s : Simplex ℝ} (hn : Normal s.vertices) (h : Complex.dim s = 1) : ∃ a b, b < a ∧ s.vertices = [a, b] := by
  unfold Complex.dim at h
  obtain ⟨a, b, e⟩ := List.length_eq_two.1 (show s.vertices.length = 2 by omega)
  rw [e] at hn
  exact ⟨a, b, by simpa [Normal] using hn, e⟩

theorem fold_spec {K : Complex ℝ} {n : ℕ} (hK : ∀ s ∈ K, Normal s.vertices) (hin : ∀ s ∈ K, ∀ v ∈ s.vertices, v < n) (acc : (ℕ → ℝ) × (ℕ → ℝ)) :
    K.foldlM (addEdge (List.range n)) acc =
      some (fun k => acc.1 k + ((List.filter (edgeAt k) K).length : ℝ), fun k => acc.2 k + ((List.filter (edgeAt k) K).map Simplex.data).sum) := by
  induction K generalizing acc with
  | nil => simp
  | cons s K ih =>
    rw [List.foldlM_cons]
    by_cases hd : Complex.dim s = 1
    · obtain ⟨a, b, hab, e⟩ := edge_form (hK s (by simp)) hd
      have ha := hin s (by simp) a (by simp [e])
      have hb := hin s (by simp) b (by simp [e])
      have hstep : addEdge (List.range n) acc s = some (increase (increase acc.1 a 1) b 1, increase (increase acc.2 a s.data) b s.data) := by
        unfold addEdge
        rw [if_neg (by simpa using hd)]
        simp [e, indexOf_range ha, indexOf_range hb]
      rw [hstep]
      simp only [Option.bind_eq_bind, Option.bind_some]
      rw [ih (fun t ht => hK t (by simp [ht])) (fun t ht => hin t (by simp [ht]))]
      have hk : ∀ k, edgeAt k s = (decide (k = a) || decide (k = b)) := by
        intro k
        simp [edgeAt, hd, e]
      simp only [Option.some.injEq, Prod.mk.injEq]
      constructor
      · funext k
        rw [List.filter_cons, hk]
        by_cases h1 : k = a
        · have h2 : k ≠ b := by omega
          simp [increase, h1, hab.ne']
          ring
        · by_cases h2 : k = b
          · simp [increase, h2, hab.ne]
            ring
          · simp [increase, h1, h2]
      · funext k
        rw [List.filter_cons, hk]
        by_cases h1 : k = a
        · simp [increase, h1, hab.ne']
          ring
        · by_cases h2 : k = b
          · simp [increase, h2, hab.ne]
            ring
          · simp [increase, h1, h2]
    · have hstep : addEdge (List.range n) acc s = some acc := by
        unfold addEdge
        rw [if_pos hd]
      rw [hstep]
      simp only [Option.bind_eq_bind, Option.bind_some]
      rw [ih (fun t ht => hK t (by simp [ht])) (fun t ht => hin t (by simp [ht]))]
      have hk : ∀ k, edgeAt k s = false := by
        intro k
        simp [edgeAt, hd]
      simp [hk]

/-- The other vertex of an edge. -/
def other (k : ℕ) (s : Simplex ℝ) : ℕ := s.vertices.sum - k

theorem neighbours_spec {rows : List (List ℝ)} {K : Complex ℝ} (h : IsSkeleton rows K) {k : ℕ} (hk : k < rows.length) :
    (List.filter (edgeAt k) K).length = #(gabrielNeighbours rows.length (pointDistance rows) k) ∧
    ((List.filter (edgeAt k) K).map Simplex.data).sum = ∑ j ∈ gabrielNeighbours rows.length (pointDistance rows) k, pointDistance rows k j := by
  classical
  have form : ∀ s ∈ List.filter (edgeAt k) K, s ∈ K ∧ other k s ≠ k ∧ s.vset = {k, other k s} ∧ other k s < rows.length := by
    intro s hs
    obtain ⟨h1, h2⟩ := List.mem_filter.1 hs
    simp only [edgeAt, decide_eq_true_eq] at h2
    obtain ⟨a, b, hab, e⟩ := edge_form (h.wf.normal s h1) h2.1
    have ha := h.inside s h1 a (by simp [e])
    have hb := h.inside s h1 b (by simp [e])
    have hv : s.vset = {a, b} := by
      unfold Simplex.vset
      rw [e]
      simp
    have hkab := h2.2
    rw [e] at hkab
    simp only [List.mem_cons, List.not_mem_nil, or_false] at hkab
    have ho : other k s = a + b - k := by simp [other, e]
    rcases hkab with rfl | rfl
    · have : other k s = b := by omega
      rw [this]
      exact ⟨h1, by omega, hv, hb⟩
    · have : other k s = a := by omega
      rw [this]
      exact ⟨h1, by omega, by rw [hv, pair_comm], ha⟩
  have hnd : ((List.filter (edgeAt k) K).map (other k)).Nodup := by
    refine List.Nodup.map_on ?_ (List.Nodup.filter _ (List.Nodup.of_map _ h.wf.distinct))
    intro s hs t ht e
    obtain ⟨s1, -, s3, -⟩ := form s hs
    obtain ⟨t1, -, t3, -⟩ := form t ht
    exact h.wf.eq_of_vset s1 t1 (by rw [s3, t3, e])
  have hset : ((List.filter (edgeAt k) K).map (other k)).toFinset = gabrielNeighbours rows.length (pointDistance rows) k := by
    ext j
    rw [List.mem_toFinset, List.mem_map, gabrielNeighbours, mem_filter, mem_range]
    constructor
    · rintro ⟨s, hs, rfl⟩
      obtain ⟨s1, s2, s3, s4⟩ := form s hs
      exact ⟨s4, (h.edges k _ hk s4 s2.symm).1 ⟨s, s1, s3⟩⟩
    · rintro ⟨hj, hg⟩
      obtain ⟨s, hs, e⟩ := (h.edges k j hk hj hg.1).2 hg
      have hc : #s.vset = 2 := by rw [e, card_pair hg.1]
      have hd := Curvature.dim_add_one h.wf hs
      have hmem : s ∈ List.filter (edgeAt k) K := by
        rw [List.mem_filter]
        refine ⟨hs, ?_⟩
        simp only [edgeAt, decide_eq_true_eq]
        refine ⟨by omega, List.mem_toFinset.1 ?_⟩
        change k ∈ s.vset
        rw [e]
        simp
      refine ⟨s, hmem, ?_⟩
      obtain ⟨s1, s2, s3, s4⟩ := form s hmem
      have : j ∈ s.vset := by rw [e]; simp
      rw [s3, mem_insert, mem_singleton] at this
      exact (this.resolve_left hg.1.symm).symm
  constructor
  · rw [← hset, List.toFinset_card_of_nodup hnd, List.length_map]
  · rw [← hset, List.sum_toFinset _ hnd, List.map_map]
    congr 1
    refine List.map_congr_left fun s hs => ?_
    obtain ⟨s1, s2, s3, s4⟩ := form s hs
    exact h.data k _ _ s2.symm ⟨s, s1, s3, rfl⟩

theorem scales_spec {rows : List (List ℝ)} {K : Complex ℝ} (h : IsSkeleton rows K) :
    scales K = some ((List.range rows.length).map (meanLength rows.length (pointDistance rows))) := by
  unfold scales
  simp only [h.vertices]
  rw [fold_spec h.wf.normal h.inside]
  simp only [Option.bind_eq_bind, Option.bind_some, List.length_range, Option.some.injEq, zero_add]
  refine List.map_congr_left fun i hi => ?_
  obtain ⟨h1, h2⟩ := neighbours_spec h (List.mem_range.1 hi)
  rw [h1, h2, meanLength]
  simp only [Nat.cast_eq_zero]

/-! ### The heat kernel -/

theorem kernel_spec {rows : List (List ℝ)} {K : Complex ℝ} (h : IsSkeleton rows K) {solver : HeatKernel.Mat → List ℝ × List (ℕ → ℝ)} (hs : IsSolver solver) :
    ∃ H, HeatKernel.construct solver K = some H ∧ IsHeatFlow rows.length (pointDistance rows) (HeatKernel.evaluate H) ∧
      (∀ i t, HeatKernel.autoDiffusion H i t = HeatKernel.evaluate H i i t) ∧
      ∀ i < rows.length, (∀ j < rows.length, ∀ t, 0 ≤ t → 0 ≤ HeatKernel.evaluate H i j t ∧ HeatKernel.evaluate H i j t ≤ 1) ∧
        ∀ s t, s ≤ t → HeatKernel.autoDiffusion H i t ≤ HeatKernel.autoDiffusion H i s := by
  classical
  obtain ⟨vs, L, H, h1, h2, h3, h4⟩ := C97_kernel K h.wf h.closed solver hs
  obtain ⟨vs', L', k1, k2, k3, k4, -⟩ := C96_laplacian K h.wf h.closed
  obtain ⟨vs'', H', l1, l2, l3, -, -⟩ := C97_trace K h.wf h.closed solver hs
  obtain ⟨vs''', H'', m1, m2, m3⟩ := C97_diffusion K h.wf h.closed (by
    intro u v d huv hd
    rw [h.data u v d huv hd]
    exact Real.sqrt_nonneg _) solver hs
  have hv : IsVertexList K (List.range rows.length) := h.vertices ▸ HeatKernel.vertices_list h.wf
  obtain rfl := HeatKernel.vertexList_unique h1 hv
  obtain rfl := HeatKernel.vertexList_unique k1 h1
  obtain rfl := HeatKernel.vertexList_unique m1 h1
  obtain rfl : H = H' := Option.some.inj (h3.symm.trans l2)
  obtain rfl : H = H'' := Option.some.inj (h3.symm.trans m2)
  have hL : L' = L := by
    rw [h2] at k2
    injection k2 with e
    injection e with _ e
    exact e.symm
  subst hL
  rw [List.length_range] at h4 k4 m3
  refine ⟨H, h3, ⟨fun i hi j hj => (h4 i hi j hj).1, fun i hi j hj t => ?_⟩, l3, m3⟩
  have hw : ∀ k < rows.length, k ≠ i → L' i k = -if IsGabriel rows.length (pointDistance rows) i k then pointDistance rows i k else 0 := by
    intro k hk hki
    have := k3 i k i k hki.symm (by rw [List.getElem?_range hi]) (by rw [List.getElem?_range hk])
    rcases this with ⟨_, hd⟩ | ⟨hd, e⟩
    · have e := h.data i k _ hki.symm hd
      rw [if_pos ((h.edges i k hi hk hki.symm).1 (by obtain ⟨s, a, b, _⟩ := hd; exact ⟨s, a, b⟩)), ← e, neg_neg]
    · rw [if_neg]
      · linarith
      · intro hg
        exact (hd.resolve_left hki.symm) ((h.edges i k hi hk hki.symm).2 hg)
  have := ((h4 i hi j hj).2 t).1
  convert this using 1
  have e0 : ∑ k ∈ range rows.length, L' i k * HeatKernel.evaluate H k j t = ∑ k ∈ range rows.length, L' i k * (HeatKernel.evaluate H k j t - HeatKernel.evaluate H i j t) := by
    simp only [mul_sub]
    rw [sum_sub_distrib, ← sum_mul, k4 i hi, zero_mul, sub_zero]
  rw [e0, gabrielNeighbours, sum_filter, ← sum_neg_distrib]
  refine sum_congr rfl fun k hk => ?_
  by_cases hki : k = i
  · subst hki
    simp
  · rw [hw k (mem_range.1 hk) hki]
    split <;> ring

/-! ### Output -/

theorem output_eq (c : Context) (H : HeatKernel.Kernel) {rows : List (List ℝ)} :
    output c H ((List.range rows.length).map (meanLength rows.length (pointDistance rows))) =
      blocks [0, 1 / 1000, 1 / 100, 1 / 10, 1 / 2, 1, 9] rows.length fun t i =>
        Utilities.decimal i ++ ['\t'] ++ c.print ((meanLength rows.length (pointDistance rows) i).map (· * HeatKernel.autoDiffusion H i t)) ++ ['\n'] := by
  unfold output blocks times
  rw [← List.flatMap_def]
  refine List.flatMap_congr fun t _ => ?_
  rw [List.length_map, List.length_range, ← List.flatMap_def]
  congr 1
  refine List.flatMap_congr fun i hi => ?_
  unfold value
  rw [List.getD_eq_getElem?_getD, List.getElem?_map, List.getElem?_range (List.mem_range.1 hi)]
  rfl

theorem plane_spec {pc : PointCloud ℝ} {rows : List (List ℝ)} (hpc : pc.Has rows) (h2 : 2 ≤ pc.d) :
    (List.range rows.length).mapM (plane pc) = some ((List.range rows.length).map fun i => ((rows.getD i []).getD 0 0, (rows.getD i []).getD 1 0)) := by
  refine mapM_eq_some _ _ _ fun i hi => ?_
  have hi := List.mem_range.1 hi
  have hl := hpc.dimension _ (List.getElem_mem hi)
  unfold plane
  rw [C71_get pc rows hpc, List.getD_eq_getElem _ _ hi, List.getElem?_eq_getElem hi]
  simp only [Option.bind_eq_bind, Option.bind_some]
  rw [List.getElem?_eq_getElem (by omega), List.getElem?_eq_getElem (by omega), List.getD_eq_getElem _ _ (by omega), List.getD_eq_getElem _ _ (by omega)]
  rfl

theorem gnuplot_eq (c : Context) (H : HeatKernel.Kernel) {rows : List (List ℝ)} :
    gnuplot c H ((List.range rows.length).map (meanLength rows.length (pointDistance rows)))
      ((List.range rows.length).map fun i => ((rows.getD i []).getD 0 0, (rows.getD i []).getD 1 0)) =
      blocks [0, 1 / 1000, 1 / 100, 1 / 10, 1 / 2, 1, 9] rows.length fun t i =>
        c.print (some ((rows.getD i []).getD 0 0)) ++ ['\t'] ++ c.print (some ((rows.getD i []).getD 1 0)) ++ ['\t'] ++
          c.print ((meanLength rows.length (pointDistance rows) i).map (· * HeatKernel.autoDiffusion H i t)) ++ ['\n'] := by
  unfold gnuplot blocks times
  rw [← List.flatMap_def]
  refine List.flatMap_congr fun t _ => ?_
  rw [List.length_map, List.length_range, ← List.flatMap_def]
  congr 1
  refine List.flatMap_congr fun i hi => ?_
  unfold value
  rw [List.getD_eq_getElem?_getD, List.getElem?_map, List.getElem?_range (List.mem_range.1 hi), List.getD_eq_getElem?_getD, List.getElem?_map,
    List.getElem?_range (List.mem_range.1 hi)]
  rfl

theorem main_eq (c : Context) (files : List Char → Option (List Char)) (input : List Char) (more : List (List Char)) {pc : PointCloud ℝ}
    (hload : loadPoints c (files input) = .ok pc) {K : Complex ℝ} (hK : skeleton pc = some K) {l : List (Option ℝ)} (hl : scales K = some l) :
    main c files (input :: more) = if K.vertices = [] then .error .undefined
      else match HeatKernel.construct c.solver K with
        | none => .error .exception
        | some H =>
          match (List.range l.length).mapM (plane pc) with
          | none => .error .undefined
          | some points => .ok (0, output c H l, some (gnuplot c H l points)) := by
  unfold main
  simp only [hload, hK, hl]
  split
  · rfl
  · cases HeatKernel.construct c.solver K with
    | none => rfl
    | some H => cases (List.range l.length).mapM (plane pc) <;> rfl

/-- C185. For points with at least two coordinates, the tool writes one block for each of the times 0, 0.001, 0.01, 0.1, 0.5, 1 and 9.  Each block contains, for each of the points, the mean length of its
edges in the Gabriel graph, multiplied by the amount of heat that a unit of heat has left at this point at this time.  The same values are written to a file, next to the first two coordinates of the points.
Heat is never negative, and what is left of it never increases.  Missing, and wrong: for a point without edges, the value is not a number (`C185_isolated`); points on a line, and files
without points, are undefined behaviour (`C185_failures`). -/
theorem _root_.Aleph.C185_output_partial (c : Context) (hsolver : IsSolver c.solver) (files : List Char → Option (List Char)) (input : List Char) (more : List (List Char))
    (pc : PointCloud ℝ) (hload : loadPoints c (files input) = .ok pc) (rows : List (List ℝ)) (hpc : pc.Has rows) (hne : rows ≠ []) (h2 : 2 ≤ pc.d) :
    ∃ (heat : ℕ → ℕ → ℝ → ℝ) (names : ℕ → List Char), IsHeatFlow rows.length (pointDistance rows) heat ∧ (∀ i < rows.length, ∀ j < rows.length, ∀ t, 0 ≤ t → 0 ≤ heat i j t ∧ heat i j t ≤ 1) ∧
      (∀ i < rows.length, ∀ s t, s ≤ t → heat i i t ≤ heat i i s) ∧ (∀ i, IsUsualNotation i (names i)) ∧
      main c files (input :: more) = .ok (0,
        blocks [0, 1 / 1000, 1 / 100, 1 / 10, 1 / 2, 1, 9] rows.length (fun t i =>
          names i ++ ['\t'] ++ c.print ((meanLength rows.length (pointDistance rows) i).map (· * heat i i t)) ++ ['\n']),
        some (blocks [0, 1 / 1000, 1 / 100, 1 / 10, 1 / 2, 1, 9] rows.length fun t i =>
          c.print (some ((rows.getD i []).getD 0 0)) ++ ['\t'] ++ c.print (some ((rows.getD i []).getD 1 0)) ++ ['\t'] ++
            c.print ((meanLength rows.length (pointDistance rows) i).map (· * heat i i t)) ++ ['\n'])) := by
  obtain ⟨K, hK, hs⟩ := skeleton_spec hpc
  obtain ⟨H, k1, k2, k3, k4⟩ := kernel_spec hs hsolver
  refine ⟨HeatKernel.evaluate H, Utilities.decimal, k2, fun i hi j hj t ht => (k4 i hi).1 j hj t ht, fun i hi s t hst => ?_, Utilities.decimal_spec, ?_⟩
  · rw [← k3, ← k3]
    exact (k4 i hi).2 s t hst
  · rw [main_eq c files input more hload hK (scales_spec hs), if_neg (by rw [hs.vertices]; simpa using hne), k1, List.length_map, List.length_range, plane_spec hpc h2]
    simp only [← k3]
    rw [output_eq, gnuplot_eq]

/-- C185. The value of a point is a number if and only if the point has an edge.  This holds for all points if there are at least two and they are pairwise different.  It is wrong for a single point,
and for each point that occurs at least three times. -/
theorem _root_.Aleph.C185_isolated (rows : List (List ℝ)) :
    (∀ i, meanLength rows.length (pointDistance rows) i = none ↔ ∀ j < rows.length, ¬IsGabriel rows.length (pointDistance rows) i j) ∧
    (2 ≤ rows.length → (∀ i < rows.length, ∀ j < rows.length, i ≠ j → pointDistance rows i j ≠ 0) → ∀ i < rows.length, meanLength rows.length (pointDistance rows) i ≠ none) ∧
    (rows.length = 1 → meanLength rows.length (pointDistance rows) 0 = none) ∧
    ∀ i j k, i < rows.length → j < rows.length → k < rows.length → i ≠ j → i ≠ k → j ≠ k → rows[i]? = rows[j]? → rows[i]? = rows[k]? →
      meanLength rows.length (pointDistance rows) i = none := by
  classical
  have key : ∀ i, meanLength rows.length (pointDistance rows) i = none ↔ ∀ j < rows.length, ¬IsGabriel rows.length (pointDistance rows) i j := by
    intro i
    unfold meanLength
    split
    · next h =>
      rw [card_eq_zero, gabrielNeighbours, filter_eq_empty_iff] at h
      simpa using h
    · next h =>
      rw [card_eq_zero, gabrielNeighbours, filter_eq_empty_iff] at h
      simpa using h
  refine ⟨key, fun h2 hd i hi hnone => ?_, fun h1 => ?_, fun i j k hi hj hk hij hik hjk e1 e2 => ?_⟩
  · obtain ⟨j, hj, hmin⟩ := exists_min_image ((range rows.length).erase i) (pointDistance rows i) (by
      refine ⟨if i = 0 then 1 else 0, ?_⟩
      rw [mem_erase, mem_range]
      split <;> omega)
    rw [mem_erase, mem_range] at hj
    refine (key i).1 hnone j hj.2 ⟨hj.1.symm, fun r hr h1 h3 => ?_⟩
    have k1 := hmin r (mem_erase.2 ⟨h1, mem_range.2 hr⟩)
    have k2 : 0 < pointDistance rows r j := lt_of_le_of_ne (Real.sqrt_nonneg _) (hd r hr j hj.2 h3).symm
    have k3 : 0 ≤ pointDistance rows i j := Real.sqrt_nonneg _
    rw [dist_comm rows r i]
    nlinarith [pow_le_pow_left₀ k3 k1 2, pow_pos k2 2]
  · refine (key 0).2 fun j hj hg => hg.1 (by omega)
  · refine (key i).2 fun m hm hg => ?_
    have hsame : ∀ a b, rows[a]? = rows[b]? → ∀ x, pointDistance rows a x = pointDistance rows b x := by
      intro a b e x
      unfold pointDistance
      rw [List.getD_eq_getElem?_getD, e, ← List.getD_eq_getElem?_getD]
    have hz : ∀ a, pointDistance rows a a = 0 := by
      intro a
      unfold pointDistance
      rw [List.zipWith_self]
      simp
    have : ∀ r < rows.length, r ≠ i → rows[i]? = rows[r]? → r = m := by
      intro r hr h1 e
      by_contra h3
      have := hg.2 r hr h1 h3
      rw [← hsame i r e, ← hsame i r e, hz] at this
      simp at this
    exact hjk ((this j hj hij.symm e1).trans (this k hk hik.symm e2).symm)

/-- C185. Without a file, the tool does nothing but report failure.  Files with lines of different lengths raise an exception.  A file that cannot be opened is treated like a file without points;
these are undefined behaviour, and so are points with fewer than two coordinates. -/
theorem _root_.Aleph.C185_failures (c : Context) (hsolver : IsSolver c.solver) (files : List Char → Option (List Char)) :
    main c files [] = .ok (-1, [], none) ∧
    ∀ input more, (files input = none → main c files (input :: more) = .error .undefined) ∧
      (∀ text, files input = some text → PointCloud.load c.convert text = none → main c files (input :: more) = .error .exception) ∧
      ∀ pc rows, loadPoints c (files input) = .ok pc → pc.Has rows → rows = [] ∨ pc.d < 2 → main c files (input :: more) = .error .undefined := by
  have key : ∀ input more pc rows, loadPoints c (files input) = .ok pc → pc.Has rows → rows = [] ∨ pc.d < 2 → main c files (input :: more) = .error .undefined := by
    intro input more pc rows hload hpc h
    obtain ⟨K, hK, hs⟩ := skeleton_spec hpc
    obtain ⟨H, k1, -⟩ := kernel_spec hs hsolver
    rw [main_eq c files input more hload hK (scales_spec hs)]
    by_cases hne : rows = []
    · rw [if_pos (by rw [hs.vertices, hne]; rfl)]
    · have hd := h.resolve_left hne
      have hpos : 0 < rows.length := List.length_pos_iff.2 hne
      rw [if_neg (by rw [hs.vertices]; simpa using hne), k1, List.length_map, List.length_range]
      have : (List.range rows.length).mapM (plane pc) = none := by
        obtain ⟨m, hm⟩ : ∃ m, rows.length = m + 1 := ⟨rows.length - 1, by omega⟩
        rw [hm, List.range_succ_eq_map, List.mapM_cons]
        have : plane pc 0 = none := by
          have hl := hpc.dimension _ (List.getElem_mem hpos)
          unfold plane
          rw [C71_get pc rows hpc, List.getElem?_eq_getElem hpos]
          simp only [Option.bind_eq_bind, Option.bind_some]
          rw [List.getElem?_eq_none (i := 1) (by omega)]
          cases (rows[0])[0]? <;> rfl
        rw [this]
        rfl
      simp only [this]
  refine ⟨rfl, fun input more => ⟨fun h => key input more PointCloud.empty [] (by rw [h]; rfl) ⟨rfl, by simp, rfl⟩ (Or.inl rfl), fun text h hl => ?_, key input more⟩⟩
  unfold main
  simp only [h, loadPoints, hl]

/-- Eigenvalue problems of symmetric matrices can be solved. -/
theorem exists_isSolver : ∃ solver, IsSolver solver := by
  classical
  refine ⟨fun M => if h : ∀ i < M.n, ∀ j < M.n, M.entry i j = M.entry j i then
    ((HeatKernel.eigensystem_exists M.n M.entry h).choose, (HeatKernel.eigensystem_exists M.n M.entry h).choose_spec.choose) else ([], []), fun n L h => ?_⟩
  beta_reduce
  rw [dif_pos h]
  exact (HeatKernel.eigensystem_exists n L h).choose_spec.choose_spec

/-- The hypotheses of the theorems can be met: three points in the plane; the longest side of a triangle with a right angle is not an edge. -/
example : ∃ c : Context, IsSolver c.solver ∧ (PointCloud.mk 3 2 [(0 : ℝ), 0, 1, 0, 0, 3]).Has [[0, 0], [1, 0], [0, 3]] ∧
    IsGabriel 3 (pointDistance [[0, 0], [1, 0], [0, 3]]) 0 1 ∧ ¬IsGabriel 3 (pointDistance [[0, 0], [1, 0], [0, 3]]) 1 2 := by
  obtain ⟨solver, hs⟩ := exists_isSolver
  refine ⟨⟨fun _ => 0, fun _ => [], solver⟩, hs, ⟨rfl, by simp, rfl⟩, ⟨by omega, ?_⟩, ?_⟩
  · intro r hr h1 h2
    obtain rfl : r = 2 := by omega
    simp only [pointDistance]
    rw [Real.sq_sqrt, Real.sq_sqrt, Real.sq_sqrt] <;> norm_num
  · rintro ⟨-, h⟩
    have := h 0 (by omega) (by omega) (by omega)
    simp only [pointDistance] at this
    rw [Real.sq_sqrt, Real.sq_sqrt, Real.sq_sqrt] at this <;> norm_num at this

end Aleph.MultiScaleSkeleton
