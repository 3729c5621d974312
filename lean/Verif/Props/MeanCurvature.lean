import Verif.Model.MeanCurvature
import Verif.Props.NearestNeighbours
import Verif.Props.PointCloud
import Verif.Props.TangentSpace
import Verif.Spec.MeanCurvature
import Mathlib.Data.List.GetD

/-!
# C186: the tool `mean_curvature`
-/

namespace Aleph.MeanCurvature

open Spec Spec.Curvature
open VietorisRipsExample (Failure)
open TangentSpace (IsSvd IsSolver)

theorem position_eq {pc : PointCloud ℝ} {rows : List (List ℝ)} (hpc : pc.Has rows) : position pc = positions pc.d rows := by
  funext i l
  unfold position positions
  rw [C71_get pc rows hpc, ← List.getD_eq_getElem?_getD]

theorem output_eq (c : Context) {pc : PointCloud ℝ} {rows : List (List ℝ)} (hpc : pc.Has rows) {xs : List ℝ} (h : xs.length = rows.length) :
    output c pc xs = some (pointLines c.print rows xs) := by
  have hn : pc.n = rows.length := hpc.count
  unfold output
  rw [hn, mapM_eq_some _ (fun i => line c (rows.getD i []) (xs.getD i 0))]
  · simp only [Option.bind_eq_bind, Option.bind_some, Option.some.injEq, pointLines]
    congr 1
    refine List.ext_getElem (by simp [h]) fun i h1 h2 => ?_
    rw [List.length_map, List.length_range] at h1
    rw [List.getElem_map, List.getElem_range, List.getElem_zipWith, List.getD_eq_getElem _ _ h1, List.getD_eq_getElem _ _ (by omega)]
    unfold line
    rw [List.flatMap_def]
    rfl
  · intro i hi
    have hi := List.mem_range.1 hi
    rw [C71_get pc rows hpc, List.getElem?_eq_getElem hi, List.getElem?_eq_getElem (by omega), List.getD_eq_getElem _ _ hi, List.getD_eq_getElem _ _ (by omega)]
    rfl

theorem main_eq (c : Context) (files : List Char → Option (List Char)) (filename word : List Char) (more : List (List Char)) {k : ℕ} (hk : (c.stoul word).map (· % 4294967296) = some k)
    {pc : PointCloud ℝ} (hload : loadPoints c (files filename) = .ok pc) {rows : List (List ℝ)} (hpc : pc.Has rows) :
    main c files (filename :: word :: more) =
      match TangentSpace.curvatures c.sort (c.svd pc.d) (c.solver pc.d) rows.length (positions pc.d rows) k with
      | none => .error .undefined
      | some xs => match output c pc xs with
        | none => .error .undefined
        | some text => .ok (0, text) := by
  obtain ⟨x, h1, rfl⟩ := Option.map_eq_some_iff.1 hk
  unfold main
  have hn : pc.n = rows.length := hpc.count
  simp only [h1, hload, hn, position_eq hpc]
  cases TangentSpace.curvatures c.sort (c.svd pc.d) (c.solver pc.d) rows.length (positions pc.d rows) (x % 4294967296) with
  | none => rfl
  | some xs =>
    simp only
    cases output c pc xs <;> rfl

/-- C186. For at least one and at most as many neighbours as points, the tool writes one line for each point, in the order of the file: its coordinates, and a number that is never negative.  If the solver
reports eigenvalues in ascending order, this number is the curvature of the sphere or plane that fits best to the nearest neighbours of the point.  Missing, and wrong: neighbours that belong to a sphere
or plane do not get its curvature (`C186_sphere`, `C186_circle`); the order of eigenvalues is not specified (`C141_order`); for other numbers of neighbours, the behaviour is undefined (`C186_failures`). -/
theorem _root_.Aleph.C186_output_partial (c : Context) (hsort : IsStdSort c.sort) (hsvd : ∀ d, IsSvd (c.svd d)) (hsol : ∀ d, IsSolver (c.solver d)) (files : List Char → Option (List Char))
    (filename word : List Char) (more : List (List Char)) (k : ℕ) (hk : (c.stoul word).map (· % 4294967296) = some k) (pc : PointCloud ℝ) (hload : loadPoints c (files filename) = .ok pc)
    (rows : List (List ℝ)) (hpc : pc.Has rows) (hd : 1 ≤ pc.d) (h1 : 1 ≤ k) (hn : k ≤ rows.length) :
    ∃ xs : List ℝ, xs.length = rows.length ∧ (∀ x ∈ xs, 0 ≤ x) ∧
      ((∀ S C, (c.solver pc.d S C).Pairwise fun e f => e.re ≤ f.re) → ∀ i (hi : i < xs.length), IsFittedCurvature rows.length (positions pc.d rows) k i xs[i]) ∧
      main c files (filename :: word :: more) = .ok (0, pointLines c.print rows xs) := by
  obtain ⟨xs, e1, e2, e3⟩ := C141_defined hsort (hsvd pc.d) (c.solver pc.d) rows.length (positions pc.d rows) k hd h1 hn
  refine ⟨xs, e2, e3, fun hasc i hi => ?_, ?_⟩
  · obtain ⟨ys, f1, f2⟩ := C141_fit_partial hsort (hsvd pc.d) (hsol pc.d) hasc rows.length (positions pc.d rows) k hd h1 hn
    obtain rfl : xs = ys := Option.some.inj (e1.symm.trans f1)
    obtain ⟨ids, h, g1, g2⟩ := f2 i (by omega)
    refine ⟨ids, h, g1, fun hq => ?_⟩
    obtain ⟨q, q1, q2, q3⟩ := g2 hq
    rw [List.getElem?_eq_getElem hi] at q3
    exact ⟨q, q1, q2, Option.some.inj q3⟩
  · rw [main_eq c files filename word more hk hload hpc, e1]
    simp only
    rw [output_eq c hpc e2]

/-- C186. If all points of the file belong to a sphere, then the tool does not write the curvature of this sphere: every number is zero, or the curvature of a sphere that intersects the sphere
orthogonally. -/
theorem _root_.Aleph.C186_sphere (c : Context) (hsort : IsStdSort c.sort) (hsvd : ∀ d, IsSvd (c.svd d)) (hsol : ∀ d, IsSolver (c.solver d)) (files : List Char → Option (List Char))
    (filename word : List Char) (more : List (List Char)) (k : ℕ) (hk : (c.stoul word).map (· % 4294967296) = some k) (pc : PointCloud ℝ) (hload : loadPoints c (files filename) = .ok pc)
    (rows : List (List ℝ)) (hpc : pc.Has rows) (hd : 1 ≤ pc.d) (h1 : 1 ≤ k) (hn : k ≤ rows.length) (m : Fin pc.d → ℝ) (r : ℝ) (hm : ∀ j < rows.length, distance (positions pc.d rows j) m = r) :
    ∃ xs : List ℝ, xs.length = rows.length ∧ (∀ x ∈ xs, x = 0 ∨ ∃ (m' : Fin pc.d → ℝ) (r' : ℝ), 0 < r' ∧ x = 1 / r' ∧ distance m m' ^ 2 = r ^ 2 + r' ^ 2) ∧
      main c files (filename :: word :: more) = .ok (0, pointLines c.print rows xs) := by
  obtain ⟨xs, e1, e2, e3⟩ := C141_defined hsort (hsvd pc.d) (c.solver pc.d) rows.length (positions pc.d rows) k hd h1 hn
  obtain ⟨ys, f1, f2⟩ := C141_sphere hsort (hsvd pc.d) (hsol pc.d) rows.length (positions pc.d rows) k hd h1 hn m r hm
  obtain rfl : xs = ys := Option.some.inj (e1.symm.trans f1)
  refine ⟨xs, e2, fun x hx => ?_, ?_⟩
  · obtain ⟨i, hi, rfl⟩ := List.mem_iff_getElem.1 hx
    have := f2 i (by omega)
    rw [List.getElem?_eq_getElem hi] at this
    simpa only [Option.some.injEq] using this
  · rw [main_eq c files filename word more hk hload hpc, e1]
    simp only
    rw [output_eq c hpc e2]

/-- C186. If all other points are at the same distance from a point, then the tool writes zero for this point. -/
theorem _root_.Aleph.C186_equidistant (c : Context) (hsort : IsStdSort c.sort) (hsvd : ∀ d, IsSvd (c.svd d)) (hsol : ∀ d, IsSolver (c.solver d)) (files : List Char → Option (List Char))
    (filename word : List Char) (more : List (List Char)) (k : ℕ) (hk : (c.stoul word).map (· % 4294967296) = some k) (pc : PointCloud ℝ) (hload : loadPoints c (files filename) = .ok pc)
    (rows : List (List ℝ)) (hpc : pc.Has rows) (hd : 1 ≤ pc.d) (h1 : 1 ≤ k) (hn : k ≤ rows.length) :
    ∃ xs : List ℝ, xs.length = rows.length ∧
      (∀ i < rows.length, ∀ r, (∀ j < rows.length, j ≠ i → distance (positions pc.d rows i) (positions pc.d rows j) = r) → xs[i]? = some 0) ∧
      main c files (filename :: word :: more) = .ok (0, pointLines c.print rows xs) := by
  obtain ⟨xs, e1, e2, e3⟩ := C141_defined hsort (hsvd pc.d) (c.solver pc.d) rows.length (positions pc.d rows) k hd h1 hn
  refine ⟨xs, e2, fun i hi r hr => ?_, ?_⟩
  · obtain ⟨ys, f1, f2⟩ := C141_equidistant hsort (hsvd pc.d) (hsol pc.d) rows.length (positions pc.d rows) k hd h1 hn i hi r hr
    obtain rfl : xs = ys := Option.some.inj (e1.symm.trans f1)
    exact f2
  · rw [main_eq c files filename word more hk hload hpc, e1]
    simp only
    rw [output_eq c hpc e2]

/-- C186. For three points of the unit circle, the tool writes zero for each of them, whatever the number of neighbours. -/
theorem _root_.Aleph.C186_circle (c : Context) (hsort : IsStdSort c.sort) (hsvd : ∀ d, IsSvd (c.svd d)) (hsol : ∀ d, IsSolver (c.solver d)) (files : List Char → Option (List Char))
    (filename word : List Char) (more : List (List Char)) (k : ℕ) (hk : (c.stoul word).map (· % 4294967296) = some k) (pc : PointCloud ℝ) (hload : loadPoints c (files filename) = .ok pc)
    (hpc : pc.Has [[1, 0], [-1 / 2, √3 / 2], [-1 / 2, -√3 / 2]]) (h1 : 1 ≤ k) (hn : k ≤ 3) :
    main c files (filename :: word :: more) = .ok (0, pointLines c.print [[1, 0], [-1 / 2, √3 / 2], [-1 / 2, -√3 / 2]] [0, 0, 0]) := by
  have h3 : √(3 : ℝ) ^ 2 = 3 := Real.sq_sqrt (by norm_num)
  obtain ⟨m, d, l⟩ := pc
  obtain rfl : 2 = d := hpc.dimension [1, 0] (by simp)
  obtain ⟨xs, e1, e2, e3⟩ := C186_equidistant c hsort hsvd hsol files filename word more k hk _ hload _ hpc (by norm_num) h1 hn
  have key : ∀ i < 3, xs[i]? = some 0 := by
    intro i hi
    refine e2 i hi √3 fun j hj hij => ?_
    have hj : j < 3 := hj
    unfold distance
    congr 1
    rw [Fin.sum_univ_two]
    interval_cases i <;> interval_cases j <;> first | exact absurd rfl hij | skip
    all_goals
      simp [positions]
      ring_nf
      try rw [h3]
      try norm_num
  rw [e3]
  match xs, e1 with
  | [x, y, z], _ =>
    have hx := key 0 (by norm_num)
    have hy := key 1 (by norm_num)
    have hz := key 2 (by norm_num)
    simp at hx hy hz
    rw [hx, hy, hz]

/-- C186. Without a file and a number, the tool does nothing but report failure.  Arguments that are not numbers, and files with lines of different lengths, raise an exception.  A file that cannot be opened
is treated like a file without points, for which nothing is written.  For points, the behaviour is undefined without neighbours, and for more neighbours than points. -/
theorem _root_.Aleph.C186_failures (c : Context) (hsort : IsStdSort c.sort) (hsvd : ∀ d, IsSvd (c.svd d)) (files : List Char → Option (List Char)) :
    main c files [] = .ok (-1, []) ∧ (∀ filename, main c files [filename] = .ok (-1, [])) ∧
    ∀ filename word more, (c.stoul word = none → main c files (filename :: word :: more) = .error .exception) ∧
      (∀ text, files filename = some text → PointCloud.load c.convert text = none → main c files (filename :: word :: more) = .error .exception) ∧
      ∀ k, (c.stoul word).map (· % 4294967296) = some k → (files filename = none → main c files (filename :: word :: more) = .ok (0, [])) ∧
        ∀ pc rows, loadPoints c (files filename) = .ok pc → pc.Has rows → (rows = [] → main c files (filename :: word :: more) = .ok (0, [])) ∧
          (rows ≠ [] → k = 0 ∨ rows.length < k → main c files (filename :: word :: more) = .error .undefined) := by
  have key : ∀ filename word more k, (c.stoul word).map (· % 4294967296) = some k → ∀ pc rows, loadPoints c (files filename) = .ok pc → pc.Has rows →
      (rows = [] → main c files (filename :: word :: more) = .ok (0, [])) ∧
      (rows ≠ [] → k = 0 ∨ rows.length < k → main c files (filename :: word :: more) = .error .undefined) := by
    intro filename word more k hk pc rows hload hpc
    constructor
    · intro h
      rw [main_eq c files filename word more hk hload hpc, C141_undefined hsort (hsvd pc.d) (c.solver pc.d) rows.length (positions pc.d rows) k (by rw [h]; simp; omega), if_pos (by simp [h])]
      simp only
      rw [output_eq c hpc (by simp [h]), h]
      rfl
    · intro h hk'
      rw [main_eq c files filename word more hk hload hpc, C141_undefined hsort (hsvd pc.d) (c.solver pc.d) rows.length (positions pc.d rows) k hk', if_neg (by simpa using h)]
  refine ⟨rfl, fun _ => rfl, fun filename word more => ⟨fun h => ?_, fun text h hl => ?_, fun k hk => ⟨fun h => ?_, key filename word more k hk⟩⟩⟩
  · unfold main
    simp only [h]
  · unfold main
    simp only [h, loadPoints, hl]
    cases c.stoul word <;> rfl
  · exact (key filename word more k hk PointCloud.empty [] (by rw [h]; rfl) ⟨rfl, by simp, rfl⟩).1 rfl

/-- The contracts of Eigen can be met in each dimension. -/
theorem exists_contracts : ∃ c : Context, IsStdSort c.sort ∧ (∀ d, IsSvd (c.svd d)) ∧ (∀ d, IsSolver (c.solver d)) ∧ (∀ d S C, (c.solver d S C).Pairwise fun e f => e.re ≤ f.re) ∧
    c.stoul ['2'] = some 2 := by
  obtain ⟨sort, hs⟩ := exists_isStdSort ℕ
  exact ⟨⟨fun _ => 0, fun _ => some 2, fun _ => [], sort, fun _ => TangentSpace.exampleSvd, fun _ => TangentSpace.ascending⟩, hs, fun _ => TangentSpace.exampleSvd_spec,
    fun _ => TangentSpace.ascending_solver, fun _ => TangentSpace.ascending_sorted, rfl⟩

/-- The hypotheses of the theorems can be met: three points in the plane, and two neighbours. -/
example : (PointCloud.mk 3 2 [1, 0, -1 / 2, √3 / 2, -1 / 2, -√3 / 2]).Has [[1, 0], [-1 / 2, √3 / 2], [-1 / 2, -√3 / 2]] := ⟨rfl, by simp, rfl⟩

end Aleph.MeanCurvature
