import Verif.Props.Laplacian
import Verif.Props.Kahan
import Verif.Props.NearestNeighbours
import Mathlib.Analysis.Matrix.Spectrum
import Mathlib.Analysis.SpecialFunctions.ExpDeriv
import Mathlib.Analysis.SpecialFunctions.Exponential
import Mathlib.Data.Fin.Tuple.Sort
import Mathlib.LinearAlgebra.Matrix.NonsingularInverse

/-!
# Properties of heat kernels
-/

namespace Aleph.HeatKernel

open Spec

/-- What is assumed about `Eigen::SelfAdjointEigenSolver`: it solves the eigenvalue problem of symmetric matrices. -/
def IsSolver (solver : Mat → List ℝ × List (ℕ → ℝ)) : Prop :=
  ∀ n L, (∀ i < n, ∀ j < n, L i j = L j i) → IsEigensystem n L (solver ⟨n, L⟩).1 (solver ⟨n, L⟩).2

theorem eigensystem_exists (n : ℕ) (L : ℕ → ℕ → ℝ) (hL : ∀ i < n, ∀ j < n, L i j = L j i) :
    ∃ values vectors, IsEigensystem n L values vectors := by
  let A : Matrix (Fin n) (Fin n) ℝ := fun i j => L i j
  have hA : A.IsHermitian := by
    ext i j
    simp only [Matrix.conjTranspose_apply, star_trivial]
    exact hL _ j.2 _ i.2
  let σ := Tuple.sort hA.eigenvalues
  let vals : Fin n → ℝ := hA.eigenvalues ∘ σ
  let vecs : Fin n → ℕ → ℝ := fun k i => if h : i < n then hA.eigenvectorBasis (σ k) ⟨i, h⟩ else 0
  have hvals : ∀ k (h : k < n), (List.ofFn vals).getD k 0 = hA.eigenvalues (σ ⟨k, h⟩) := by
    intro k h
    rw [List.getD_eq_getElem _ _ (by simpa using h), List.getElem_ofFn]
    rfl
  have hvecs : ∀ k (h : k < n) i (h' : i < n), (List.ofFn vecs).getD k 0 i = hA.eigenvectorBasis (σ ⟨k, h⟩) ⟨i, h'⟩ := by
    intro k h i h'
    rw [List.getD_eq_getElem _ _ (by simpa using h), List.getElem_ofFn]
    simp only [vecs, dif_pos h']
  refine ⟨List.ofFn vals, List.ofFn vecs, by simp, by simp, ?_, ?_, ?_⟩
  · rw [List.pairwise_ofFn]
    intro i j hij
    exact Tuple.monotone_sort hA.eigenvalues hij.le
  · intro k hk i hi
    have := congrFun (hA.mulVec_eigenvectorBasis (σ ⟨k, hk⟩)) ⟨i, hi⟩
    rw [hvals k hk, hvecs k hk i hi, Finset.sum_range]
    simp only [Matrix.mulVec, dotProduct, Pi.smul_apply, smul_eq_mul] at this
    rw [← this]
    refine Finset.sum_congr rfl fun j _ => ?_
    rw [hvecs k hk j j.2]
  · intro k hk l hl
    have := orthonormal_iff_ite.1 hA.eigenvectorBasis.orthonormal (σ ⟨k, hk⟩) (σ ⟨l, hl⟩)
    rw [Finset.sum_range]
    have e : ∀ i : Fin n, (List.ofFn vecs).getD k 0 i * (List.ofFn vecs).getD l 0 i =
        hA.eigenvectorBasis (σ ⟨k, hk⟩) i * hA.eigenvectorBasis (σ ⟨l, hl⟩) i := by
      intro i
      rw [hvecs k hk i i.2, hvecs l hl i i.2]
    rw [Finset.sum_congr rfl fun i _ => e i]
    rw [PiLp.inner_apply] at this
    simp only [σ.injective.eq_iff, Fin.mk.injEq] at this
    rw [← this]
    refine Finset.sum_congr rfl fun i _ => ?_
    simp [mul_comm]

theorem exists_isSolver : ∃ solver, IsSolver solver := by
  classical
  refine ⟨fun M => if h : ∀ i < M.n, ∀ j < M.n, M.entry i j = M.entry j i then
    ((eigensystem_exists M.n M.entry h).choose, (eigensystem_exists M.n M.entry h).choose_spec.choose) else ([], []), ?_⟩
  intro n L h
  simp only [dif_pos h]
  exact (eigensystem_exists n L h).choose_spec.choose_spec

/-- The sums in the code, in terms of an eigensystem. -/
theorem evaluate_sum {n : ℕ} {L : ℕ → ℕ → ℝ} {values : List ℝ} {vectors : List (ℕ → ℝ)} (h : IsEigensystem n L values vectors) (g : ℝ → (ℕ → ℝ) → ℝ) :
    Kahan.accumulate ((values.zip vectors).map fun p => g p.1 p.2) 0 = ∑ k ∈ Finset.range n, g (values.getD k 0) (vectors.getD k 0) := by
  rw [C49_accumulate, zero_add]
  have hlen : ((values.zip vectors).map fun p => g p.1 p.2).length = n := by
    rw [List.length_map, List.length_zip, h.size, h.count, min_self]
  have : ((values.zip vectors).map fun p => g p.1 p.2) = (List.range n).map fun k => g (values.getD k 0) (vectors.getD k 0) := by
    refine List.ext_getElem (by rw [hlen]; simp) ?_
    intro k h1 h2
    rw [hlen] at h1
    rw [List.getElem_map, List.getElem_map, List.getElem_zip, List.getElem_range, List.getD_eq_getElem _ _ (by rw [h.size]; exact h1),
      List.getD_eq_getElem _ _ (by rw [h.count]; exact h1)]
  rw [this, list_sum_range]

/-- The eigenvectors are complete. -/
theorem complete {n : ℕ} {L : ℕ → ℕ → ℝ} {values : List ℝ} {vectors : List (ℕ → ℝ)} (h : IsEigensystem n L values vectors) {i j : ℕ} (hi : i < n)
    (hj : j < n) : ∑ k ∈ Finset.range n, vectors.getD k 0 i * vectors.getD k 0 j = if i = j then 1 else 0 := by
  let V : Matrix (Fin n) (Fin n) ℝ := fun k i => vectors.getD k 0 i
  have h1 : V * V.transpose = 1 := by
    ext k l
    rw [Matrix.mul_apply, Matrix.one_apply]
    have := h.orthonormal k k.2 l l.2
    rw [Finset.sum_range] at this
    simp only [Fin.ext_iff]
    exact this
  have h2 := mul_eq_one_comm.1 h1
  have h3 := congrFun (congrFun h2 ⟨i, hi⟩) ⟨j, hj⟩
  rw [Matrix.mul_apply, Matrix.one_apply] at h3
  simp only [Fin.mk.injEq] at h3
  rw [Finset.sum_range, ← h3]
  rfl

theorem eigenvalue_eq {n : ℕ} {L : ℕ → ℕ → ℝ} {values : List ℝ} {vectors : List (ℕ → ℝ)} (h : IsEigensystem n L values vectors) {k : ℕ} (hk : k < n) :
    ∑ i ∈ Finset.range n, ∑ j ∈ Finset.range n, vectors.getD k 0 i * L i j * vectors.getD k 0 j = values.getD k 0 := by
  have : ∀ i ∈ Finset.range n, ∑ j ∈ Finset.range n, vectors.getD k 0 i * L i j * vectors.getD k 0 j =
      values.getD k 0 * (vectors.getD k 0 i * vectors.getD k 0 i) := by
    intro i hi
    simp only [mul_assoc]
    rw [← Finset.mul_sum, h.eigen k hk i (Finset.mem_range.1 hi)]
    ring
  rw [Finset.sum_congr rfl this, ← Finset.mul_sum, h.orthonormal k hk k hk, if_pos rfl, mul_one]

theorem construct_spec {K : Complex ℝ} (hK : WF K) (hc : FaceClosed K) {solver : Mat → List ℝ × List (ℕ → ℝ)} (hs : IsSolver solver) :
    ∃ vs L H, IsVertexList K vs ∧ weightedLaplacianMatrix K = some ⟨vs.length, L⟩ ∧ construct solver K = some H ∧
      IsEigensystem vs.length L H.eigenvalues H.eigenvectors ∧ H.skip = false ∧ (∀ i < vs.length, ∀ j < vs.length, L i j = L j i) ∧
      ∀ i < vs.length, ∑ j ∈ Finset.range vs.length, L i j = 0 := by
  obtain ⟨vs, L, h1, h2, _, h4, h5⟩ := C96_laplacian K hK hc
  refine ⟨vs, L, ⟨false, (solver ⟨vs.length, L⟩).1, (solver ⟨vs.length, L⟩).2⟩, h1, h2, ?_, hs _ _ h5, rfl, h5, h4⟩
  unfold construct
  rw [h2]
  simp

/-- Eigenvectors for non-zero eigenvalues are orthogonal to the constant vector. -/
theorem eigenvalue_mul_sum {n : ℕ} {L : ℕ → ℕ → ℝ} {values : List ℝ} {vectors : List (ℕ → ℝ)} (h : IsEigensystem n L values vectors)
    (hs : ∀ i < n, ∀ j < n, L i j = L j i) (h0 : ∀ i < n, ∑ j ∈ Finset.range n, L i j = 0) {k : ℕ} (hk : k < n) :
    values.getD k 0 * ∑ j ∈ Finset.range n, vectors.getD k 0 j = 0 := by
  rw [Finset.mul_sum, ← Finset.sum_congr rfl fun j hj => h.eigen k hk j (Finset.mem_range.1 hj), Finset.sum_comm]
  refine Finset.sum_eq_zero fun j hj => ?_
  rw [Finset.mem_range] at hj
  rw [← Finset.sum_mul, Finset.sum_congr rfl fun i hi => hs i (Finset.mem_range.1 hi) j hj, h0 j hj, zero_mul]

/-- C97. The heat kernel solves the heat equation of the Laplacian matrix, starting with the identity; it is symmetric, a semigroup, and preserves
the total amount of heat.  (These equations determine the kernel.) -/
theorem _root_.Aleph.C97_kernel (K : Complex ℝ) (hK : WF K) (hc : FaceClosed K) (solver : Mat → List ℝ × List (ℕ → ℝ)) (hs : IsSolver solver) :
    ∃ vs L H, IsVertexList K vs ∧ weightedLaplacianMatrix K = some ⟨vs.length, L⟩ ∧ construct solver K = some H ∧
      ∀ i < vs.length, ∀ j < vs.length,
        evaluate H i j 0 = (if i = j then 1 else 0) ∧
        ∀ t, HasDerivAt (fun t => evaluate H i j t) (-∑ k ∈ Finset.range vs.length, L i k * evaluate H k j t) t ∧
          evaluate H i j t = evaluate H j i t ∧
          (∀ s, ∑ k ∈ Finset.range vs.length, evaluate H i k s * evaluate H k j t = evaluate H i j (s + t)) ∧
          ∑ k ∈ Finset.range vs.length, evaluate H i k t = 1 := by
  obtain ⟨vs, L, H, h1, h2, h3, h4, h5, h6, h7⟩ := construct_spec hK hc hs
  refine ⟨vs, L, H, h1, h2, h3, ?_⟩
  generalize vs.length = n at *
  have hev : ∀ i j t, evaluate H i j t = ∑ k ∈ Finset.range n, Real.exp (-t * H.eigenvalues.getD k 0) * H.eigenvectors.getD k 0 i * H.eigenvectors.getD k 0 j :=
    fun i j t => evaluate_sum h4 fun l v => Real.exp (-t * l) * v i * v j
  simp only [hev]
  intro i hi j hj
  refine ⟨?_, ?_⟩
  · simp only [neg_zero, zero_mul, Real.exp_zero, one_mul]
    exact complete h4 hi hj
  intro t
  refine ⟨?_, ?_, ?_, ?_⟩
  · have hd : HasDerivAt (fun t => ∑ k ∈ Finset.range n, Real.exp (-t * H.eigenvalues.getD k 0) * H.eigenvectors.getD k 0 i * H.eigenvectors.getD k 0 j)
        (∑ k ∈ Finset.range n, Real.exp (-t * H.eigenvalues.getD k 0) * (-1 * H.eigenvalues.getD k 0) * H.eigenvectors.getD k 0 i * H.eigenvectors.getD k 0 j) t := by
      refine HasDerivAt.fun_sum fun k _ => ?_
      exact ((((hasDerivAt_neg t).mul_const _).exp).mul_const _).mul_const _
    convert hd using 1
    simp only [Finset.mul_sum]
    rw [Finset.sum_comm, ← Finset.sum_neg_distrib]
    refine Finset.sum_congr rfl fun k hk => ?_
    have := h4.eigen k (Finset.mem_range.1 hk) i hi
    have e : ∀ l ∈ Finset.range n, L i l * (Real.exp (-t * H.eigenvalues.getD k 0) * H.eigenvectors.getD k 0 l * H.eigenvectors.getD k 0 j) =
        (Real.exp (-t * H.eigenvalues.getD k 0) * H.eigenvectors.getD k 0 j) * (L i l * H.eigenvectors.getD k 0 l) := by
      intro l _
      ring
    rw [Finset.sum_congr rfl e, ← Finset.mul_sum, this]
    ring
  · exact Finset.sum_congr rfl fun k _ => by ring
  · intro s
    have e : ∀ k ∈ Finset.range n, (∑ a ∈ Finset.range n, Real.exp (-s * H.eigenvalues.getD a 0) * H.eigenvectors.getD a 0 i * H.eigenvectors.getD a 0 k) *
        (∑ b ∈ Finset.range n, Real.exp (-t * H.eigenvalues.getD b 0) * H.eigenvectors.getD b 0 k * H.eigenvectors.getD b 0 j) =
        ∑ a ∈ Finset.range n, ∑ b ∈ Finset.range n, (Real.exp (-s * H.eigenvalues.getD a 0) * Real.exp (-t * H.eigenvalues.getD b 0) *
          H.eigenvectors.getD a 0 i * H.eigenvectors.getD b 0 j) * (H.eigenvectors.getD a 0 k * H.eigenvectors.getD b 0 k) := by
      intro k _
      rw [Finset.sum_mul_sum]
      exact Finset.sum_congr rfl fun a _ => Finset.sum_congr rfl fun b _ => by ring
    rw [Finset.sum_congr rfl e, Finset.sum_comm]
    refine Finset.sum_congr rfl fun a ha => ?_
    rw [Finset.sum_comm]
    have e2 : ∀ b ∈ Finset.range n, ∑ k ∈ Finset.range n, (Real.exp (-s * H.eigenvalues.getD a 0) * Real.exp (-t * H.eigenvalues.getD b 0) *
          H.eigenvectors.getD a 0 i * H.eigenvectors.getD b 0 j) * (H.eigenvectors.getD a 0 k * H.eigenvectors.getD b 0 k) =
        if a = b then Real.exp (-(s + t) * H.eigenvalues.getD b 0) * H.eigenvectors.getD a 0 i * H.eigenvectors.getD b 0 j else 0 := by
      intro b hb
      rw [← Finset.mul_sum, h4.orthonormal a (Finset.mem_range.1 ha) b (Finset.mem_range.1 hb)]
      split_ifs with hab
      · subst hab
        rw [← Real.exp_add, mul_one]
        congr 3
        ring
      · rw [mul_zero]
    rw [Finset.sum_congr rfl e2, Finset.sum_ite_eq, if_pos ha]
  · rw [Finset.sum_comm]
    have e : ∀ k ∈ Finset.range n, ∑ l ∈ Finset.range n, Real.exp (-t * H.eigenvalues.getD k 0) * H.eigenvectors.getD k 0 i * H.eigenvectors.getD k 0 l =
        ∑ l ∈ Finset.range n, H.eigenvectors.getD k 0 i * H.eigenvectors.getD k 0 l := by
      intro k hk
      rw [← Finset.mul_sum, ← Finset.mul_sum]
      rcases mul_eq_zero.1 (eigenvalue_mul_sum h4 h6 h7 (Finset.mem_range.1 hk)) with h | h
      · rw [h, mul_zero, Real.exp_zero, one_mul]
      · rw [h, mul_zero, mul_zero]
    rw [Finset.sum_congr rfl e, Finset.sum_comm, Finset.sum_congr rfl fun l hl => complete h4 hi (Finset.mem_range.1 hl), Finset.sum_ite_eq,
      if_pos (Finset.mem_range.2 hi)]

/-- C97. Auto-diffusion and trace agree with the kernel; the determinant is always zero. -/
theorem _root_.Aleph.C97_trace (K : Complex ℝ) (hK : WF K) (hc : FaceClosed K) (solver : Mat → List ℝ × List (ℕ → ℝ)) (hs : IsSolver solver) :
    ∃ vs H, IsVertexList K vs ∧ construct solver K = some H ∧
      (∀ i t, autoDiffusion H i t = evaluate H i i t) ∧
      (∀ t, trace H t = ∑ i ∈ Finset.range vs.length, evaluate H i i t) ∧ ∀ t, determinant H t = 0 := by
  obtain ⟨vs, L, H, h1, h2, h3, h4, h5, h6, h7⟩ := construct_spec hK hc hs
  refine ⟨vs, H, h1, h3, fun _ _ => rfl, ?_, ?_⟩
  · intro t
    have hev : ∀ i, evaluate H i i t = ∑ k ∈ Finset.range vs.length, Real.exp (-t * H.eigenvalues.getD k 0) * H.eigenvectors.getD k 0 i * H.eigenvectors.getD k 0 i :=
      fun i => evaluate_sum h4 fun l v => Real.exp (-t * l) * v i * v i
    simp only [hev]
    rw [Finset.sum_comm]
    have hz : H.eigenvalues = (H.eigenvalues.zip H.eigenvectors).map Prod.fst := by
      rw [List.map_fst_zip]
      rw [h4.size, h4.count]
    have ht : trace H t = ∑ k ∈ Finset.range vs.length, Real.exp (-t * H.eigenvalues.getD k 0) := by
      rw [← evaluate_sum h4 fun l _ => Real.exp (-t * l)]
      unfold trace
      conv_lhs => rw [hz, List.map_map]
      rfl
    rw [ht]
    refine Finset.sum_congr rfl fun k hk => ?_
    have := h4.orthonormal k (Finset.mem_range.1 hk) k (Finset.mem_range.1 hk)
    rw [if_pos rfl] at this
    simp only [mul_assoc]
    rw [← Finset.mul_sum, this, mul_one]
  · intro t
    unfold determinant
    generalize H.eigenvalues = l
    induction l with
    | nil => rfl
    | cons x l ih => rw [List.foldl_cons, zero_mul, ih]

theorem vertexList_unique {K : Complex ℝ} {vs ws : List ℕ} (h1 : IsVertexList K vs) (h2 : IsVertexList K ws) : vs = ws := by
  refine List.Perm.eq_of_pairwise' (r := (· < ·)) h1.1 h2.1 ?_
  exact (List.perm_ext_iff_of_nodup (h1.1.imp ne_of_lt) (h2.1.imp ne_of_lt)).2 fun a => (h1.2 a).trans (h2.2 a).symm

/-- Eigenvalues of the Laplacian matrix are not negative. -/
theorem eigenvalues_nonneg {K : Complex ℝ} (hK : WF K) (hc : FaceClosed K) (hw : ∀ u v d, u ≠ v → HasData K {u, v} d → 0 ≤ d) {vs : List ℕ} {L : ℕ → ℕ → ℝ}
    (hL : weightedLaplacianMatrix K = some ⟨vs.length, L⟩) (hv : IsVertexList K vs) {values : List ℝ} {vectors : List (ℕ → ℝ)}
    (h : IsEigensystem vs.length L values vectors) {k : ℕ} (hk : k < vs.length) : 0 ≤ values.getD k 0 := by
  obtain ⟨vs', L', h1, h2, h3⟩ := C96_semidefinite K hK hc hw
  have hvs : vs' = vs := vertexList_unique h1 hv
  subst hvs
  rw [hL] at h2
  injection h2 with h2
  injection h2 with _ h2
  subst h2
  have := (h3 fun v => vectors.getD k 0 (vs'.idxOf v)).1
  rw [← eigenvalue_eq h hk]
  convert this using 1
  refine Finset.sum_congr rfl fun i hi => Finset.sum_congr rfl fun j hj => ?_
  have e : ∀ i < vs'.length, vs'.idxOf (vs'.getD i 0) = i := by
    intro i hi
    rw [List.getD_eq_getElem _ _ hi, List.Nodup.idxOf_getElem (h1.1.imp ne_of_lt)]
  rw [e i (Finset.mem_range.1 hi), e j (Finset.mem_range.1 hj)]

/-- Powers of a matrix without negative entries, by means of eigenvalues. -/
theorem power_nonneg {n : ℕ} {L : ℕ → ℕ → ℝ} {values : List ℝ} {vectors : List (ℕ → ℝ)} (h : IsEigensystem n L values vectors) {c : ℝ}
    (hc : ∀ i < n, ∀ j < n, 0 ≤ (if i = j then c else 0) - L i j) (m : ℕ) :
    ∀ i < n, ∀ j < n, 0 ≤ ∑ k ∈ Finset.range n, (c - values.getD k 0) ^ m * vectors.getD k 0 i * vectors.getD k 0 j := by
  induction m with
  | zero =>
    intro i hi j hj
    simp only [pow_zero, one_mul]
    rw [complete h hi hj]
    split_ifs <;> norm_num
  | succ m ih =>
    intro i hi j hj
    have e : ∑ k ∈ Finset.range n, (c - values.getD k 0) ^ (m + 1) * vectors.getD k 0 i * vectors.getD k 0 j =
        ∑ l ∈ Finset.range n, ((if i = l then c else 0) - L i l) * ∑ k ∈ Finset.range n, (c - values.getD k 0) ^ m * vectors.getD k 0 l * vectors.getD k 0 j := by
      simp only [Finset.mul_sum]
      rw [Finset.sum_comm]
      refine Finset.sum_congr rfl fun k hk => ?_
      have e1 : ∀ l ∈ Finset.range n, ((if i = l then c else 0) - L i l) * ((c - values.getD k 0) ^ m * vectors.getD k 0 l * vectors.getD k 0 j) =
          ((c - values.getD k 0) ^ m * vectors.getD k 0 j) * ((if i = l then c * vectors.getD k 0 l else 0) - L i l * vectors.getD k 0 l) := by
        intro l _
        split_ifs <;> ring
      rw [Finset.sum_congr rfl e1, ← Finset.mul_sum, Finset.sum_sub_distrib, Finset.sum_ite_eq, if_pos (Finset.mem_range.2 hi),
        h.eigen k (Finset.mem_range.1 hk) i hi]
      ring
    rw [e]
    exact Finset.sum_nonneg fun l hl => mul_nonneg (hc i hi l (Finset.mem_range.1 hl)) (ih l (Finset.mem_range.1 hl) j hj)

/-- C97. If no weight is negative, the heat kernel at any time `t ≥ 0` is a matrix of probabilities, and auto-diffusion decreases. -/
theorem _root_.Aleph.C97_diffusion (K : Complex ℝ) (hK : WF K) (hc : FaceClosed K) (hw : ∀ u v d, u ≠ v → HasData K {u, v} d → 0 ≤ d)
    (solver : Mat → List ℝ × List (ℕ → ℝ)) (hs : IsSolver solver) :
    ∃ vs H, IsVertexList K vs ∧ construct solver K = some H ∧
      ∀ i < vs.length, (∀ j < vs.length, ∀ t, 0 ≤ t → 0 ≤ evaluate H i j t ∧ evaluate H i j t ≤ 1) ∧
        ∀ s t, s ≤ t → autoDiffusion H i t ≤ autoDiffusion H i s := by
  obtain ⟨vs, L, H, h1, h2, h3, h4, h5, h6, h7⟩ := construct_spec hK hc hs
  obtain ⟨vs', L', h1', h2', h8, _, _⟩ := C96_laplacian K hK hc
  obtain ⟨vs'', L'', H'', h1'', h2'', h3'', h9⟩ := C97_kernel K hK hc solver hs
  obtain rfl := vertexList_unique h1 h1'
  obtain rfl := vertexList_unique h1 h1''
  obtain rfl : H = H'' := Option.some.inj (h3.symm.trans h3'')
  have hLL : L' = L := by
    rw [h2] at h2'
    injection h2' with h
    injection h with _ h
    exact h.symm
  subst hLL
  have hev : ∀ i j t, evaluate H i j t = ∑ k ∈ Finset.range vs.length, Real.exp (-t * H.eigenvalues.getD k 0) * H.eigenvectors.getD k 0 i * H.eigenvectors.getD k 0 j :=
    fun i j t => evaluate_sum h4 fun l v => Real.exp (-t * l) * v i * v j
  have hoff : ∀ i < vs.length, ∀ j < vs.length, i ≠ j → L' i j ≤ 0 := by
    intro i hi j hj hij
    rcases h8 i j _ _ hij (List.getElem?_eq_getElem hi) (List.getElem?_eq_getElem hj) with ⟨a, b⟩ | ⟨_, b⟩
    · have := hw _ _ _ a b
      linarith
    · linarith
  have hpos : ∀ i < vs.length, ∀ j < vs.length, ∀ t, 0 ≤ t → 0 ≤ evaluate H i j t := by
    intro i hi j hj t ht
    rw [hev]
    set c := ∑ i ∈ Finset.range vs.length, |L' i i| with hcdef
    have hcc : ∀ i < vs.length, ∀ j < vs.length, 0 ≤ (if i = j then c else 0) - L' i j := by
      intro i hi j hj
      split_ifs with hij
      · subst hij
        have : |L' i i| ≤ c := Finset.single_le_sum (f := fun i => |L' i i|) (fun _ _ => abs_nonneg _) (Finset.mem_range.2 hi)
        have := le_abs_self (L' i i)
        linarith
      · have := hoff i hi j hj hij
        linarith
    have hsum : HasSum (fun m : ℕ => t ^ m / (m.factorial : ℝ) * ∑ k ∈ Finset.range vs.length,
        (c - H.eigenvalues.getD k 0) ^ m * H.eigenvectors.getD k 0 i * H.eigenvectors.getD k 0 j)
        (∑ k ∈ Finset.range vs.length, Real.exp (t * (c - H.eigenvalues.getD k 0)) * H.eigenvectors.getD k 0 i * H.eigenvectors.getD k 0 j) := by
      have h := hasSum_sum (s := Finset.range vs.length) (f := fun k (m : ℕ) => (t * (c - H.eigenvalues.getD k 0)) ^ m / (m.factorial : ℝ) * H.eigenvectors.getD k 0 i * H.eigenvectors.getD k 0 j)
        (a := fun k => Real.exp (t * (c - H.eigenvalues.getD k 0)) * H.eigenvectors.getD k 0 i * H.eigenvectors.getD k 0 j) (by
          intro k _
          have := NormedSpace.expSeries_div_hasSum_exp (𝔸 := ℝ) (t * (c - H.eigenvalues.getD k 0))
          rw [← Real.exp_eq_exp_ℝ] at this
          exact (this.mul_right _).mul_right _)
      convert h using 1
      funext m
      rw [Finset.mul_sum]
      refine Finset.sum_congr rfl fun k _ => ?_
      rw [mul_pow]
      ring
    have h10 : 0 ≤ ∑ k ∈ Finset.range vs.length, Real.exp (t * (c - H.eigenvalues.getD k 0)) * H.eigenvectors.getD k 0 i * H.eigenvectors.getD k 0 j :=
      hsum.nonneg fun m => mul_nonneg (div_nonneg (pow_nonneg ht m) (Nat.cast_nonneg _)) (power_nonneg h4 hcc m i hi j hj)
    have h11 : ∑ k ∈ Finset.range vs.length, Real.exp (-t * H.eigenvalues.getD k 0) * H.eigenvectors.getD k 0 i * H.eigenvectors.getD k 0 j =
        Real.exp (-(t * c)) * ∑ k ∈ Finset.range vs.length, Real.exp (t * (c - H.eigenvalues.getD k 0)) * H.eigenvectors.getD k 0 i * H.eigenvectors.getD k 0 j := by
      rw [Finset.mul_sum]
      refine Finset.sum_congr rfl fun k _ => ?_
      rw [← mul_assoc, ← mul_assoc, ← Real.exp_add]
      congr 3
      ring
    rw [h11]
    exact mul_nonneg (Real.exp_pos _).le h10
  refine ⟨vs, H, h1, h3, ?_⟩
  intro i hi
  constructor
  · intro j hj t ht
    refine ⟨hpos i hi j hj t ht, ?_⟩
    rw [← ((h9 i hi j hj).2 t).2.2.2]
    exact Finset.single_le_sum (f := fun k => evaluate H i k t) (fun k hk => hpos i hi k (Finset.mem_range.1 hk) t ht) (Finset.mem_range.2 hj)
  · intro s t hst
    have ha : ∀ t, autoDiffusion H i t = ∑ k ∈ Finset.range vs.length, Real.exp (-t * H.eigenvalues.getD k 0) * H.eigenvectors.getD k 0 i * H.eigenvectors.getD k 0 i := hev i i
    rw [ha, ha]
    refine Finset.sum_le_sum fun k hk => ?_
    have hl := eigenvalues_nonneg hK hc hw h2 h1 h4 (Finset.mem_range.1 hk)
    rw [mul_assoc, mul_assoc]
    refine mul_le_mul_of_nonneg_right (Real.exp_le_exp.2 ?_) (mul_self_nonneg _)
    have := mul_le_mul_of_nonneg_right hst hl
    linarith

/-- C97. The evaluation for all vertices at once always ends in a failed assertion, unless the complex is empty. -/
theorem _root_.Aleph.C97_all_partial (K : Complex ℝ) (hK : WF K) (hc : FaceClosed K) (solver : Mat → List ℝ × List (ℕ → ℝ)) (hs : IsSolver solver) :
    ∃ H, construct solver K = some H ∧ ∀ t, (evaluateAll H t ≠ none ↔ K = []) := by
  obtain ⟨vs, L, H, h1, h2, h3, h4, _⟩ := construct_spec hK hc hs
  refine ⟨H, h3, ?_⟩
  intro t
  have hvs : vs = [] ↔ K = [] := by
    constructor
    · rintro rfl
      rw [List.eq_nil_iff_forall_not_mem]
      intro s hsK
      obtain ⟨v, hv⟩ := hK.vset_nonempty hsK
      have := (h1.2 v).2 (hc s hsK {v} (by simpa using hv) (by simp))
      simp at this
    · rintro rfl
      rw [List.eq_nil_iff_forall_not_mem]
      intro v hv
      obtain ⟨s, hs, _⟩ := (h1.2 v).1 hv
      simp at hs
  have he : H.eigenvalues = [] ↔ vs = [] := by
    rw [← List.length_eq_zero_iff, h4.size, List.length_eq_zero_iff]
  rw [← hvs, ← he]
  unfold evaluateAll
  split_ifs with h <;> simp [h]

/-- C98. With at least two vertices, the matrix that is inverted is the Laplacian matrix itself, which has no inverse; for one vertex, the result is
correct. -/
theorem _root_.Aleph.C98_pseudoinverse_partial (K : Complex ℝ) (hK : WF K) (hc : FaceClosed K) (inverse : Mat → Option Mat)
    (hi : ∀ M R, inverse M = some R → ∀ i < M.n, ∀ j < M.n, ∑ k ∈ Finset.range M.n, R.entry i k * M.entry k j = if i = j then 1 else 0)
    (hi' : ∀ M, M.n = 1 → M.entry 0 0 ≠ 0 → inverse M ≠ none) :
    ∃ vs, IsVertexList K vs ∧ (2 ≤ vs.length → pinvWeightedLaplacianMatrix inverse K = none) ∧
      (vs.length = 0 → pinvWeightedLaplacianMatrix inverse K = none) ∧
      (vs.length = 1 → ∃ R, pinvWeightedLaplacianMatrix inverse K = some R ∧ R.n = 1 ∧ R.entry 0 0 = 0) := by
  obtain ⟨vs, L, h1, h2, _, h4, _⟩ := C96_laplacian K hK hc
  refine ⟨vs, h1, ?_, ?_, ?_⟩
  · intro hn
    unfold pinvWeightedLaplacianMatrix
    rw [h2]
    simp only [Option.bind_eq_bind, Option.bind_some]
    rw [if_neg (by omega), Nat.div_eq_of_lt (by omega)]
    cases hR : inverse ⟨vs.length, fun i j => ((0 : ℕ) : ℝ) + L i j⟩ with
    | none => rfl
    | some R =>
      exfalso
      have h := fun j hj => hi _ _ hR 0 (by simp only; omega) j hj
      simp only [Nat.cast_zero, zero_add] at h
      have h5 : ∑ j ∈ Finset.range vs.length, ∑ k ∈ Finset.range vs.length, R.entry 0 k * L k j = 1 := by
        rw [Finset.sum_congr rfl fun j hj => h j (Finset.mem_range.1 hj), Finset.sum_ite_eq, if_pos (Finset.mem_range.2 (by omega))]
      rw [Finset.sum_comm] at h5
      have h6 : ∀ k ∈ Finset.range vs.length, ∑ j ∈ Finset.range vs.length, R.entry 0 k * L k j = 0 := by
        intro k hk
        rw [← Finset.mul_sum, h4 k (Finset.mem_range.1 hk), mul_zero]
      rw [Finset.sum_congr rfl h6] at h5
      simp at h5
  · intro hn
    unfold pinvWeightedLaplacianMatrix
    rw [h2]
    simp only [Option.bind_eq_bind, Option.bind_some]
    rw [if_pos hn]
  · intro hn
    have h0 : L 0 0 = 0 := by
      have := h4 0 (by omega)
      rwa [hn, Finset.sum_range_one] at this
    unfold pinvWeightedLaplacianMatrix
    rw [h2]
    simp only [Option.bind_eq_bind, Option.bind_some]
    rw [if_neg (by omega), hn, Nat.div_self one_pos, Nat.cast_one]
    obtain ⟨R, hR⟩ := Option.ne_none_iff_exists'.1 (hi' ⟨1, fun i j => 1 + L i j⟩ rfl (by simp [h0]))
    rw [hR]
    refine ⟨_, rfl, rfl, ?_⟩
    have := hi _ _ hR 0 (by simp) 0 (by simp)
    simp only [Finset.sum_range_one, h0, add_zero, mul_one, if_true] at this
    simp only [this, sub_self]

example : ∃ inverse : Mat → Option Mat, (∀ M R, inverse M = some R → ∀ i < M.n, ∀ j < M.n,
      ∑ k ∈ Finset.range M.n, R.entry i k * M.entry k j = if i = j then 1 else 0) ∧
    (∀ M, M.n = 1 → M.entry 0 0 ≠ 0 → inverse M ≠ none) ∧ pinvWeightedLaplacianMatrix inverse path3 = none := by
  classical
  have h1 : ∀ M R, (fun M : Mat => if h : ∃ R : Mat, ∀ i < M.n, ∀ j < M.n, ∑ k ∈ Finset.range M.n, R.entry i k * M.entry k j = if i = j then 1 else 0
      then some h.choose else none) M = some R →
      ∀ i < M.n, ∀ j < M.n, ∑ k ∈ Finset.range M.n, R.entry i k * M.entry k j = if i = j then 1 else 0 := by
    intro M R h
    simp only at h
    split_ifs at h with h'
    rw [← Option.some.inj h]
    exact h'.choose_spec
  have h2 : ∀ M, M.n = 1 → M.entry 0 0 ≠ 0 → (fun M : Mat => if h : ∃ R : Mat, ∀ i < M.n, ∀ j < M.n,
      ∑ k ∈ Finset.range M.n, R.entry i k * M.entry k j = if i = j then 1 else 0 then some h.choose else none) M ≠ none := by
    intro M hn h0
    simp only
    rw [dif_pos]
    · simp
    · refine ⟨⟨1, fun _ _ => (M.entry 0 0)⁻¹⟩, ?_⟩
      rw [hn]
      intro i hi j hj
      obtain rfl : i = 0 := by omega
      obtain rfl : j = 0 := by omega
      rw [Finset.sum_range_one, inv_mul_cancel₀ h0, if_pos rfl]
  refine ⟨_, h1, h2, ?_⟩
  obtain ⟨vs, hv, h3, _⟩ := C98_pseudoinverse_partial path3 path3_wf path3_closed _ h1 h2
  refine h3 ?_
  rw [vertexList_unique hv (vertices_list path3_wf)]
  decide

theorem constant_of_connected {K : Complex ℝ} {f : ℕ → ℝ} (h : ∀ u v, Has K {u, v} → f u = f v) {u v : ℕ}
    (huv : Relation.ReflTransGen (fun a b => Has K {a, b}) u v) : f u = f v := by
  induction huv with
  | refl => rfl
  | tail _ h2 ih => rw [ih, h _ _ h2]

theorem first_eigenvalue {K : Complex ℝ} (hK : WF K) (hc : FaceClosed K) (hw : ∀ u v d, u ≠ v → HasData K {u, v} d → 0 ≤ d) {vs : List ℕ} {L : ℕ → ℕ → ℝ}
    (hL : weightedLaplacianMatrix K = some ⟨vs.length, L⟩) (hv : IsVertexList K vs) {values : List ℝ} {vectors : List (ℕ → ℝ)}
    (h : IsEigensystem vs.length L values vectors) (hs : ∀ i < vs.length, ∀ j < vs.length, L i j = L j i)
    (h0 : ∀ i < vs.length, ∑ j ∈ Finset.range vs.length, L i j = 0) (hn : 0 < vs.length) : values.getD 0 0 = 0 := by
  have hnn : ∀ k < vs.length, 0 ≤ values.getD k 0 := fun k hk => eigenvalues_nonneg hK hc hw hL hv h hk
  by_contra hne
  have hpos : ∀ k < vs.length, 0 < values.getD k 0 := by
    intro k hk
    have h1 : 0 < values.getD 0 0 := lt_of_le_of_ne (hnn 0 hn) (Ne.symm hne)
    rcases Nat.eq_zero_or_pos k with rfl | hk0
    · exact h1
    · have := List.pairwise_iff_getElem.1 h.ascending 0 k (by rw [h.size]; exact hn) (by rw [h.size]; exact hk) hk0
      rw [List.getD_eq_getElem _ _ (by rw [h.size]; exact hn)] at h1
      rw [List.getD_eq_getElem _ _ (by rw [h.size]; exact hk)]
      linarith
  have hz : ∀ k < vs.length, ∑ j ∈ Finset.range vs.length, vectors.getD k 0 j = 0 := fun k hk =>
    (mul_eq_zero.1 (eigenvalue_mul_sum h hs h0 hk)).resolve_left (hpos k hk).ne'
  have h1 : ∑ j ∈ Finset.range vs.length, ∑ k ∈ Finset.range vs.length, vectors.getD k 0 0 * vectors.getD k 0 j = 1 := by
    rw [Finset.sum_congr rfl fun j hj => complete h hn (Finset.mem_range.1 hj), Finset.sum_ite_eq, if_pos (Finset.mem_range.2 hn)]
  rw [Finset.sum_comm, Finset.sum_eq_zero] at h1
  · exact zero_ne_one h1
  · intro k hk
    rw [← Finset.mul_sum, hz k (Finset.mem_range.1 hk), mul_zero]

/-- C100. For a connected complex with positive weights, the first eigenvalue is zero and the others are positive. -/
theorem _root_.Aleph.C100_gap (K : Complex ℝ) (hK : WF K) (hc : FaceClosed K) (hw : ∀ u v d, u ≠ v → HasData K {u, v} d → 0 < d)
    (hconn : IsConnectedBy K) (solver : Mat → List ℝ × List (ℕ → ℝ)) (hs : IsSolver solver) :
    ∃ vs H, IsVertexList K vs ∧ construct solver K = some H ∧ H.eigenvalues.length = vs.length ∧
      ∀ k < vs.length, (k = 0 → H.eigenvalues.getD k 0 = 0) ∧ (k ≠ 0 → 0 < H.eigenvalues.getD k 0) := by
  obtain ⟨vs, L, H, h1, h2, h3, h4, h5, h6, h7⟩ := construct_spec hK hc hs
  refine ⟨vs, H, h1, h3, h4.size, ?_⟩
  have hw' : ∀ u v d, u ≠ v → HasData K {u, v} d → 0 ≤ d := fun u v d a b => (hw u v d a b).le
  have hnn : ∀ k < vs.length, 0 ≤ H.eigenvalues.getD k 0 := fun k hk => eigenvalues_nonneg hK hc hw' h2 h1 h4 hk
  intro k hk
  have hn : 0 < vs.length := by omega
  have hz := first_eigenvalue hK hc hw' h2 h1 h4 h6 h7 hn
  refine ⟨by rintro rfl; exact hz, ?_⟩
  intro hk0
  refine lt_of_le_of_ne (hnn k hk) fun he => ?_
  obtain ⟨vs', L', h1', h2', h8⟩ := C96_semidefinite K hK hc hw'
  obtain rfl := vertexList_unique h1 h1'
  have hLL : L' = L := by
    rw [h2] at h2'
    injection h2' with h
    injection h with _ h
    exact h.symm
  subst hLL
  have hconst : ∀ m < vs.length, H.eigenvalues.getD m 0 = 0 → ∀ i < vs.length, H.eigenvectors.getD m 0 i = H.eigenvectors.getD m 0 0 := by
    intro m hm hz i hi
    have e : ∀ i < vs.length, vs.idxOf (vs.getD i 0) = i := by
      intro i hi
      rw [List.getD_eq_getElem _ _ hi, List.Nodup.idxOf_getElem (h1.1.imp ne_of_lt)]
    have h9 := ((h8 fun v => H.eigenvectors.getD m 0 (vs.idxOf v)).2 hw).1 (by
      rw [← hz, ← eigenvalue_eq h4 hm]
      refine Finset.sum_congr rfl fun i hi => Finset.sum_congr rfl fun j hj => ?_
      rw [e i (Finset.mem_range.1 hi), e j (Finset.mem_range.1 hj)])
    have hi' : Has K {vs[i]} := (h1.2 _).1 (List.getElem_mem hi)
    have hn' : Has K {vs[0]} := (h1.2 _).1 (List.getElem_mem hn)
    have := constant_of_connected h9 (hconn _ _ hi' hn')
    rwa [List.Nodup.idxOf_getElem (h1.1.imp ne_of_lt), List.Nodup.idxOf_getElem (h1.1.imp ne_of_lt)] at this
  have o1 := h4.orthonormal 0 hn k hk
  have o2 := h4.orthonormal 0 hn 0 hn
  have o3 := h4.orthonormal k hk k hk
  rw [if_neg (Ne.symm hk0), Finset.sum_congr rfl fun i hi => by
    rw [hconst 0 hn hz i (Finset.mem_range.1 hi), hconst k hk he.symm i (Finset.mem_range.1 hi)], Finset.sum_const, Finset.card_range, nsmul_eq_mul] at o1
  rw [if_pos rfl, Finset.sum_congr rfl fun i hi => by
    rw [hconst 0 hn hz i (Finset.mem_range.1 hi)], Finset.sum_const, Finset.card_range, nsmul_eq_mul] at o2
  rw [if_pos rfl, Finset.sum_congr rfl fun i hi => by
    rw [hconst k hk he.symm i (Finset.mem_range.1 hi)], Finset.sum_const, Finset.card_range, nsmul_eq_mul] at o3
  have hprod : ((vs.length : ℝ) * (H.eigenvectors.getD 0 0 0 * H.eigenvectors.getD 0 0 0)) *
      ((vs.length : ℝ) * (H.eigenvectors.getD k 0 0 * H.eigenvectors.getD k 0 0)) =
      ((vs.length : ℝ) * (H.eigenvectors.getD 0 0 0 * H.eigenvectors.getD k 0 0)) ^ 2 := by ring
  rw [o1, o2, o3] at hprod
  norm_num at hprod

/-- C100. The sampling interval for a connected complex with positive weights and at least two vertices: the samples form a geometric sequence
from `4 log 10` divided by the largest eigenvalue to `4 log 10` divided by the smallest positive eigenvalue.  A single sample is undefined. -/
theorem _root_.Aleph.C100_sampling_partial (K : Complex ℝ) (hK : WF K) (hc : FaceClosed K) (hw : ∀ u v d, u ≠ v → HasData K {u, v} d → 0 < d)
    (hconn : IsConnectedBy K) (solver : Mat → List ℝ × List (ℕ → ℝ)) (hs : IsSolver solver) :
    ∃ vs H, IsVertexList K vs ∧ construct solver K = some H ∧
      (2 ≤ vs.length → ∃ a b, 0 < a ∧ a ≤ b ∧ (∃ l, H.eigenvalues.getLast? = some l ∧ a = 4 * Real.log 10 / l) ∧
        (∃ l, H.eigenvalues[1]? = some l ∧ b = 4 * Real.log 10 / l) ∧
        ∀ n, (2 ≤ n → ∃ samples, logarithmicSamplingInterval H n = some samples ∧ samples.length = n ∧ samples.head? = some a ∧
            samples.getLast? = some b ∧ ∀ (i : ℕ) (x y : ℝ), samples[i]? = some x → samples[i + 1]? = some y → y / x = (b / a) ^ (1 / ((n : ℝ) - 1))) ∧
          (n = 1 → logarithmicSamplingInterval H n = none) ∧
          (n ≠ 0 → logarithmicSamplingInterval (setSkip H true) n = none) ∧
          logarithmicSamplingInterval (setSkip H false) n = logarithmicSamplingInterval H n) ∧
      (vs.length < 2 → ∀ n, logarithmicSamplingInterval H n = none) := by
  obtain ⟨vs, H, h1, h2, h3, h4⟩ := C100_gap K hK hc hw hconn solver hs
  have hskip : H.skip = false ∧ H.eigenvalues.Pairwise (· ≤ ·) := by
    obtain ⟨_, _, H', _, _, a, c, b, _⟩ := construct_spec hK hc hs
    rw [h2] at a
    exact ⟨Option.some.inj a ▸ b, Option.some.inj a ▸ c.ascending⟩
  refine ⟨vs, H, h1, h2, ?_, ?_⟩
  · intro hn
    have hlog : 0 < Real.log 10 := Real.log_pos (by norm_num)
    have hne : H.eigenvalues ≠ [] := by
      intro h
      rw [h] at h3
      simp at h3
      omega
    have hback : H.eigenvalues.getLast? = some (H.eigenvalues.getD (vs.length - 1) 0) := by
      rw [List.getLast?_eq_getElem?, h3, List.getElem?_eq_getElem (by omega), List.getD_eq_getElem _ _ (by omega)]
    have hfront : H.eigenvalues[1]? = some (H.eigenvalues.getD 1 0) := by
      rw [List.getElem?_eq_getElem (by omega), List.getD_eq_getElem _ _ (by omega)]
    have hhead : H.eigenvalues.head? = some 0 := by
      rw [List.head?_eq_getElem?, List.getElem?_eq_getElem (by omega), ← List.getD_eq_getElem _ 0 (by omega), (h4 0 (by omega)).1 rfl]
    have pb : 0 < H.eigenvalues.getD (vs.length - 1) 0 := (h4 _ (by omega)).2 (by omega)
    have pf : 0 < H.eigenvalues.getD 1 0 := (h4 _ (by omega)).2 (by omega)
    have hle : H.eigenvalues.getD 1 0 ≤ H.eigenvalues.getD (vs.length - 1) 0 := by
      rw [List.getD_eq_getElem _ _ (by omega), List.getD_eq_getElem _ _ (by omega)]
      rcases Nat.eq_or_lt_of_le (show 1 ≤ vs.length - 1 by omega) with h | h
      · simp only [← h]
        exact le_refl _
      · exact List.pairwise_iff_getElem.1 hskip.2 1 (vs.length - 1) (by omega) (by omega) h
    set lb := H.eigenvalues.getD (vs.length - 1) 0
    set lf := H.eigenvalues.getD 1 0
    have pa : 0 < 4 * Real.log 10 / lb := by positivity
    have pbb : 0 < 4 * Real.log 10 / lf := by positivity
    refine ⟨4 * Real.log 10 / lb, 4 * Real.log 10 / lf, pa, ?_, ⟨_, hback, rfl⟩, ⟨_, hfront, rfl⟩, ?_⟩
    · exact div_le_div_of_nonneg_left (by positivity) pf hle
    set a := 4 * Real.log 10 / lb with ha
    set b := 4 * Real.log 10 / lf with hb
    intro n
    refine ⟨?_, ?_, ?_⟩
    · intro hn2
      have hn1 : (0 : ℝ) < (n : ℝ) - 1 := by
        have : (2 : ℝ) ≤ n := by exact_mod_cast hn2
        linarith
      have hres : logarithmicSamplingInterval H n = some ((List.range n).map fun i : ℕ => Real.exp (Real.log a + (i : ℝ) * ((Real.log b - Real.log a) / ((n : ℝ) - 1)))) := by
        unfold logarithmicSamplingInterval
        rw [hback, hskip.1]
        simp only [Option.bind_eq_bind, Option.bind_some, Bool.false_eq_true, if_false, hfront]
        refine mapM_eq_some _ _ _ fun i _ => ?_
        unfold scale
        have hn1' : ¬n = 1 := by omega
        rw [if_pos pb, if_pos pf]
        simp only [Option.bind_some, if_neg hn1', Real.exp_one_rpow, ← ha, ← hb]
      refine ⟨_, hres, by simp, ?_, ?_, ?_⟩
      · rw [List.head?_eq_getElem?, List.getElem?_map, List.getElem?_range (by omega)]
        simp [Real.exp_log pa]
      · rw [List.getLast?_eq_getElem?, List.getElem?_map, List.length_map, List.length_range, List.getElem?_range (by omega)]
        simp only [Option.map_some, Option.some.injEq]
        rw [Nat.cast_sub (by omega), Nat.cast_one, mul_div_cancel₀ _ hn1.ne', add_sub_cancel, Real.exp_log pbb]
      · intro i x y hx hy
        rw [List.getElem?_map, Option.map_eq_some_iff] at hx hy
        obtain ⟨i', hi', rfl⟩ := hx
        obtain ⟨j', hj', rfl⟩ := hy
        have e1 : i' = i := by
          obtain ⟨_, e⟩ := List.getElem?_eq_some_iff.1 hi'
          rw [List.getElem_range] at e
          exact e.symm
        have e2 : j' = i + 1 := by
          obtain ⟨_, e⟩ := List.getElem?_eq_some_iff.1 hj'
          rw [List.getElem_range] at e
          exact e.symm
        subst e1 e2
        rw [← Real.exp_sub, Real.rpow_def_of_pos (div_pos pbb pa), Real.log_div pbb.ne' pa.ne']
        congr 1
        push_cast
        field_simp
        ring
    · rintro rfl
      unfold logarithmicSamplingInterval
      rw [hback, hskip.1]
      simp only [Option.bind_eq_bind, Option.bind_some, Bool.false_eq_true, if_false, hfront]
      rw [show List.range 1 = [0] from rfl]
      unfold scale
      rw [if_pos pb, if_pos pf]
      simp
    · refine ⟨fun hn0 => ?_, by unfold setSkip; rw [← hskip.1]⟩
      unfold logarithmicSamplingInterval setSkip
      simp only [hback, Option.bind_eq_bind, Option.bind_some, if_true, hhead]
      obtain ⟨m, rfl⟩ := Nat.exists_eq_succ_of_ne_zero hn0
      rw [List.range_succ_eq_map, List.mapM_cons]
      unfold scale
      rw [if_pos pb, if_neg (lt_irrefl 0)]
      rfl
  · intro hn n
    unfold logarithmicSamplingInterval
    rw [hskip.1]
    have : H.eigenvalues[1]? = none := List.getElem?_eq_none (by omega)
    simp only [Option.bind_eq_bind, Bool.false_eq_true, if_false, this]
    cases H.eigenvalues.getLast? <;> rfl

theorem path3_weights : ∀ u v d, u ≠ v → HasData path3 {u, v} d → 0 < d := by
  rintro u v d huv ⟨s, hs, h1, rfl⟩
  have hcard : s.vset.card = 2 := by rw [h1, Finset.card_pair huv]
  simp only [path3, List.mem_cons, List.not_mem_nil, or_false] at hs
  rcases hs with rfl | rfl | rfl | rfl | rfl
  · simp [Simplex.vset] at hcard
  · simp [Simplex.vset] at hcard
  · simp [Simplex.vset] at hcard
  · norm_num
  · norm_num

theorem path3_connected : IsConnectedBy path3 := by
  have e1 : Has path3 {1, 4} := ⟨⟨[4, 1], 2⟩, by simp [path3], by decide⟩
  have e2 : Has path3 {4, 7} := ⟨⟨[7, 4], 3⟩, by simp [path3], by decide⟩
  have key : ∀ u, Has path3 {u} → u = 1 ∨ u = 4 ∨ u = 7 := by
    rintro u ⟨s, hs, h⟩
    have hu : u ∈ s.vset := by rw [h]; simp
    simp only [path3, List.mem_cons, List.not_mem_nil, or_false] at hs
    rcases hs with rfl | rfl | rfl | rfl | rfl <;> simp [Simplex.vset] at hu <;> omega
  have hsym : ∀ a b, Has path3 {a, b} → Has path3 {b, a} := fun a b h => by rwa [Finset.pair_comm]
  have s1 : Relation.ReflTransGen (fun a b => Has path3 {a, b}) 1 4 := Relation.ReflTransGen.single e1
  have s2 : Relation.ReflTransGen (fun a b => Has path3 {a, b}) 4 7 := Relation.ReflTransGen.single e2
  have s3 : Relation.ReflTransGen (fun a b => Has path3 {a, b}) 4 1 := Relation.ReflTransGen.single (hsym _ _ e1)
  have s4 : Relation.ReflTransGen (fun a b => Has path3 {a, b}) 7 4 := Relation.ReflTransGen.single (hsym _ _ e2)
  intro u v hu hv
  have t1 : Relation.ReflTransGen (fun a b => Has path3 {a, b}) u 4 := by
    rcases key u hu with rfl | rfl | rfl
    · exact s1
    · exact Relation.ReflTransGen.refl
    · exact s4
  have t2 : Relation.ReflTransGen (fun a b => Has path3 {a, b}) 4 v := by
    rcases key v hv with rfl | rfl | rfl
    · exact s3
    · exact Relation.ReflTransGen.refl
    · exact s2
  exact t1.trans t2

example : ∃ solver H, construct solver path3 = some H ∧ ∀ i < 3, ∀ j < 3, ∀ t, 0 ≤ t → 0 ≤ evaluate H i j t := by
  obtain ⟨solver, hs⟩ := exists_isSolver
  obtain ⟨vs, H, h1, h2, h3⟩ := C97_diffusion path3 path3_wf path3_closed (fun u v d a b => (path3_weights u v d a b).le) solver hs
  have hvs : vs = [1, 4, 7] := by
    rw [vertexList_unique h1 (vertices_list path3_wf)]
    rfl
  subst hvs
  exact ⟨solver, H, h2, fun i hi j hj t ht => ((h3 i hi).1 j hj t ht).1⟩

example : ∃ solver H samples, construct solver path3 = some H ∧ logarithmicSamplingInterval H 5 = some samples ∧ samples.length = 5 := by
  obtain ⟨solver, hs⟩ := exists_isSolver
  obtain ⟨vs, H, h1, h2, h3, _⟩ := C100_sampling_partial path3 path3_wf path3_closed path3_weights path3_connected solver hs
  have hvs : vs = [1, 4, 7] := by
    rw [vertexList_unique h1 (vertices_list path3_wf)]
    rfl
  obtain ⟨a, b, _, _, _, _, h4⟩ := h3 (by rw [hvs]; decide)
  obtain ⟨samples, h5, h6, _⟩ := (h4 5).1 (by norm_num)
  exact ⟨solver, H, samples, h2, h5, h6⟩

end Aleph.HeatKernel
