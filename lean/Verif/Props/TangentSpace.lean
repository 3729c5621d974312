import Verif.Model.TangentSpace
import Verif.Spec.TangentSpace
import Verif.Lemmas.Pencil
import Verif.Props.AlgebraicSphere
import Verif.Props.NearestNeighbours
import Mathlib.Algebra.BigOperators.Field
import Mathlib.LinearAlgebra.Eigenspace.Minpoly
import Mathlib.LinearAlgebra.Matrix.ToLin
import Mathlib.LinearAlgebra.Matrix.NonsingularInverse
import Mathlib.Data.Finset.Sort

/-!
# C141: estimation of curvatures
-/

namespace Aleph.TangentSpace

open Spec Spec.Curvature Matrix

variable {d : ℕ}

/-- The contract of a singular value decomposition, as far as it is needed: its number of columns. -/
def IsSvd (svd : List (Fin d → ℝ) → List (Fin d → ℝ)) : Prop := ∀ M, (svd M).length = min M.length d

/-- The contract of a solver for generalised eigenvalues: it finds eigenvectors for real eigenvalues, and all of the eigenvalues. -/
def IsSolver (solver : Matrix (Fin (d + 2)) (Fin (d + 2)) ℝ → Matrix (Fin (d + 2)) (Fin (d + 2)) ℝ → List (Eigen d)) : Prop :=
  ∀ S C : Matrix (Fin (d + 2)) (Fin (d + 2)) ℝ, (∀ v, C *ᵥ v = 0 → v = 0) →
    (∀ e ∈ solver S C, e.im = 0 → e.vector ≠ 0 ∧ S *ᵥ e.vector = e.re • (C *ᵥ e.vector)) ∧
    ∀ (l : ℝ) (v : Fin (d + 2) → ℝ), v ≠ 0 → S *ᵥ v = l • (C *ᵥ v) → ∃ e ∈ solver S C, e.re = l ∧ e.im = 0

/-- The polynomial with given coefficients. -/
def coords (u : Fin (d + 2) → ℝ) : Quadric d := ⟨u 0, fun i => u i.castSucc.succ, u (Fin.last (d + 1))⟩

/-- The coefficients of a polynomial. -/
def vec (q : Quadric d) : Fin (d + 2) → ℝ := Fin.cons q.a (Fin.snoc (α := fun _ => ℝ) q.b q.c)

theorem coords_vec (q : Quadric d) : coords (vec q) = q := by
  ext
  · rfl
  · simp [coords, vec]
  · simp [coords, vec, ← Fin.succ_last]

theorem vec_coords (u : Fin (d + 2) → ℝ) : vec (coords u) = u := by
  funext i
  refine Fin.cases rfl (fun i => ?_) i
  refine Fin.lastCases ?_ (fun i => ?_) i
  · simp [coords, vec, ← Fin.succ_last]
  · simp [coords, vec]

/-- The polar form of the discriminant. -/
def pair (p q : Quadric d) : ℝ := ∑ i, p.b i * q.b i - 2 * (p.a * q.c + p.c * q.a)

theorem pair_self (q : Quadric d) : pair q q = q.size := by
  unfold pair Quadric.size
  have : ∑ i, q.b i * q.b i = ∑ i, q.b i ^ 2 := Finset.sum_congr rfl fun i _ => (sq _).symm
  rw [this]
  ring

theorem row_dot (x : Fin d → ℝ) (u : Fin (d + 2) → ℝ) : row x ⬝ᵥ u = (coords u).value x := by
  unfold dotProduct row Quadric.value coords
  rw [Fin.sum_univ_succ, Fin.sum_univ_castSucc]
  simp only [Fin.cons_zero, Fin.cons_succ, Fin.snoc_castSucc, Fin.snoc_last, one_mul]
  rw [Fin.succ_last]
  have e : ∑ i, x i * x i = ∑ i, x i ^ 2 := Finset.sum_congr rfl fun i _ => (sq _).symm
  have e2 : ∑ i, x i * u i.castSucc.succ = ∑ i, u i.castSucc.succ * x i := Finset.sum_congr rfl fun i _ => mul_comm _ _
  rw [e, e2]
  change u 0 + (_ + (∑ i, x i ^ 2) * u (Fin.last (d + 1))) = _
  ring

theorem constraint_mulVec (u : Fin (d + 2) → ℝ) : constraint d *ᵥ u = vec ⟨-2 * (coords u).c, (coords u).b, -2 * (coords u).a⟩ := by
  funext i
  unfold mulVec dotProduct
  rw [Fin.sum_univ_succ, Fin.sum_univ_castSucc]
  refine Fin.cases ?_ (fun i => ?_) i
  · simp only [constraint, vec, coords, Fin.cons_zero, Fin.succ_last]
    have h0 : (0 : Fin (d + 2)) ≠ Fin.last (d + 1) := (Fin.last_pos).ne
    have h1 : ∀ j : Fin d, j.castSucc.succ ≠ Fin.last (d + 1) := fun j h => by
      have := congrArg Fin.val h
      simp at this
      omega
    simp [h0, h0.symm, h1, Fin.succ_ne_zero, (Fin.succ_ne_zero _).symm]
  · refine Fin.lastCases ?_ (fun i => ?_) i
    · have h0 : (0 : Fin (d + 2)) ≠ Fin.last (d + 1) := (Fin.last_pos).ne
      have h1 : ∀ j : Fin d, j.castSucc.succ ≠ Fin.last (d + 1) := fun j h => by
        have := congrArg Fin.val h
        simp at this
        omega
      rw [Fin.succ_last]
      simp only [constraint, vec, coords]
      have e : ∀ f : Fin (d + 1) → ℝ, ∀ x : ℝ, (Fin.cons x f : Fin (d + 2) → ℝ) (Fin.last (d + 1)) = f (Fin.last d) := by
        intro f x
        rw [← Fin.succ_last, Fin.cons_succ]
      rw [e]
      simp [h0, h0.symm, h1, (h1 _).symm, Fin.succ_ne_zero, (Fin.succ_ne_zero _).symm]
    · have h1 : ∀ j : Fin d, j.castSucc.succ ≠ Fin.last (d + 1) := fun j h => by
        have := congrArg Fin.val h
        simp at this
        omega
      simp only [constraint, vec, coords, Fin.cons_succ, Fin.snoc_castSucc, Fin.succ_last]
      simp [h1, Fin.succ_ne_zero]

theorem vec_dot (p q : Quadric d) : vec p ⬝ᵥ vec q = p.a * q.a + ∑ i, p.b i * q.b i + p.c * q.c := by
  unfold dotProduct vec
  rw [Fin.sum_univ_succ, Fin.sum_univ_castSucc]
  simp only [Fin.cons_zero, Fin.cons_succ, Fin.snoc_castSucc, Fin.snoc_last]
  ring

theorem constraint_dot (u v : Fin (d + 2) → ℝ) : u ⬝ᵥ (constraint d *ᵥ v) = pair (coords u) (coords v) := by
  rw [constraint_mulVec, ← vec_coords u, vec_dot, vec_coords]
  unfold pair
  ring

theorem constraint_symm : (constraint d).IsSymm := by
  ext i j
  rw [transpose_apply]
  unfold constraint
  have h0 : (0 : Fin (d + 2)) ≠ Fin.last (d + 1) := (Fin.last_pos).ne
  by_cases hi : i = 0 <;> by_cases hj : j = 0 <;> by_cases hi' : i = Fin.last (d + 1) <;> by_cases hj' : j = Fin.last (d + 1) <;> simp_all [eq_comm]

theorem constraint_injective (v : Fin (d + 2) → ℝ) (h : constraint d *ᵥ v = 0) : v = 0 := by
  rw [constraint_mulVec] at h
  have h2 := congrArg coords h
  rw [coords_vec] at h2
  have ha := congrArg Quadric.a h2
  have hb := congrArg Quadric.b h2
  have hc := congrArg Quadric.c h2
  simp only [coords, Pi.zero_apply] at ha hb hc
  rw [← vec_coords v]
  have : coords v = ⟨0, fun _ => 0, 0⟩ := by
    ext i
    · change v 0 = 0; linarith
    · exact congrFun hb i
    · change v (Fin.last (d + 1)) = 0; linarith
  rw [this]
  funext i
  refine Fin.cases rfl (fun i => ?_) i
  refine Fin.lastCases ?_ (fun i => ?_) i <;> simp [vec]

/-- The matrix of the squared values. -/
noncomputable def gram (position : ℕ → Fin d → ℝ) (s : Local d) : Matrix (Fin (d + 2)) (Fin (d + 2)) ℝ :=
  (design position s.indices).transpose * weights position s * design position s.indices

theorem gram_dot (position : ℕ → Fin d → ℝ) (s : Local d) (u v : Fin (d + 2) → ℝ) :
    u ⬝ᵥ (gram position s *ᵥ v) = (s.indices.map fun j => phi (AlgebraicSphere.quotient (norm (s.position - position j)) s.localFeatureSize) *
      ((coords u).value (position j) * (coords v).value (position j))).sum := by
  unfold gram
  rw [← mulVec_mulVec, ← mulVec_mulVec, dotProduct_mulVec, vecMul_transpose]
  rw [← Fin.sum_univ_fun_getElem]
  unfold dotProduct
  refine Finset.sum_congr rfl fun i _ => ?_
  unfold weights
  rw [mulVec_diagonal]
  have e : ∀ w : Fin (d + 2) → ℝ, (design position s.indices *ᵥ w) i = (coords w).value (position s.indices[i]) := by
    intro w
    rw [← row_dot]
    rfl
  rw [e, e]
  simp only [Fin.getElem_fin]
  ring

theorem gram_symm (position : ℕ → Fin d → ℝ) (s : Local d) : (gram position s).IsSymm := by
  unfold gram Matrix.IsSymm weights
  rw [transpose_mul, transpose_mul, transpose_transpose, diagonal_transpose, Matrix.mul_assoc]

theorem norm_eq (x y : Fin d → ℝ) : norm (x - y) = distance x y := by
  unfold norm distance
  congr 1
  exact Finset.sum_congr rfl fun i _ => by rw [Pi.sub_apply]; ring

theorem distance_nonneg (x y : Fin d → ℝ) : 0 ≤ distance x y := Real.sqrt_nonneg _

theorem phi_eq {r h : ℝ} (hr : 0 ≤ r) (hh : 0 ≤ h) : phi (AlgebraicSphere.quotient r h) = weight h r := by
  unfold AlgebraicSphere.quotient weight
  by_cases h0 : h = 0
  · rw [if_pos h0, if_neg (by rw [h0]; linarith)]
    rfl
  · have hpos : 0 < h := lt_of_le_of_ne hh (Ne.symm h0)
    rw [if_neg h0]
    change (if r / h < 1 then (1 - r / h * (r / h)) ^ 4 else 0) = _
    by_cases h1 : r < h
    · rw [if_pos h1, if_pos ((div_lt_one hpos).2 h1), sq]
    · rw [if_neg h1, if_neg (by rw [div_lt_one hpos]; exact h1)]

theorem weight_nonneg (h r : ℝ) : 0 ≤ weight h r := by
  unfold weight
  split
  · exact (by decide : Even 4).pow_nonneg _
  · exact le_rfl

theorem gram_cost (position : ℕ → Fin d → ℝ) (i : ℕ) (h : ℝ) (hh : 0 ≤ h) (ids : List ℕ) (t : List (Fin d → ℝ)) (m : Fin d → ℝ) (u : Fin (d + 2) → ℝ) :
    u ⬝ᵥ (gram position ⟨t, m, position i, h, ids⟩ *ᵥ u) = cost position i h ids (coords u) := by
  rw [gram_dot]
  unfold cost
  congr 1
  refine List.map_congr_left fun j _ => ?_
  simp only
  rw [norm_eq, phi_eq (distance_nonneg _ _) hh]
  ring

theorem ofFn_vec (q : Quadric d) : List.ofFn (vec q) = q.a :: (List.ofFn q.b ++ [q.c]) := by
  unfold vec
  rw [List.ofFn_cons, List.ofFn_succ']
  simp

/-- The curvature of the sphere with given coefficients. -/
theorem meanCurvature_eq (hd : 1 ≤ d) (u : Fin (d + 2) → ℝ) :
    (AlgebraicSphere.make (List.ofFn u)).map (fun a => a.meanCurvature.1) = some (coords u).curvature := by
  have e : AlgebraicSphere.make (List.ofFn u) = some ⟨none, [], List.ofFn u⟩ := by
    unfold AlgebraicSphere.make
    rw [if_neg (by rw [List.length_ofFn]; omega)]
  rw [e, Option.map_some, AlgebraicSphere.mean_eq]
  congr 1
  rw [← vec_coords u, ofFn_vec, coords_vec]
  generalize coords u = q
  obtain ⟨a, b, c⟩ := q
  dsimp only
  by_cases hc : c = 0
  · subst hc
    have h1 : (⟨none, [], a :: (List.ofFn b ++ [0])⟩ : AlgebraicSphere).getRadius.1 = none := by
      have h2 := AlgebraicSphere.fresh_centre a (List.ofFn b) 0
      have h3 : AlgebraicSphere.squareSum (⟨none, [], a :: (List.ofFn b ++ [0])⟩ : AlgebraicSphere).getCentre.1 = none := by
        apply AlgebraicSphere.squareSum_none
        rw [h2]
        have : b ⟨0, by omega⟩ ∈ List.ofFn b := (List.mem_ofFn' _ _).2 ⟨_, rfl⟩
        exact List.mem_map.2 ⟨_, this, by simp [AlgebraicSphere.quotient]⟩
      simp only [AlgebraicSphere.getRadius, h3, Option.bind_none]
    rw [h1]
    unfold Quadric.curvature
    simp
  · rw [AlgebraicSphere.fresh_radius _ _ _ hc]
    have e1 : (((List.ofFn b).map fun x => x / (2 * c)).map fun t => t * t).sum - a / c = (⟨a, b, c⟩ : Quadric d).size / (2 * c) ^ 2 := by
      rw [List.map_map, List.map_ofFn, List.sum_ofFn]
      unfold Quadric.size
      rw [sub_div, Finset.sum_div]
      congr 1
      · exact Finset.sum_congr rfl fun i _ => by simp only [Function.comp]; field_simp
      · field_simp
        norm_num
    rw [e1]
    unfold AlgebraicSphere.squareRoot Quadric.curvature
    generalize (⟨a, b, c⟩ : Quadric d).size = z
    have hc2 : 0 < (2 * c) ^ 2 := by positivity
    rcases lt_trichotomy z 0 with hz | hz | hz
    · rw [if_pos (div_neg_of_neg_of_pos hz hc2), if_neg hz.not_gt]
      rfl
    · subst hz
      simp
    · rw [if_neg (div_pos hz hc2).le.not_gt, if_pos hz]
      have e2 : Real.sqrt (z / (2 * c) ^ 2) = Real.sqrt z / (2 * |c|) := by
        rw [Real.sqrt_div hz.le, Real.sqrt_sq_eq_abs, abs_mul, abs_of_pos (by norm_num : (0 : ℝ) < 2)]
      have h3 : 0 < Real.sqrt z / (2 * |c|) := div_pos (Real.sqrt_pos.2 hz) (mul_pos two_pos (abs_pos.2 hc))
      rw [e2, Option.elim_some, if_pos h3, one_div_div]

/-- The parts that determine the curvature. -/
def core (s : Local d) : (Fin d → ℝ) × ℝ × List ℕ := (s.position, s.localFeatureSize, s.indices)

theorem set_core (l : List (Local d)) (j : ℕ) (b : Local d) (m : Fin d → ℝ) (h : l[j]? = some b) : (l.set j { b with normal := m }).map core = l.map core := by
  rw [List.map_set]
  apply List.ext_getElem?
  intro i
  rw [List.getElem?_set]
  split
  · next e =>
    subst e
    rw [List.length_map, List.getElem?_map, h]
    split
    · rfl
    · next hj => rw [List.getElem?_eq_none (not_lt.1 hj)] at h; cases h
  · rfl

theorem propagate_core (l : List (Local d)) : (propagateOrientation l).map core = l.map core := by
  unfold propagateOrientation
  generalize edges l = es
  suffices h : ∀ m : List (Local d), (es.foldl (fun l e =>
    match l[e.1]?, l[e.2]? with
    | some a, some b => if ∑ i, a.normal i * b.normal i < 0 then l.set e.2 { b with normal := -b.normal } else l
    | _, _ => l) m).map core = m.map core from h l
  induction es with
  | nil => exact fun m => rfl
  | cons e es ih =>
    intro m
    rw [List.foldl_cons, ih]
    split
    · next a b h1 h2 =>
      split
      · exact set_core m e.2 b _ h2
      · rfl
    · rfl

/-- The curvature for given parts. -/
noncomputable def curvatureOf (solver : Matrix (Fin (d + 2)) (Fin (d + 2)) ℝ → Matrix (Fin (d + 2)) (Fin (d + 2)) ℝ → List (Eigen d)) (position : ℕ → Fin d → ℝ) (c : (Fin d → ℝ) × ℝ × List ℕ) : ℝ :=
  (coords (choose (solver (gram position ⟨[], 0, c.1, c.2.1, c.2.2⟩) (constraint d)))).curvature

theorem coefficients_core (solver : Matrix (Fin (d + 2)) (Fin (d + 2)) ℝ → Matrix (Fin (d + 2)) (Fin (d + 2)) ℝ → List (Eigen d)) (position : ℕ → Fin d → ℝ) (s : Local d) :
    coefficients solver position s = choose (solver (gram position ⟨[], 0, (core s).1, (core s).2.1, (core s).2.2⟩) (constraint d)) := rfl

theorem effective_lt {k : ℕ} (hd : 1 ≤ d) (hk : 1 ≤ k) : effective d k < min k d := by
  unfold effective
  rw [if_neg (by omega)]
  omega

theorem foldl_max (l : List ℝ) (a : ℝ) : (∀ x ∈ l, x ≤ l.foldl max a) ∧ a ≤ l.foldl max a ∧ (l.foldl max a = a ∨ l.foldl max a ∈ l) := by
  induction l generalizing a with
  | nil => simp
  | cons b l ih =>
    obtain ⟨h1, h2, h3⟩ := ih (max a b)
    rw [List.foldl_cons]
    refine ⟨?_, (le_max_left _ _).trans h2, ?_⟩
    · intro x hx
      rcases List.mem_cons.1 hx with rfl | hx
      · exact (le_max_right _ _).trans h2
      · exact h1 x hx
    · rcases h3 with h3 | h3
      · rw [h3]
        rcases max_choice a b with h | h <;> rw [h]
        · exact Or.inl rfl
        · exact Or.inr List.mem_cons_self
      · exact Or.inr (List.mem_cons_of_mem _ h3)

/-- The parts for the result of a search. -/
noncomputable def partsOf (position : ℕ → Fin d → ℝ) (r : List (List ℕ × List ℝ)) : List ((Fin d → ℝ) × ℝ × List ℕ) :=
  r.zipIdx.map fun e => (position e.2, e.1.2.foldl max (e.1.2.headD 0), e.1.1)

theorem curvatures_eq {sort : (ℕ → ℕ → Bool) → List ℕ → List ℕ} {svd : List (Fin d → ℝ) → List (Fin d → ℝ)} (hsvd : IsSvd svd)
    (solver : Matrix (Fin (d + 2)) (Fin (d + 2)) ℝ → Matrix (Fin (d + 2)) (Fin (d + 2)) ℝ → List (Eigen d)) (n : ℕ) (position : ℕ → Fin d → ℝ) (k : ℕ) (hd : 1 ≤ d) (hk : 1 ≤ k)
    (r : List (List ℕ × List ℝ)) (hr : NearestNeighbours.neighbourSearch sort n (fun i j => norm (position i - position j)) k = some r) (hl : ∀ e ∈ r, e.1.length = k) :
    curvatures sort svd solver n position k = some ((partsOf position r).map (curvatureOf solver position)) := by
  unfold curvatures localTangentSpaces
  rw [hr]
  dsimp only
  have h1 : (r.zipIdx.mapM fun e => localTangentSpace svd n position k e.2 e.1) = some (r.zipIdx.map fun e => (⟨(svd (centred n position e.1.1)).take (effective d k),
      normalised ((svd (centred n position e.1.1)).getD (effective d k) 0), position e.2, e.1.2.foldl max (e.1.2.headD 0), e.1.1⟩ : Local d)) := by
    refine Aleph.mapM_eq_some _ _ _ fun e he => ?_
    unfold localTangentSpace
    have hlen : effective d k < (svd (centred n position e.1.1)).length := by
      rw [hsvd]
      have : (centred n position e.1.1).length = k := by
        unfold centred
        rw [List.length_map]
        exact hl _ (by obtain ⟨h1, h2⟩ := List.mem_zipIdx' (x := e.1) (i := e.2) he; rw [h2]; exact List.getElem_mem _)
      rw [this]
      exact effective_lt hd hk
    simp only [List.getElem?_eq_getElem hlen, List.getD_eq_getElem?_getD, Option.getD_some]
  rw [h1]
  dsimp only
  rw [Aleph.mapM_eq_some _ (fun s => curvatureOf solver position (core s)) _ fun s _ => ?_]
  · rw [← Function.comp_def (curvatureOf solver position) core, ← List.map_map, propagate_core]
    unfold partsOf
    simp only [List.map_map]
    rfl
  · rw [meanCurvature_eq hd, coefficients_core]
    rfl

/-- The curvature of a point, in terms of its nearest neighbours. -/
theorem entry {sort : (ℕ → ℕ → Bool) → List ℕ → List ℕ} (hs : IsStdSort sort) {svd : List (Fin d → ℝ) → List (Fin d → ℝ)} (hsvd : IsSvd svd)
    (solver : Matrix (Fin (d + 2)) (Fin (d + 2)) ℝ → Matrix (Fin (d + 2)) (Fin (d + 2)) ℝ → List (Eigen d)) (n : ℕ) (position : ℕ → Fin d → ℝ) (k : ℕ) (hd : 1 ≤ d) (hk : 1 ≤ k) (hn : k ≤ n) :
    ∃ cs, curvatures sort svd solver n position k = some cs ∧ cs.length = n ∧
      ∀ i < n, ∃ ids h, Nearest n position k i ids h ∧ 0 ≤ h ∧ cs[i]? = some (curvatureOf solver position (position i, h, ids)) := by
  obtain ⟨r, hr, hl, h⟩ := C61_k_nearest sort hs n (fun i j => norm (position i - position j)) k hn
  have hlen : ∀ e ∈ r, e.1.length = k := by
    intro e he
    obtain ⟨i, hi, rfl⟩ := List.mem_iff_getElem.1 he
    exact (h i hi).1
  refine ⟨_, curvatures_eq hsvd solver n position k hd hk r hr hlen, by simp [partsOf, hl], fun i hi => ?_⟩
  have hir : i < r.length := by omega
  obtain ⟨h1, h2, h3, h4, _, h6⟩ := h i hir
  have hne : (r[i]).2 ≠ [] := by
    intro h0
    have := congrArg List.length h4
    rw [h0, List.length_map, h1] at this
    simp at this
    omega
  have hmax := foldl_max (r[i]).2 ((r[i]).2.headD 0)
  have hmem : (r[i]).2.foldl max ((r[i]).2.headD 0) ∈ (r[i]).2 := by
    rcases hmax.2.2 with e | e
    · rw [e]
      match hq : (r[i]).2, hne with
      | a :: l, _ => exact List.mem_cons_self
    · exact e
  refine ⟨(r[i]).1, (r[i]).2.foldl max ((r[i]).2.headD 0), ⟨h1, h2, h3, ?_, ?_, ?_⟩, ?_, ?_⟩
  · intro j hj l hl hl'
    rw [← norm_eq, ← norm_eq]
    exact h6 j hj l hl hl'
  · intro j hj
    refine hmax.1 _ ?_
    rw [h4, ← norm_eq]
    exact List.mem_map.2 ⟨j, hj, rfl⟩
  · have := hmem
    rw [h4] at this
    obtain ⟨j, hj, e⟩ := List.mem_map.1 this
    refine ⟨j, hj, ?_⟩
    rw [← norm_eq, e, ← h4]
  · have := hmem
    rw [h4] at this
    obtain ⟨j, hj, e⟩ := List.mem_map.1 this
    rw [← h4] at e
    rw [← e]
    exact Real.sqrt_nonneg _
  · simp [partsOf, hir]

theorem curvature_nonneg (q : Quadric d) : 0 ≤ q.curvature := by
  unfold Quadric.curvature
  split
  · positivity
  · exact le_rfl

theorem curvature_zero : (coords (0 : Fin (d + 2) → ℝ)).curvature = 0 := by
  unfold Quadric.curvature
  rw [if_neg]
  simp [coords, Quadric.size]

theorem coords_smul (t : ℝ) (u : Fin (d + 2) → ℝ) : coords (t • u) = ⟨t * (coords u).a, fun i => t * (coords u).b i, t * (coords u).c⟩ := rfl

/-- What the solver finds. -/
theorem choose_cases {solver : Matrix (Fin (d + 2)) (Fin (d + 2)) ℝ → Matrix (Fin (d + 2)) (Fin (d + 2)) ℝ → List (Eigen d)} (hsol : IsSolver solver) (S : Matrix (Fin (d + 2)) (Fin (d + 2)) ℝ) :
    (choose (solver S (constraint d)) = 0 ∧ ∀ (l : ℝ) (v : Fin (d + 2) → ℝ), 0 < l → v ≠ 0 → S *ᵥ v ≠ l • (constraint d *ᵥ v)) ∨
    ∃ e a b, solver S (constraint d) = a ++ e :: b ∧ (∀ x ∈ a, ¬ (x.re > 0 ∧ x.im = 0)) ∧ e.re > 0 ∧ e.im = 0 ∧ choose (solver S (constraint d)) = e.vector ∧ e.vector ≠ 0 ∧
      S *ᵥ e.vector = e.re • (constraint d *ᵥ e.vector) := by
  obtain ⟨h1, h2⟩ := hsol S (constraint d) constraint_injective
  unfold choose
  cases hf : (solver S (constraint d)).find? fun e => decide (e.re > 0 ∧ e.im = 0) with
  | none =>
    left
    refine ⟨rfl, fun l v hl hv h => ?_⟩
    obtain ⟨e, he, e1, e2⟩ := h2 l v hv h
    have := List.find?_eq_none.1 hf e he
    simp [e1, e2, hl] at this
  | some e =>
    right
    obtain ⟨h3, a, b, hab, hna⟩ := List.find?_eq_some_iff_append.1 hf
    have h3' : e.re > 0 ∧ e.im = 0 := by simpa using h3
    obtain ⟨h4, h5⟩ := h1 e (by rw [hab]; simp) h3'.2
    exact ⟨e, a, b, hab, fun x hx => by have := hna x hx; rw [Bool.not_eq_true', decide_eq_false_iff_not] at this; exact this, h3'.1, h3'.2, rfl, h4, h5⟩

/-- C141. For at least one and at most as many neighbours as points, there is a curvature for every point, and it is not negative. -/
theorem _root_.Aleph.C141_defined {sort : (ℕ → ℕ → Bool) → List ℕ → List ℕ} (hs : IsStdSort sort) {svd : List (Fin d → ℝ) → List (Fin d → ℝ)} (hsvd : IsSvd svd)
    (solver : Matrix (Fin (d + 2)) (Fin (d + 2)) ℝ → Matrix (Fin (d + 2)) (Fin (d + 2)) ℝ → List (Eigen d)) (n : ℕ) (position : ℕ → Fin d → ℝ) (k : ℕ) (hd : 1 ≤ d) (hk : 1 ≤ k) (hn : k ≤ n) :
    ∃ cs, curvatures sort svd solver n position k = some cs ∧ cs.length = n ∧ ∀ c ∈ cs, 0 ≤ c := by
  obtain ⟨cs, h1, h2, h3⟩ := entry hs hsvd solver n position k hd hk hn
  refine ⟨cs, h1, h2, fun c hc => ?_⟩
  obtain ⟨i, hi, rfl⟩ := List.mem_iff_getElem.1 hc
  obtain ⟨ids, h, _, _, e⟩ := h3 i (by omega)
  rw [List.getElem?_eq_getElem hi] at e
  rw [Option.some.inj e]
  exact curvature_nonneg _

/-- C141. Without neighbours, or with more neighbours than points, the behaviour is undefined, unless there are no points. -/
theorem _root_.Aleph.C141_undefined {sort : (ℕ → ℕ → Bool) → List ℕ → List ℕ} (hs : IsStdSort sort) {svd : List (Fin d → ℝ) → List (Fin d → ℝ)} (hsvd : IsSvd svd)
    (solver : Matrix (Fin (d + 2)) (Fin (d + 2)) ℝ → Matrix (Fin (d + 2)) (Fin (d + 2)) ℝ → List (Eigen d)) (n : ℕ) (position : ℕ → Fin d → ℝ) (k : ℕ) (hk : k = 0 ∨ n < k) :
    curvatures sort svd solver n position k = if n = 0 then some [] else none := by
  rcases hk with rfl | hk
  · obtain ⟨r, hr, hl, h⟩ := C61_k_nearest sort hs n (fun i j => norm (position i - position j)) 0 (Nat.zero_le _)
    unfold curvatures localTangentSpaces
    rw [hr]
    dsimp only
    cases r with
    | nil =>
      rw [if_pos (by simpa using hl.symm)]
      rfl
    | cons e r =>
      rw [if_neg (by rw [← hl]; simp)]
      have e1 : e.1.length = 0 := (h 0 (by simp)).1
      have : localTangentSpace svd n position 0 0 e = none := by
        unfold localTangentSpace
        have : (svd (centred n position e.1)).length = 0 := by
          rw [hsvd]
          unfold centred
          rw [List.length_map, e1]
          simp
        simp only [List.getElem?_eq_none (l := svd (centred n position e.1)) (i := effective d 0) (by omega)]
      rw [List.zipIdx_cons, List.mapM_cons, this]
      rfl
  · unfold curvatures localTangentSpaces
    rw [C61_too_many sort n _ k hk]
    by_cases h0 : n = 0
    · rw [if_pos h0, if_pos h0]
      rfl
    · rw [if_neg h0, if_neg h0]

/-- C141. The curvatures do not depend on the singular value decomposition, hence neither on the normals and their orientation. -/
theorem _root_.Aleph.C141_normals {sort : (ℕ → ℕ → Bool) → List ℕ → List ℕ} (hs : IsStdSort sort) {svd svd' : List (Fin d → ℝ) → List (Fin d → ℝ)} (hsvd : IsSvd svd) (hsvd' : IsSvd svd')
    (solver : Matrix (Fin (d + 2)) (Fin (d + 2)) ℝ → Matrix (Fin (d + 2)) (Fin (d + 2)) ℝ → List (Eigen d)) (n : ℕ) (position : ℕ → Fin d → ℝ) (k : ℕ) (hd : 1 ≤ d) :
    curvatures sort svd solver n position k = curvatures sort svd' solver n position k := by
  by_cases hk : 1 ≤ k ∧ k ≤ n
  · obtain ⟨r, hr, hl, h⟩ := C61_k_nearest sort hs n (fun i j => norm (position i - position j)) k hk.2
    have hlen : ∀ e ∈ r, e.1.length = k := by
      intro e he
      obtain ⟨i, hi, rfl⟩ := List.mem_iff_getElem.1 he
      exact (h i hi).1
    rw [curvatures_eq hsvd solver n position k hd hk.1 r hr hlen, curvatures_eq hsvd' solver n position k hd hk.1 r hr hlen]
  · have : k = 0 ∨ n < k := by omega
    rw [C141_undefined hs hsvd solver n position k this, C141_undefined hs hsvd' solver n position k this]

theorem size_smul (t : ℝ) (u : Fin (d + 2) → ℝ) : (coords (t • u)).size = t ^ 2 * (coords u).size := by
  rw [coords_smul]
  unfold Quadric.size
  simp only [mul_pow, ← Finset.mul_sum]
  ring

theorem cost_smul (position : ℕ → Fin d → ℝ) (i : ℕ) (h : ℝ) (ids : List ℕ) (t : ℝ) (u : Fin (d + 2) → ℝ) :
    cost position i h ids (coords (t • u)) = t ^ 2 * cost position i h ids (coords u) := by
  unfold cost
  rw [← List.sum_map_mul_left]
  congr 1
  refine List.map_congr_left fun j _ => ?_
  have : (coords (t • u)).value (position j) = t * (coords u).value (position j) := by
    rw [← row_dot, ← row_dot, dotProduct_smul, smul_eq_mul]
  rw [this]
  ring

theorem curvature_normalised {u : Fin (d + 2) → ℝ} (h : 0 < (coords u).size) :
    ∃ t : ℝ, t ^ 2 * (coords u).size = 1 ∧ (coords (t • u)).size = 1 ∧ (coords u).curvature = 2 * |(coords (t • u)).c| := by
  have hs := Real.sqrt_pos.2 h
  have e : (Real.sqrt (coords u).size)⁻¹ ^ 2 * (coords u).size = 1 := by rw [inv_pow, Real.sq_sqrt h.le, inv_mul_cancel₀ h.ne']
  refine ⟨(Real.sqrt (coords u).size)⁻¹, e, by rw [size_smul]; exact e, ?_⟩
  unfold Quadric.curvature
  rw [if_pos h, coords_smul, abs_mul, abs_inv, abs_of_pos hs]
  field_simp

/-- C141 (partial). If the solver reports eigenvalues in ascending order, and the neighbours of a point with positive weights do not belong to a sphere or plane, then the curvature is the curvature of
a sphere (or plane) that minimises the weighted sum of the squared values, among all with the same discriminant. -/
theorem _root_.Aleph.C141_fit_partial {sort : (ℕ → ℕ → Bool) → List ℕ → List ℕ} (hs : IsStdSort sort) {svd : List (Fin d → ℝ) → List (Fin d → ℝ)} (hsvd : IsSvd svd)
    {solver : Matrix (Fin (d + 2)) (Fin (d + 2)) ℝ → Matrix (Fin (d + 2)) (Fin (d + 2)) ℝ → List (Eigen d)} (hsol : IsSolver solver)
    (hasc : ∀ S C, (solver S C).Pairwise fun e f => e.re ≤ f.re) (n : ℕ) (position : ℕ → Fin d → ℝ) (k : ℕ) (hd : 1 ≤ d) (hk : 1 ≤ k) (hn : k ≤ n) :
    ∃ cs, curvatures sort svd solver n position k = some cs ∧ ∀ i < n, ∃ ids h, Nearest n position k i ids h ∧
      ((∀ q : Quadric d, cost position i h ids q = 0 → q = ⟨0, fun _ => 0, 0⟩) →
        ∃ q : Quadric d, q.size = 1 ∧ (∀ p : Quadric d, p.size = 1 → cost position i h ids q ≤ cost position i h ids p) ∧ cs[i]? = some (2 * |q.c|)) := by
  obtain ⟨cs, h1, _, h3⟩ := entry hs hsvd solver n position k hd hk hn
  refine ⟨cs, h1, fun i hi => ?_⟩
  obtain ⟨ids, h, hne, hh, e⟩ := h3 i hi
  refine ⟨ids, h, hne, fun hdef => ?_⟩
  have hcost : ∀ u, u ⬝ᵥ (gram position ⟨[], 0, position i, h, ids⟩ *ᵥ u) = cost position i h ids (coords u) := gram_cost position i h hh ids [] 0
  have hsize : ∀ u : Fin (d + 2) → ℝ, u ⬝ᵥ (constraint d *ᵥ u) = (coords u).size := fun u => by rw [constraint_dot, pair_self]
  have hcnn : ∀ q : Quadric d, 0 ≤ cost position i h ids q := by
    intro q
    unfold cost
    refine List.sum_nonneg fun x hx => ?_
    obtain ⟨j, _, rfl⟩ := List.mem_map.1 hx
    exact mul_nonneg (weight_nonneg _ _) (sq_nonneg _)
  have hpos : ∀ u, u ≠ 0 → 0 < u ⬝ᵥ (gram position ⟨[], 0, position i, h, ids⟩ *ᵥ u) := by
    intro u hu
    rw [hcost]
    refine lt_of_le_of_ne (hcnn _) fun h0 => hu ?_
    rw [← vec_coords u, hdef _ h0.symm]
    funext i
    refine Fin.cases rfl (fun i => ?_) i
    refine Fin.lastCases ?_ (fun i => ?_) i <;> simp [vec]
  obtain ⟨μ, m, hμ, hm0, hm, hm1, hmin⟩ := Pencil.minimum (gram_symm position ⟨[], 0, position i, h, ids⟩) constraint_symm hpos (by
    refine ⟨vec ⟨1, fun _ => 0, -1⟩, ?_⟩
    rw [hsize, coords_vec]
    simp [Quadric.size])
  rcases choose_cases hsol (gram position ⟨[], 0, position i, h, ids⟩) with ⟨_, hno⟩ | ⟨x, a, b, hab, hna, hx, hx0, hc, hv0, hv⟩
  · exact absurd hm (hno μ m hμ hm0)
  · have hle : x.re ≤ μ := by
      obtain ⟨y, hy, e1, e2⟩ := (hsol (gram position ⟨[], 0, position i, h, ids⟩) (constraint d) constraint_injective).2 μ m hm0 hm
      have hp := hasc (gram position ⟨[], 0, position i, h, ids⟩) (constraint d)
      rw [hab] at hy hp
      rw [← e1]
      rcases List.mem_append.1 hy with hy | hy
      · exact absurd ⟨by rw [e1]; exact hμ, e2⟩ (hna y hy)
      · rcases List.mem_cons.1 hy with rfl | hy
        · exact le_rfl
        · exact (List.pairwise_cons.1 (List.pairwise_append.1 hp).2.1).1 y hy
    have hlam : cost position i h ids (coords x.vector) = x.re * (coords x.vector).size := by
      rw [← hcost, hv, dotProduct_smul, smul_eq_mul, hsize]
    have hsz : 0 < (coords x.vector).size := by
      have h5 := hpos x.vector hv0
      rw [hcost, hlam] at h5
      exact (pos_iff_pos_of_mul_pos h5).1 hx
    obtain ⟨t, ht, ht1, hcurv⟩ := curvature_normalised hsz
    refine ⟨coords (t • x.vector), ht1, fun p hp => ?_, ?_⟩
    · rw [cost_smul, hlam, mul_left_comm, ht, mul_one]
      have h6 := hmin (vec p) (by rw [hsize, coords_vec, hp])
      rw [hcost, coords_vec] at h6
      exact hle.trans h6
    · rw [e, ← hcurv]
      unfold curvatureOf
      rw [hc]

/-- The zeros of a polynomial with positive curvature are the sphere with this curvature. -/
theorem sphere_of_curvature {q : Quadric d} (h : 0 < q.curvature) :
    ∃ (m : Fin d → ℝ) (r : ℝ), 0 < r ∧ q.curvature = 1 / r ∧ q.b = (fun i => -2 * q.c * m i) ∧ q.a = q.c * (∑ i, m i ^ 2 - r ^ 2) ∧ q.c ≠ 0 := by
  have hs : 0 < q.size := by
    by_contra h0
    unfold Quadric.curvature at h
    rw [if_neg h0] at h
    exact lt_irrefl _ h
  have hc : q.c ≠ 0 := by
    intro h0
    unfold Quadric.curvature at h
    rw [if_pos hs, h0] at h
    simp at h
  have hsq := Real.sqrt_pos.2 hs
  have hc' : 0 < |q.c| := abs_pos.2 hc
  refine ⟨fun i => -q.b i / (2 * q.c), Real.sqrt q.size / (2 * |q.c|), by positivity, ?_, ?_, ?_, hc⟩
  · unfold Quadric.curvature
    rw [if_pos hs, one_div_div]
  · funext i
    field_simp
  · have e : (Real.sqrt q.size / (2 * |q.c|)) ^ 2 = q.size / (4 * q.c ^ 2) := by
      rw [div_pow, Real.sq_sqrt hs.le, mul_pow, sq_abs]
      norm_num
    have e2 : ∑ i, (-q.b i / (2 * q.c)) ^ 2 = (∑ i, q.b i ^ 2) / (4 * q.c ^ 2) := by
      rw [Finset.sum_div]
      refine Finset.sum_congr rfl fun i _ => ?_
      rw [div_pow, neg_sq, mul_pow]
      norm_num
    rw [e, e2]
    unfold Quadric.size
    field_simp
    ring

/-- The polynomial of a sphere. -/
noncomputable def ofSphere (m : Fin d → ℝ) (r : ℝ) : Quadric d := ⟨∑ i, m i ^ 2 - r ^ 2, fun i => -2 * m i, 1⟩

theorem value_ofSphere (m x : Fin d → ℝ) (r : ℝ) : (ofSphere m r).value x = distance x m ^ 2 - r ^ 2 := by
  unfold Quadric.value ofSphere distance
  rw [Real.sq_sqrt (Finset.sum_nonneg fun i _ => sq_nonneg _)]
  have : ∑ i, (x i - m i) ^ 2 = ∑ i, m i ^ 2 + ∑ i, -2 * m i * x i + ∑ i, x i ^ 2 := by
    rw [← Finset.sum_add_distrib, ← Finset.sum_add_distrib]
    exact Finset.sum_congr rfl fun i _ => by ring
  rw [this]
  ring

/-- C141. If all points belong to a sphere, then the curvatures are not those of this sphere: every curvature is zero, or it is the curvature of a sphere that intersects the sphere orthogonally. -/
theorem _root_.Aleph.C141_sphere {sort : (ℕ → ℕ → Bool) → List ℕ → List ℕ} (hs : IsStdSort sort) {svd : List (Fin d → ℝ) → List (Fin d → ℝ)} (hsvd : IsSvd svd)
    {solver : Matrix (Fin (d + 2)) (Fin (d + 2)) ℝ → Matrix (Fin (d + 2)) (Fin (d + 2)) ℝ → List (Eigen d)} (hsol : IsSolver solver)
    (n : ℕ) (position : ℕ → Fin d → ℝ) (k : ℕ) (hd : 1 ≤ d) (hk : 1 ≤ k) (hn : k ≤ n) (m : Fin d → ℝ) (r : ℝ) (hm : ∀ j < n, distance (position j) m = r) :
    ∃ cs, curvatures sort svd solver n position k = some cs ∧ ∀ i < n, cs[i]? = some 0 ∨
      ∃ (m' : Fin d → ℝ) (r' : ℝ), 0 < r' ∧ cs[i]? = some (1 / r') ∧ distance m m' ^ 2 = r ^ 2 + r' ^ 2 := by
  obtain ⟨cs, h1, _, h3⟩ := entry hs hsvd solver n position k hd hk hn
  refine ⟨cs, h1, fun i hi => ?_⟩
  obtain ⟨ids, h, hne, hh, e⟩ := h3 i hi
  have hcurv : curvatureOf solver position (position i, h, ids) = (coords (choose (solver (gram position ⟨[], 0, position i, h, ids⟩) (constraint d)))).curvature := rfl
  rcases choose_cases hsol (gram position ⟨[], 0, position i, h, ids⟩) with ⟨h0, _⟩ | ⟨x, a, b, hab, hna, hx, hx0, hc, hv0, hv⟩
  · left
    rw [e, hcurv, h0, curvature_zero]
  · rw [hc] at hcurv
    rcases (curvature_nonneg (coords x.vector)).eq_or_lt with h0 | h0
    · left
      rw [e, hcurv, ← h0]
    · right
      have hpair : pair (ofSphere m r) (coords x.vector) = 0 := by
        have h4 : vec (ofSphere m r) ⬝ᵥ (gram position ⟨[], 0, position i, h, ids⟩ *ᵥ x.vector) = 0 := by
          rw [gram_dot, coords_vec]
          refine List.sum_eq_zero fun y hy => ?_
          obtain ⟨j, hj, rfl⟩ := List.mem_map.1 hy
          rw [value_ofSphere, hm j (hne.lt j hj)]
          ring
        rw [hv, dotProduct_smul, smul_eq_mul, constraint_dot, coords_vec] at h4
        exact (mul_eq_zero.1 h4).resolve_left hx.ne'
      obtain ⟨m', r', hr', hr, hb, ha, hc0⟩ := sphere_of_curvature h0
      refine ⟨m', r', hr', by rw [e, hcurv, hr], ?_⟩
      unfold pair ofSphere at hpair
      rw [hb, ha] at hpair
      dsimp only at hpair
      unfold distance
      rw [Real.sq_sqrt (Finset.sum_nonneg fun i _ => sq_nonneg _)]
      have e1 : ∑ i, (m i - m' i) ^ 2 = ∑ i, m i ^ 2 - 2 * ∑ i, m i * m' i + ∑ i, m' i ^ 2 := by
        rw [Finset.mul_sum, ← Finset.sum_sub_distrib, ← Finset.sum_add_distrib]
        exact Finset.sum_congr rfl fun i _ => by ring
      have e2 : ∑ i, -2 * m i * (-2 * (coords x.vector).c * m' i) = 4 * (coords x.vector).c * ∑ i, m i * m' i := by
        rw [Finset.mul_sum]
        exact Finset.sum_congr rfl fun i _ => by ring
      rw [e2] at hpair
      rw [e1]
      have e3 : (coords x.vector).c * (4 * ∑ i, m i * m' i - 2 * (∑ i, m i ^ 2 - r ^ 2 + (∑ i, m' i ^ 2 - r' ^ 2))) = 0 := by linarith
      have e4 := (mul_eq_zero.1 e3).resolve_left hc0
      linarith

/-- C141. If all other points are at the same distance from a point, its curvature is zero. -/
theorem _root_.Aleph.C141_equidistant {sort : (ℕ → ℕ → Bool) → List ℕ → List ℕ} (hs : IsStdSort sort) {svd : List (Fin d → ℝ) → List (Fin d → ℝ)} (hsvd : IsSvd svd)
    {solver : Matrix (Fin (d + 2)) (Fin (d + 2)) ℝ → Matrix (Fin (d + 2)) (Fin (d + 2)) ℝ → List (Eigen d)} (hsol : IsSolver solver)
    (n : ℕ) (position : ℕ → Fin d → ℝ) (k : ℕ) (hd : 1 ≤ d) (hk : 1 ≤ k) (hn : k ≤ n) (i : ℕ) (hi : i < n) (r : ℝ) (hr : ∀ j < n, j ≠ i → distance (position i) (position j) = r) :
    ∃ cs, curvatures sort svd solver n position k = some cs ∧ cs[i]? = some 0 := by
  obtain ⟨cs, h1, _, h3⟩ := entry hs hsvd solver n position k hd hk hn
  refine ⟨cs, h1, ?_⟩
  obtain ⟨ids, h, hne, hh, e⟩ := h3 i hi
  have hself : distance (position i) (position i) = 0 := by simp [distance]
  have hw : ∀ j ∈ ids, j ≠ i → weight h (distance (position i) (position j)) = 0 := by
    intro j hj hji
    unfold weight
    rw [if_neg]
    intro hlt
    obtain ⟨l, hl, hl'⟩ := hne.attained
    by_cases hli : l = i
    · rw [hli, hself] at hl'
      have := distance_nonneg (position i) (position j)
      linarith
    · rw [hr l (hne.lt l hl) hli] at hl'
      rw [hr j (hne.lt j hj) hji] at hlt
      linarith
  have hterm : ∀ u v : Fin (d + 2) → ℝ, (coords u).value (position i) * (coords v).value (position i) = 0 → u ⬝ᵥ (gram position ⟨[], 0, position i, h, ids⟩ *ᵥ v) = 0 := by
    intro u v huv
    rw [gram_dot]
    refine List.sum_eq_zero fun y hy => ?_
    obtain ⟨j, hj, rfl⟩ := List.mem_map.1 hy
    dsimp only
    by_cases hji : j = i
    · rw [hji, huv, mul_zero]
    · rw [norm_eq, phi_eq (distance_nonneg _ _) hh, hw j hj hji, zero_mul]
  rcases choose_cases hsol (gram position ⟨[], 0, position i, h, ids⟩) with ⟨h0, _⟩ | ⟨x, a, b, hab, hna, hx, hx0, hc, hv0, hv⟩
  · rw [e]
    change some (coords (choose (solver (gram position ⟨[], 0, position i, h, ids⟩) (constraint d)))).curvature = _
    rw [h0, curvature_zero]
  · exfalso
    have hval : (coords x.vector).value (position i) = 0 := by
      have h5 := hterm (vec ⟨-(∑ l, position i l ^ 2) / 2, position i, -1 / 2⟩) x.vector (by
        rw [coords_vec]
        unfold Quadric.value
        have : ∑ l, position i l * position i l = ∑ l, position i l ^ 2 := Finset.sum_congr rfl fun i _ => (sq _).symm
        dsimp only
        rw [this]
        ring)
      rw [hv, dotProduct_smul, smul_eq_mul, constraint_dot, coords_vec] at h5
      have h6 := (mul_eq_zero.1 h5).resolve_left hx.ne'
      unfold pair at h6
      unfold Quadric.value
      have : ∑ l, position i l * (coords x.vector).b l = ∑ l, (coords x.vector).b l * position i l := Finset.sum_congr rfl fun i _ => mul_comm _ _
      dsimp only at h6
      rw [this] at h6
      linarith
    have hz : ∀ u : Fin (d + 2) → ℝ, u ⬝ᵥ (constraint d *ᵥ x.vector) = 0 := by
      intro u
      have h5 := hterm u x.vector (by rw [hval, mul_zero])
      rw [hv, dotProduct_smul, smul_eq_mul] at h5
      exact (mul_eq_zero.1 h5).resolve_left hx.ne'
    refine hv0 (constraint_injective _ ?_)
    have h7 := hz (constraint d *ᵥ x.vector)
    funext l
    exact mul_self_eq_zero.1 ((Finset.sum_eq_zero_iff_of_nonneg fun i _ => mul_self_nonneg _).1 h7 l (Finset.mem_univ l))

/-- C141. The rows of the matrix for tangent spaces are centred only if the neighbours of a point are all points: the sum of the coordinates of neighbours is divided by the number of points. -/
theorem _root_.Aleph.C141_centroid (n : ℕ) (position : ℕ → Fin d → ℝ) (ids : List ℕ) (l : Fin d) :
    ((centred n position ids).map fun x => x l).sum = (1 - (ids.length : ℝ) / n) * (ids.map fun j => position j l).sum := by
  unfold centred
  rw [List.map_map]
  have : (ids.map ((fun x : Fin d → ℝ => x l) ∘ fun j => position j - centroid n position ids)) = ids.map fun j => position j l - centroid n position ids l := rfl
  rw [this]
  have e : ∀ (c : ℝ) (ids : List ℕ), (ids.map fun j => position j l - c).sum = (ids.map fun j => position j l).sum - ids.length * c := by
    intro c ids
    induction ids with
    | nil => simp
    | cons a ids ih =>
      rw [List.map_cons, List.sum_cons, ih, List.map_cons, List.sum_cons, List.length_cons]
      push_cast
      ring
  rw [e]
  unfold centroid
  ring

/-! ## Examples -/

theorem finite_eigenvalues (S C : Matrix (Fin (d + 2)) (Fin (d + 2)) ℝ) (hC : ∀ v, C *ᵥ v = 0 → v = 0) : {l : ℝ | ∃ v, v ≠ 0 ∧ S *ᵥ v = l • (C *ᵥ v)}.Finite := by
  have hu : IsUnit C := by
    rw [← mulVec_injective_iff_isUnit]
    intro x y hxy
    have := hC (x - y) (by rw [mulVec_sub, sub_eq_zero]; exact hxy)
    exact sub_eq_zero.1 this
  have hdet : IsUnit C.det := (isUnit_iff_isUnit_det C).1 hu
  refine (Module.End.finite_hasEigenvalue (Matrix.toLin' (C⁻¹ * S))).subset ?_
  rintro l ⟨v, hv, h⟩
  rw [Set.mem_ofPred_eq]
  refine Module.End.hasEigenvalue_of_hasEigenvector (x := v) ?_
  rw [Module.End.hasEigenvector_iff]
  refine ⟨?_, hv⟩
  rw [Module.End.mem_eigenspace_iff, toLin'_apply, ← mulVec_mulVec, h, mulVec_smul, mulVec_mulVec, nonsing_inv_mul C hdet, one_mulVec]

open Classical in
/-- An eigenvector. -/
noncomputable def eigenvector (S C : Matrix (Fin (d + 2)) (Fin (d + 2)) ℝ) (l : ℝ) : Fin (d + 2) → ℝ := if h : ∃ v, v ≠ 0 ∧ S *ᵥ v = l • (C *ᵥ v) then h.choose else 0

open Classical in
/-- A solver with ascending eigenvalues. -/
noncomputable def ascending (S C : Matrix (Fin (d + 2)) (Fin (d + 2)) ℝ) : List (Eigen d) :=
  if hC : ∀ v, C *ᵥ v = 0 → v = 0 then ((finite_eigenvalues S C hC).toFinset.sort (· ≤ ·)).map fun l => ⟨l, 0, eigenvector S C l⟩ else []

theorem ascending_solver : IsSolver (ascending (d := d)) := by
  intro S C hC
  unfold ascending
  rw [dif_pos hC]
  constructor
  · intro e he _
    obtain ⟨l, hl, rfl⟩ := List.mem_map.1 he
    rw [Finset.mem_sort, Set.Finite.mem_toFinset] at hl
    have hl' : ∃ v, v ≠ 0 ∧ S *ᵥ v = l • (C *ᵥ v) := hl
    simp only [eigenvector, dif_pos hl']
    exact hl'.choose_spec
  · intro l v hv h
    exact ⟨⟨l, 0, eigenvector S C l⟩, List.mem_map.2 ⟨l, by rw [Finset.mem_sort, Set.Finite.mem_toFinset]; exact ⟨v, hv, h⟩, rfl⟩, rfl, rfl⟩

theorem ascending_sorted (S C : Matrix (Fin (d + 2)) (Fin (d + 2)) ℝ) : (ascending S C).Pairwise fun e f => e.re ≤ f.re := by
  unfold ascending
  split
  · rw [List.pairwise_map]
    exact Finset.pairwise_sort _ _
  · exact .nil

/-- A solver with descending eigenvalues. -/
noncomputable def descending (S C : Matrix (Fin (d + 2)) (Fin (d + 2)) ℝ) : List (Eigen d) := (ascending S C).reverse

theorem descending_solver : IsSolver (descending (d := d)) := by
  intro S C hC
  unfold descending
  simp only [List.mem_reverse]
  exact ascending_solver S C hC

theorem descending_sorted (S C : Matrix (Fin (d + 2)) (Fin (d + 2)) ℝ) : (descending S C).Pairwise fun e f => f.re ≤ e.re := by
  unfold descending
  rw [List.pairwise_reverse]
  exact ascending_sorted S C

/-- A decomposition with the right number of columns. -/
def exampleSvd (M : List (Fin d → ℝ)) : List (Fin d → ℝ) := List.replicate (min M.length d) 0

theorem exampleSvd_spec : IsSvd (exampleSvd (d := d)) := fun M => by simp [exampleSvd]

/-- Three points of the unit circle. -/
noncomputable def circle : ℕ → Fin 2 → ℝ
  | 0 => ![1, 0]
  | 1 => ![-1 / 2, Real.sqrt 3 / 2]
  | _ => ![-1 / 2, -Real.sqrt 3 / 2]

/-- C141. For three points of the unit circle, all curvatures are zero. -/
theorem _root_.Aleph.C141_circle : ∃ position : ℕ → Fin 2 → ℝ, (∀ j < 3, distance (position j) (fun _ => 0) = 1) ∧
    ∀ (sort : (ℕ → ℕ → Bool) → List ℕ → List ℕ) (svd : List (Fin 2 → ℝ) → List (Fin 2 → ℝ)) (solver : Matrix (Fin 4) (Fin 4) ℝ → Matrix (Fin 4) (Fin 4) ℝ → List (Eigen 2)) (k : ℕ),
      IsStdSort sort → IsSvd svd → IsSolver solver → 1 ≤ k → k ≤ 3 → curvatures sort svd solver 3 position k = some [0, 0, 0] := by
  have h3 : Real.sqrt 3 ^ 2 = 3 := Real.sq_sqrt (by norm_num)
  refine ⟨circle, ?_, ?_⟩
  · intro j hj
    have : ∑ i, (circle j i - 0) ^ 2 = 1 := by
      rw [Fin.sum_univ_two]
      interval_cases j
      · simp [circle]
      · simp only [circle, Matrix.cons_val_zero, Matrix.cons_val_one]
        ring_nf
        rw [h3]
        norm_num
      · simp only [circle, Matrix.cons_val_zero, Matrix.cons_val_one]
        ring_nf
        rw [h3]
        norm_num
    unfold distance
    rw [this, Real.sqrt_one]
  · intro sort svd solver k hs hsvd hsol hk hn
    have hdist : ∀ i < 3, ∀ j < 3, j ≠ i → distance (circle i) (circle j) = Real.sqrt 3 := by
      intro i hi j hj hij
      unfold distance
      congr 1
      rw [Fin.sum_univ_two]
      interval_cases i <;> interval_cases j <;> first | exact absurd rfl hij | skip
      all_goals
        simp only [circle, Matrix.cons_val_zero, Matrix.cons_val_one]
        ring_nf
        rw [h3]
        try norm_num
    obtain ⟨cs, h1, h2, _⟩ := C141_defined hs hsvd solver 3 circle k (by norm_num) hk hn
    rw [h1]
    have key : ∀ i < 3, cs[i]? = some 0 := by
      intro i hi
      obtain ⟨cs', e1, e2⟩ := C141_equidistant hs hsvd hsol 3 circle k (by norm_num) hk hn i hi (Real.sqrt 3) (hdist i hi)
      rw [h1] at e1
      rw [Option.some.inj e1]
      exact e2
    congr 1
    match cs, h2 with
    | [a, b, c], _ =>
      have ha := key 0 (by norm_num)
      have hb := key 1 (by norm_num)
      have hc := key 2 (by norm_num)
      simp at ha hb hc
      rw [ha, hb, hc]

/-- Five points of a line. -/
def line : ℕ → Fin 1 → ℝ
  | 0 => fun _ => 0
  | 1 => fun _ => 1
  | 2 => fun _ => -1
  | 3 => fun _ => 2
  | _ => fun _ => -2

theorem line_distance (j : ℕ) : distance (line 0) (line j) = |line j 0| := by
  unfold distance
  rw [Fin.sum_univ_one]
  simp only [line, zero_sub, neg_sq]
  exact Real.sqrt_sq_eq_abs _

theorem line_ids {ids : List ℕ} {h : ℝ} (hn : Nearest 5 line 5 0 ids h) : ids.Perm [0, 1, 2, 3, 4] := by
  have h1 : ids ⊆ List.range 5 := fun j hj => List.mem_range.2 (hn.lt j hj)
  have h2 := List.subperm_of_subset hn.nodup h1
  exact h2.perm_of_length_le (by rw [hn.length]; simp)

theorem line_h {ids : List ℕ} {h : ℝ} (hn : Nearest 5 line 5 0 ids h) : h = 2 := by
  have hp := line_ids hn
  apply le_antisymm
  · obtain ⟨j, hj, e⟩ := hn.attained
    rw [← e, line_distance]
    have := hn.lt j hj
    interval_cases j <;> simp [line]
  · have := hn.le 3 (hp.mem_iff.2 (by simp))
    rw [line_distance] at this
    simpa [line] using this

theorem line_cost {ids : List ℕ} {h : ℝ} (hn : Nearest 5 line 5 0 ids h) (q : Quadric 1) :
    cost line 0 h ids q = q.a ^ 2 + 81 / 256 * ((q.a + q.b 0 + q.c) ^ 2 + (q.a - q.b 0 + q.c) ^ 2) := by
  unfold cost
  rw [((line_ids hn).map _).sum_eq, line_h hn]
  simp only [List.map_cons, List.map_nil, List.sum_cons, List.sum_nil, line_distance]
  simp only [Quadric.value, Fin.sum_univ_one, line, weight]
  norm_num
  ring

theorem quadric_ext {p q : Quadric 1} (ha : p.a = q.a) (hb : p.b 0 = q.b 0) (hc : p.c = q.c) : p = q := by
  ext i
  · exact ha
  · have : i = 0 := Subsingleton.elim _ _
    rw [this]
    exact hb
  · exact hc

/-- C141. The curvatures depend on the order of eigenvalues, which is not specified: for five points of a line, the solver with ascending order yields a positive curvature for the first point, and the
solver with descending order yields zero. -/
theorem _root_.Aleph.C141_order : ∃ (n : ℕ) (position : ℕ → Fin 1 → ℝ) (k : ℕ) (solver solver' : Matrix (Fin 3) (Fin 3) ℝ → Matrix (Fin 3) (Fin 3) ℝ → List (Eigen 1)),
    IsSolver solver ∧ IsSolver solver' ∧ ∀ (sort : (ℕ → ℕ → Bool) → List ℕ → List ℕ) (svd : List (Fin 1 → ℝ) → List (Fin 1 → ℝ)), IsStdSort sort → IsSvd svd →
      ∃ cs cs' : List ℝ, curvatures sort svd solver n position k = some cs ∧ curvatures sort svd solver' n position k = some cs' ∧ (∃ c : ℝ, 0 < c ∧ cs[0]? = some c) ∧ cs'[0]? = some 0 := by
  refine ⟨5, line, 5, ascending, descending, ascending_solver, descending_solver, fun sort svd hs hsvd => ?_⟩
  obtain ⟨cs, h1, h2⟩ := C141_fit_partial hs hsvd ascending_solver ascending_sorted 5 line 5 le_rfl (by norm_num) le_rfl
  obtain ⟨cs', h1', _, h2'⟩ := entry hs hsvd descending 5 line 5 le_rfl (by norm_num) le_rfl
  refine ⟨cs, cs', h1, h1', ?_, ?_⟩
  · obtain ⟨ids, h, hn, hfit⟩ := h2 0 (by norm_num)
    obtain ⟨q, hq, hmin, e⟩ := hfit (by
      intro q hq
      rw [line_cost hn] at hq
      have e1 : q.a ^ 2 = 0 := by nlinarith [sq_nonneg q.a, sq_nonneg (q.a + q.b 0 + q.c), sq_nonneg (q.a - q.b 0 + q.c)]
      have e2 : (q.a + q.b 0 + q.c) ^ 2 = 0 := by nlinarith [sq_nonneg q.a, sq_nonneg (q.a + q.b 0 + q.c), sq_nonneg (q.a - q.b 0 + q.c)]
      have e3 : (q.a - q.b 0 + q.c) ^ 2 = 0 := by nlinarith [sq_nonneg q.a, sq_nonneg (q.a + q.b 0 + q.c), sq_nonneg (q.a - q.b 0 + q.c)]
      have e1' := pow_eq_zero_iff (two_ne_zero) |>.1 e1
      have e2' := pow_eq_zero_iff (two_ne_zero) |>.1 e2
      have e3' := pow_eq_zero_iff (two_ne_zero) |>.1 e3
      refine quadric_ext e1' ?_ ?_
      · change q.b 0 = 0
        linarith
      · change q.c = 0
        linarith)
    refine ⟨2 * |q.c|, ?_, e⟩
    have hc : q.c ≠ 0 := by
      intro hc
      have hp := hmin ⟨-1 / 2, fun _ => 0, 1 / 2⟩ (by simp [Quadric.size]; norm_num)
      rw [line_cost hn, line_cost hn] at hp
      have hq1 : q.b 0 ^ 2 = 1 := by
        unfold Quadric.size at hq
        rw [Fin.sum_univ_one, hc] at hq
        linarith
      rw [hc] at hp
      norm_num at hp
      nlinarith [sq_nonneg q.a]
    have := abs_pos.2 hc
    linarith
  · obtain ⟨ids, h, hn, hh, e⟩ := h2' 0 (by norm_num)
    have hcost : ∀ u v : Fin 3 → ℝ, u ⬝ᵥ (gram line ⟨[], 0, line 0, h, ids⟩ *ᵥ v) = (coords u).a * (coords v).a +
        81 / 256 * (((coords u).a + (coords u).b 0 + (coords u).c) * ((coords v).a + (coords v).b 0 + (coords v).c) +
          ((coords u).a - (coords u).b 0 + (coords u).c) * ((coords v).a - (coords v).b 0 + (coords v).c)) := by
      intro u v
      rw [gram_dot]
      dsimp only
      have e1 : (ids.map fun j => phi (AlgebraicSphere.quotient (norm (line 0 - line j)) h) * ((coords u).value (line j) * (coords v).value (line j))) =
          ids.map fun j => weight h (distance (line 0) (line j)) * ((coords u).value (line j) * (coords v).value (line j)) :=
        List.map_congr_left fun j _ => by rw [norm_eq, phi_eq (distance_nonneg _ _) hh]
      rw [e1, ((line_ids hn).map _).sum_eq, line_h hn]
      simp only [List.map_cons, List.map_nil, List.sum_cons, List.sum_nil, line_distance]
      simp only [Quadric.value, Fin.sum_univ_one, line, weight]
      norm_num
      ring
    have hpair : ∀ u v : Fin 3 → ℝ, u ⬝ᵥ (constraint 1 *ᵥ v) = (coords u).b 0 * (coords v).b 0 - 2 * ((coords u).a * (coords v).c + (coords u).c * (coords v).a) := by
      intro u v
      rw [constraint_dot]
      unfold pair
      rw [Fin.sum_univ_one]
    have heq : ∀ (l : ℝ) (v : Fin 3 → ℝ), gram line ⟨[], 0, line 0, h, ids⟩ *ᵥ v = l • (constraint 1 *ᵥ v) ↔ ∀ u, u ⬝ᵥ (gram line ⟨[], 0, line 0, h, ids⟩ *ᵥ v) = l * (u ⬝ᵥ (constraint 1 *ᵥ v)) := by
      intro l v
      constructor
      · intro h u
        rw [h, dotProduct_smul, smul_eq_mul]
      · intro h
        funext i
        have := h (Pi.single i 1)
        rw [single_one_dotProduct, single_one_dotProduct] at this
        rw [this]
        rfl
    have hb : gram line ⟨[], 0, line 0, h, ids⟩ *ᵥ vec ⟨0, fun _ => 1, 0⟩ = (81 / 128 : ℝ) • (constraint 1 *ᵥ vec ⟨0, fun _ => 1, 0⟩) := by
      rw [heq]
      intro u
      rw [hcost, hpair, coords_vec]
      ring
    rw [e]
    change some (coords (choose (descending (gram line ⟨[], 0, line 0, h, ids⟩) (constraint 1)))).curvature = _
    rcases choose_cases descending_solver (gram line ⟨[], 0, line 0, h, ids⟩) with ⟨h0, _⟩ | ⟨x, a, b, hab, hna, hx, hx0, hc, hv0, hv⟩
    · rw [h0, curvature_zero]
    · have hge : 81 / 128 ≤ x.re := by
        obtain ⟨y, hy, e1, e2⟩ := (descending_solver (gram line ⟨[], 0, line 0, h, ids⟩) (constraint 1) constraint_injective).2 _ _ (by
          intro h0
          have := congrArg (fun v => (coords v).b 0) h0
          rw [coords_vec] at this
          simp [coords] at this) hb
        have hp := descending_sorted (gram line ⟨[], 0, line 0, h, ids⟩) (constraint 1)
        rw [hab] at hy hp
        rcases List.mem_append.1 hy with hy | hy
        · exact absurd ⟨by rw [e1]; norm_num, e2⟩ (hna y hy)
        · rcases List.mem_cons.1 hy with rfl | hy
          · exact e1.ge
          · rw [← e1]
            exact (List.pairwise_cons.1 (List.pairwise_append.1 hp).2.1).1 y hy
      have hva := (heq _ _).1 hv
      have h1a := hva (vec ⟨1, fun _ => 0, 0⟩)
      have h1c := hva (vec ⟨0, fun _ => 0, 1⟩)
      rw [hcost, hpair, coords_vec] at h1a h1c
      rw [hc]
      have hc0 : (coords x.vector).c = 0 := by
        generalize coords x.vector = q at h1a h1c
        dsimp only at h1a h1c
        have k1 : (1 + 81 / 128) * q.a = -(81 / 128 + 2 * x.re) * q.c := by linarith
        have k2 : (81 / 128 + 2 * x.re) * q.a = -(81 / 128) * q.c := by linarith
        have k3 : ((81 / 128 + 2 * x.re) ^ 2 - (1 + 81 / 128) * (81 / 128)) * q.c = 0 := by
          have : (81 / 128 + 2 * x.re) * ((1 + 81 / 128) * q.a) = (1 + 81 / 128) * ((81 / 128 + 2 * x.re) * q.a) := by ring
          rw [k1, k2] at this
          linarith
        refine (mul_eq_zero.1 k3).resolve_left ?_
        have : (0 : ℝ) < (81 / 128 + 2 * x.re) ^ 2 - (1 + 81 / 128) * (81 / 128) := by nlinarith
        exact this.ne'
      unfold Quadric.curvature
      rw [hc0]
      simp

example : ∃ (sort : (ℕ → ℕ → Bool) → List ℕ → List ℕ) (svd : List (Fin 2 → ℝ) → List (Fin 2 → ℝ)) (solver : Matrix (Fin 4) (Fin 4) ℝ → Matrix (Fin 4) (Fin 4) ℝ → List (Eigen 2)),
    IsStdSort sort ∧ IsSvd svd ∧ IsSolver solver ∧ ∀ S C, (solver S C).Pairwise fun e f => e.re ≤ f.re := by
  obtain ⟨sort, hs⟩ := exists_isStdSort ℕ
  exact ⟨sort, exampleSvd, ascending, hs, exampleSvd_spec, ascending_solver, ascending_sorted⟩

end Aleph.TangentSpace
