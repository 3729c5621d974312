import Verif.Model.AlgebraicSphere
import Mathlib.Tactic.Linarith
import Mathlib.Tactic.LinearCombination
import Mathlib.Algebra.Order.BigOperators.Group.List
import Mathlib.Tactic.FieldSimp
import Mathlib.Tactic.Ring
import Mathlib.Tactic.NormNum
import Mathlib.Algebra.BigOperators.Group.List.Basic

/-!
# C124: algebraic spheres
-/

namespace Aleph

/-- The value of the polynomial with coefficients `u0`, `u` and `s` (for the squared norm) at the point `x`. -/
def Spec.algebraicDistance (u0 : ℝ) (u : List ℝ) (s : ℝ) (x : List ℝ) : ℝ :=
  u0 + (List.zipWith (· * ·) u x).sum + s * (x.map fun t => t ^ 2).sum

/-- The squared distance of two points. -/
def Spec.sphereDistance (x y : List ℝ) : ℝ := (List.zipWith (fun a b => (a - b) ^ 2) x y).sum

namespace AlgebraicSphere

theorem squareSum_map_some (l : List ℝ) : squareSum (l.map some) = some (l.map fun t => t * t).sum := by
  suffices h : ∀ acc : ℝ, (l.map some).foldl (fun (acc : Option ℝ) (x : Option ℝ) => acc.bind fun a => x.map fun t => a + t * t) (some acc) =
      some (acc + (l.map fun t => t * t).sum) by
    have := h 0
    rw [zero_add] at this
    exact this
  induction l with
  | nil => intro acc; simp
  | cons a l ih =>
    intro acc
    simp only [List.map_cons, List.foldl_cons, Option.bind_some, Option.map_some, List.sum_cons]
    rw [ih, add_assoc]

theorem squareSum_none (l : List (Option ℝ)) (h : none ∈ l) : squareSum l = none := by
  have h0 : ∀ l : List (Option ℝ), l.foldl (fun (acc : Option ℝ) (x : Option ℝ) => acc.bind fun a => x.map fun t => a + t * t) none = none := by
    intro l
    induction l with
    | nil => rfl
    | cons a l ih => simpa using ih
  suffices h' : ∀ acc, l.foldl (fun (acc : Option ℝ) (x : Option ℝ) => acc.bind fun a => x.map fun t => a + t * t) acc = none from h' _
  induction l with
  | nil => simp at h
  | cons a l ih =>
    intro acc
    rw [List.foldl_cons]
    rcases List.mem_cons.1 h with rfl | h
    · cases acc <;> exact h0 l
    · exact ih h _

/-- What is stored agrees with what would be computed. -/
def Consistent (cs : List ℝ) (a : AlgebraicSphere) : Prop :=
  let fresh : AlgebraicSphere := ⟨none, [], cs⟩
  a.coefficients = cs ∧ (a.centre = [] ∨ a.centre = fresh.getCentre.1) ∧ (a.radius = none ∨ a.radius = fresh.getRadius.1)

theorem centre_ne_nil {cs : List ℝ} (h : 3 ≤ cs.length) : (⟨none, [], cs⟩ : AlgebraicSphere).getCentre.1 ≠ [] := by
  intro h0
  have := congrArg List.length h0
  simp [getCentre] at this
  omega

theorem getCentre_spec {cs : List ℝ} (_h : 3 ≤ cs.length) {a : AlgebraicSphere} (ha : Consistent cs a) :
    a.getCentre.1 = (⟨none, [], cs⟩ : AlgebraicSphere).getCentre.1 ∧ Consistent cs a.getCentre.2 ∧ a.getCentre.2.radius = a.radius := by
  obtain ⟨r, c, k⟩ := a
  obtain ⟨h1, h2, h3⟩ := ha
  simp only at h1 h2 h3
  subst h1
  by_cases hc : c = []
  · subst hc
    exact ⟨rfl, ⟨rfl, Or.inr rfl, h3⟩, rfl⟩
  · have e : (⟨r, c, k⟩ : AlgebraicSphere).getCentre = (c, ⟨r, c, k⟩) := by
      simp [getCentre, hc]
    rw [e]
    rcases h2 with h2 | h2
    · exact absurd h2 hc
    · exact ⟨h2, ⟨rfl, Or.inr h2, h3⟩, rfl⟩

theorem getRadius_spec {cs : List ℝ} (h : 3 ≤ cs.length) {a : AlgebraicSphere} (ha : Consistent cs a) :
    a.getRadius.1 = (⟨none, [], cs⟩ : AlgebraicSphere).getRadius.1 ∧ Consistent cs a.getRadius.2 := by
  obtain ⟨e1, e2, e3⟩ := getCentre_spec h ha
  cases hr : a.radius with
  | some r =>
    have e : a.getRadius = (some r, a) := by simp only [getRadius, hr]
    rw [e]
    refine ⟨?_, ha⟩
    rcases ha.2.2 with h' | h'
    · rw [hr] at h'; exact absurd h' (by simp)
    · exact hr.symm.trans h'
  | none =>
    have e4 := e2.1
    have key : a.getRadius.1 = (⟨none, [], cs⟩ : AlgebraicSphere).getRadius.1 := by
      simp only [getRadius, hr]
      rw [e1, e4]
      rfl
    refine ⟨key, ?_⟩
    have e : a.getRadius.2 = { a.getCentre.2 with radius := a.getRadius.1 } := by simp only [getRadius, hr]
    rw [e, key]
    exact ⟨e2.1, e2.2.1, Or.inr rfl⟩

theorem gaussian_eq (a : AlgebraicSphere) : a.gaussianCurvature = ((a.getRadius.1.elim 0 fun r => if r > 0 then 1 / (r * r) else 0), a.getRadius.2) := by
  simp only [gaussianCurvature]
  cases h : a.getRadius.1 <;> simp

theorem mean_eq (a : AlgebraicSphere) : a.meanCurvature = ((a.getRadius.1.elim 0 fun r => if r > 0 then 1 / r else 0), a.getRadius.2) := by
  simp only [meanCurvature]
  cases h : a.getRadius.1 <;> simp

theorem run_spec {cs : List ℝ} (h : 3 ≤ cs.length) (qs : List Query) : Consistent cs ((⟨none, [], cs⟩ : AlgebraicSphere).run qs) := by
  suffices h' : ∀ a, Consistent cs a → Consistent cs (a.run qs) from h' _ ⟨rfl, Or.inl rfl, Or.inl rfl⟩
  induction qs with
  | nil => exact fun a ha => ha
  | cons q qs ih =>
    intro a ha
    refine ih _ ?_
    cases q
    · exact (getCentre_spec h ha).2.1
    · exact (getRadius_spec h ha).2
    · simp only [after, gaussian_eq]; exact (getRadius_spec h ha).2
    · simp only [after, mean_eq]; exact (getRadius_spec h ha).2

/-- C124. Spheres are defined for at least three coefficients; otherwise, an exception is thrown. -/
theorem _root_.Aleph.C124_throws (cs : List ℝ) : make cs = none ↔ cs.length < 3 := by
  simp only [make]
  split <;> simp_all

/-- C124. The answers of an object do not depend on earlier queries: they are the same as those of a new object. -/
theorem _root_.Aleph.C124_history (cs : List ℝ) (a : AlgebraicSphere) (h : make cs = some a) (qs : List Query) :
    (a.run qs).getCentre.1 = a.getCentre.1 ∧ (a.run qs).getRadius.1 = a.getRadius.1 ∧
    (a.run qs).gaussianCurvature.1 = a.gaussianCurvature.1 ∧ (a.run qs).meanCurvature.1 = a.meanCurvature.1 := by
  simp only [make] at h
  split at h
  · simp at h
  rename_i hl
  obtain rfl := (Option.some.inj h).symm
  have hc := run_spec (not_lt.1 hl) qs
  have h1 := (getCentre_spec (not_lt.1 hl) hc).1
  have h2 := (getRadius_spec (not_lt.1 hl) hc).1
  refine ⟨h1, h2, ?_, ?_⟩
  · simp only [gaussian_eq, h2]
  · simp only [mean_eq, h2]

theorem fresh_centre (u0 : ℝ) (u : List ℝ) (s : ℝ) :
    (⟨none, [], u0 :: (u ++ [s])⟩ : AlgebraicSphere).getCentre.1 = u.map fun x => quotient x (2 * s) := by
  simp only [getCentre, List.isEmpty_nil, if_true, List.drop_succ_cons, List.drop_zero]
  rw [List.dropLast_concat, show (u0 :: (u ++ [s])).getLastD 0 = s by rw [← List.cons_append, List.getLastD_concat]]

theorem fresh_radius (u0 : ℝ) (u : List ℝ) (s : ℝ) (hs : s ≠ 0) :
    (⟨none, [], u0 :: (u ++ [s])⟩ : AlgebraicSphere).getRadius.1 = squareRoot (((u.map fun x => x / (2 * s)).map fun t => t * t).sum - u0 / s) := by
  have e : (⟨none, [], u0 :: (u ++ [s])⟩ : AlgebraicSphere).getCentre.1 = (u.map fun x => x / (2 * s)).map some := by
    rw [fresh_centre, List.map_map]
    refine List.map_congr_left fun x _ => ?_
    simp [quotient, hs]
  simp only [getRadius, e, squareSum_map_some]
  simp only [getCentre, List.isEmpty_nil, if_true, List.headD_cons]
  rw [show (u0 :: (u ++ [s])).getLastD 0 = s by rw [← List.cons_append, List.getLastD_concat]]
  simp [quotient, hs]

theorem distance_identity (u0 s : ℝ) (hs : s ≠ 0) : ∀ (u x : List ℝ), x.length = u.length →
    Spec.algebraicDistance u0 u s x = s * (Spec.sphereDistance x ((u.map fun v => v / (2 * s)).map fun v => -v) -
      (((u.map fun v => v / (2 * s)).map fun t => t * t).sum - u0 / s)) := by
  intro u
  induction u with
  | nil =>
    intro x hx
    rw [List.length_nil, List.length_eq_zero_iff] at hx
    subst hx
    simp [Spec.algebraicDistance, Spec.sphereDistance]
    field_simp
  | cons a u ih =>
    intro x hx
    cases x with
    | nil => simp at hx
    | cons b x =>
      have := ih x (by simpa using hx)
      simp only [Spec.algebraicDistance, Spec.sphereDistance, List.map_cons, List.zipWith_cons_cons, List.sum_cons] at this ⊢
      have h2 : a * b + s * b ^ 2 = s * ((b - -(a / (2 * s))) ^ 2 - a / (2 * s) * (a / (2 * s))) := by
        field_simp
        ring
      linear_combination this + h2

theorem squaredDistance_nonneg (x y : List ℝ) : 0 ≤ Spec.sphereDistance x y := by
  refine List.sum_nonneg fun v hv => ?_
  rw [List.mem_iff_getElem?] at hv
  obtain ⟨i, hi⟩ := hv
  rw [List.getElem?_zipWith] at hi
  cases h1 : x[i]? <;> cases h2 : y[i]? <;> simp [h1, h2] at hi
  rw [← hi]
  positivity

theorem make_cases {u0 s : ℝ} {u : List ℝ} {a : AlgebraicSphere} (h : make (u0 :: (u ++ [s])) = some a) : a = ⟨none, [], u0 :: (u ++ [s])⟩ := by
  simp only [make] at h
  split at h
  · simp at h
  · exact (Option.some.inj h).symm

/-- C124 (partial). If the coefficient of the squared norm is not zero, then the zeros of the polynomial are the sphere with the reported radius around
*minus* the reported centre; if the radius is not finite, there are no zeros.  The code reports the wrong centre, see `C124_wrong_centre`. -/
theorem _root_.Aleph.C124_sphere_partial (u0 : ℝ) (u : List ℝ) (s : ℝ) (hs : s ≠ 0) (a : AlgebraicSphere) (h : make (u0 :: (u ++ [s])) = some a) :
    ∃ c : List ℝ, a.getCentre.1 = c.map some ∧ c.length = u.length ∧
      ∀ x, x.length = u.length → (Spec.algebraicDistance u0 u s x = 0 ↔
        ∃ r, a.getRadius.1 = some r ∧ 0 ≤ r ∧ Spec.sphereDistance x (c.map fun v => -v) = r ^ 2) := by
  obtain rfl := make_cases h
  refine ⟨u.map fun x => x / (2 * s), ?_, by simp, ?_⟩
  · rw [fresh_centre, List.map_map]
    refine List.map_congr_left fun x _ => ?_
    simp [quotient, hs]
  · intro x hx
    rw [distance_identity u0 s hs u x hx, fresh_radius u0 u s hs, mul_eq_zero, or_iff_right hs, sub_eq_zero]
    generalize (List.map (fun t => t * t) (List.map (fun v => v / (2 * s)) u)).sum - u0 / s = ρ
    have h0 := squaredDistance_nonneg x ((u.map fun v => v / (2 * s)).map fun v => -v)
    constructor
    · intro e
      rw [e] at h0 ⊢
      exact ⟨Real.sqrt ρ, by simp [squareRoot, not_lt.2 h0], Real.sqrt_nonneg _, (Real.sq_sqrt h0).symm⟩
    · rintro ⟨r, hr, _, e⟩
      simp only [squareRoot] at hr
      split at hr
      · simp at hr
      · rename_i hρ
        obtain rfl := Option.some.inj hr
        rw [e, Real.sq_sqrt (not_lt.1 hρ)]

theorem squaredDistance_map (k m : ℝ) (c : List ℝ) :
    Spec.sphereDistance (c.map fun v => k * v) (c.map fun v => m * v) = (k - m) ^ 2 * (c.map fun v => v ^ 2).sum := by
  induction c with
  | nil => simp [Spec.sphereDistance]
  | cons a c ih =>
    simp only [Spec.sphereDistance, List.map_cons, List.zipWith_cons_cons, List.sum_cons] at ih ⊢
    rw [ih]
    ring

theorem sum_sq_nonneg (c : List ℝ) : 0 ≤ (c.map fun v => v ^ 2).sum := by
  refine List.sum_nonneg fun v hv => ?_
  obtain ⟨w, _, rfl⟩ := List.mem_map.1 hv
  positivity

theorem sum_sq_pos {c : List ℝ} (h : ∃ v ∈ c, v ≠ 0) : 0 < (c.map fun v => v ^ 2).sum := by
  induction c with
  | nil => simp at h
  | cons a c ih =>
    rw [List.map_cons, List.sum_cons]
    have h0 := sum_sq_nonneg c
    by_cases ha : a = 0
    · obtain ⟨v, hv, h1⟩ := h
      rcases List.mem_cons.1 hv with rfl | hv
      · exact absurd ha h1
      · have := ih ⟨v, hv, h1⟩
        positivity
    · have : 0 < a ^ 2 := by positivity
      linarith

/-- C124. The reported centre is right only if it is the origin: whenever the sphere is not empty, the zeros of the polynomial are the sphere around the reported centre if
and only if all linear coefficients are zero. -/
theorem _root_.Aleph.C124_wrong_centre (u0 : ℝ) (u : List ℝ) (s : ℝ) (hs : s ≠ 0) (a : AlgebraicSphere) (h : make (u0 :: (u ++ [s])) = some a) (r : ℝ)
    (hr : a.getRadius.1 = some r) (c : List ℝ) (hc : a.getCentre.1 = c.map some) :
    (∀ x, x.length = u.length → (Spec.algebraicDistance u0 u s x = 0 ↔ Spec.sphereDistance x c = r ^ 2)) ↔ ∀ v ∈ u, v = 0 := by
  obtain ⟨c', h1, h2, h3⟩ := C124_sphere_partial u0 u s hs a h
  have hcc : c' = c := List.map_injective_iff.2 (Option.some_injective ℝ) (h1.symm.trans hc)
  subst hcc
  have hcu : c' = u.map fun v => v / (2 * s) := by
    obtain rfl := make_cases h
    rw [fresh_centre] at h1
    refine (List.map_injective_iff.2 (Option.some_injective ℝ) ?_).symm
    rw [← h1, List.map_map]
    refine List.map_congr_left fun x _ => ?_
    simp [quotient, hs]
  have hr0 : 0 ≤ r := by
    obtain rfl := make_cases h
    rw [fresh_radius u0 u s hs] at hr
    simp only [squareRoot] at hr
    split at hr
    · simp at hr
    · rw [← Option.some.inj hr]; exact Real.sqrt_nonneg _
  have h4 : ∀ x, x.length = u.length → (Spec.algebraicDistance u0 u s x = 0 ↔ Spec.sphereDistance x (c'.map fun v => -v) = r ^ 2) := by
    intro x hx
    rw [h3 x hx]
    constructor
    · rintro ⟨r', e1, _, e2⟩
      rw [hr] at e1
      rw [e2, Option.some.inj e1]
    · exact fun e => ⟨r, hr, hr0, e⟩
  constructor
  · intro hall
    by_contra hne
    push Not at hne
    obtain ⟨v, hv, hv0⟩ := hne
    have hpos : 0 < (c'.map fun v => v ^ 2).sum := by
      refine sum_sq_pos ⟨v / (2 * s), ?_, div_ne_zero hv0 (mul_ne_zero two_ne_zero hs)⟩
      rw [hcu]
      exact List.mem_map_of_mem hv
    generalize hN : (c'.map fun v => v ^ 2).sum = N at hpos
    have hq : Real.sqrt N ^ 2 = N := Real.sq_sqrt hpos.le
    have hq0 : 0 < Real.sqrt N := Real.sqrt_pos.2 hpos
    have hx := (h4 (c'.map fun v => -(1 + r / Real.sqrt N) * v) (by rw [List.length_map, h2])).symm.trans
      (hall _ (by rw [List.length_map, h2]))
    have e1 : (c'.map fun v => -v) = c'.map fun v => (-1) * v := List.map_congr_left fun v _ => by ring
    have e2 : c' = c'.map fun v => 1 * v := by simp
    rw [e1] at hx
    nth_rw 4 [e2] at hx
    rw [squaredDistance_map, squaredDistance_map, hN] at hx
    have l : (-(1 + r / Real.sqrt N) - -1) ^ 2 * N = r ^ 2 := by
      have : (-(1 + r / Real.sqrt N) - -1) ^ 2 * N = r ^ 2 / Real.sqrt N ^ 2 * N := by ring
      rw [this, hq]
      field_simp
    have m := hx.1 l
    have m' : (-(1 + r / Real.sqrt N) - 1) ^ 2 * N = (2 * Real.sqrt N + r) ^ 2 := by
      have : (-(1 + r / Real.sqrt N) - 1) ^ 2 * Real.sqrt N ^ 2 = (2 * Real.sqrt N + r) ^ 2 := by
        field_simp
        ring
      rw [← this, hq]
    rw [m'] at m
    nlinarith
  · intro hall x hx
    rw [h4 x hx]
    have : (c'.map fun v => -v) = c' := by
      rw [hcu, List.map_map]
      refine List.map_congr_left fun v hv => ?_
      simp [hall v hv]
    rw [this]

/-- C124. If the coefficient of the squared norm is zero, then there is no finite centre and no finite radius, and the curvatures are zero. -/
theorem _root_.Aleph.C124_plane (u0 : ℝ) (u : List ℝ) (a : AlgebraicSphere) (h : make (u0 :: (u ++ [0])) = some a) :
    (∀ v ∈ a.getCentre.1, v = none) ∧ a.getCentre.1.length = u.length ∧ a.getRadius.1 = none ∧ a.gaussianCurvature.1 = 0 ∧ a.meanCurvature.1 = 0 := by
  have hu : u ≠ [] := by
    rintro rfl
    simp [make] at h
  obtain rfl := make_cases h
  have e : (⟨none, [], u0 :: (u ++ [0])⟩ : AlgebraicSphere).getCentre.1 = u.map fun _ => none := by
    rw [fresh_centre]
    refine List.map_congr_left fun x _ => ?_
    simp [quotient]
  have er : (⟨none, [], u0 :: (u ++ [0])⟩ : AlgebraicSphere).getRadius.1 = none := by
    simp only [getRadius, e]
    rw [squareSum_none _ (by obtain ⟨v, hv⟩ := List.exists_mem_of_ne_nil u hu; exact List.mem_map.2 ⟨v, hv, rfl⟩)]
    rfl
  refine ⟨?_, by rw [e, List.length_map], er, ?_, ?_⟩
  · rw [e]; intro v hv; obtain ⟨_, _, rfl⟩ := List.mem_map.1 hv; rfl
  · rw [gaussian_eq, er]; rfl
  · rw [mean_eq, er]; rfl

/-- C124. The curvatures are those of a sphere with the reported radius: `1 / r²` and `1 / r`; they are zero for a radius that is zero or not finite. -/
theorem _root_.Aleph.C124_curvature (cs : List ℝ) (a : AlgebraicSphere) (_h : make cs = some a) :
    (∀ r, a.getRadius.1 = some r → 0 < r → a.gaussianCurvature.1 = 1 / r ^ 2 ∧ a.meanCurvature.1 = 1 / r) ∧
    (a.getRadius.1 = none ∨ a.getRadius.1 = some 0 → a.gaussianCurvature.1 = 0 ∧ a.meanCurvature.1 = 0) := by
  rw [gaussian_eq, mean_eq]
  constructor
  · intro r hr h0
    simp [hr, h0, pow_two]
  · rintro (h | h) <;> simp [h]

/-- The wrong centre for a concrete sphere: the polynomial `-2 x + x²` in one variable has the zeros 0 and 2, which have the same distance to 1; the code reports the centre -1. -/
example : ∃ a, make [0, -2, 1] = some a ∧ a.getCentre.1 = [some (-1)] ∧ a.getRadius.1 = some 1 ∧
    Spec.algebraicDistance 0 [-2] 1 [0] = 0 ∧ Spec.algebraicDistance 0 [-2] 1 [2] = 0 := by
  refine ⟨⟨none, [], [0, -2, 1]⟩, by simp [make], ?_, ?_, by norm_num [Spec.algebraicDistance], by norm_num [Spec.algebraicDistance]⟩
  · have := fresh_centre 0 [-2] 1
    simp only [List.singleton_append] at this
    rw [this]
    norm_num [quotient]
  · have := fresh_radius 0 [-2] 1 one_ne_zero
    simp only [List.singleton_append] at this
    rw [this]
    norm_num [squareRoot]

end AlgebraicSphere

end Aleph
