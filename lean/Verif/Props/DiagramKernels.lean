import Verif.Model.DiagramKernels
import Verif.Lemmas.Gaussian
import Verif.Props.DiagramNorms

/-!
# C68, C69: kernels for persistence diagrams
-/

namespace Aleph

open DiagramKernels Gaussian

/-! ### C69: the multi-scale kernel -/

theorem squaredEuclideanDistance_eq (p q : ℝ × ℝ) :
    squaredEuclideanDistance p q false = (p.1 - q.1) ^ 2 + (p.2 - q.2) ^ 2 ∧
    squaredEuclideanDistance p q true = (p.1 - q.2) ^ 2 + (p.2 - q.1) ^ 2 := by
  have h : ∀ a b : ℝ, (if a > b then a - b else b - a) * (if a > b then a - b else b - a) = (a - b) ^ 2 := by
    intro a b
    split <;> ring
  constructor
  · unfold squaredEuclideanDistance
    simp only [Bool.false_eq_true, if_false, h]
  · unfold squaredEuclideanDistance
    simp only [if_true, h]

theorem kahan_foldl_sub {α β : Type} [Field α] (f g : β → α) (l : List β) :
    ∀ k : Kahan α, k.c = 0 → (l.foldl (fun r p => (r.add (f p)).sub (g p)) k).sum =
        k.sum + (l.map fun p => f p - g p).sum ∧
      (l.foldl (fun r p => (r.add (f p)).sub (g p)) k).c = 0 := by
  induction l with
  | nil => intro k hk; simp [hk]
  | cons a l ih =>
    intro k hk
    have h := kahan_step k hk (.add (f a))
    have h' := kahan_step (k.add (f a)) h.1 (.sub (g a))
    have h2 : (k.add (f a)).sum = k.sum + f a := h.2
    have h3 : ((k.add (f a)).sub (g a)).sum = (k.add (f a)).sum - g a := h'.2
    obtain ⟨i1, i2⟩ := ih ((k.add (f a)).sub (g a)) h'.1
    rw [List.foldl_cons]
    refine ⟨?_, i2⟩
    rw [i1, h3, h2, List.map_cons, List.sum_cons]
    ring

theorem kahan_foldl_sub2 {α β γ : Type} [Field α] (f g : β → γ → α) (l : List β) (m : List γ) :
    ∀ k : Kahan α, k.c = 0 →
      (l.foldl (fun r p => m.foldl (fun r q => (r.add (f p q)).sub (g p q)) r) k).sum =
        k.sum + (l.map fun p => (m.map fun q => f p q - g p q).sum).sum := by
  induction l with
  | nil => intro k hk; simp
  | cons a l ih =>
    intro k hk
    obtain ⟨h1, h2⟩ := kahan_foldl_sub (f a) (g a) m k hk
    rw [List.foldl_cons, ih _ h2, h1, List.map_cons, List.sum_cons]
    ring

/-- The sum of the kernel without its prefactor. -/
noncomputable def kernelSum (c : ℝ) (D E : List (ℝ × ℝ)) : ℝ :=
  (D.map fun p => (E.map fun q => gauss c p q - gauss c p q.swap).sum).sum

theorem multiScaleKernel_eq (D E : Diagram ℝ) (sigma : ℝ) :
    multiScaleKernel D E sigma = 1 / (8 * Real.pi * sigma) * kernelSum (8 * Real.pi) D.points E.points := by
  unfold multiScaleKernel
  rw [kahan_foldl_sub2 (fun p q => Real.exp (-squaredEuclideanDistance p q false / (8 * Real.pi)))
    (fun p q => Real.exp (-squaredEuclideanDistance p q true / (8 * Real.pi))) _ _ _ rfl]
  simp only [Kahan.init, zero_add, (squaredEuclideanDistance_eq _ _).1, (squaredEuclideanDistance_eq _ _).2, kernelSum,
    gauss, Prod.fst_swap, Prod.snd_swap]

theorem multiScaleFeatureMap_eq (D : Diagram ℝ) (sigma : ℝ) :
    multiScaleFeatureMap D sigma = 1 / (4 * Real.pi * sigma) * kernelSum (4 * Real.pi) D.points D.points := by
  unfold multiScaleFeatureMap
  rw [kahan_foldl_sub2 (fun p q => Real.exp (-squaredEuclideanDistance p q false / (4 * Real.pi)))
    (fun p q => Real.exp (-squaredEuclideanDistance p q true / (4 * Real.pi))) _ _ _ rfl]
  simp only [Kahan.init, zero_add, (squaredEuclideanDistance_eq _ _).1, (squaredEuclideanDistance_eq _ _).2, kernelSum,
    gauss, Prod.fst_swap, Prod.snd_swap]

/-- The signed points of a diagram: each point, and its mirror image with a negative weight. -/
def signed (D : List (ℝ × ℝ)) : Weighted := D.map (fun p => (1, p)) ++ D.map (fun p => (-1, p.swap))

theorem gauss_swap (c : ℝ) (p q : ℝ × ℝ) : gauss c p.swap q = gauss c p q.swap := by
  unfold gauss
  congr 2
  simp only [Prod.fst_swap, Prod.snd_swap]
  ring

theorem form_signed (c : ℝ) (D E : List (ℝ × ℝ)) : form c (signed D) (signed E) = 2 * kernelSum c D E := by
  unfold signed kernelSum
  rw [form_append_left, form_append_right, form_append_right]
  unfold form
  simp only [List.map_map, Function.comp_def, one_mul, mul_one, neg_mul, mul_neg, neg_neg, gauss_swap, Prod.swap_swap]
  rw [← List.sum_map_mul_left, ← List.sum_map_add, ← List.sum_map_add, ← List.sum_map_add]
  congr 1
  apply List.map_congr_left
  intro p _
  rw [← List.sum_map_mul_left, ← List.sum_map_add, ← List.sum_map_add, ← List.sum_map_add]
  congr 1
  apply List.map_congr_left
  intro q _
  ring

theorem total_signed (D : List (ℝ × ℝ)) (p : ℝ × ℝ) : total (signed D) p = (D.count p : ℝ) - D.count p.swap := by
  unfold total signed
  rw [List.map_append, List.sum_append, List.map_map, List.map_map]
  simp only [Function.comp_def]
  induction D with
  | nil => simp
  | cons q D ih =>
    simp only [List.map_cons, List.sum_cons, List.count_cons, beq_iff_eq] at ih ⊢
    have h : (if q.swap = p then (-1 : ℝ) else 0) = if q = p.swap then -1 else 0 := by
      refine if_congr ?_ rfl rfl
      constructor
      · rintro rfl; simp
      · rintro rfl; simp
    rw [h]
    push_cast
    split <;> split <;> linarith

/-- C69. The multi-scale kernel is the scaled sum of the differences between the Gaussian of the distance of two points and the
Gaussian of the distance to the mirrored point.  It is symmetric, additive in each argument, independent of the order of the
points, and points on the diagonal do not contribute.  The parameter `sigma` is only a prefactor. -/
theorem C69_kernel (D E F : Diagram ℝ) (sigma : ℝ) (hs : sigma ≠ 0) :
    multiScaleKernel D E sigma = 1 / (8 * Real.pi * sigma) *
      (D.points.map fun p => (E.points.map fun q =>
        Real.exp (-((p.1 - q.1) ^ 2 + (p.2 - q.2) ^ 2) / (8 * Real.pi)) -
        Real.exp (-((p.1 - q.2) ^ 2 + (p.2 - q.1) ^ 2) / (8 * Real.pi))).sum).sum ∧
    multiScaleKernel D E sigma = multiScaleKernel E D sigma ∧
    multiScaleKernel (D.merge F) E sigma = multiScaleKernel D E sigma + multiScaleKernel F E sigma ∧
    (D.points.Perm F.points → multiScaleKernel D E sigma = multiScaleKernel F E sigma) ∧
    multiScaleKernel D.removeDiagonal E sigma = multiScaleKernel D E sigma ∧
    sigma * multiScaleKernel D E sigma = multiScaleKernel D E 1 := by
  refine ⟨?_, ?_, ?_, ?_, ?_, ?_⟩
  · rw [multiScaleKernel_eq]
    simp only [kernelSum, gauss, Prod.fst_swap, Prod.snd_swap]
  · rw [multiScaleKernel_eq, multiScaleKernel_eq]
    have h1 := form_signed (8 * Real.pi) D.points E.points
    have h2 := form_signed (8 * Real.pi) E.points D.points
    rw [form_comm] at h1
    have : kernelSum (8 * Real.pi) D.points E.points = kernelSum (8 * Real.pi) E.points D.points := by linarith
    rw [this]
  · simp only [multiScaleKernel_eq, kernelSum, Diagram.merge, List.map_append, List.sum_append]
    ring
  · intro h
    simp only [multiScaleKernel_eq, kernelSum]
    rw [(h.map _).sum_eq]
  · simp only [multiScaleKernel_eq, kernelSum, Diagram.removeDiagonal]
    congr 1
    induction D.points with
    | nil => simp
    | cons p l ih =>
      by_cases hp : p.1 = p.2
      · rw [List.filter_cons_of_neg (by simp [hp]), ih, List.map_cons, List.sum_cons]
        have : (E.points.map fun q => gauss (8 * Real.pi) p q - gauss (8 * Real.pi) p q.swap) = E.points.map fun _ => (0 : ℝ) := by
          apply List.map_congr_left
          intro q _
          rw [← gauss_swap]
          have : p.swap = p := Prod.ext hp.symm hp
          rw [this, sub_self]
        rw [this]; simp
      · rw [List.filter_cons_of_pos (by simp [hp]), List.map_cons, List.sum_cons, ih, List.map_cons, List.sum_cons]
  · rw [multiScaleKernel_eq, multiScaleKernel_eq]
    field_simp

theorem kernelSum_psd {c : ℝ} (hc : 0 < c) (D E F : List (ℝ × ℝ)) (x y z : ℝ) :
    0 ≤ x ^ 2 * kernelSum c D D + y ^ 2 * kernelSum c E E + z ^ 2 * kernelSum c F F + 2 * x * y * kernelSum c D E +
      2 * x * z * kernelSum c D F + 2 * y * z * kernelSum c E F := by
  have h := form_nonneg hc (scale x (signed D) ++ (scale y (signed E) ++ scale z (signed F)))
  simp only [form_append_left, form_append_right, form_scale_left, form_scale_right, form_signed] at h
  have h1 := form_signed c D E
  have h2 := form_signed c E D
  have h3 := form_signed c D F
  have h4 := form_signed c F D
  have h5 := form_signed c E F
  have h6 := form_signed c F E
  rw [form_comm] at h2 h4 h6
  have e1 : kernelSum c E D = kernelSum c D E := by linarith
  have e2 : kernelSum c F D = kernelSum c D F := by linarith
  have e3 : kernelSum c F E = kernelSum c E F := by linarith
  rw [e1, e2, e3] at h
  nlinarith

theorem sqrt_some {x : ℝ} (h : 0 ≤ x) : DiagramKernels.sqrt x = some (Real.sqrt x) := by
  unfold DiagramKernels.sqrt
  rw [if_neg (not_lt.2 h)]

/-- C69. For a positive smoothing parameter the distance based on the multi-scale kernel is always a number; it is symmetric,
satisfies the triangle inequality, and is zero exactly if both diagrams have the same points off the diagonal, with
multiplicities. -/
theorem C69_metric (sigma : ℝ) (hs : 0 < sigma) :
    ∃ d : Diagram ℝ → Diagram ℝ → ℝ, (∀ D E, multiScalePseudoMetric D E sigma = some (d D E)) ∧
      (∀ D E, 0 ≤ d D E) ∧ (∀ D, d D D = 0) ∧ (∀ D E, d D E = d E D) ∧
      (∀ D E F, d D F ≤ d D E + d E F) ∧
      (∀ D E, (∀ p ∈ D.points, p.1 ≤ p.2) → (∀ p ∈ E.points, p.1 ≤ p.2) →
        (d D E = 0 ↔ D.removeDiagonal.points.Perm E.removeDiagonal.points)) := by
  have hc : (0 : ℝ) < 8 * Real.pi := by positivity
  have hpos : (0 : ℝ) < 1 / (8 * Real.pi * sigma) := by positivity
  set a := 1 / (8 * Real.pi * sigma) with ha
  have hval : ∀ D E : Diagram ℝ, multiScaleKernel D E sigma = a * kernelSum (8 * Real.pi) D.points E.points :=
    fun D E => multiScaleKernel_eq D E sigma
  have hsymm : ∀ D E : Diagram ℝ, multiScaleKernel D E sigma = multiScaleKernel E D sigma :=
    fun D E => (C69_kernel D E D sigma hs.ne').2.1
  have hform : ∀ D E F : Diagram ℝ, ∀ x y z : ℝ, 0 ≤ x ^ 2 * multiScaleKernel D D sigma +
      y ^ 2 * multiScaleKernel E E sigma + z ^ 2 * multiScaleKernel F F sigma +
      2 * x * y * multiScaleKernel D E sigma + 2 * x * z * multiScaleKernel D F sigma +
      2 * y * z * multiScaleKernel E F sigma := by
    intro D E F x y z
    simp only [hval]
    have := mul_nonneg hpos.le (kernelSum_psd hc D.points E.points F.points x y z)
    linarith
  have hnn : ∀ D E : Diagram ℝ,
      0 ≤ multiScaleKernel D D sigma + multiScaleKernel E E sigma - 2 * multiScaleKernel D E sigma := by
    intro D E
    have := hform D E D 1 (-1) 0
    linarith
  refine ⟨fun D E => Real.sqrt (multiScaleKernel D D sigma + multiScaleKernel E E sigma -
    2 * multiScaleKernel D E sigma), fun D E => sqrt_some (hnn D E), fun D E => Real.sqrt_nonneg _, ?_, ?_, ?_, ?_⟩
  · intro D
    simp only
    rw [Real.sqrt_eq_zero']
    linarith
  · intro D E
    simp only
    rw [hsymm D E]
    congr 1
    ring
  · intro D E F
    exact triangle_of_form (hform D E F)
  · intro D E hD hE
    simp only
    rw [Real.sqrt_eq_zero (hnn D E)]
    have e : multiScaleKernel D D sigma + multiScaleKernel E E sigma - 2 * multiScaleKernel D E sigma =
        a / 2 * form (8 * Real.pi) (signed D.points ++ scale (-1) (signed E.points))
          (signed D.points ++ scale (-1) (signed E.points)) := by
      simp only [hval, form_append_left, form_append_right, form_scale_left, form_scale_right, form_signed]
      have h1 := form_signed (8 * Real.pi) D.points E.points
      have h2 := form_signed (8 * Real.pi) E.points D.points
      rw [form_comm] at h2
      have : kernelSum (8 * Real.pi) E.points D.points = kernelSum (8 * Real.pi) D.points E.points := by linarith
      rw [this]
      ring
    rw [e, mul_eq_zero, or_iff_right (by positivity), form_eq_zero_iff hc]
    have htot : ∀ p, total (signed D.points ++ scale (-1) (signed E.points)) p =
        ((D.points.count p : ℝ) - D.points.count p.swap) - ((E.points.count p : ℝ) - E.points.count p.swap) := by
      intro p
      rw [← total_signed, ← total_signed]
      unfold total scale
      rw [List.map_append, List.sum_append, List.map_map]
      have : (List.map ((fun u : ℝ × ℝ × ℝ => if u.2 = p then u.1 else 0) ∘ fun u => (-1 * u.1, u.2)) (signed E.points)) =
          (signed E.points).map fun u => -1 * (if u.2 = p then u.1 else 0) := by
        apply List.map_congr_left
        intro u _
        simp only [Function.comp]
        split <;> simp
      rw [this, List.sum_map_mul_left]
      ring
    simp only [htot]
    rw [List.perm_iff_count]
    have hcount : ∀ (G : Diagram ℝ) (p : ℝ × ℝ), (∀ q ∈ G.points, q.1 ≤ q.2) →
        G.removeDiagonal.points.count p = if p.1 < p.2 then G.points.count p else 0 := by
      intro G p hG
      unfold Diagram.removeDiagonal
      split
      · next h => exact List.count_filter (by simp [h.ne])
      · next h =>
        rw [List.count_eq_zero]
        intro hm
        rw [List.mem_filter] at hm
        have h1 := hG p hm.1
        have h2 : p.1 ≠ p.2 := by simpa using hm.2
        exact h (lt_of_le_of_ne h1 h2)
    have hzero : ∀ (G : Diagram ℝ) (p : ℝ × ℝ), (∀ q ∈ G.points, q.1 ≤ q.2) → p.1 < p.2 → G.points.count p.swap = 0 := by
      intro G p hG hp
      rw [List.count_eq_zero]
      intro hm
      have := hG _ hm
      simp at this
      linarith
    constructor
    · intro h p
      rw [hcount D p hD, hcount E p hE]
      split
      · next hp =>
        have := h p
        rw [hzero D p hD hp, hzero E p hE hp] at this
        have : (D.points.count p : ℝ) = E.points.count p := by push_cast at this; linarith
        exact_mod_cast this
      · rfl
    · intro h p
      have key : ∀ p : ℝ × ℝ, p.1 < p.2 → (D.points.count p : ℝ) = E.points.count p := by
        intro p hp
        have := h p
        rw [hcount D p hD, hcount E p hE, if_pos hp, if_pos hp] at this
        exact_mod_cast this
      rcases lt_trichotomy p.1 p.2 with hp | hp | hp
      · rw [key p hp, hzero D p hD hp, hzero E p hE hp]; ring
      · have : p.swap = p := Prod.ext hp.symm hp
        rw [this]; ring
      · have hp' : p.swap.1 < p.swap.2 := by simpa using hp
        have z1 := hzero D p.swap hD hp'
        have z2 := hzero E p.swap hE hp'
        rw [Prod.swap_swap] at z1 z2
        rw [key p.swap hp', z1, z2]; ring

/-- C69. The distance only scales with the smoothing parameter: `sigma` has no effect on which diagrams are close. -/
theorem C69_sigma (D E : Diagram ℝ) (sigma : ℝ) (hs : 0 < sigma) :
    ∃ x, multiScalePseudoMetric D E 1 = some x ∧ multiScalePseudoMetric D E sigma = some (x / Real.sqrt sigma) := by
  obtain ⟨d, h1, h2, _⟩ := C69_metric 1 one_pos
  refine ⟨d D E, h1 D E, ?_⟩
  have hk : ∀ D E : Diagram ℝ, multiScaleKernel D E sigma = multiScaleKernel D E 1 / sigma := fun D E => by
    rw [← (C69_kernel D E D sigma hs.ne').2.2.2.2.2]
    field_simp
  have h3 := h1 D E
  unfold multiScalePseudoMetric at h3 ⊢
  simp only at h3 ⊢
  simp only [hk]
  unfold DiagramKernels.sqrt at h3 ⊢
  split at h3
  · cases h3
  · next hn =>
    have e : multiScaleKernel D D 1 / sigma + multiScaleKernel E E 1 / sigma - 2 * (multiScaleKernel D E 1 / sigma) =
        (multiScaleKernel D D 1 + multiScaleKernel E E 1 - 2 * multiScaleKernel D E 1) / sigma := by ring
    rw [e, if_neg (not_lt.2 (div_nonneg (not_lt.1 hn) hs.le)), Real.sqrt_div (not_lt.1 hn)]
    rw [Option.some.inj h3]

/-- C69. The value of `multiScaleFeatureMap` is non-negative, and zero exactly for diagrams without points off the
diagonal. -/
theorem C69_feature_map (D : Diagram ℝ) (hD : ∀ p ∈ D.points, p.1 ≤ p.2) (sigma : ℝ) (hs : 0 < sigma) :
    0 ≤ multiScaleFeatureMap D sigma ∧ (multiScaleFeatureMap D sigma = 0 ↔ ∀ p ∈ D.points, p.1 = p.2) := by
  have hc : (0 : ℝ) < 4 * Real.pi := by positivity
  have hpos : (0 : ℝ) < 1 / (4 * Real.pi * sigma) := by positivity
  have h := form_signed (4 * Real.pi) D.points D.points
  have hf := form_nonneg hc (signed D.points)
  rw [multiScaleFeatureMap_eq]
  refine ⟨mul_nonneg hpos.le (by linarith), ?_⟩
  rw [mul_eq_zero, or_iff_right hpos.ne']
  have h2 : kernelSum (4 * Real.pi) D.points D.points = 0 ↔ form (4 * Real.pi) (signed D.points) (signed D.points) = 0 := by
    rw [h]; constructor <;> intro <;> linarith
  rw [h2, form_eq_zero_iff hc]
  simp only [total_signed]
  constructor
  · intro h p hp
    by_contra hne
    have hlt := lt_of_le_of_ne (hD p hp) hne
    have h0 : D.points.count p.swap = 0 := by
      rw [List.count_eq_zero]
      intro hm
      have := hD _ hm
      simp at this
      linarith
    have h1 := h p
    rw [h0] at h1
    have h3 : 0 < D.points.count p := List.count_pos_iff.2 hp
    have h4 : (0 : ℝ) < D.points.count p := by exact_mod_cast h3
    push_cast at h1
    linarith
  · intro h p
    by_cases hp : p.1 = p.2
    · have : p.swap = p := Prod.ext hp.symm hp
      rw [this, sub_self]
    · have h1 : D.points.count p = 0 := List.count_eq_zero.2 fun hm => hp (h p hm)
      have h2 : D.points.count p.swap = 0 := List.count_eq_zero.2 fun hm => hp (h _ hm).symm
      rw [h1, h2]; simp

/-! ### C68: the persistence-weighted kernel -/

theorem kahan_foldl2 {α β γ : Type} [Field α] (f : β → γ → α) (l : List β) (m : List γ) :
    ∀ k : Kahan α, k.c = 0 →
      (l.foldl (fun r p => m.foldl (fun r q => r.add (f p q)) r) k).sum =
        k.sum + (l.map fun p => (m.map fun q => f p q).sum).sum := by
  have hc : ∀ (g : γ → α) (m : List γ) (k : Kahan α), k.c = 0 → (m.foldl (fun r q => r.add (g q)) k).c = 0 := by
    intro g m
    induction m with
    | nil => intro k hk; exact hk
    | cons b m ih => intro k hk; exact ih _ (kahan_step k hk (.add (g b))).1
  induction l with
  | nil => intro k hk; simp
  | cons a l ih =>
    intro k hk
    rw [List.foldl_cons, ih _ (hc _ m k hk), kahan_foldl (f a) m k hk, List.map_cons, List.sum_cons]
    ring

/-- C68. The linear kernel is the sum over all pairs of points of the product of both weights and the kernel of the points.  For
the default kernel it is symmetric, additive in each argument and positive semidefinite: no linear combination of diagrams has a
negative value.  Missing: the pseudo-metric and the Gaussian kernel built on it are wrong, see
`C68_pseudo_metric_wrong`. -/
theorem C68_linear_kernel_partial (w : ℝ × ℝ → ℝ) (sigma : ℝ) (hs : sigma ≠ 0) :
    (∀ (D E : Diagram ℝ) (k : ℝ × ℝ → ℝ × ℝ → ℝ), linearKernel D E w k =
      (D.points.map fun p => (E.points.map fun q => w p * w q * k p q).sum).sum) ∧
    (∀ p q, defaultKernel sigma p q = Real.exp (-((p.1 - q.1) ^ 2 + (p.2 - q.2) ^ 2) / (2 * sigma ^ 2))) ∧
    (∀ D E, linearKernel D E w (defaultKernel sigma) = linearKernel E D w (defaultKernel sigma)) ∧
    (∀ D E F, linearKernel (D.merge E) F w (defaultKernel sigma) =
      linearKernel D F w (defaultKernel sigma) + linearKernel E F w (defaultKernel sigma)) ∧
    (∀ (D E F : Diagram ℝ) (x y z : ℝ), 0 ≤ x ^ 2 * linearKernel D D w (defaultKernel sigma) +
      y ^ 2 * linearKernel E E w (defaultKernel sigma) + z ^ 2 * linearKernel F F w (defaultKernel sigma) +
      2 * x * y * linearKernel D E w (defaultKernel sigma) + 2 * x * z * linearKernel D F w (defaultKernel sigma) +
      2 * y * z * linearKernel E F w (defaultKernel sigma)) := by
  have hlin : ∀ (D E : Diagram ℝ) (k : ℝ × ℝ → ℝ × ℝ → ℝ), linearKernel D E w k =
      (D.points.map fun p => (E.points.map fun q => w p * w q * k p q).sum).sum := by
    intro D E k
    unfold linearKernel
    rw [kahan_foldl2 (fun p q => w p * w q * k p q) _ _ _ rfl]
    simp [Kahan.init]
  have hker : ∀ p q, defaultKernel sigma p q = gauss (2 * sigma ^ 2) p q := by
    intro p q
    have h : ∀ a b : ℝ, (if b < a then a - b else b - a) * (if b < a then a - b else b - a) = (a - b) ^ 2 := by
      intro a b
      split <;> ring
    unfold defaultKernel gauss Distances.euclideanPoint
    simp only [h]
    congr 2
    ring
  have hc : 0 < 2 * sigma ^ 2 := by positivity
  set W : Diagram ℝ → Weighted := fun D => D.points.map fun p => (w p, p) with hW
  have hform : ∀ D E, linearKernel D E w (defaultKernel sigma) = form (2 * sigma ^ 2) (W D) (W E) := by
    intro D E
    rw [hlin]
    simp only [form, hW, List.map_map, Function.comp_def, hker]
  refine ⟨hlin, fun p q => hker p q, ?_, ?_, ?_⟩
  · intro D E
    rw [hform, hform, form_comm]
  · intro D E F
    rw [hlin, hlin, hlin]
    simp [Diagram.merge]
  · intro D E F x y z
    simp only [hform]
    have h := form_nonneg hc (scale x (W D) ++ (scale y (W E) ++ scale z (W F)))
    simp only [form_append_left, form_append_right, form_scale_left, form_scale_right] at h
    rw [form_comm _ (W E) (W D), form_comm _ (W F) (W D), form_comm _ (W F) (W E)] at h
    nlinarith

/-- C68 (violation). The pseudo-metric is zero for every pair of diagrams, and the Gaussian kernel is always one.  The
distance of the documentation, the norm of the difference in the space of the kernel, is positive e.g. for a diagram with one
point of non-zero weight and the empty diagram. -/
theorem C68_pseudo_metric_wrong (w : ℝ × ℝ → ℝ) (k : ℝ × ℝ → ℝ × ℝ → ℝ) :
    (∀ D E, pseudoMetric D E w k = some 0) ∧
    (∀ D E tau, tau ≠ 0 → gaussianKernel D E w k tau = some 1) ∧
    (∀ D E sigma C p tau, tau ≠ 0 → gaussianKernelDefault D E sigma C p tau = some 1) ∧
    (∀ sigma p, w p ≠ 0 → 0 < Real.sqrt (linearKernel ⟨0, [p]⟩ ⟨0, [p]⟩ w (defaultKernel sigma) +
      linearKernel ⟨0, []⟩ ⟨0, []⟩ w (defaultKernel sigma) -
      2 * linearKernel ⟨0, [p]⟩ ⟨0, []⟩ w (defaultKernel sigma))) := by
  have h : ∀ D E w k, pseudoMetric D E w k = some 0 := by
    intro D E w k
    unfold pseudoMetric DiagramKernels.sqrt
    simp only
    have : linearKernel D E w k + linearKernel D E w k - 2 * linearKernel D E w k = 0 := by ring
    rw [this]
    simp
  refine ⟨fun D E => h D E w k, ?_, ?_, ?_⟩
  · intro D E tau ht
    unfold gaussianKernel
    rw [h]
    simp [ht]
  · intro D E sigma C p tau ht
    unfold gaussianKernelDefault
    simp only [h]
    simp [ht]
  · intro sigma p hp
    apply Real.sqrt_pos.2
    simp [linearKernel, Kahan.init, Kahan.add, defaultKernel]
    have : 0 < w p * w p := mul_self_pos.2 hp
    positivity

/-- C68. The default weight of a point is the arc tangent of `C` times a power of its persistence: it is between zero and `π / 2`, it is zero exactly for points on the diagonal, and it is
larger for points with larger persistence. -/
theorem C68_default_weight {C p : ℝ} (hC : 0 < C) (hp : 0 < p) :
    (∀ a b : ℝ, a ≤ b → defaultWeight C p (a, b) = Real.arctan (C * (b - a) ^ p)) ∧
    (∀ a b : ℝ, a ≤ b → 0 ≤ defaultWeight C p (a, b) ∧ defaultWeight C p (a, b) < Real.pi / 2 ∧ (defaultWeight C p (a, b) = 0 ↔ a = b)) ∧
    ∀ a b c d : ℝ, a ≤ b → b - a < d - c → defaultWeight C p (a, b) < defaultWeight C p (c, d) := by
  have h : ∀ a b : ℝ, a ≤ b → defaultWeight C p (a, b) = Real.arctan (C * (b - a) ^ p) := by
    intro a b hab
    unfold defaultWeight DiagramNorms.persistence
    simp
  refine ⟨h, fun a b hab => ⟨?_, ?_, ?_⟩, fun a b c d hab hlt => ?_⟩
  · rw [h a b hab]
    exact Real.arctan_nonneg.2 (mul_nonneg hC.le (Real.rpow_nonneg (sub_nonneg.2 hab) p))
  · rw [h a b hab]
    exact Real.arctan_lt_pi_div_two _
  · rw [h a b hab, Real.arctan_eq_zero_iff, mul_eq_zero, or_iff_right hC.ne', Real.rpow_eq_zero (sub_nonneg.2 hab) hp.ne', sub_eq_zero]
    exact eq_comm
  · rw [h a b hab, h c d (by linarith)]
    exact Real.arctan_strictMono (mul_lt_mul_of_pos_left (Real.rpow_lt_rpow (sub_nonneg.2 hab) hlt hp) hC)

/-- The weights of the default weight function are positive for points off the diagonal. -/
example : defaultWeight 1 1 (0, 1) ≠ 0 := by
  unfold defaultWeight DiagramNorms.persistence
  simp

example : ∃ x, multiScalePseudoMetric ⟨0, [(0, 1)]⟩ ⟨0, [(2, 3), (2, 2)]⟩ 1 = some x ∧ 0 < x := by
  obtain ⟨d, h1, h2, _, _, _, h6⟩ := C69_metric 1 one_pos
  refine ⟨_, h1 _ _, lt_of_le_of_ne (h2 _ _) fun h => ?_⟩
  have := (h6 ⟨0, [(0, 1)]⟩ ⟨0, [(2, 3), (2, 2)]⟩ (by simp) (by simp; norm_num)).1 h.symm
  have h3 := this.mem_iff (a := ((0, 1) : ℝ × ℝ))
  simp [Diagram.removeDiagonal] at h3

end Aleph
