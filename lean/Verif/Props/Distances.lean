import Verif.Model.Distances
import Mathlib.Analysis.InnerProductSpace.PiL2
import Mathlib.Tactic.Linarith
import Mathlib.Algebra.Order.BigOperators.Group.List

/-!
# Distances of vectors
-/

namespace Aleph

open Distances

variable {α : Type}

namespace Spec

/-- The sum of the contributions of the coordinates of two vectors of the same length. -/
def coordSum [AddCommMonoid α] (f : α → α → α) (a b : List α) : α := (List.zipWith f a b).sum

end Spec

open Spec

lemma single_eq [AddCommMonoid α] (f : α → α → α) (r : α) (a b : List α) (h : a.length = b.length) :
    single f r a b = some (r + coordSum f a b) := by
  induction a generalizing b r with
  | nil => cases b <;> simp [single, coordSum]
  | cons x a ih =>
    cases b with
    | nil => simp at h
    | cons y b =>
      rw [single, ih _ _ (by simpa using h)]
      simp [coordSum, add_assoc]

lemma coordSum_nonneg [AddCommMonoid α] [LinearOrder α] [IsOrderedAddMonoid α] (f : α → α → α)
    (hf : ∀ x y, 0 ≤ f x y) (a b : List α) : 0 ≤ coordSum f a b := by
  refine List.sum_nonneg ?_
  intro x hx
  obtain ⟨i, h1, rfl⟩ := List.mem_iff_getElem.1 hx
  simp [hf]

/-- Without a bound the groups do not matter; with a bound the result is exact or it is between the bound and the
exact value. -/
lemma grouped_spec [AddCommMonoid α] [LinearOrder α] [IsOrderedAddMonoid α] (f : α → α → α)
    (hf : ∀ x y, 0 ≤ f x y) (worst r : α) (a b : List α) (h : a.length = b.length) :
    ∃ d, grouped f worst r a b = some d ∧ d ≤ r + coordSum f a b ∧
      (d < r + coordSum f a b → 0 < worst ∧ worst < d) := by
  fun_induction grouped f worst r a b with
  | case1 r x0 x1 x2 x3 a y0 y1 y2 y3 b r' hw =>
    have e : r + coordSum f (x0 :: x1 :: x2 :: x3 :: a) (y0 :: y1 :: y2 :: y3 :: b) = r' + coordSum f a b := by
      simp only [coordSum, List.zipWith_cons_cons, List.sum_cons, r']
      simp only [add_assoc]
    refine ⟨r', rfl, ?_, fun _ => hw⟩
    rw [e]
    exact le_add_of_nonneg_right (coordSum_nonneg f hf a b)
  | case2 r x0 x1 x2 x3 a y0 y1 y2 y3 b r' hw ih =>
    have e : r + coordSum f (x0 :: x1 :: x2 :: x3 :: a) (y0 :: y1 :: y2 :: y3 :: b) = r' + coordSum f a b := by
      simp only [coordSum, List.zipWith_cons_cons, List.sum_cons, r']
      simp only [add_assoc]
    rw [e]
    exact ih (by simpa using h)
  | case3 r x0 x1 x2 x3 a b hb =>
    exfalso
    match b, hb, h with
    | y0 :: y1 :: y2 :: y3 :: b, hb, _ => exact hb _ _ _ _ _ rfl
    | [], _, h => simp at h
    | [_], _, h => simp at h
    | [_, _], _, h => simp at h
    | [_, _, _], _, h => simp at h
  | case4 r a b ha =>
    exact ⟨_, single_eq f r a b h, le_rfl, fun hlt => absurd hlt (lt_irrefl _)⟩

/-- **C60.**  The distance functors calculate, for vectors of every dimension, the sum of the absolute differences of the
coordinates (Manhattan), the number of different coordinates (Hamming), and the sum of the squared differences
(Euclidean, both for vectors and for points of the plane).  With a positive bound, Manhattan and Hamming may return a
smaller value, but only one that exceeds the bound; Euclidean ignores the bound. -/
theorem C60_values [LinearOrder α] [Ring α] [IsStrictOrderedRing α] (worst : α) (a b : List α)
    (h : a.length = b.length) :
    (∃ d, manhattan worst a b = some d ∧ d ≤ coordSum (fun x y => |x - y|) a b ∧
      (d < coordSum (fun x y => |x - y|) a b → 0 < worst ∧ worst < d)) ∧
    (∃ d, hamming worst a b = some d ∧ d ≤ (((a.zip b).countP fun p => p.1 ≠ p.2 : ℕ) : α) ∧
      (d < (((a.zip b).countP fun p => p.1 ≠ p.2 : ℕ) : α) → 0 < worst ∧ worst < d)) ∧
    euclidean worst a b = some (coordSum (fun x y => (x - y) ^ 2) a b) ∧
    ∀ p q : α × α, euclideanPoint p q = (p.1 - q.1) ^ 2 + (p.2 - q.2) ^ 2 := by
  refine ⟨?_, ?_, ?_, ?_⟩
  · have := grouped_spec (fun x y : α => |x - y|) (fun x y => abs_nonneg _) worst 0 a b h
    simpa [manhattan] using this
  · have := grouped_spec (fun x y : α => if x ≠ y then (1 : α) else 0)
      (fun x y => by split <;> simp) worst 0 a b h
    have e : coordSum (fun x y : α => if x ≠ y then (1 : α) else 0) a b =
        (((a.zip b).countP fun p => p.1 ≠ p.2 : ℕ) : α) := by
      clear this h
      induction a generalizing b with
      | nil => simp [coordSum]
      | cons x a ih =>
        cases b with
        | nil => simp [coordSum]
        | cons y b =>
          have := ih b
          simp only [coordSum, List.zipWith_cons_cons, List.sum_cons, List.zip_cons_cons, List.countP_cons] at this ⊢
          rw [this]
          by_cases hxy : x = y <;> simp [hxy, add_comm]
    simp only [zero_add] at this
    rwa [e] at this
  · rw [euclidean, single_eq _ _ _ _ h]
    simp [coordSum, pow_two]
  · intro p q
    simp only [euclideanPoint]
    have key : ∀ x y : α, (if y < x then x - y else y - x) * (if y < x then x - y else y - x) = (x - y) ^ 2 := by
      intro x y
      split
      · rw [pow_two]
      · rw [pow_two, ← neg_sub x y, neg_mul_neg]
    rw [key, key]

lemma coordSum_comm [AddCommMonoid α] (f : α → α → α) (hf : ∀ x y, f x y = f y x) (a b : List α) :
    coordSum f a b = coordSum f b a := by
  induction a generalizing b with
  | nil => cases b <;> simp [coordSum]
  | cons x a ih =>
    cases b with
    | nil => simp [coordSum]
    | cons y b =>
      have := ih b
      simp only [coordSum, List.zipWith_cons_cons, List.sum_cons] at this ⊢
      rw [this, hf]

lemma coordSum_triangle [AddCommMonoid α] [LinearOrder α] [IsOrderedAddMonoid α] (f : α → α → α)
    (hf : ∀ x y z, f x z ≤ f x y + f y z) (a b c : List α) (h1 : a.length = b.length)
    (h2 : b.length = c.length) : coordSum f a c ≤ coordSum f a b + coordSum f b c := by
  induction a generalizing b c with
  | nil =>
    have hb : b = [] := List.length_eq_zero_iff.1 (by simpa using h1.symm)
    have hc : c = [] := List.length_eq_zero_iff.1 (by rw [← h2, hb]; rfl)
    simp [hb, hc, coordSum]
  | cons x a ih =>
    cases b with
    | nil => simp at h1
    | cons y b =>
      cases c with
      | nil => simp at h2
      | cons z c =>
        have := ih b c (by simpa using h1) (by simpa using h2)
        simp only [coordSum, List.zipWith_cons_cons, List.sum_cons] at this ⊢
        calc _ ≤ (f x y + f y z) + ((List.zipWith f a b).sum + (List.zipWith f b c).sum) :=
              add_le_add (hf x y z) this
          _ = _ := by simp only [add_assoc, add_left_comm]

lemma coordSum_eq_zero [AddCommMonoid α] [LinearOrder α] [IsOrderedAddMonoid α] (f : α → α → α)
    (h0 : ∀ x y, 0 ≤ f x y) (hf : ∀ x y, f x y = 0 ↔ x = y) (a b : List α) (h : a.length = b.length) :
    coordSum f a b = 0 ↔ a = b := by
  induction a generalizing b with
  | nil =>
    have hb : b = [] := by cases b <;> simp_all
    simp [hb, coordSum]
  | cons x a ih =>
    cases b with
    | nil => simp at h
    | cons y b =>
      have := ih b (by simpa using h)
      have hn := coordSum_nonneg f h0 a b
      simp only [coordSum] at this hn
      simp only [coordSum, List.zipWith_cons_cons, List.sum_cons, List.cons.injEq]
      rw [add_eq_zero_iff_of_nonneg (h0 x y) hn, hf, this]

/-- **C60.**  Without a bound, the Manhattan and Hamming distances are metrics on the vectors of every dimension. -/
theorem C60_metric [LinearOrder α] [Ring α] [IsStrictOrderedRing α] (worst : α) (hw : worst ≤ 0)
    (m : α → List α → List α → Option α) (hm : m = manhattan ∨ m = hamming) (n : ℕ) :
    ∃ D : List α → List α → α,
      (∀ a b, a.length = n → b.length = n → m worst a b = some (D a b)) ∧
      (∀ a b, a.length = n → b.length = n → 0 ≤ D a b ∧ D a b = D b a ∧ (D a b = 0 ↔ a = b)) ∧
      ∀ a b c, a.length = n → b.length = n → c.length = n → D a c ≤ D a b + D b c := by
  have gen : ∀ f : α → α → α, (∀ x y, 0 ≤ f x y) → (∀ x y, f x y = f y x) → (∀ x y, f x y = 0 ↔ x = y) →
      (∀ x y z, f x z ≤ f x y + f y z) → (m = fun w a b => grouped f w 0 a b) →
      ∃ D : List α → List α → α,
      (∀ a b, a.length = n → b.length = n → m worst a b = some (D a b)) ∧
      (∀ a b, a.length = n → b.length = n → 0 ≤ D a b ∧ D a b = D b a ∧ (D a b = 0 ↔ a = b)) ∧
      ∀ a b c, a.length = n → b.length = n → c.length = n → D a c ≤ D a b + D b c := by
    intro f h0 hc hz ht hmf
    refine ⟨coordSum f, ?_, ?_, ?_⟩
    · intro a b ha hb
      obtain ⟨d, h1, h2, h3⟩ := grouped_spec f h0 worst 0 a b (ha.trans hb.symm)
      rw [zero_add] at h2 h3
      rcases lt_or_eq_of_le h2 with h4 | h4
      · exact absurd (h3 h4).1 (not_lt.2 hw)
      · rw [hmf]; simp only; rw [h1, h4]
    · intro a b ha hb
      exact ⟨coordSum_nonneg f h0 a b, coordSum_comm f hc a b, coordSum_eq_zero f h0 hz a b (ha.trans hb.symm)⟩
    · intro a b c ha hb hc'
      exact coordSum_triangle f ht a b c (ha.trans hb.symm) (hb.trans hc'.symm)
  rcases hm with hm | hm
  · refine gen (fun x y => |x - y|) (fun x y => abs_nonneg _) (fun x y => abs_sub_comm x y) ?_ ?_ ?_
    · intro x y; simp [sub_eq_zero]
    · intro x y z; exact abs_sub_le x y z
    · rw [hm]; rfl
  · refine gen (fun x y => if x ≠ y then 1 else 0) ?_ ?_ ?_ ?_ ?_
    · intro x y; split <;> simp
    · intro x y; simp only [ne_comm]
    · intro x y; by_cases h : x = y <;> simp [h]
    · intro x y z
      by_cases h1 : x = y <;> by_cases h2 : y = z <;> by_cases h3 : x = z <;> simp_all
    · rw [hm]; rfl

lemma coordSum_sq (n : ℕ) (a b : List ℝ) (ha : a.length = n) (hb : b.length = n) :
    coordSum (fun x y => (x - y) ^ 2) a b = ∑ i : Fin n, (a[i.1]'(by omega) - b[i.1]'(by omega)) ^ 2 := by
  subst ha
  rw [coordSum, ← List.sum_ofFn]
  congr 1
  refine List.ext_getElem (by simp [hb]) ?_
  intro i h1 h2
  simp

/-- **C60.**  With the conversion of its traits class, the Euclidean distance is a metric on the real vectors of every
dimension, namely the Euclidean norm of the difference. -/
theorem C60_euclidean (n : ℕ) :
    ∃ D : List ℝ → List ℝ → ℝ,
      (∀ a b, a.length = n → b.length = n → wrapper euclidean Real.sqrt a b = some (D a b)) ∧
      (∀ (a b : List ℝ) (ha : a.length = n) (hb : b.length = n),
        D a b = ‖(WithLp.toLp 2 fun i : Fin n => a[i.1] - b[i.1] : EuclideanSpace ℝ (Fin n))‖) ∧
      (∀ a b, a.length = n → b.length = n → 0 ≤ D a b ∧ D a b = D b a ∧ (D a b = 0 ↔ a = b)) ∧
      ∀ a b c, a.length = n → b.length = n → c.length = n → D a c ≤ D a b + D b c := by
  have hD : ∀ (a b : List ℝ) (ha : a.length = n) (hb : b.length = n),
      Real.sqrt (coordSum (fun x y => (x - y) ^ 2) a b) =
        ‖(WithLp.toLp 2 fun i : Fin n => a[i.1] - b[i.1] : EuclideanSpace ℝ (Fin n))‖ := by
    intro a b ha hb
    rw [EuclideanSpace.norm_eq, coordSum_sq n a b ha hb]
    congr 1
    refine Finset.sum_congr rfl fun i _ => ?_
    simp
  refine ⟨fun a b => Real.sqrt (coordSum (fun x y => (x - y) ^ 2) a b), ?_, hD, ?_, ?_⟩
  · intro a b ha hb
    have := (C60_values (-1 : ℝ) a b (ha.trans hb.symm)).2.2.1
    simp [wrapper, this]
  · intro a b ha hb
    refine ⟨Real.sqrt_nonneg _, ?_, ?_⟩
    · dsimp only
      rw [coordSum_comm]; intro x y; ring
    · have h0 := coordSum_nonneg (fun x y : ℝ => (x - y) ^ 2) (fun x y => sq_nonneg _) a b
      rw [Real.sqrt_eq_zero h0]
      refine coordSum_eq_zero _ (fun x y => sq_nonneg _) ?_ a b (ha.trans hb.symm)
      intro x y
      rw [pow_eq_zero_iff (by norm_num), sub_eq_zero]
  · intro a b c ha hb hc
    dsimp only
    rw [hD a b ha hb, hD b c hb hc, hD a c ha hc]
    refine le_trans (le_of_eq ?_) (norm_add_le _ _)
    congr 1
    ext i
    simp

/-- **C60.**  Vectors of different length: if the second vector is shorter, it is read past its end. -/
theorem C60_out_of_range [LinearOrder α] [Ring α] [IsStrictOrderedRing α] (worst : α) (a b : List α)
    (h : b.length < a.length) : euclidean worst a b = none ∧ (worst ≤ 0 → manhattan worst a b = none) := by
  have hs : ∀ (f : α → α → α) (r : α) (a b : List α), b.length < a.length → single f r a b = none := by
    intro f r a
    induction a generalizing r with
    | nil => intro b hb; simp at hb
    | cons x a ih =>
      intro b hb
      cases b with
      | nil => simp [single]
      | cons y b => rw [single]; exact ih _ b (by simpa using hb)
  refine ⟨hs _ _ _ _ h, fun hw => ?_⟩
  have hg : ∀ (f : α → α → α) (r : α) (a b : List α), b.length < a.length → grouped f worst r a b = none := by
    intro f r a b hb
    fun_induction grouped f worst r a b with
    | case1 r x0 x1 x2 x3 a y0 y1 y2 y3 b r' hw' => exact absurd hw'.1 (not_lt.2 hw)
    | case2 r x0 x1 x2 x3 a y0 y1 y2 y3 b r' hw' ih => exact ih (by simpa using hb)
    | case3 => rfl
    | case4 r a b ha => exact hs _ _ _ _ hb
  exact hg _ _ _ _ h

/-- Six coordinates: one group of four, two single ones. -/
example : manhattan (-1 : ℤ) [1, 2, 3, 4, 5, 6] [0, 4, 3, 1, 5, 9] = some 9 ∧
    manhattan (2 : ℤ) [1, 2, 3, 4, 5, 6] [0, 4, 3, 1, 5, 9] = some 6 ∧
    hamming (-1 : ℤ) [1, 2, 3, 4, 5, 6] [0, 4, 3, 1, 5, 9] = some 4 ∧
    euclidean (-1 : ℤ) [1, 2, 3, 4, 5, 6] [0, 4, 3, 1, 5, 9] = some 23 := by decide

end Aleph
