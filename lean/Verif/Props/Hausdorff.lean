import Verif.Model.Hausdorff
import Verif.Props.Kahan
import Mathlib.Algebra.Order.Group.Abs
import Mathlib.Algebra.Order.BigOperators.Group.List
import Mathlib.Algebra.Order.Field.Basic
import Mathlib.Order.Bounds.Basic
import Mathlib.Tactic.Linarith

/-!
# C37, C58: distances of persistence diagrams as point sets
-/

namespace Aleph

variable {α : Type}

/-- Specification: every point of `A` has a point of `B` at distance at most `h`. -/
def Spec.Within [LE α] (d : α × α → α × α → α) (h : α) (A B : List (α × α)) : Prop :=
  ∀ p ∈ A, ∃ q ∈ B, d p q ≤ h

/-- Specification: the Hausdorff distance is the least `h` such that both sets are within `h` of each other. -/
def Spec.IsHausdorff [LE α] (d : α × α → α × α → α) (A B : List (α × α)) (h : α) : Prop :=
  IsLeast {h | Spec.Within d h A B ∧ Spec.Within d h B A} h

/-- Specification: `m` is the distance of `p` to the nearest point of `B`. -/
def Spec.IsNearest [LE α] (d : α × α → α × α → α) (p : α × α) (B : List (α × α)) (m : α) : Prop :=
  IsLeast {x | ∃ q ∈ B, d p q = x} m

/-! ### The infinity distance -/

section Group

variable [AddCommGroup α] [LinearOrder α] [IsOrderedAddMonoid α]

/-- C37. The distance of two points is the larger difference of coordinates. -/
theorem C37_infinity_distance (p q : α × α) :
    infinityDistance p q = max |p.1 - q.1| |p.2 - q.2| := by
  have h : ∀ a b : α, (if a ≥ b then a - b else b - a) = |a - b| := by
    intro a b
    by_cases hab : a ≥ b
    · rw [if_pos hab, abs_of_nonneg (sub_nonneg.2 hab)]
    · rw [if_neg hab, abs_of_nonpos (sub_nonpos.2 (not_le.1 hab).le), neg_sub]
  simp only [infinityDistance, h]

theorem infinityDistance_comm (p q : α × α) : infinityDistance p q = infinityDistance q p := by
  rw [C37_infinity_distance, C37_infinity_distance, abs_sub_comm, abs_sub_comm p.2]

theorem infinityDistance_nonneg (p q : α × α) : 0 ≤ infinityDistance p q := by
  rw [C37_infinity_distance]
  exact le_max_of_le_left (abs_nonneg _)

theorem infinityDistance_eq_zero (p q : α × α) : infinityDistance p q = 0 ↔ p = q := by
  constructor
  · intro h
    rw [C37_infinity_distance] at h
    have h1 : |p.1 - q.1| ≤ 0 := h ▸ le_max_left _ _
    have h2 : |p.2 - q.2| ≤ 0 := h ▸ le_max_right _ _
    exact Prod.ext (sub_eq_zero.1 (abs_nonpos_iff.1 h1)) (sub_eq_zero.1 (abs_nonpos_iff.1 h2))
  · rintro rfl
    rw [C37_infinity_distance]
    simp

theorem infinityDistance_triangle (p q r : α × α) :
    infinityDistance p r ≤ infinityDistance p q + infinityDistance q r := by
  simp only [C37_infinity_distance]
  refine max_le ?_ ?_
  · exact (abs_sub_le p.1 q.1 r.1).trans (add_le_add (le_max_left _ _) (le_max_left _ _))
  · exact (abs_sub_le p.2 q.2 r.2).trans (add_le_add (le_max_right _ _) (le_max_right _ _))

end Group

/-! ### Minima and maxima computed by the loops -/

section Order

variable [LinearOrder α]

theorem foldl_min_spec {β : Type} (f : β → α) (l : List β) (m : α) :
    (∀ x ∈ l, l.foldl (fun m q => min m (f q)) m ≤ f x) ∧ l.foldl (fun m q => min m (f q)) m ≤ m ∧
      (l.foldl (fun m q => min m (f q)) m = m ∨ ∃ x ∈ l, l.foldl (fun m q => min m (f q)) m = f x) := by
  induction l generalizing m with
  | nil => simp
  | cons a l ih =>
    obtain ⟨h1, h2, h3⟩ := ih (min m (f a))
    simp only [List.foldl_cons, List.mem_cons]
    refine ⟨?_, h2.trans (min_le_left _ _), ?_⟩
    · rintro x (rfl | hx)
      · exact h2.trans (min_le_right _ _)
      · exact h1 x hx
    · rcases h3 with h | ⟨x, hx, h⟩
      · rcases min_choice m (f a) with e | e
        · exact Or.inl (h.trans e)
        · exact Or.inr ⟨a, Or.inl rfl, h.trans e⟩
      · exact Or.inr ⟨x, Or.inr hx, h⟩

theorem foldl_max_spec {β : Type} (f : β → α) (l : List β) (m : α) :
    (∀ x ∈ l, f x ≤ l.foldl (fun m q => max m (f q)) m) ∧ m ≤ l.foldl (fun m q => max m (f q)) m ∧
      (l.foldl (fun m q => max m (f q)) m = m ∨ ∃ x ∈ l, l.foldl (fun m q => max m (f q)) m = f x) := by
  induction l generalizing m with
  | nil => simp
  | cons a l ih =>
    obtain ⟨h1, h2, h3⟩ := ih (max m (f a))
    simp only [List.foldl_cons, List.mem_cons]
    refine ⟨?_, (le_max_left _ _).trans h2, ?_⟩
    · rintro x (rfl | hx)
      · exact (le_max_right _ _).trans h2
      · exact h1 x hx
    · rcases h3 with h | ⟨x, hx, h⟩
      · rcases max_choice m (f a) with e | e
        · exact Or.inl (h.trans e)
        · exact Or.inr ⟨a, Or.inl rfl, h.trans e⟩
      · exact Or.inr ⟨x, Or.inr hx, h⟩

theorem infimum_nearest {maxv : α} {d : α × α → α × α → α} {p : α × α} {E : Diagram α} (hE : E.points ≠ [])
    (hmax : ∀ q ∈ E.points, d p q ≤ maxv) : Spec.IsNearest d p E.points (infimumDistance maxv d p E) := by
  obtain ⟨h1, h2, h3⟩ := foldl_min_spec (d p) E.points maxv
  refine ⟨?_, ?_⟩
  · rcases h3 with h | ⟨x, hx, h⟩
    · obtain ⟨q, hq⟩ := List.exists_mem_of_ne_nil _ hE
      exact ⟨q, hq, le_antisymm ((hmax q hq).trans h.ge) (h1 q hq)⟩
    · exact ⟨x, hx, h.symm⟩
  · rintro _ ⟨q, hq, rfl⟩
    exact h1 q hq

theorem supremum_le {maxv lo : α} {d : α × α → α × α → α} {D E : Diagram α} (hD : D.points ≠ []) (hE : E.points ≠ [])
    (hmax : ∀ p ∈ D.points, ∀ q ∈ E.points, d p q ≤ maxv)
    (hlo : ∀ p ∈ D.points, ∀ q ∈ E.points, lo ≤ d p q) (h : α) :
    supremumDistance maxv lo d D E ≤ h ↔ Spec.Within d h D.points E.points := by
  obtain ⟨h1, h2, h3⟩ := foldl_max_spec (fun p => infimumDistance maxv d p E) D.points lo
  constructor
  · intro hs p hp
    obtain ⟨⟨q, hq, e⟩, _⟩ := infimum_nearest hE (hmax p hp)
    exact ⟨q, hq, e.le.trans ((h1 p hp).trans hs)⟩
  · intro hw
    have hle : ∀ p ∈ D.points, infimumDistance maxv d p E ≤ h := by
      intro p hp
      obtain ⟨q, hq, hle⟩ := hw p hp
      exact ((infimum_nearest hE (hmax p hp)).2 ⟨q, hq, rfl⟩).trans hle
    rcases h3 with e | ⟨p, hp, e⟩
    · obtain ⟨p, hp⟩ := List.exists_mem_of_ne_nil _ hD
      obtain ⟨q, hq, hle⟩ := hw p hp
      exact e.le.trans ((hlo p hp q hq).trans hle)
    · exact e.le.trans (hle p hp)

/-- C37. For non-empty diagrams `hausdorffDistance` is the Hausdorff distance of the point sets, for every distance
functor, provided the distances lie between `lowest()` and `max()`. -/
theorem C37_hausdorff [Zero α] {maxv lo inf : α} {d : α × α → α × α → α} {D E : Diagram α}
    (hD : D.points ≠ []) (hE : E.points ≠ [])
    (hmax : ∀ p ∈ D.points, ∀ q ∈ E.points, d p q ≤ maxv ∧ d q p ≤ maxv)
    (hlo : ∀ p ∈ D.points, ∀ q ∈ E.points, lo ≤ d p q ∧ lo ≤ d q p) :
    Spec.IsHausdorff d D.points E.points (hausdorffDistance maxv lo inf d D E) := by
  have e : hausdorffDistance maxv lo inf d D E =
      max (supremumDistance maxv lo d D E) (supremumDistance maxv lo d E D) := by
    simp [hausdorffDistance, hD, hE]
  have key : ∀ h, hausdorffDistance maxv lo inf d D E ≤ h ↔
      (Spec.Within d h D.points E.points ∧ Spec.Within d h E.points D.points) := by
    intro h
    rw [e, max_le_iff, supremum_le hD hE (fun p hp q hq => (hmax p hp q hq).1) (fun p hp q hq => (hlo p hp q hq).1),
      supremum_le hE hD (fun p hp q hq => (hmax q hq p hp).2) (fun p hp q hq => (hlo q hq p hp).2)]
  exact ⟨(key _).1 le_rfl, fun h hh => (key h).2 hh⟩

/-- C37. Two empty diagrams have distance zero; a non-empty and an empty diagram have distance infinity. -/
theorem C37_empty [Zero α] (maxv lo inf : α) (d : α × α → α × α → α) (D E : Diagram α) :
    (D.points = [] → E.points = [] → hausdorffDistance maxv lo inf d D E = 0) ∧
    (D.points = [] → E.points ≠ [] → hausdorffDistance maxv lo inf d D E = inf ∧
      hausdorffDistance maxv lo inf d E D = inf) := by
  constructor
  · intro h1 h2
    simp [hausdorffDistance, h1, h2]
  · intro h1 h2
    simp [hausdorffDistance, h1, h2]

end Order

section Metric

variable [AddCommGroup α] [LinearOrder α] [IsOrderedAddMonoid α]

/-- C37. With the infinity distance, on non-empty diagrams, `hausdorffDistance` is a metric on point sets: symmetric,
zero exactly if both diagrams have the same points (ignoring order and multiplicity), and it satisfies the triangle
inequality. -/
theorem C37_metric {maxv lo inf : α} {D E F : Diagram α} (hD : D.points ≠ []) (hE : E.points ≠ []) (hF : F.points ≠ [])
    (hmax : ∀ p ∈ D.points ++ E.points ++ F.points, ∀ q ∈ D.points ++ E.points ++ F.points,
      infinityDistance p q ≤ maxv) (hlo : lo ≤ 0) :
    hausdorffDistance maxv lo inf infinityDistance D E = hausdorffDistance maxv lo inf infinityDistance E D ∧
    (hausdorffDistance maxv lo inf infinityDistance D E = 0 ↔ ∀ p, p ∈ D.points ↔ p ∈ E.points) ∧
    hausdorffDistance maxv lo inf infinityDistance D F ≤
      hausdorffDistance maxv lo inf infinityDistance D E + hausdorffDistance maxv lo inf infinityDistance E F := by
  have hl : ∀ p q : α × α, lo ≤ infinityDistance p q := fun p q => hlo.trans (infinityDistance_nonneg p q)
  have mk : ∀ A B : Diagram α, A.points ≠ [] → B.points ≠ [] →
      (∀ p ∈ A.points, p ∈ D.points ++ E.points ++ F.points) →
      (∀ p ∈ B.points, p ∈ D.points ++ E.points ++ F.points) →
      Spec.IsHausdorff infinityDistance A.points B.points (hausdorffDistance maxv lo inf infinityDistance A B) := by
    intro A B hA hB h1 h2
    exact C37_hausdorff hA hB (fun p hp q hq => ⟨hmax p (h1 p hp) q (h2 q hq), hmax q (h2 q hq) p (h1 p hp)⟩)
      (fun p _ q _ => ⟨hl p q, hl q p⟩)
  have sD : ∀ p ∈ D.points, p ∈ D.points ++ E.points ++ F.points := by intro p hp; simp [hp]
  have sE : ∀ p ∈ E.points, p ∈ D.points ++ E.points ++ F.points := by intro p hp; simp [hp]
  have sF : ∀ p ∈ F.points, p ∈ D.points ++ E.points ++ F.points := by intro p hp; simp [hp]
  have hDE := mk D E hD hE sD sE
  have hED := mk E D hE hD sE sD
  have hEF := mk E F hE hF sE sF
  have hDF := mk D F hD hF sD sF
  refine ⟨le_antisymm (hDE.2 ⟨hED.1.2, hED.1.1⟩) (hED.2 ⟨hDE.1.2, hDE.1.1⟩), ?_, ?_⟩
  · have hnn : 0 ≤ hausdorffDistance maxv lo inf infinityDistance D E := by
      obtain ⟨p, hp⟩ := List.exists_mem_of_ne_nil _ hD
      obtain ⟨q, _, hle⟩ := hDE.1.1 p hp
      exact (infinityDistance_nonneg p q).trans hle
    constructor
    · intro h0
      have hz : ∀ A B : List (α × α), Spec.Within infinityDistance 0 A B → ∀ p ∈ A, p ∈ B := by
        intro A B hw p hp
        obtain ⟨q, hq, hle⟩ := hw p hp
        have := (infinityDistance_eq_zero p q).1 (le_antisymm hle (infinityDistance_nonneg p q))
        exact this ▸ hq
      have h1 := hDE.1
      rw [h0] at h1
      exact fun p => ⟨hz _ _ h1.1 p, hz _ _ h1.2 p⟩
    · intro hs
      refine le_antisymm (hDE.2 ⟨?_, ?_⟩) hnn
      · exact fun p hp => ⟨p, (hs p).1 hp, ((infinityDistance_eq_zero p p).2 rfl).le⟩
      · exact fun p hp => ⟨p, (hs p).2 hp, ((infinityDistance_eq_zero p p).2 rfl).le⟩
  · refine hDF.2 ⟨?_, ?_⟩
    · intro p hp
      obtain ⟨q, hq, h1⟩ := hDE.1.1 p hp
      obtain ⟨r, hr, h2⟩ := hEF.1.1 q hq
      exact ⟨r, hr, (infinityDistance_triangle p q r).trans (add_le_add h1 h2)⟩
    · intro p hp
      obtain ⟨q, hq, h1⟩ := hEF.1.2 p hp
      obtain ⟨r, hr, h2⟩ := hDE.1.2 q hq
      exact ⟨r, hr, (infinityDistance_triangle p q r).trans (by rw [add_comm]; exact add_le_add h2 h1)⟩

/-- The hypotheses are met by concrete diagrams. -/
example : hausdorffDistance (1000 : Int) (-1000) 1000 infinityDistance ⟨0, [(0, 1), (2, 5)]⟩ ⟨0, [(0, 3)]⟩ = 2 ∧
    (∀ p ∈ [((0 : Int), (1 : Int)), (2, 5), (0, 3)], ∀ q ∈ [((0 : Int), (1 : Int)), (2, 5), (0, 3)],
      infinityDistance p q ≤ 1000) := by
  decide

end Metric

/-! ### Sums of nearest neighbour distances -/

section Field

variable [Field α] [LinearOrder α] [IsStrictOrderedRing α]

/-- C58. For non-empty diagrams `nearestNeighbourDistance` and `sumOfMinimumDistances` both return half of the sum of the
distances of every point (with multiplicity) to the nearest point of the other diagram. -/
theorem C58_nearest_neighbours {maxv inf : α} {d : α × α → α × α → α} (hcomm : ∀ p q, d p q = d q p) {D E : Diagram α}
    (hD : D.points ≠ []) (hE : E.points ≠ []) (hmax : ∀ p ∈ D.points, ∀ q ∈ E.points, d p q ≤ maxv)
    {f g : α × α → α} (hf : ∀ p ∈ D.points, Spec.IsNearest d p E.points (f p))
    (hg : ∀ q ∈ E.points, Spec.IsNearest d q D.points (g q)) :
    nearestNeighbourDistance maxv d D E = ((D.points.map f).sum + (E.points.map g).sum) / 2 ∧
    sumOfMinimumDistances maxv inf d D E = ((D.points.map f).sum + (E.points.map g).sum) / 2 := by
  have e1 : (D.points.map fun p => infimumDistance maxv d p E) = D.points.map f :=
    List.map_congr_left fun p hp => (infimum_nearest hE (hmax p hp)).unique (hf p hp)
  have e2 : (E.points.map fun p => infimumDistance maxv d p D) = E.points.map g :=
    List.map_congr_left fun q hq =>
      (infimum_nearest hD (fun p hp => (hcomm q p).le.trans (hmax p hp q hq))).unique (hg q hq)
  have e3 : (fun y x => d x y) = d := by funext y x; exact hcomm x y
  have s : ∀ l : List α, Kahan.accumulateSorted l 0 = l.sum := fun l => by
    rw [(C49_accumulate_sorted l l (List.Perm.refl _) 0).1, zero_add]
  constructor
  · rw [nearestNeighbourDistance, e1, e2, s, s]
  · rw [sumOfMinimumDistances, e3, e1, e2, s, s]
    simp [hD, hE]
    ring

/-- C58. With the infinity distance and non-empty diagrams the value is symmetric, not negative, and zero exactly if both
diagrams have the same points. -/
theorem C58_zero {maxv inf : α} {D E : Diagram α} (hD : D.points ≠ []) (hE : E.points ≠ [])
    (hmax : ∀ p ∈ D.points, ∀ q ∈ E.points, infinityDistance p q ≤ maxv) :
    sumOfMinimumDistances maxv inf infinityDistance D E = sumOfMinimumDistances maxv inf infinityDistance E D ∧
    0 ≤ sumOfMinimumDistances maxv inf infinityDistance D E ∧
    (sumOfMinimumDistances maxv inf infinityDistance D E = 0 ↔ ∀ p, p ∈ D.points ↔ p ∈ E.points) := by
  have hmax' : ∀ p ∈ E.points, ∀ q ∈ D.points, infinityDistance p q ≤ maxv := fun p hp q hq =>
    (infinityDistance_comm p q).le.trans (hmax q hq p hp)
  have hf : ∀ p ∈ D.points, Spec.IsNearest infinityDistance p E.points (infimumDistance maxv infinityDistance p E) :=
    fun p hp => infimum_nearest hE (hmax p hp)
  have hg : ∀ p ∈ E.points, Spec.IsNearest infinityDistance p D.points (infimumDistance maxv infinityDistance p D) :=
    fun p hp => infimum_nearest hD (hmax' p hp)
  have h1 := (C58_nearest_neighbours (inf := inf) infinityDistance_comm hD hE hmax hf hg).2
  have h2 := (C58_nearest_neighbours (inf := inf) infinityDistance_comm hE hD hmax' hg hf).2
  have nn : ∀ {A B : Diagram α},
      (∀ p ∈ A.points, Spec.IsNearest infinityDistance p B.points (infimumDistance maxv infinityDistance p B)) →
      ∀ x ∈ A.points.map (fun p => infimumDistance maxv infinityDistance p B), 0 ≤ x := by
    intro A B h x hx
    obtain ⟨p, hp, rfl⟩ := List.mem_map.1 hx
    obtain ⟨q, _, e⟩ := (h p hp).1
    exact (infinityDistance_nonneg p q).trans e.le
  have n1 := List.sum_nonneg (nn hf)
  have n2 := List.sum_nonneg (nn hg)
  refine ⟨by rw [h1, h2, add_comm], by rw [h1]; positivity, ?_⟩
  rw [h1]
  have zero : ∀ {A B : Diagram α},
      (∀ p ∈ A.points, Spec.IsNearest infinityDistance p B.points (infimumDistance maxv infinityDistance p B)) →
      ((A.points.map fun p => infimumDistance maxv infinityDistance p B).sum = 0 ↔ ∀ p ∈ A.points, p ∈ B.points) := by
    intro A B h
    constructor
    · intro hs p hp
      have h0 : infimumDistance maxv infinityDistance p B = 0 :=
        List.all_zero_of_le_zero_le_of_sum_eq_zero (fun x hx => nn h x hx) hs (List.mem_map_of_mem hp)
      obtain ⟨q, hq, e⟩ := (h p hp).1
      rw [h0] at e
      exact (infinityDistance_eq_zero p q).1 e ▸ hq
    · intro hs
      refine List.sum_eq_zero fun x hx => ?_
      obtain ⟨p, hp, rfl⟩ := List.mem_map.1 hx
      refine le_antisymm ?_ (nn h _ hx)
      exact ((h p hp).2 ⟨p, hs p hp, rfl⟩).trans ((infinityDistance_eq_zero p p).2 rfl).le
  constructor
  · intro h0
    have hs : (D.points.map fun p => infimumDistance maxv infinityDistance p E).sum = 0 ∧
        (E.points.map fun p => infimumDistance maxv infinityDistance p D).sum = 0 := by
      constructor <;> linarith
    exact fun p => ⟨(zero hf).1 hs.1 p, (zero hg).1 hs.2 p⟩
  · intro hs
    rw [(zero hf).2 fun p hp => (hs p).1 hp, (zero hg).2 fun p hp => (hs p).2 hp]
    simp

end Field

/-- C58. If one diagram is empty, `nearestNeighbourDistance` adds up `max()` for every point of the other diagram. -/
theorem C58_empty_witness : nearestNeighbourDistance (1000 : ℚ) infinityDistance ⟨0, []⟩ ⟨0, [(0, 1), (0, 2), (0, 3)]⟩
    = 1500 := by
  rw [nearestNeighbourDistance, (C49_accumulate_sorted _ _ (List.Perm.refl _) 0).1,
    (C49_accumulate_sorted _ _ (List.Perm.refl _) 0).1]
  simp [infimumDistance]
  norm_num

/-- The hypotheses are met by concrete diagrams. -/
example : ∀ p ∈ [((0 : ℚ), (1 : ℚ)), (2, 5)], ∀ q ∈ [((0 : ℚ), (3 : ℚ))], infinityDistance p q ≤ 1000 := by
  simp [infinityDistance]
  norm_num

end Aleph
