import Verif.Model.Wasserstein
import Verif.Spec.Matching
import Verif.Props.Munkres
import Verif.Props.Hausdorff
import Mathlib.Algebra.Order.Field.Basic
import Mathlib.Algebra.BigOperators.Fin

/-!
# C36: the Wasserstein distance
-/

namespace Aleph

open Finset Spec Munkres

variable {α : Type}

/-! ### Adding up the marked entries -/

theorem totalCosts_eq [Field α] [DecidableEq α] (n : ℕ) (M costs : ℕ → ℕ → α) :
    totalCosts n M costs = cost n M costs := by
  unfold totalCosts cost
  have inner : ∀ (row : ℕ) (l : List ℕ) (x : α),
      l.foldl (fun total col => if M row col = 0 then total + costs row col else total) x =
        ((l.filter fun col => decide (M row col = 0)).map fun col => costs row col).foldl (· + ·) x := by
    intro row l
    induction l with
    | nil => intro x; rfl
    | cons c l ih =>
      intro x
      rw [List.foldl_cons, List.filter_cons]
      by_cases h : M row c = 0
      · simp only [h, if_true, decide_true, List.map_cons, List.foldl_cons, ih]
      · simp only [h, if_false, decide_false, Bool.false_eq_true, ih]
  have outer : ∀ (l : List ℕ) (x : α),
      l.foldl (fun total row =>
        (List.range n).foldl (fun total col => if M row col = 0 then total + costs row col else total) total) x =
      (l.flatMap fun row =>
        ((List.range n).filter fun col => decide (M row col = 0)).map fun col => costs row col).foldl (· + ·) x := by
    intro l
    induction l with
    | nil => intro x; rfl
    | cons r l ih =>
      intro x
      rw [List.foldl_cons, List.flatMap_cons, List.foldl_append, ih, inner]
  exact outer _ _

/-! ### Rows and columns -/

section Blocks

variable {a b : ℕ}

/-- The row of a point of the first diagram. -/
def rowP (b : ℕ) (i : Fin a) : Fin (a + b) := Fin.castAdd b i

/-- The row of the projection of a point of the second diagram. -/
def rowD (a : ℕ) (j : Fin b) : Fin (a + b) := Fin.natAdd a j

/-- The column of a point of the second diagram. -/
def colP (a : ℕ) (j : Fin b) : Fin (a + b) := ⟨j, by omega⟩

/-- The column of the projection of a point of the first diagram. -/
def colD (b : ℕ) (i : Fin a) : Fin (a + b) := ⟨b + i, by omega⟩

theorem col_cases (c : Fin (a + b)) : (∃ j : Fin b, c = colP a j) ∨ ∃ i : Fin a, c = colD b i := by
  rcases Nat.lt_or_ge c b with h | h
  · exact Or.inl ⟨⟨c, h⟩, rfl⟩
  · exact Or.inr ⟨⟨c - b, by omega⟩, Fin.ext (by simp [colD]; omega)⟩

theorem row_cases (r : Fin (a + b)) : (∃ i : Fin a, r = rowP b i) ∨ ∃ j : Fin b, r = rowD a j := by
  rcases Nat.lt_or_ge r a with h | h
  · exact Or.inl ⟨⟨r, h⟩, rfl⟩
  · exact Or.inr ⟨⟨r - a, by omega⟩, Fin.ext (by simp [rowD]; omega)⟩

theorem colP_inj {j j' : Fin b} (h : colP a j = colP a j') : j = j' := by
  have := congrArg Fin.val h
  exact Fin.ext this

theorem colD_inj {i i' : Fin a} (h : colD b i = colD b i') : i = i' := by
  have := congrArg Fin.val h
  simp only [colD] at this
  exact Fin.ext (by omega)

theorem colP_ne_colD (j : Fin b) (i : Fin a) : colP a j ≠ colD b i := by
  intro h
  have := congrArg Fin.val h
  simp only [colP, colD] at this
  omega

theorem rowP_inj {i i' : Fin a} (h : rowP b i = rowP b i') : i = i' := by
  have := congrArg Fin.val h
  exact Fin.ext (by simpa [rowP] using this)

theorem rowD_inj {j j' : Fin b} (h : rowD a j = rowD a j') : j = j' := by
  have := congrArg Fin.val h
  simp only [rowD, Fin.val_natAdd] at this
  exact Fin.ext (by omega)

theorem rowP_ne_rowD (i : Fin a) (j : Fin b) : rowP b i ≠ rowD a j := by
  intro h
  have := congrArg Fin.val h
  simp only [rowP, rowD, Fin.val_natAdd, Fin.val_castAdd] at this
  omega

theorem sum_rows [AddCommMonoid α] (f : Fin (a + b) → α) :
    ∑ r, f r = ∑ i : Fin a, f (rowP b i) + ∑ j : Fin b, f (rowD a j) := Fin.sum_univ_add f

end Blocks

/-! ### The matrix of costs -/

section Costs

variable [Field α] [LinearOrder α] (pw : α → α) (top : α) (d : α × α → α × α → α) (D1 D2 : Diagram α)

theorem costs_PP (i : Fin D1.points.length) (j : Fin D2.points.length) :
    wassersteinCosts pw top d D1 D2 (rowP D2.points.length i) (colP D1.points.length j) =
      pw (d D1.points[i] D2.points[j]) := by
  unfold wassersteinCosts
  simp [rowP, colP]

theorem costs_PD (i i' : Fin D1.points.length) :
    wassersteinCosts pw top d D1 D2 (rowP D2.points.length i) (colD D2.points.length i') =
      projectionCost pw top d D1.points[i'] D1.points[i] := by
  unfold wassersteinCosts
  simp [rowP, colD]

theorem costs_DP (j j' : Fin D2.points.length) :
    wassersteinCosts pw top d D1 D2 (rowD D1.points.length j) (colP D1.points.length j') =
      projectionCost pw top d D2.points[j] D2.points[j'] := by
  unfold wassersteinCosts
  simp [rowD, colP]

theorem costs_DD (j : Fin D2.points.length) (i : Fin D1.points.length) :
    wassersteinCosts pw top d D1 D2 (rowD D1.points.length j) (colD D2.points.length i) = 0 := by
  unfold wassersteinCosts
  simp [rowD, colD]

end Costs

/-! ### From matchings to assignments -/

/-- The assignment of a partial matching. -/
noncomputable def assign {a b : ℕ} (m : Finset (Fin a × Fin b)) (r : Fin (a + b)) : Fin (a + b) := by
  classical
  exact
    if h : ∃ i, r = rowP b i then
      (if h' : ∃ j, (h.choose, j) ∈ m then colP a h'.choose else colD b h.choose)
    else
      (if h' : ∃ i j, r = rowD a j ∧ (i, j) ∈ m then colD b h'.choose
        else if h'' : ∃ j, r = rowD a j then colP a h''.choose else r)

theorem assign_rowP {a b : ℕ} {m : Finset (Fin a × Fin b)} (hm : IsMatching m) (i : Fin a) :
    (∀ j, (i, j) ∈ m → assign m (rowP b i) = colP a j) ∧
      ((∀ j, (i, j) ∉ m) → assign m (rowP b i) = colD b i) := by
  have h : ∃ i', rowP b i = rowP b i' := ⟨i, rfl⟩
  have hi : h.choose = i := (rowP_inj h.choose_spec).symm
  constructor
  · intro j hj
    have h' : ∃ j, (h.choose, j) ∈ m := ⟨j, by rw [hi]; exact hj⟩
    unfold assign
    rw [dif_pos h, dif_pos h']
    rw [hm.left h.choose h'.choose j h'.choose_spec (by rw [hi]; exact hj)]
  · intro hj
    have h' : ¬ ∃ j, (h.choose, j) ∈ m := by
      rintro ⟨j, h1⟩
      rw [hi] at h1
      exact hj j h1
    unfold assign
    rw [dif_pos h, dif_neg h', hi]

theorem assign_rowD {a b : ℕ} {m : Finset (Fin a × Fin b)} (hm : IsMatching m) (j : Fin b) :
    (∀ i, (i, j) ∈ m → assign m (rowD a j) = colD b i) ∧
      ((∀ i, (i, j) ∉ m) → assign m (rowD a j) = colP a j) := by
  have h : ¬ ∃ i', rowD a j = rowP b i' := by
    rintro ⟨i, hi⟩
    exact rowP_ne_rowD i j hi.symm
  constructor
  · intro i hi
    have h' : ∃ i j', rowD a j = rowD a j' ∧ (i, j') ∈ m := ⟨i, j, rfl, hi⟩
    unfold assign
    rw [dif_neg h, dif_pos h']
    obtain ⟨j', e, h1⟩ := h'.choose_spec
    rw [← rowD_inj e] at h1
    rw [hm.right _ _ j h1 hi]
  · intro hi
    have h' : ¬ ∃ i j', rowD a j = rowD a j' ∧ (i, j') ∈ m := by
      rintro ⟨i, j', e, h1⟩
      rw [← rowD_inj e] at h1
      exact hi i h1
    have h'' : ∃ j', rowD a j = rowD a j' := ⟨j, rfl⟩
    unfold assign
    rw [dif_neg h, dif_neg h', dif_pos h'', ← rowD_inj h''.choose_spec]

theorem assign_injective {a b : ℕ} {m : Finset (Fin a × Fin b)} (hm : IsMatching m) :
    Function.Injective (assign m) := by
  have hP : ∀ i, (∃ j, (i, j) ∈ m ∧ assign m (rowP b i) = colP a j) ∨
      ((∀ j, (i, j) ∉ m) ∧ assign m (rowP b i) = colD b i) := by
    intro i
    by_cases h : ∃ j, (i, j) ∈ m
    · obtain ⟨j, hj⟩ := h
      exact Or.inl ⟨j, hj, (assign_rowP hm i).1 j hj⟩
    · push Not at h
      exact Or.inr ⟨h, (assign_rowP hm i).2 h⟩
  have hD : ∀ j, (∃ i, (i, j) ∈ m ∧ assign m (rowD a j) = colD b i) ∨
      ((∀ i, (i, j) ∉ m) ∧ assign m (rowD a j) = colP a j) := by
    intro j
    by_cases h : ∃ i, (i, j) ∈ m
    · obtain ⟨i, hi⟩ := h
      exact Or.inl ⟨i, hi, (assign_rowD hm j).1 i hi⟩
    · push Not at h
      exact Or.inr ⟨h, (assign_rowD hm j).2 h⟩
  have hPD : ∀ i j, assign m (rowP b i) ≠ assign m (rowD a j) := by
    intro i j e
    rcases hP i with ⟨j1, h1, e1⟩ | ⟨h1, e1⟩ <;> rcases hD j with ⟨i2, h2, e2⟩ | ⟨h2, e2⟩ <;> rw [e1, e2] at e
    · exact colP_ne_colD _ _ e
    · exact h2 i (colP_inj e ▸ h1)
    · exact h1 j (colD_inj e ▸ h2)
    · exact colP_ne_colD _ _ e.symm
  intro r r' e
  rcases row_cases r with ⟨i, rfl⟩ | ⟨j, rfl⟩ <;> rcases row_cases r' with ⟨i', rfl⟩ | ⟨j', rfl⟩
  · rcases hP i with ⟨j1, h1, e1⟩ | ⟨h1, e1⟩ <;> rcases hP i' with ⟨j2, h2, e2⟩ | ⟨h2, e2⟩ <;> rw [e1, e2] at e
    · rw [hm.right i i' j1 h1 (colP_inj e ▸ h2)]
    · exact (colP_ne_colD _ _ e).elim
    · exact (colP_ne_colD _ _ e.symm).elim
    · rw [colD_inj e]
  · exact (hPD _ _ e).elim
  · exact (hPD _ _ e.symm).elim
  · rcases hD j with ⟨j1, h1, e1⟩ | ⟨h1, e1⟩ <;> rcases hD j' with ⟨j2, h2, e2⟩ | ⟨h2, e2⟩ <;> rw [e1, e2] at e
    · rw [hm.left j1 j j' h1 (colD_inj e ▸ h2)]
    · exact (colP_ne_colD _ _ e.symm).elim
    · exact (colP_ne_colD _ _ e).elim
    · rw [colP_inj e]

/-- The cost of a matching as a sum over rows. -/
theorem matchingCost_rows [AddCommMonoid α] {P : Type} (c : P → P → α) (alone : P → α) (A B : List P)
    (m : Finset (Fin A.length × Fin B.length)) :
    matchingCost c alone A B m =
      ∑ i : Fin A.length, ((∑ j : Fin B.length, if (i, j) ∈ m then c A[i] B[j] else 0) +
        if ∀ j, (i, j) ∉ m then alone A[i] else 0) +
      ∑ j : Fin B.length, if ∀ i, (i, j) ∉ m then alone B[j] else 0 := by
  unfold matchingCost
  rw [sum_add_distrib, sum_filter, sum_filter]
  congr 2
  rw [← sum_product' (s := univ) (t := univ) (f := fun i j => if (i, j) ∈ m then c A[i] B[j] else 0),
    univ_product_univ, ← sum_filter]
  refine sum_congr ?_ fun _ _ => rfl
  ext x
  simp

/-- The row sum of a matched or unmatched point. -/
theorem row_sum [AddCommMonoid α] {a b : ℕ} {m : Finset (Fin a × Fin b)} (hm : IsMatching m) (i : Fin a) (f : Fin b → α)
    (x : α) :
    (∀ j, (i, j) ∈ m → ((∑ j, if (i, j) ∈ m then f j else 0) + if ∀ j, (i, j) ∉ m then x else 0) = f j) ∧
    ((∀ j, (i, j) ∉ m) → ((∑ j, if (i, j) ∈ m then f j else 0) + if ∀ j, (i, j) ∉ m then x else 0) = x) := by
  constructor
  · intro j hj
    rw [if_neg (by push Not; exact ⟨j, hj⟩), add_zero, sum_eq_single j]
    · rw [if_pos hj]
    · intro j' _ hne
      refine if_neg ?_
      intro h
      exact hne (hm.left i j' j h hj)
    · simp
  · intro h
    rw [if_pos h, sum_eq_zero, zero_add]
    intro j _
    rw [if_neg (h j)]

section Main

variable [Field α] [LinearOrder α]

theorem assign_cost (pw : α → α) (top : α) (d : α × α → α × α → α) (D1 D2 : Diagram α)
    (m : Finset (Fin D1.points.length × Fin D2.points.length)) (hm : IsMatching m) :
    ∃ τ : Equiv.Perm (Fin (D1.points.length + D2.points.length)),
      assignmentCost (wassersteinCosts pw top d D1 D2) τ =
        matchingCost (fun p q => pw (d p q)) (fun p => pw (orthogonalDistance d p)) D1.points D2.points m := by
  refine ⟨Equiv.ofBijective (assign m) (Finite.injective_iff_bijective.1 (assign_injective hm)), ?_⟩
  unfold assignmentCost
  rw [sum_rows, matchingCost_rows]
  simp only [Equiv.ofBijective_apply]
  congr 1
  · refine sum_congr rfl fun i _ => ?_
    obtain ⟨h1, h2⟩ := row_sum hm i (fun j => pw (d D1.points[i] D2.points[j])) (pw (orthogonalDistance d D1.points[i]))
    by_cases h : ∃ j, (i, j) ∈ m
    · obtain ⟨j, hj⟩ := h
      rw [h1 j hj, (assign_rowP hm i).1 j hj, costs_PP]
    · push Not at h
      rw [h2 h, (assign_rowP hm i).2 h, costs_PD, projectionCost, if_pos rfl]
  · refine sum_congr rfl fun j _ => ?_
    by_cases h : ∃ i, (i, j) ∈ m
    · obtain ⟨i, hi⟩ := h
      rw [(assign_rowD hm j).1 i hi, costs_DD, if_neg (by push Not; exact ⟨i, hi⟩)]
    · push Not at h
      rw [(assign_rowD hm j).2 h, costs_DP, projectionCost, if_pos rfl, if_pos h]

theorem good_cost (pw : α → α) (top : α) (d : α × α → α × α → α) (D1 D2 : Diagram α)
    (σ : Equiv.Perm (Fin (D1.points.length + D2.points.length)))
    (h1 : ∀ i i', σ (rowP D2.points.length i) = colD D2.points.length i' → D1.points[i'] = D1.points[i])
    (h2 : ∀ j j', σ (rowD D1.points.length j) = colP D1.points.length j' → D2.points[j] = D2.points[j']) :
    ∃ m : Finset (Fin D1.points.length × Fin D2.points.length), IsMatching m ∧
      (∀ i j, (i, j) ∈ m ↔ σ (rowP D2.points.length i) = colP D1.points.length j) ∧
      assignmentCost (wassersteinCosts pw top d D1 D2) σ =
        matchingCost (fun p q => pw (d p q)) (fun p => pw (orthogonalDistance d p)) D1.points D2.points m := by
  set m : Finset (Fin D1.points.length × Fin D2.points.length) :=
    univ.filter fun x => σ (rowP D2.points.length x.1) = colP D1.points.length x.2 with hmdef
  have hmem : ∀ i j, (i, j) ∈ m ↔ σ (rowP D2.points.length i) = colP D1.points.length j := by
    intro i j; simp [hmdef]
  have hm : IsMatching m := by
    refine ⟨?_, ?_⟩
    · intro i j j' hj hj'
      rw [hmem] at hj hj'
      exact colP_inj (hj.symm.trans hj')
    · intro i i' j hi hi'
      rw [hmem] at hi hi'
      exact rowP_inj (σ.injective (hi.trans hi'.symm))
  refine ⟨m, hm, hmem, ?_⟩
  unfold assignmentCost
  rw [sum_rows, matchingCost_rows]
  congr 1
  · refine sum_congr rfl fun i _ => ?_
    obtain ⟨k1, k2⟩ := row_sum hm i (fun j => pw (d D1.points[i] D2.points[j])) (pw (orthogonalDistance d D1.points[i]))
    rcases col_cases (σ (rowP D2.points.length i)) with ⟨j, hj⟩ | ⟨i', hi'⟩
    · rw [k1 j ((hmem i j).2 hj), hj, costs_PP]
    · rw [k2, hi', costs_PD, projectionCost, if_pos (h1 i i' hi'), h1 i i' hi']
      intro j hj
      rw [hmem, hi'] at hj
      exact colP_ne_colD _ _ hj.symm
  · -- exchange the order of summation
    have e1 : ∀ j, wassersteinCosts pw top d D1 D2 (rowD D1.points.length j) (σ (rowD D1.points.length j)) =
        ∑ j', if σ (rowD D1.points.length j) = colP D1.points.length j' then
          pw (orthogonalDistance d D2.points[j']) else 0 := by
      intro j
      rcases col_cases (σ (rowD D1.points.length j)) with ⟨j', hj'⟩ | ⟨i', hi'⟩
      · rw [sum_eq_single j', if_pos hj', hj', costs_DP, projectionCost, if_pos (h2 j j' hj'), h2 j j' hj']
        · intro k _ hk
          refine if_neg ?_
          intro h
          exact hk (colP_inj (h.symm.trans hj'))
        · simp
      · rw [hi', costs_DD, sum_eq_zero]
        intro k _
        exact if_neg (colP_ne_colD k i').symm
    rw [sum_congr rfl fun j _ => e1 j, sum_comm]
    refine sum_congr rfl fun j' _ => ?_
    obtain ⟨r, hr⟩ := σ.surjective (colP D1.points.length j')
    rcases row_cases r with ⟨i, rfl⟩ | ⟨j, rfl⟩
    · rw [if_neg (by push Not; exact ⟨i, (hmem i j').2 hr⟩), sum_eq_zero]
      intro j _
      refine if_neg ?_
      intro h
      exact rowP_ne_rowD _ _ (σ.injective (hr.trans h.symm))
    · rw [sum_eq_single j, if_pos hr, if_pos]
      · intro i hi
        rw [hmem] at hi
        exact rowP_ne_rowD _ _ (σ.injective (hi.trans hr.symm))
      · intro k _ hk
        refine if_neg ?_
        intro h
        exact hk (rowD_inj (σ.injective (h.trans hr.symm)))
      · simp

theorem costs_nonneg (pw : α → α) (top : α) (d : α × α → α × α → α) (D1 D2 : Diagram α) (htop : 0 < top)
    (hpw : ∀ p q, 0 ≤ pw (d p q)) (r c : Fin (D1.points.length + D2.points.length)) :
    0 ≤ wassersteinCosts pw top d D1 D2 r c := by
  have hproj : ∀ p q, 0 ≤ projectionCost pw top d p q := by
    intro p q
    unfold projectionCost
    split
    · exact hpw _ _
    · exact htop.le
  rcases row_cases r with ⟨i, rfl⟩ | ⟨j, rfl⟩ <;> rcases col_cases c with ⟨j', rfl⟩ | ⟨i', rfl⟩
  · rw [costs_PP]; exact hpw _ _
  · rw [costs_PD]; exact hproj _ _
  · rw [costs_DP]; exact hproj _ _
  · rw [costs_DD]

variable [IsStrictOrderedRing α]

/-- C36. `wassersteinDistance` calculates the Wasserstein distance: if the diagrams have the same dimension, then the
calculation stops, and its result is the root (`rt`) of the smallest cost of a partial matching between the points of the
two diagrams.  A pair of points costs the power (`pw`) of its distance, a point without partner the power of its
distance to its projection to the diagonal.  The number `top`, which stands for the largest
representable number, must be larger than the cost of the empty matching. -/
theorem C36_optimal_matching [Archimedean α] (pw rt : α → α) (top : α) (d : α × α → α × α → α) (D1 D2 : Diagram α)
    (hdim : D1.dimension = D2.dimension) (hpw : ∀ p q, 0 ≤ pw (d p q))
    (htop : matchingCost (fun p q => pw (d p q)) (fun p => pw (d p ((p.1 + p.2) / 2, (p.1 + p.2) / 2)))
      D1.points D2.points ∅ < top) :
    ∃ w, IsMinimalCost (fun p q => pw (d p q)) (fun p => pw (d p ((p.1 + p.2) / 2, (p.1 + p.2) / 2)))
        D1.points D2.points w ∧
      ∃ rounds, ∀ k, rounds ≤ k → wassersteinDistance pw rt top d D1 D2 k = some (.ok (rt w)) := by
  have hempty : IsMatching (∅ : Finset (Fin D1.points.length × Fin D2.points.length)) := ⟨by simp, by simp⟩
  have htop0 : 0 < top := by
    refine lt_of_le_of_lt ?_ htop
    unfold matchingCost
    refine add_nonneg (add_nonneg (sum_nonneg fun _ _ => hpw _ _) (sum_nonneg fun _ _ => hpw _ _))
      (sum_nonneg fun _ _ => hpw _ _)
  obtain ⟨M, σ, hopt, ⟨rounds, hr⟩, hM⟩ := C35_optimal_assignment top htop0
    (D1.points.length + D2.points.length) (wassersteinCosts pw top d D1 D2)
  obtain ⟨τ0, hτ0⟩ := assign_cost pw top d D1 D2 ∅ hempty
  have hlt : assignmentCost (wassersteinCosts pw top d D1 D2) σ < top := by
    refine lt_of_le_of_lt (hopt τ0) ?_
    rw [hτ0]; exact htop
  have hentry : ∀ r : Fin (D1.points.length + D2.points.length), wassersteinCosts pw top d D1 D2 r (σ r) < top := by
    intro r
    refine lt_of_le_of_lt ?_ hlt
    exact single_le_sum (f := fun r : Fin (D1.points.length + D2.points.length) =>
      wassersteinCosts pw top d D1 D2 r (σ r)) (fun r _ => costs_nonneg pw top d D1 D2 htop0 hpw r _) (mem_univ r)
  obtain ⟨m, hm, _, hmc⟩ := good_cost pw top d D1 D2 σ (by
      intro i i' h
      have := hentry (rowP D2.points.length i)
      rw [h, costs_PD, projectionCost] at this
      by_contra hne
      rw [if_neg hne] at this
      exact lt_irrefl _ this) (by
      intro j j' h
      have := hentry (rowD D1.points.length j)
      rw [h, costs_DP, projectionCost] at this
      by_contra hne
      rw [if_neg hne] at this
      exact lt_irrefl _ this)
  refine ⟨assignmentCost (wassersteinCosts pw top d D1 D2) σ, ⟨⟨m, hm, hmc⟩, ?_⟩, rounds, ?_⟩
  · rintro x ⟨m', hm', rfl⟩
    obtain ⟨τ, hτ⟩ := assign_cost pw top d D1 D2 m' hm'
    exact (hopt τ).trans_eq hτ
  · intro k hk
    unfold wassersteinDistance
    rw [if_neg (by simpa using hdim)]
    simp only [hr k hk, Option.map_some, totalCosts_eq]
    rw [(C35_matching_cost _ M _ top htop0.ne' σ hM).2]

end Main

/-- C36. Diagrams of different dimensions raise an exception. -/
theorem C36_dimensions [Field α] [LinearOrder α] (pw rt : α → α) (top : α) (d : α × α → α × α → α) (D1 D2 : Diagram α)
    (hdim : D1.dimension ≠ D2.dimension) (k : ℕ) : wassersteinDistance pw rt top d D1 D2 k = some (.error ()) :=
  if_pos hdim

/-! ### Properties of the minimal cost -/

/-- C36. The projection to the diagonal is the nearest point of the diagonal, at half the persistence of the point. -/
theorem C36_projection [Field α] [LinearOrder α] [IsStrictOrderedRing α] (p : α × α) :
    IsLeast {x | ∃ t : α, x = max |p.1 - t| |p.2 - t|} (orthogonalDistance infinityDistance p) ∧
      orthogonalDistance infinityDistance p = |p.2 - p.1| / 2 := by
  have h : orthogonalDistance infinityDistance p = |p.2 - p.1| / 2 := by
    unfold orthogonalDistance
    rw [C37_infinity_distance]
    have h1 : p.1 - (p.1 + p.2) / 2 = -((p.2 - p.1) / 2) := by ring
    have h2 : p.2 - (p.1 + p.2) / 2 = (p.2 - p.1) / 2 := by ring
    simp only [h1, h2, abs_neg, max_self]
    rw [abs_div, abs_of_pos (two_pos : (0 : α) < 2)]
  refine ⟨⟨⟨(p.1 + p.2) / 2, C37_infinity_distance _ _⟩, ?_⟩, h⟩
  rintro x ⟨t, rfl⟩
  rw [h, div_le_iff₀ two_pos]
  have h3 : p.2 - p.1 = (p.2 - t) - (p.1 - t) := by ring
  rw [h3]
  calc |(p.2 - t) - (p.1 - t)| ≤ |p.2 - t| + |p.1 - t| := abs_sub _ _
    _ ≤ max |p.1 - t| |p.2 - t| + max |p.1 - t| |p.2 - t| :=
      add_le_add (le_max_right _ _) (le_max_left _ _)
    _ = _ := by ring

/-- Permuted lists correspond position by position. -/
theorem perm_equiv {P : Type} {A B : List P} (h : A.Perm B) :
    ∃ e : Fin A.length ≃ Fin B.length, ∀ i, A[i] = B[e i] := by
  induction h with
  | nil => exact ⟨Equiv.refl _, fun i => i.elim0⟩
  | @cons x l1 l2 _ ih =>
    obtain ⟨e, he⟩ := ih
    refine ⟨((finSuccEquiv l1.length).trans ((Equiv.optionCongr e).trans (finSuccEquiv l2.length).symm) :
      Fin (l1.length + 1) ≃ Fin (l2.length + 1)), ?_⟩
    intro i
    refine Fin.cases ?_ ?_ i
    · simp
    · intro j
      simpa using he j
  | swap x y l =>
    refine ⟨(Equiv.swap 0 1 : Equiv.Perm (Fin (l.length + 2))), ?_⟩
    intro i
    refine Fin.cases ?_ ?_ i
    · simp
    · intro j
      refine Fin.cases ?_ ?_ j
      · simp
      · intro k
        have : (Equiv.swap 0 1 : Equiv.Perm (Fin (l.length + 2))) k.succ.succ = k.succ.succ :=
          Equiv.swap_apply_of_ne_of_ne (by simp [Fin.ext_iff]) (by simp [Fin.ext_iff])
        simp [this]
  | trans _ _ ih1 ih2 =>
    obtain ⟨e1, h1⟩ := ih1
    obtain ⟨e2, h2⟩ := ih2
    exact ⟨e1.trans e2, fun i => (h1 i).trans (h2 _)⟩

/-- C36. The smallest cost is symmetric if the cost of pairs is symmetric. -/
theorem C36_symmetric [AddCommMonoid α] [LE α] {P : Type} (cost : P → P → α) (alone : P → α)
    (hc : ∀ p q, cost p q = cost q p) (A B : List P) (w : α) (h : IsMinimalCost cost alone A B w) :
    IsMinimalCost cost alone B A w := by
  have key : ∀ (A B : List P) (m : Finset (Fin A.length × Fin B.length)), IsMatching m →
      ∃ m' : Finset (Fin B.length × Fin A.length), IsMatching m' ∧
        matchingCost cost alone B A m' = matchingCost cost alone A B m := by
    intro A B m hm
    refine ⟨m.map (Equiv.prodComm _ _).toEmbedding, ⟨?_, ?_⟩, ?_⟩
    · intro i j j' h1 h2
      simp only [mem_map_equiv, Equiv.prodComm_symm, Equiv.prodComm_apply, Prod.swap] at h1 h2
      exact hm.right _ _ _ h1 h2
    · intro i i' j h1 h2
      simp only [mem_map_equiv, Equiv.prodComm_symm, Equiv.prodComm_apply, Prod.swap] at h1 h2
      exact hm.left _ _ _ h1 h2
    · unfold matchingCost
      simp only [mem_map_equiv, Equiv.prodComm_symm, Equiv.prodComm_apply, Prod.swap, sum_map,
        Equiv.coe_toEmbedding]
      rw [add_assoc, add_assoc]
      congr 1
      · exact sum_congr rfl fun x _ => hc _ _
      · exact add_comm _ _
  obtain ⟨⟨m, hm, rfl⟩, hmin⟩ := h
  obtain ⟨m', hm', he⟩ := key A B m hm
  refine ⟨⟨m', hm', he.symm⟩, ?_⟩
  rintro x ⟨m2, hm2, rfl⟩
  obtain ⟨m3, hm3, he3⟩ := key B A m2 hm2
  rw [← he3]
  exact hmin ⟨m3, hm3, rfl⟩

/-- C36. The smallest cost is zero if both diagrams have the same points with the same multiplicities. -/
theorem C36_zero [AddCommMonoid α] [PartialOrder α] [IsOrderedAddMonoid α] {P : Type} (cost : P → P → α)
    (alone : P → α) (h0 : ∀ p, cost p p = 0) (hc : ∀ p q, 0 ≤ cost p q) (ha : ∀ p, 0 ≤ alone p) (A B : List P)
    (h : A.Perm B) : IsMinimalCost cost alone A B 0 := by
  obtain ⟨e, he⟩ := perm_equiv h
  refine ⟨⟨univ.filter fun x => e x.1 = x.2, ⟨?_, ?_⟩, ?_⟩, ?_⟩
  · intro i j j' h1 h2
    simp only [mem_filter, mem_univ, true_and] at h1 h2
    exact h1.symm.trans h2
  · intro i i' j h1 h2
    simp only [mem_filter, mem_univ, true_and] at h1 h2
    exact e.injective (h1.trans h2.symm)
  · unfold matchingCost
    rw [sum_eq_zero, sum_eq_zero, sum_eq_zero]
    · simp
    · intro j hj
      have := (mem_filter.1 hj).2 (e.symm j)
      simp at this
    · intro i hi
      have := (mem_filter.1 hi).2 (e i)
      simp at this
    · intro x hx
      obtain ⟨i, j⟩ := x
      have : e i = j := (mem_filter.1 hx).2
      subst this
      exact (congrArg (fun p => cost p _) (he i)).trans (h0 _)
  · rintro x ⟨m, _, rfl⟩
    unfold matchingCost
    exact add_nonneg (add_nonneg (sum_nonneg fun _ _ => hc _ _) (sum_nonneg fun _ _ => ha _))
      (sum_nonneg fun _ _ => ha _)

/-- A smallest cost is unique. -/
theorem minimalCost_unique [AddCommMonoid α] [PartialOrder α] {P : Type} {cost : P → P → α} {alone : P → α}
    {A B : List P} {v w : α} (hv : IsMinimalCost cost alone A B v) (hw : IsMinimalCost cost alone A B w) : v = w :=
  hv.unique hw

/-- C36. Equal diagrams have the distance zero: the calculation for two diagrams of the same dimension, with the same points
in any order, yields the root of zero. -/
theorem C36_equal_diagrams [Field α] [LinearOrder α] [IsStrictOrderedRing α] [Archimedean α] (pw rt : α → α) (top : α)
    (d : α × α → α × α → α) (D1 D2 : Diagram α) (hdim : D1.dimension = D2.dimension)
    (hperm : D1.points.Perm D2.points) (hpw : ∀ p q, 0 ≤ pw (d p q)) (h0 : ∀ p, pw (d p p) = 0)
    (htop : matchingCost (fun p q => pw (d p q)) (fun p => pw (d p ((p.1 + p.2) / 2, (p.1 + p.2) / 2)))
      D1.points D2.points ∅ < top) :
    ∃ rounds, ∀ k, rounds ≤ k → wassersteinDistance pw rt top d D1 D2 k = some (.ok (rt 0)) := by
  obtain ⟨w, hw, h⟩ := C36_optimal_matching pw rt top d D1 D2 hdim hpw htop
  rw [minimalCost_unique hw (C36_zero _ _ h0 hpw (fun p => hpw _ _) _ _ hperm)] at h
  exact h

/-- C36. The calculation does not depend on the order of the two diagrams. -/
theorem C36_order_independent [Field α] [LinearOrder α] [IsStrictOrderedRing α] [Archimedean α] (pw rt : α → α) (top : α)
    (d : α × α → α × α → α) (D1 D2 : Diagram α) (hd : ∀ p q, d p q = d q p)
    (hpw : ∀ p q, 0 ≤ pw (d p q))
    (htop : matchingCost (fun p q => pw (d p q)) (fun p => pw (d p ((p.1 + p.2) / 2, (p.1 + p.2) / 2)))
      D1.points D2.points ∅ < top) :
    ∃ r rounds, ∀ k, rounds ≤ k → wassersteinDistance pw rt top d D1 D2 k = some r ∧
      wassersteinDistance pw rt top d D2 D1 k = some r := by
  by_cases hdim : D1.dimension = D2.dimension
  · obtain ⟨w, hw, r1, h1⟩ := C36_optimal_matching pw rt top d D1 D2 hdim hpw htop
    obtain ⟨w', hw', r2, h2⟩ := C36_optimal_matching pw rt top d D2 D1 hdim.symm hpw (by
      refine lt_of_le_of_lt (le_of_eq ?_) htop
      unfold matchingCost
      simp only [sum_empty, zero_add, notMem_empty, not_false_iff, implies_true]
      exact add_comm _ _)
    have := minimalCost_unique hw (C36_symmetric _ _ (fun p q => by rw [hd]) _ _ _ hw')
    subst this
    refine ⟨_, max r1 r2, fun k hk => ⟨h1 k (le_trans (le_max_left _ _) hk), h2 k (le_trans (le_max_right _ _) hk)⟩⟩
  · exact ⟨_, 0, fun k _ => ⟨C36_dimensions pw rt top d D1 D2 hdim k, C36_dimensions pw rt top d D2 D1 (Ne.symm hdim) k⟩⟩

/-! ### Example -/

/-- Two diagrams with two points and one point. -/
def sampleWasserstein1 : Diagram ℚ := ⟨1, [(0, 4), (1, 2)]⟩
/-- See `sampleWasserstein1`. -/
def sampleWasserstein2 : Diagram ℚ := ⟨1, [(0, 5)]⟩

/-- The hypotheses of `C36_optimal_matching` hold for the infinity distance and power one. -/
example : sampleWasserstein1.dimension = sampleWasserstein2.dimension ∧
    (∀ p q : ℚ × ℚ, 0 ≤ id (infinityDistance p q)) ∧
    matchingCost (fun p q => id (infinityDistance p q))
      (fun p : ℚ × ℚ => id (infinityDistance p ((p.1 + p.2) / 2, (p.1 + p.2) / 2)))
      sampleWasserstein1.points sampleWasserstein2.points ∅ < 100 := by
  refine ⟨rfl, fun p q => infinityDistance_nonneg p q, ?_⟩
  decide +kernel

/-- The calculation gives `3 / 2`: the first points are matched, the remaining one goes to the diagonal. -/
example : wassersteinDistance id id 100 infinityDistance sampleWasserstein1 sampleWasserstein2 20 =
    some (.ok (3 / 2)) := by
  decide +kernel

end Aleph
