import Verif.Model.BetaSkeleton
import Verif.Props.Distances
import Verif.Props.VietorisRips
import Mathlib.Algebra.Order.Field.Basic
import Mathlib.Tactic.LinearCombination
import Mathlib.Tactic.FieldSimp

/-!
# Beta-skeletons
-/

namespace Aleph

open Spec Finset BetaSkeleton

variable {α : Type}

namespace Spec

/-- The point at squared distances `a` and `b` from the end points of a segment of squared length `c` lies in the (closed)
lune of the parameter `beta`: twice the squared distance to either end point is at most `beta` times the inner product of
the vectors from this end point to the point and to the other end point (expressed by the law of cosines). -/
def InLune [Mul α] [Add α] [Sub α] [LE α] [OfNat α 2] (beta a b c : α) : Prop :=
  2 * a ≤ beta * (a + c - b) ∧ 2 * b ≤ beta * (b + c - a)

end Spec

namespace BetaSkeleton

lemma foldl_sq [CommRing α] (l : List (α × α)) (x : α) :
    l.foldl (fun distance e => distance + (e.1 - e.2) * (e.1 - e.2)) x =
      x + (l.map fun e => (e.1 - e.2) ^ 2).sum := by
  induction l generalizing x with
  | nil => simp
  | cons e l ih => rw [List.foldl_cons, ih, List.map_cons, List.sum_cons]; ring

/-- The theorem of Stewart. -/
lemma stewart [CommRing α] (h : α) (p q r : List α) (h1 : q.length = p.length) (h2 : r.length = p.length) :
    ((List.zip (add (scale (1 - h) p) (scale h q)) r).map fun e => (e.1 - e.2) ^ 2).sum =
      (1 - h) * coordSum (fun x y => (x - y) ^ 2) r p + h * coordSum (fun x y => (x - y) ^ 2) r q -
        h * (1 - h) * coordSum (fun x y => (x - y) ^ 2) p q := by
  induction p generalizing q r with
  | nil =>
    obtain rfl : q = [] := List.length_eq_zero_iff.1 h1
    obtain rfl : r = [] := List.length_eq_zero_iff.1 h2
    simp [coordSum, add, scale]
  | cons x p ih =>
    obtain ⟨y, q, rfl⟩ := List.exists_cons_of_length_eq_add_one h1
    obtain ⟨z, r, rfl⟩ := List.exists_cons_of_length_eq_add_one h2
    have := ih q r (by simpa using h1) (by simpa using h2)
    simp only [coordSum, add, scale] at this
    simp only [coordSum, add, scale, List.map_cons, List.zipWith_cons_cons, List.zip_cons_cons, List.sum_cons]
    rw [this]
    ring

lemma ball_iff [Field α] [LinearOrder α] [IsStrictOrderedRing α] (p q r : List α) (h1 : q.length = p.length)
    (h2 : r.length = p.length) (beta d : α) (hd : d ^ 2 = coordSum (fun x y => (x - y) ^ 2) p q) :
    (Ball.make (1 / 2) (add (scale (1 - 1 / 2 * beta) p) (scale (1 / 2 * beta) q)) (beta * d)).contains r = true ↔
      2 * coordSum (fun x y => (x - y) ^ 2) r p ≤ beta * (coordSum (fun x y => (x - y) ^ 2) r p +
        coordSum (fun x y => (x - y) ^ 2) p q - coordSum (fun x y => (x - y) ^ 2) r q) := by
  rw [Ball.contains, decide_eq_true_eq]
  simp only [Ball.make]
  rw [foldl_sq, stewart _ p q r h1 h2, ← hd, ← sub_nonneg, ← sub_nonneg (b := 2 * _)]
  generalize coordSum (fun x y => (x - y) ^ 2) r p = a
  generalize coordSum (fun x y => (x - y) ^ 2) r q = b
  have : 2 * (1 / 2 * (beta * d) * (1 / 2 * (beta * d)) -
      (0 + ((1 - 1 / 2 * beta) * a + 1 / 2 * beta * b - 1 / 2 * beta * (1 - 1 / 2 * beta) * d ^ 2))) =
      beta * (a + d ^ 2 - b) - 2 * a := by ring
  rw [← this]
  exact (mul_nonneg_iff_of_pos_left two_pos).symm

lemma lune_iff [Field α] [LinearOrder α] [IsStrictOrderedRing α] (p q r : List α) (h1 : q.length = p.length)
    (h2 : r.length = p.length) (beta d : α) (hd : d ^ 2 = coordSum (fun x y => (x - y) ^ 2) p q) :
    luneContains p q beta d r = true ↔
      InLune beta (coordSum (fun x y => (x - y) ^ 2) r p) (coordSum (fun x y => (x - y) ^ 2) r q)
        (coordSum (fun x y => (x - y) ^ 2) p q) := by
  have hsym : coordSum (fun x y : α => (x - y) ^ 2) q p = coordSum (fun x y => (x - y) ^ 2) p q :=
    coordSum_comm _ (fun x y => by ring) _ _
  simp only [luneContains, Bool.and_eq_true]
  rw [ball_iff p q r h1 h2 beta d hd, ball_iff q p r h1.symm (h2.trans h1.symm) beta d (hd.trans hsym.symm), hsym,
    InLune]

end BetaSkeleton

/-- **C63.**  The skeleton contains exactly the points and the edges whose lune is devoid of other points, each of them
once; points have the default value (zero), edges their length; points precede edges. -/
theorem C63_skeleton [Field α] [LinearOrder α] [IsStrictOrderedRing α] (n D : ℕ) (point : ℕ → List α)
    (hD : ∀ i < n, (point i).length = D) (dist : ℕ → ℕ → α)
    (hdist : ∀ i < n, ∀ j < n, dist i j ^ 2 = coordSum (fun x y => (x - y) ^ 2) (point i) (point j)) (beta : α) :
    ∃ K, build 0 n point dist beta = some K ∧ WF K ∧ FaceClosed K ∧ FacesFirst K ∧
      (∀ t, Has K t ↔ (∃ i < n, t = {i}) ∨ ∃ i j, i < j ∧ j < n ∧ t = {i, j} ∧
        ∀ r < n, r ≠ i → r ≠ j → ¬ InLune beta (coordSum (fun x y => (x - y) ^ 2) (point r) (point i))
          (coordSum (fun x y => (x - y) ^ 2) (point r) (point j))
          (coordSum (fun x y => (x - y) ^ 2) (point i) (point j))) ∧
      (∀ i x, HasData K {i} x → x = 0) ∧ ∀ i j x, i < j → HasData K {i, j} x → x = dist i j := by
  classical
  set E : ℕ → ℕ → Prop := fun i j => ∀ r < n, r ≠ i → r ≠ j →
    ¬ InLune beta (coordSum (fun x y => (x - y) ^ 2) (point r) (point i))
          (coordSum (fun x y => (x - y) ^ 2) (point r) (point j))
          (coordSum (fun x y => (x - y) ^ 2) (point i) (point j)) with hE
  have hpair : ∀ (u v : ℕ) (x : α), u < v → Simplex.ofRange [u, v] x = ⟨[v, u], x⟩ := by
    intro u v x huv
    have : (Simplex.ofRange [u, v] x).vertices = [v, u] := by
      refine Normal.ext (ofRange_normal _ _) (by simpa [Normal] using huv) fun y => ?_
      rw [mem_ofRange]; simp [or_comm]
    show Simplex.mk (Simplex.ofRange [u, v] x).vertices _ = _
    rw [this]
  set V : List (Simplex α) := (List.range n).map fun i => Simplex.ofVertex i 0 with hV
  set F : List (Simplex α) := (List.range n).flatMap fun i =>
    (List.range' (i + 1) (n - (i + 1))).filterMap fun j =>
      if (List.range n).all fun r => !(r != i && r != j && luneContains (point i) (point j) beta (dist i j) (point r))
      then some (Simplex.ofRange [i, j] (dist i j)) else none with hF
  have hFtest : ∀ i j, i < j → j < n → (((List.range n).all fun r =>
      !(r != i && r != j && luneContains (point i) (point j) beta (dist i j) (point r))) = true ↔ E i j) := by
    intro i j hij hj
    rw [List.all_eq_true]
    simp only [List.mem_range, Bool.not_eq_true', Bool.and_eq_false_iff, bne_eq_false_iff_eq, hE]
    refine forall_congr' fun r => imp_congr_right fun hr => ?_
    rw [← Bool.not_eq_true, lune_iff _ _ _ ((hD j hj).trans (hD i (by omega)).symm)
      ((hD r hr).trans (hD i (by omega)).symm) beta _ (hdist i (by omega) j hj)]
    tauto
  have hmemF : ∀ s, s ∈ F ↔ ∃ i j, i < j ∧ j < n ∧ E i j ∧ s = ⟨[j, i], dist i j⟩ := by
    intro s
    simp only [hF, List.mem_flatMap, List.mem_range, List.mem_filterMap, List.mem_range'_1]
    constructor
    · rintro ⟨i, hi, j, hj, h⟩
      split at h
      · next h' =>
        cases h
        exact ⟨i, j, by omega, by omega, (hFtest i j (by omega) (by omega)).1 h', hpair i j _ (by omega)⟩
      · cases h
    · rintro ⟨i, j, hij, hj, h, rfl⟩
      refine ⟨i, by omega, j, by omega, ?_⟩
      rw [if_pos ((hFtest i j hij hj).2 h), hpair i j _ hij]
  have hmemV : ∀ s, s ∈ V ↔ ∃ i < n, s = ⟨[i], 0⟩ := by
    intro s
    simp only [hV, List.mem_map, List.mem_range, Simplex.ofVertex, eq_comm]
  have hne : ∀ s ∈ V ++ F, s.vertices ≠ [] := by
    intro s hs
    rcases List.mem_append.1 hs with h | h
    · obtain ⟨i, -, rfl⟩ := (hmemV s).1 h; simp
    · obtain ⟨i, j, -, -, -, rfl⟩ := (hmemF s).1 h; simp
  have hnormal : ∀ s ∈ V ++ F, Normal s.vertices := by
    intro s hs
    rcases List.mem_append.1 hs with h | h
    · obtain ⟨i, -, rfl⟩ := (hmemV s).1 h; simp [Normal]
    · obtain ⟨i, j, hij, -, -, rfl⟩ := (hmemF s).1 h; simpa [Normal] using hij
  have hnodup : ((V ++ F).map (·.vertices)).Nodup := by
    rw [List.map_append, List.nodup_append]
    refine ⟨?_, ?_, ?_⟩
    · rw [hV, List.map_map]
      exact List.Nodup.map (fun a b h => by simpa [Simplex.ofVertex] using h) List.nodup_range
    · rw [hF, List.map_flatMap, List.nodup_flatMap]
      have hrow : ∀ i vs, vs ∈ ((List.range' (i + 1) (n - (i + 1))).filterMap fun j =>
          if (List.range n).all fun r =>
            !(r != i && r != j && luneContains (point i) (point j) beta (dist i j) (point r))
          then some (Simplex.ofRange [i, j] (dist i j)) else none).map (·.vertices) → ∃ j, vs = [j, i] := by
        intro i vs h
        simp only [List.mem_map, List.mem_filterMap, List.mem_range'_1] at h
        obtain ⟨s, ⟨j, hj, h⟩, rfl⟩ := h
        split at h
        · cases h
          exact ⟨j, by rw [hpair i j _ (by omega)]⟩
        · cases h
      refine ⟨fun i _ => ?_, ?_⟩
      · rw [List.map_filterMap]
        have hr : (List.range' (i + 1) (n - (i + 1))).Nodup := List.nodup_range'
        refine List.Pairwise.filterMap _ (R := fun a b => i < a ∧ i < b ∧ a ≠ b) ?_ ?_
        · rintro a b ⟨h1, h2, hab⟩ vs hvs ws hws
          simp only [Option.map_eq_some_iff] at hvs hws
          obtain ⟨s, hs, rfl⟩ := hvs
          obtain ⟨t, ht, rfl⟩ := hws
          split at hs
          · split at ht
            · cases hs; cases ht
              rw [hpair i a _ h1, hpair i b _ h2]
              intro he
              exact hab (List.cons.inj he).1
            · cases ht
          · cases hs
        · refine hr.imp_of_mem ?_
          intro a b ha hb hab
          simp only [List.mem_range'_1] at ha hb
          exact ⟨by omega, by omega, hab⟩
      · refine List.nodup_range.imp ?_
        intro i k hik
        rw [Function.onFun, List.disjoint_left]
        intro vs h1 h2
        obtain ⟨j, rfl⟩ := hrow i vs h1
        obtain ⟨j', h⟩ := hrow k _ h2
        simp at h
        exact hik h.2
    · intro vs h1 vs' h2 h
      subst h
      obtain ⟨s, hs, rfl⟩ := List.mem_map.1 h1
      obtain ⟨t, ht, h⟩ := List.mem_map.1 h2
      obtain ⟨i, -, rfl⟩ := (hmemV s).1 hs
      obtain ⟨a, b, -, -, -, rfl⟩ := (hmemF t).1 ht
      simp at h
  have hfold : ∀ (l K : Complex α), (∀ s ∈ l, s.vertices ≠ []) → ((K ++ l).map (·.vertices)).Nodup →
      l.foldlM (fun (K : Complex α) s => K.pushBack s) K = some (K ++ l) := by
    intro l
    induction l with
    | nil => intro K _ _; simp
    | cons s l ih =>
      intro K h1 h2
      rw [List.foldlM_cons, pushBack_new (h1 s (by simp))]
      · simp only [Option.bind_eq_bind, Option.bind_some]
        rw [ih (K ++ [s]) (fun t ht => h1 t (by simp [ht])) (by simpa using h2)]
        simp
      · intro t ht he
        rw [List.map_append, List.nodup_append] at h2
        exact h2.2.2 _ (List.mem_map_of_mem ht) _ (List.mem_map_of_mem List.mem_cons_self) he
  have hWF : WF (V ++ F) := ⟨hnormal, hne, hnodup⟩
  have hvsV : ∀ i : ℕ, ∀ x : α, (⟨[i], x⟩ : Simplex α).vset = {i} := by intro i x; simp [Simplex.vset]
  have hvsF : ∀ i j : ℕ, ∀ x : α, (⟨[j, i], x⟩ : Simplex α).vset = {i, j} := by
    intro i j x; simp [Simplex.vset, pair_comm]
  have hpp : ∀ a b c d : ℕ, a < b → c < d → ({a, b} : Finset ℕ) = {c, d} → a = c ∧ b = d := by
    intro a b c d hab hcd h
    have h1 : a ∈ ({c, d} : Finset ℕ) := by rw [← h]; simp
    have h2 : b ∈ ({c, d} : Finset ℕ) := by rw [← h]; simp
    simp only [mem_insert, mem_singleton] at h1 h2
    omega
  have hpne : ∀ a b c : ℕ, b < c → ({a} : Finset ℕ) ≠ {b, c} := by
    intro a b c hbc h
    have := congrArg Finset.card h
    rw [card_pair (by omega)] at this
    simp at this
  have hhas : ∀ t, Has (V ++ F) t ↔ (∃ i < n, t = {i}) ∨ ∃ i j, i < j ∧ j < n ∧ t = {i, j} ∧ E i j := by
    intro t
    constructor
    · rintro ⟨s, hs, rfl⟩
      rcases List.mem_append.1 hs with h | h
      · obtain ⟨i, hi, rfl⟩ := (hmemV s).1 h
        exact Or.inl ⟨i, hi, hvsV _ _⟩
      · obtain ⟨i, j, hij, hj, he, rfl⟩ := (hmemF s).1 h
        exact Or.inr ⟨i, j, hij, hj, hvsF _ _ _, he⟩
    · rintro (⟨i, hi, rfl⟩ | ⟨i, j, hij, hj, rfl, he⟩)
      · exact ⟨_, List.mem_append_left _ ((hmemV _).2 ⟨i, hi, rfl⟩), hvsV _ _⟩
      · exact ⟨_, List.mem_append_right _ ((hmemF _).2 ⟨i, j, hij, hj, he, rfl⟩), hvsF _ _ _⟩
  refine ⟨V ++ F, ?_, hWF, ?_, ?_, hhas, ?_, ?_⟩
  · have := hfold (V ++ F) [] hne (by simpa using hnodup)
    rw [List.nil_append] at this
    exact this
  · intro s hs t ht h0
    rcases (hhas _).1 ⟨s, hs, rfl⟩ with ⟨i, hi, h⟩ | ⟨i, j, hij, hj, h, he⟩
    · rw [h] at ht
      rcases subset_singleton_iff.1 ht with rfl | rfl
      · exact absurd h0 (by simp)
      · exact (hhas _).2 (Or.inl ⟨i, hi, rfl⟩)
    · rw [h] at ht
      by_cases h1 : i ∈ t <;> by_cases h2 : j ∈ t
      · have : t = {i, j} := Subset.antisymm ht (insert_subset h1 (singleton_subset_iff.2 h2))
        exact (hhas _).2 (Or.inr ⟨i, j, hij, hj, this, he⟩)
      · refine (hhas _).2 (Or.inl ⟨i, by omega, ?_⟩)
        ext v
        constructor
        · intro hv
          have := ht hv
          simp only [mem_insert, mem_singleton] at this ⊢
          rcases this with rfl | rfl
          · rfl
          · exact absurd hv h2
        · intro hv; rw [mem_singleton.1 hv]; exact h1
      · refine (hhas _).2 (Or.inl ⟨j, by omega, ?_⟩)
        ext v
        constructor
        · intro hv
          have := ht hv
          simp only [mem_insert, mem_singleton] at this ⊢
          rcases this with rfl | rfl
          · exact absurd hv h1
          · rfl
        · intro hv; rw [mem_singleton.1 hv]; exact h2
      · obtain ⟨v, hv⟩ := h0
        have := ht hv
        simp only [mem_insert, mem_singleton] at this
        rcases this with rfl | rfl <;> contradiction
  · unfold FacesFirst
    rw [List.pairwise_append]
    have hVc : ∀ s ∈ V, #s.vset = 1 := by
      intro s hs; obtain ⟨i, -, rfl⟩ := (hmemV s).1 hs; rw [hvsV]; simp
    have hFc : ∀ s ∈ F, #s.vset = 2 := by
      intro s hs
      obtain ⟨i, j, hij, -, -, rfl⟩ := (hmemF s).1 hs
      rw [hvsF, card_pair (by omega)]
    refine ⟨List.pairwise_of_forall_mem_list fun s hs t ht h => ?_,
      List.pairwise_of_forall_mem_list fun s hs t ht h => ?_, fun s hs t ht h => ?_⟩
    · have := card_lt_card h; rw [hVc s hs, hVc t ht] at this; omega
    · have := card_lt_card h; rw [hFc s hs, hFc t ht] at this; omega
    · have := card_lt_card h; rw [hVc s hs, hFc t ht] at this; omega
  · rintro i x ⟨s, hs, he, rfl⟩
    rcases List.mem_append.1 hs with h | h
    · obtain ⟨k, hk, rfl⟩ := (hmemV s).1 h; rfl
    · obtain ⟨a, b, hab, hb, -, rfl⟩ := (hmemF s).1 h
      rw [hvsF] at he
      exact absurd he.symm (hpne i a b hab)
  · rintro i j x hij ⟨s, hs, he, rfl⟩
    rcases List.mem_append.1 hs with h | h
    · obtain ⟨k, hk, rfl⟩ := (hmemV s).1 h
      rw [hvsV] at he
      exact absurd he (hpne k i j hij)
    · obtain ⟨a, b, hab, hb, -, rfl⟩ := (hmemF s).1 h
      rw [hvsF] at he
      obtain ⟨rfl, rfl⟩ := hpp a b i j hab hij he
      rfl

theorem hasPair_iff {K : Complex α} {n : ℕ} {E : ℕ → ℕ → Prop}
    (h : ∀ t, Has K t ↔ (∃ i < n, t = {i}) ∨ ∃ i j, i < j ∧ j < n ∧ t = {i, j} ∧ E i j)
    {i j : ℕ} (hij : i < j) (hj : j < n) : Has K {i, j} ↔ E i j := by
  rw [h]
  constructor
  · rintro (⟨a, _, he⟩ | ⟨a, b, hab, _, he, hE⟩)
    · have := congrArg card he
      rw [card_pair (by omega), card_singleton] at this
      omega
    · have e1 : a ∈ ({i, j} : Finset ℕ) := by rw [he]; simp
      have e2 : b ∈ ({i, j} : Finset ℕ) := by rw [he]; simp
      simp only [mem_insert, mem_singleton] at e1 e2
      have : a = i ∧ b = j := by omega
      obtain ⟨rfl, rfl⟩ := this
      exact hE
  · intro hE
    exact Or.inr ⟨i, j, hij, hj, rfl, hE⟩

/-- The lune, in every real inner product space: the intersection of two closed balls of diameter `beta` times the
length of the segment, whose centres divide the segment in the ratio `beta / 2`, seen from either end. -/
theorem inLune_iff_balls {E : Type} [NormedAddCommGroup E] [InnerProductSpace ℝ E] (p q r : E) (beta : ℝ) (hb : 0 ≤ beta) :
    InLune beta (dist r p ^ 2) (dist r q ^ 2) (dist p q ^ 2) ↔
      r ∈ Metric.closedBall (AffineMap.lineMap p q (beta / 2)) (beta * dist p q / 2) ∧
      r ∈ Metric.closedBall (AffineMap.lineMap q p (beta / 2)) (beta * dist p q / 2) := by
  have key : ∀ p q : E, (2 * dist r p ^ 2 ≤ beta * (dist r p ^ 2 + dist p q ^ 2 - dist r q ^ 2) ↔
      r ∈ Metric.closedBall (AffineMap.lineMap p q (beta / 2)) (beta * dist p q / 2)) := by
    intro p q
    have e1 : r - AffineMap.lineMap p q (beta / 2) = (r - p) - (beta / 2) • (q - p) := by
      rw [AffineMap.lineMap_apply_module']
      abel
    have e2 : r - q = (r - p) - (q - p) := by abel
    rw [Metric.mem_closedBall, ← pow_le_pow_iff_left₀ dist_nonneg (by positivity) two_ne_zero, dist_comm p q,
      dist_eq_norm, dist_eq_norm, dist_eq_norm, dist_eq_norm, e1, e2]
    generalize r - p = x
    generalize q - p = y
    rw [norm_sub_sq_real, norm_sub_sq_real, inner_smul_right, norm_smul, Real.norm_of_nonneg (by positivity)]
    constructor <;> intro h <;> nlinarith
  unfold InLune
  rw [key p q]
  have := key q p
  rw [dist_comm q p] at this
  rw [this]

/-- **C63.**  For points of a Euclidean space and a non-negative `beta`, two of them are joined if and only if no other one lies
in the lune: the intersection of the two closed balls of diameter `beta` times the distance whose centres divide the segment in
the ratio `beta / 2`, seen from either end. -/
theorem C63_lune (n D : ℕ) (x : ℕ → EuclideanSpace ℝ (Fin D)) (beta : ℝ) (hb : 0 ≤ beta) :
    ∃ K, build 0 n (fun i => List.ofFn (x i)) (fun i j => dist (x i) (x j)) beta = some K ∧
      ∀ i j, i < j → j < n → (Has K {i, j} ↔ ∀ r < n, r ≠ i → r ≠ j →
        ¬ (x r ∈ Metric.closedBall (AffineMap.lineMap (x i) (x j) (beta / 2)) (beta * dist (x i) (x j) / 2) ∧
          x r ∈ Metric.closedBall (AffineMap.lineMap (x j) (x i) (beta / 2)) (beta * dist (x i) (x j) / 2))) := by
  have hsq : ∀ u v : EuclideanSpace ℝ (Fin D),
      dist u v ^ 2 = coordSum (fun x y => (x - y) ^ 2) (List.ofFn u) (List.ofFn v) := by
    intro u v
    rw [coordSum_sq D _ _ (by simp) (by simp), EuclideanSpace.dist_eq, Real.sq_sqrt (Finset.sum_nonneg fun i _ => sq_nonneg _)]
    refine Finset.sum_congr rfl fun i _ => ?_
    simp [Real.dist_eq]
  obtain ⟨K, h1, -, -, -, h2, -⟩ := C63_skeleton n D (fun i => List.ofFn (x i)) (by simp)
    (fun i j => dist (x i) (x j)) (fun i _ j _ => hsq _ _) beta
  refine ⟨K, h1, fun i j hij hj => ?_⟩
  rw [hasPair_iff h2 hij hj]
  refine forall_congr' fun r => forall_congr' fun _ => forall_congr' fun _ => forall_congr' fun _ => not_congr ?_
  simp only [← hsq]
  exact inLune_iff_balls _ _ _ _ hb

/-- **C63.**  For `beta = 1` the program returns the Gabriel graph: two points are joined if and only if no other one lies in
the closed ball with the segment as its diameter (squared distances `a + b ≤ c`).  For `beta = 2` it returns the relative
neighbourhood graph: two points are joined if and only if no other one is as close to both as they are to each other. -/
theorem C63_gabriel [Field α] [LinearOrder α] [IsStrictOrderedRing α] (n D : ℕ) (point : ℕ → List α)
    (hD : ∀ i < n, (point i).length = D) (dist : ℕ → ℕ → α)
    (hdist : ∀ i < n, ∀ j < n, dist i j ^ 2 = coordSum (fun x y => (x - y) ^ 2) (point i) (point j)) :
    (∃ K, build 0 n point dist 1 = some K ∧ ∀ i j, i < j → j < n → (Has K {i, j} ↔ ∀ r < n, r ≠ i → r ≠ j →
      dist i j ^ 2 < dist r i ^ 2 + dist r j ^ 2)) ∧
    ∃ K, build 0 n point dist 2 = some K ∧ ∀ i j, i < j → j < n → (Has K {i, j} ↔ ∀ r < n, r ≠ i → r ≠ j →
      dist i j ^ 2 < max (dist r i ^ 2) (dist r j ^ 2)) := by
  constructor
  · obtain ⟨K, h1, -, -, -, h2, -⟩ := C63_skeleton n D point hD dist hdist 1
    refine ⟨K, h1, fun i j hij hj => ?_⟩
    rw [hasPair_iff h2 hij hj]
    refine forall_congr' fun r => forall_congr' fun hr => forall_congr' fun _ => forall_congr' fun _ => ?_
    rw [← hdist r hr i (by omega), ← hdist r hr j hj, ← hdist i (by omega) j hj, InLune, ← not_le, not_iff_not]
    constructor
    · rintro ⟨h1, h2⟩; linarith
    · intro h; constructor <;> linarith
  · obtain ⟨K, h1, -, -, -, h2, -⟩ := C63_skeleton n D point hD dist hdist 2
    refine ⟨K, h1, fun i j hij hj => ?_⟩
    rw [hasPair_iff h2 hij hj]
    refine forall_congr' fun r => forall_congr' fun hr => forall_congr' fun _ => forall_congr' fun _ => ?_
    rw [← hdist r hr i (by omega), ← hdist r hr j hj, ← hdist i (by omega) j hj, InLune, ← not_le, not_iff_not, max_le_iff]
    constructor
    · rintro ⟨h1, h2⟩; constructor <;> linarith
    · rintro ⟨h1, h2⟩; constructor <;> linarith

/-- **C63.**  Larger parameters give fewer edges. -/
theorem C63_antitone [Field α] [LinearOrder α] [IsStrictOrderedRing α] (n D : ℕ) (point : ℕ → List α)
    (hD : ∀ i < n, (point i).length = D) (dist : ℕ → ℕ → α)
    (hdist : ∀ i < n, ∀ j < n, dist i j ^ 2 = coordSum (fun x y => (x - y) ^ 2) (point i) (point j)) (beta beta' : α)
    (h0 : 0 ≤ beta) (h : beta ≤ beta') :
    ∃ K K', build 0 n point dist beta = some K ∧ build 0 n point dist beta' = some K' ∧ ∀ t, Has K' t → Has K t := by
  obtain ⟨K, h1, -, -, -, h2, -⟩ := C63_skeleton n D point hD dist hdist beta
  obtain ⟨K', h1', -, -, -, h2', -⟩ := C63_skeleton n D point hD dist hdist beta'
  refine ⟨K, K', h1, h1', fun t => ?_⟩
  rw [h2, h2']
  rintro (h3 | ⟨i, j, hij, hj, rfl, h3⟩)
  · exact Or.inl h3
  · refine Or.inr ⟨i, j, hij, hj, rfl, fun r hr hri hrj hin => h3 r hr hri hrj ?_⟩
    have na := coordSum_nonneg (fun x y : α => (x - y) ^ 2) (fun x y => sq_nonneg _) (point r) (point i)
    have nb := coordSum_nonneg (fun x y : α => (x - y) ^ 2) (fun x y => sq_nonneg _) (point r) (point j)
    have nc := coordSum_nonneg (fun x y : α => (x - y) ^ 2) (fun x y => sq_nonneg _) (point i) (point j)
    generalize coordSum (fun x y : α => (x - y) ^ 2) (point r) (point i) = a at *
    generalize coordSum (fun x y : α => (x - y) ^ 2) (point r) (point j) = b at *
    generalize coordSum (fun x y : α => (x - y) ^ 2) (point i) (point j) = c at *
    unfold InLune at *
    rcases h0.eq_or_lt with rfl | h0
    · simp only [zero_mul] at hin
      have ha : a = 0 := by linarith
      have hb : b = 0 := by linarith
      subst ha hb
      constructor <;> simp <;> positivity
    · have hpa : 0 ≤ a + c - b := by
        by_contra hlt
        have := mul_neg_of_pos_of_neg h0 (not_le.1 hlt)
        linarith [hin.1]
      have hpb : 0 ≤ b + c - a := by
        by_contra hlt
        have := mul_neg_of_pos_of_neg h0 (not_le.1 hlt)
        linarith [hin.2]
      exact ⟨hin.1.trans (mul_le_mul_of_nonneg_right h hpa), hin.2.trans (mul_le_mul_of_nonneg_right h hpb)⟩

/-- Four points of the plane with integral distances between neighbours: a rectangle with sides 3 and 4; a point on the
boundary of the lune blocks the diagonals. -/
example : ∃ (point : ℕ → List ℚ) (dist : ℕ → ℕ → ℚ),
    (∀ i < 4, (point i).length = 2) ∧
    (∀ i < 4, ∀ j < 4, dist i j ^ 2 = coordSum (fun x y => (x - y) ^ 2) (point i) (point j)) ∧
    build 0 4 point dist 1 = some [⟨[0], 0⟩, ⟨[1], 0⟩, ⟨[2], 0⟩, ⟨[3], 0⟩, ⟨[1, 0], 3⟩, ⟨[2, 0], 4⟩, ⟨[3, 1], 4⟩,
      ⟨[3, 2], 3⟩] := by
  refine ⟨fun i => ([[0, 0], [3, 0], [0, 4], [3, 4]] : List (List ℚ)).getD i [],
    fun i j => ([[0, 3, 4, 5], [3, 0, 5, 4], [4, 5, 0, 3], [5, 4, 3, 0]] : List (List ℚ)).getD i [] |>.getD j 0, ?_, ?_, ?_⟩
  · decide
  · decide +kernel
  · decide +kernel

end Aleph
