import Verif.Model.DiagramMean
import Verif.Spec.DiagramMean
import Verif.Props.Wasserstein
import Mathlib.Tactic.Linarith
import Mathlib.Tactic.LinearCombination
import Mathlib.Tactic.Positivity
import Mathlib.Tactic.FieldSimp

/-!
# Properties of means of persistence diagrams
-/

namespace Aleph.DiagramMean

open Spec Munkres Finset

variable {α : Type} [Field α] [LinearOrder α]

/-- The parameter is the solver of `Munkres.hh`: the model of that file yields the same matrix after finitely many rounds. -/
def IsMunkres (top : α) (solver : ℕ → (ℕ → ℕ → α) → ℕ → ℕ → α) : Prop :=
  ∀ n costs, ∃ rounds, ∀ k, rounds ≤ k → Munkres.solve top n costs k = some (solver n costs)

variable [IsStrictOrderedRing α]

theorem exists_isMunkres [Archimedean α] (top : α) (htop : 0 < top) : ∃ solver, IsMunkres top solver := by
  choose M σ _ h _ using fun n (costs : ℕ → ℕ → α) => C35_optimal_assignment top htop n costs
  exact ⟨M, h⟩

theorem square_infinity (p q : α × α) : square (infinityDistance p q) = squaredDistance p q := by
  unfold square squaredDistance
  rw [C37_infinity_distance, sq]

theorem squaredDistance_nonneg (p q : α × α) : 0 ≤ squaredDistance p q := by
  unfold squaredDistance
  positivity

/-- The contract of the pairing. -/
theorem pairing_spec [Archimedean α] (top : α) (solver : ℕ → (ℕ → ℕ → α) → ℕ → ℕ → α) (hsolver : IsMunkres top solver) (D1 D2 : Diagram α)
    (hdim : D1.dimension = D2.dimension)
    (htop : matchingCost squaredDistance (fun p => squaredDistance p (toDiagonal p)) D1.points D2.points ∅ < top) :
    ∃ P, optimalPairing solver top D1 D2 = .ok P ∧ ∃ m : Finset (Fin D1.points.length × Fin D2.points.length), IsMatching m ∧
      IsPairingCost D1.points D2.points P.cost ∧
      P.cost = matchingCost squaredDistance (fun p => squaredDistance p (toDiagonal p)) D1.points D2.points m ∧
      ∀ i : Fin D1.points.length, ∃ c, P.pairs[(i : ℕ)]? = some ((i : ℕ), c) ∧ ∀ j : Fin D2.points.length, (i, j) ∈ m ↔ c = j := by
  have hfun : (fun p q : α × α => square (infinityDistance p q)) = squaredDistance := by
    funext p q
    exact square_infinity p q
  have hfun' : (fun p : α × α => square (orthogonalDistance infinityDistance p)) = fun p => squaredDistance p (toDiagonal p) := by
    funext p
    unfold orthogonalDistance
    rw [square_infinity]
    rfl
  have hpw : ∀ p q : α × α, 0 ≤ square (infinityDistance p q) := fun p q => by
    rw [square_infinity]
    exact squaredDistance_nonneg p q
  have hempty : IsMatching (∅ : Finset (Fin D1.points.length × Fin D2.points.length)) := ⟨by simp, by simp⟩
  have htop0 : 0 < top := by
    refine lt_of_le_of_lt ?_ htop
    unfold matchingCost
    exact add_nonneg (add_nonneg (sum_nonneg fun _ _ => squaredDistance_nonneg _ _) (sum_nonneg fun _ _ => squaredDistance_nonneg _ _))
      (sum_nonneg fun _ _ => squaredDistance_nonneg _ _)
  obtain ⟨M, σ, hopt, ⟨rounds, hr⟩, hM⟩ := C35_optimal_assignment top htop0
    (D1.points.length + D2.points.length) (wassersteinCosts square top infinityDistance D1 D2)
  have hMs : solver (D1.points.length + D2.points.length) (wassersteinCosts square top infinityDistance D1 D2) = M := by
    obtain ⟨r', hr'⟩ := hsolver (D1.points.length + D2.points.length) (wassersteinCosts square top infinityDistance D1 D2)
    have h1 := hr (max rounds r') (le_max_left _ _)
    have h2 := hr' (max rounds r') (le_max_right _ _)
    exact Option.some.inj (h2.symm.trans h1)
  have hassign := fun m hm => assign_cost square top infinityDistance D1 D2 m hm
  obtain ⟨τ0, hτ0⟩ := hassign ∅ hempty
  have hlt : assignmentCost (wassersteinCosts square top infinityDistance D1 D2) σ < top := by
    refine lt_of_le_of_lt (hopt τ0) ?_
    rw [hτ0, hfun, hfun']
    exact htop
  have hentry : ∀ r : Fin (D1.points.length + D2.points.length), wassersteinCosts square top infinityDistance D1 D2 r (σ r) < top := by
    intro r
    refine lt_of_le_of_lt ?_ hlt
    exact single_le_sum (f := fun r : Fin (D1.points.length + D2.points.length) => wassersteinCosts square top infinityDistance D1 D2 r (σ r))
      (fun r _ => costs_nonneg square top infinityDistance D1 D2 htop0 hpw r _) (mem_univ r)
  obtain ⟨m, hm, hmem, hmc⟩ := good_cost square top infinityDistance D1 D2 σ (by
      intro i i' h
      have := hentry (rowP D2.points.length i)
      rw [h, costs_PD, projectionCost] at this
      by_contra hne
      rw [if_neg hne] at this
      exact lt_irrefl _ this) (by
      intro j j' h
      have := hentry (rowD D1.points.length j)
      rw [h, costs_DP, projectionCost] at this
      by_contra hne
      rw [if_neg hne] at this
      exact lt_irrefl _ this)
  have hcost := C35_matching_cost _ M (wassersteinCosts square top infinityDistance D1 D2) top htop0.ne' σ hM
  have hP : optimalPairing solver top D1 D2 = .ok ⟨assignmentCost (wassersteinCosts square top infinityDistance D1 D2) σ,
      (List.finRange (D1.points.length + D2.points.length)).map fun i : Fin (D1.points.length + D2.points.length) => ((i : ℕ), (σ i : ℕ))⟩ := by
    unfold optimalPairing
    rw [if_neg (by simpa using hdim)]
    simp only [hMs, totalCosts_eq, hcost.1, hcost.2]
  rw [hfun, hfun'] at hmc
  refine ⟨_, hP, m, hm, ⟨⟨m, hm, hmc⟩, ?_⟩, hmc, ?_⟩
  · rintro x ⟨m', hm', rfl⟩
    obtain ⟨τ, hτ⟩ := hassign m' hm'
    rw [hfun, hfun'] at hτ
    exact (hopt τ).trans_eq hτ
  · intro i
    refine ⟨(σ (rowP D2.points.length i) : ℕ), ?_, ?_⟩
    · rw [List.getElem?_map, List.getElem?_eq_getElem (by simp; omega), List.getElem_finRange, Option.map_some]
      rfl
    · intro j
      rw [hmem, Fin.ext_iff]
      rfl

/-! ### Boxes -/

/-- All coordinates are between two numbers. -/
def Box (lo hi : α) (p : α × α) : Prop := lo ≤ p.1 ∧ p.1 ≤ hi ∧ lo ≤ p.2 ∧ p.2 ≤ hi

theorem alone_le {lo hi : α} {p : α × α} (h : Box lo hi p) : squaredDistance p (toDiagonal p) ≤ (hi - lo) ^ 2 := by
  obtain ⟨h1, h2, h3, h4⟩ := h
  have hle : lo ≤ hi := h1.trans h2
  unfold squaredDistance
  refine pow_le_pow_left₀ (le_max_of_le_left (abs_nonneg _)) ?_ 2
  unfold toDiagonal
  simp only
  refine max_le ?_ ?_
  · rw [abs_le]
    constructor <;> linarith
  · rw [abs_le]
    constructor <;> linarith

theorem empty_cost_le {lo hi : α} {A B : List (α × α)} (hA : ∀ p ∈ A, Box lo hi p) (hB : ∀ p ∈ B, Box lo hi p) :
    matchingCost squaredDistance (fun p => squaredDistance p (toDiagonal p)) A B ∅ ≤ ((A.length + B.length : ℕ) : α) * (hi - lo) ^ 2 := by
  unfold matchingCost
  have e1 : (univ.filter fun i : Fin A.length => ∀ j : Fin B.length, (i, j) ∉ (∅ : Finset (Fin A.length × Fin B.length))) = univ := by simp
  have e2 : (univ.filter fun j : Fin B.length => ∀ i : Fin A.length, (i, j) ∉ (∅ : Finset (Fin A.length × Fin B.length))) = univ := by simp
  rw [e1, e2, sum_empty, zero_add]
  have h1 : ∑ i : Fin A.length, squaredDistance A[i] (toDiagonal A[i]) ≤ (A.length : α) * (hi - lo) ^ 2 := by
    have := sum_le_card_nsmul (univ : Finset (Fin A.length)) (fun i => squaredDistance A[i] (toDiagonal A[i])) ((hi - lo) ^ 2)
      fun i _ => alone_le (hA _ (List.getElem_mem _))
    rwa [card_univ, Fintype.card_fin, nsmul_eq_mul] at this
  have h2 : ∑ i : Fin B.length, squaredDistance B[i] (toDiagonal B[i]) ≤ (B.length : α) * (hi - lo) ^ 2 := by
    have := sum_le_card_nsmul (univ : Finset (Fin B.length)) (fun i => squaredDistance B[i] (toDiagonal B[i])) ((hi - lo) ^ 2)
      fun i _ => alone_le (hB _ (List.getElem_mem _))
    rwa [card_univ, Fintype.card_fin, nsmul_eq_mul] at this
  push_cast
  linarith

/-! ### One step -/

/-- What a pairing assigns to a point. -/
def assigned (i : ℕ) (proj : α × α) (e : Diagram α × Pairing α) : α × α :=
  match e.2.pairs[i]? with
  | none => proj
  | some (_, second) => (e.1.points[second]?).getD proj

omit [LinearOrder α] [IsStrictOrderedRing α] in
theorem partners_spec (i : ℕ) (proj : α × α) (L : List (Diagram α × Pairing α)) (hL : ∀ e ∈ L, i < e.2.pairs.length) (x0 y0 : α) (num : ℕ) :
    ∃ X Y k, partners i L (x0, y0, num) = .ok (X, Y, k) ∧ num ≤ k ∧ k ≤ num + L.length ∧
      X + ((L.length + num - k : ℕ) : α) * proj.1 = x0 + (L.map fun e => (assigned i proj e).1).sum ∧
      Y + ((L.length + num - k : ℕ) : α) * proj.2 = y0 + (L.map fun e => (assigned i proj e).2).sum := by
  induction L generalizing x0 y0 num with
  | nil => exact ⟨x0, y0, num, rfl, le_refl _, by simp, by simp, by simp⟩
  | cons e L ih =>
    obtain ⟨D, P⟩ := e
    have hi := hL _ (List.mem_cons_self ..)
    have hL' : ∀ e ∈ L, i < e.2.pairs.length := fun e he => hL e (List.mem_cons_of_mem _ he)
    simp only at hi
    unfold partners
    obtain ⟨⟨c1, c2⟩, hc⟩ : ∃ c, P.pairs[i]? = some c := ⟨_, List.getElem?_eq_getElem hi⟩
    rw [hc]
    cases hq : D.points[c2]? with
    | some point =>
      simp only [hq]
      obtain ⟨X, Y, k, h1, h2, h3, h4, h5⟩ := ih hL' (x0 + point.1) (y0 + point.2) (num + 1)
      have ha : assigned i proj (D, P) = point := by
        unfold assigned
        simp [hc, hq]
      refine ⟨X, Y, k, h1, by omega, by rw [List.length_cons]; omega, ?_, ?_⟩
      · rw [List.map_cons, List.sum_cons, ha, List.length_cons, show L.length + 1 + num - k = L.length + (num + 1) - k by omega, h4]
        ring
      · rw [List.map_cons, List.sum_cons, ha, List.length_cons, show L.length + 1 + num - k = L.length + (num + 1) - k by omega, h5]
        ring
    | none =>
      simp only [hq]
      obtain ⟨X, Y, k, h1, h2, h3, h4, h5⟩ := ih hL' x0 y0 num
      have ha : assigned i proj (D, P) = proj := by
        unfold assigned
        simp [hc, hq]
      refine ⟨X, Y, k, h1, by omega, by rw [List.length_cons]; omega, ?_, ?_⟩
      · rw [List.map_cons, List.sum_cons, ha, List.length_cons, show L.length + 1 + num - k = (L.length + num - k) + 1 by omega]
        push_cast
        linear_combination h4
      · rw [List.map_cons, List.sum_cons, ha, List.length_cons, show L.length + 1 + num - k = (L.length + num - k) + 1 by omega]
        push_cast
        linear_combination h5

omit [Field α] [LinearOrder α] [IsStrictOrderedRing α] in
theorem zip_eq_ofFn {Ds : List (Diagram α)} {ps : List (Pairing α)} (h : ps.length = Ds.length) :
    Ds.zip ps = List.ofFn fun j : Fin Ds.length => (Ds[j], ps[(j : ℕ)]'(by omega)) := by
  refine List.ext_getElem (by simp [h]) ?_
  intro j h1 h2
  simp

omit [LinearOrder α] [IsStrictOrderedRing α] in
theorem meanPoint_spec {Ds : List (Diagram α)} {ps : List (Pairing α)} (h : ps.length = Ds.length) (point : α × α) (i : ℕ)
    (hi : ∀ p ∈ ps, i < p.pairs.length) :
    meanPoint Ds ps point i = .ok ((∑ j : Fin Ds.length, (assigned i (toDiagonal point) (Ds[j], ps[(j : ℕ)]'(by omega))).1) / (Ds.length : α),
      (∑ j : Fin Ds.length, (assigned i (toDiagonal point) (Ds[j], ps[(j : ℕ)]'(by omega))).2) / (Ds.length : α)) := by
  unfold meanPoint
  obtain ⟨X, Y, k, h1, _, h3, h4, h5⟩ := partners_spec i (toDiagonal point) (Ds.zip ps) (fun e he => hi _ (List.of_mem_zip he).2) 0 0 0
  rw [h1]
  have hlen : (Ds.zip ps).length = Ds.length := by simp [h]
  rw [hlen, Nat.add_zero, zero_add, zip_eq_ofFn h, List.map_ofFn, List.sum_ofFn] at h4 h5
  simp only
  have hcast : (ps.length : α) = (Ds.length : α) := by rw [h]
  rw [hcast]
  have e1 : X + ((Ds.length - k : ℕ) : α) * ((point.1 + point.2) / 2) = _ := h4
  have e2 : Y + ((Ds.length - k : ℕ) : α) * ((point.1 + point.2) / 2) = _ := h5
  rw [e1, e2]
  rfl

omit [LinearOrder α] [IsStrictOrderedRing α] in
theorem meanPoints_spec {Ds : List (Diagram α)} {ps : List (Pairing α)} (l : List (α × α)) (i : ℕ) (g : ℕ → α × α)
    (hg : ∀ t (ht : t < l.length), meanPoint Ds ps l[t] (i + t) = .ok (g (i + t))) :
    meanPoints Ds ps i l = .ok ((List.range l.length).map fun t => g (i + t)) := by
  induction l generalizing i with
  | nil => rfl
  | cons p l ih =>
    unfold meanPoints
    have h0 := hg 0 (by simp)
    rw [List.getElem_cons_zero, Nat.add_zero] at h0
    rw [h0, ih (i + 1) fun t ht => by
      have := hg (t + 1) (by simpa using ht)
      rw [List.getElem_cons_succ] at this
      rwa [show i + 1 + t = i + (t + 1) by omega]]
    simp only
    rw [List.length_cons, List.range_succ_eq_map, List.map_cons, List.map_map, Nat.add_zero]
    congr 2
    refine List.map_congr_left fun t _ => ?_
    simp only [Function.comp]
    congr 1
    omega

omit [IsStrictOrderedRing α] in
theorem pairingsOf_spec (solver : ℕ → (ℕ → ℕ → α) → ℕ → ℕ → α) (top : α) (Y : Diagram α) (Ds : List (Diagram α))
    (h : ∀ D ∈ Ds, ∃ P, optimalPairing solver top Y D = .ok P) :
    ∃ ps, pairingsOf solver top Y Ds = .ok ps ∧ ∃ hl : ps.length = Ds.length, ∀ j : Fin Ds.length,
      optimalPairing solver top Y Ds[j] = .ok (ps[(j : ℕ)]'(by omega)) := by
  induction Ds with
  | nil => exact ⟨[], rfl, rfl, fun j => j.elim0⟩
  | cons D Ds ih =>
    obtain ⟨P, hP⟩ := h D (List.mem_cons_self ..)
    obtain ⟨ps, h1, h2, h3⟩ := ih fun D hD => h D (List.mem_cons_of_mem _ hD)
    refine ⟨P :: ps, ?_, by simp [h2], ?_⟩
    · unfold pairingsOf
      rw [hP, h1]
    · intro j
      refine Fin.cases ?_ (fun j => ?_) j
      · exact hP
      · exact h3 j

omit [Field α] [LinearOrder α] [IsStrictOrderedRing α] in
theorem foldl_add (points : List (α × α)) (Z : Diagram α) : points.foldl (fun Z p => Z.add p.1 p.2) Z = ⟨Z.dimension, Z.points ++ points⟩ := by
  induction points generalizing Z with
  | nil => simp
  | cons p points ih =>
    rw [List.foldl_cons, ih]
    simp [Diagram.add]

/-- Invariant of the loop. -/
structure Good (Ds : List (Diagram α)) (k0 : ℕ) (lo hi : α) (Y : Diagram α) : Prop where
  dimension : Y.dimension = 0
  size : Y.points.length ≤ k0
  box : ∀ p ∈ Y.points, Box lo hi p
  off : ∀ p ∈ Y.points, p.1 ≠ p.2
  upper : (∀ D ∈ Ds, ∀ p ∈ D.points, p.1 ≤ p.2) → ∀ p ∈ Y.points, p.1 ≤ p.2

/-- The assumptions about the diagrams: dimension zero, coordinates in a box, and a large number that exceeds all costs. -/
structure Admissible (Ds : List (Diagram α)) (k0 : ℕ) (lo hi top : α) : Prop where
  dimension : ∀ D ∈ Ds, D.dimension = 0
  box : ∀ D ∈ Ds, ∀ p ∈ D.points, Box lo hi p
  large : ∀ D ∈ Ds, ((k0 + D.points.length : ℕ) : α) * (hi - lo) ^ 2 < top

theorem good_cost_lt {Ds : List (Diagram α)} {k0 : ℕ} {lo hi top : α} (hA : Admissible Ds k0 lo hi top) {Y : Diagram α} (hY : Good Ds k0 lo hi Y) {D : Diagram α}
    (hD : D ∈ Ds) : matchingCost squaredDistance (fun p => squaredDistance p (toDiagonal p)) Y.points D.points ∅ < top := by
  refine lt_of_le_of_lt (empty_cost_le hY.box (hA.box D hD)) (lt_of_le_of_lt ?_ (hA.large D hD))
  refine mul_le_mul_of_nonneg_right ?_ (sq_nonneg _)
  have := hY.size
  exact_mod_cast Nat.add_le_add_right this _

/-- Linear inequalities are inherited by means. -/
theorem mean_linear {Ds : List (Diagram α)} (hN : 0 < Ds.length) {Y Z : List (α × α)} (h : IsMeanStep Ds Y Z) (u v c : α)
    (hD : ∀ D ∈ Ds, ∀ p ∈ D.points, u * p.1 + v * p.2 ≤ c) (hY : ∀ p ∈ Y, u * (toDiagonal p).1 + v * (toDiagonal p).2 ≤ c) :
    ∀ z ∈ Z, u * z.1 + v * z.2 ≤ c := by
  obtain ⟨m, a, _, ha, rfl⟩ := h
  intro z hz
  obtain ⟨i, rfl⟩ := List.mem_ofFn.1 hz
  have hN' : (0 : α) < (Ds.length : α) := by exact_mod_cast hN
  have hone : ∀ j : Fin Ds.length, u * (a j i).1 + v * (a j i).2 ≤ c := by
    intro j
    by_cases hk : ∃ k, (i, k) ∈ m j
    · obtain ⟨k, hk⟩ := hk
      rw [(ha j i).1 k hk]
      exact hD _ (List.getElem_mem _) _ (List.getElem_mem _)
    · push Not at hk
      rw [(ha j i).2 hk]
      exact hY _ (List.getElem_mem _)
  have hs := sum_le_card_nsmul (univ : Finset (Fin Ds.length)) (fun j => u * (a j i).1 + v * (a j i).2) c fun j _ => hone j
  rw [card_univ, Fintype.card_fin, nsmul_eq_mul, sum_add_distrib, ← mul_sum, ← mul_sum] at hs
  simp only
  rw [← mul_div_assoc, ← mul_div_assoc, ← add_div, div_le_iff₀ hN']
  linarith

/-- One step of the loop. -/
theorem step_spec [Archimedean α] {Ds : List (Diagram α)} {k0 : ℕ} {lo hi top : α} {solver : ℕ → (ℕ → ℕ → α) → ℕ → ℕ → α} (hsolver : IsMunkres top solver)
    (hN : 0 < Ds.length) (hA : Admissible Ds k0 lo hi top) {Y : Diagram α} (hY : Good Ds k0 lo hi Y) :
    ∃ ps, pairingsOf solver top Y Ds = .ok ps ∧ (∃ hl : ps.length = Ds.length, ∀ j : Fin Ds.length, IsPairingCost Y.points Ds[j].points (ps[(j : ℕ)]'(by omega)).cost) ∧
      ∃ Z, meanPoints Ds ps 0 Y.points = .ok Z ∧ IsMeanStep Ds Y.points Z ∧
        Good Ds k0 lo hi (Z.foldl (fun Z p => Z.add p.1 p.2) Diagram.empty).removeDiagonal ∧
        (Z.foldl (fun Z p => Z.add p.1 p.2) Diagram.empty).removeDiagonal.points = Z.filter fun p => !decide (p.1 = p.2) := by
  have hpair : ∀ D ∈ Ds, ∃ P, optimalPairing solver top Y D = .ok P ∧ _ := fun D hD =>
    pairing_spec top solver hsolver Y D (by rw [hY.dimension, hA.dimension D hD]) (good_cost_lt hA hY hD)
  obtain ⟨ps, h1, h2, h3⟩ := pairingsOf_spec solver top Y Ds fun D hD => ⟨_, (hpair D hD).choose_spec.1⟩
  have hspec : ∀ j : Fin Ds.length, ∃ m : Finset (Fin Y.points.length × Fin Ds[j].points.length), IsMatching m ∧
      IsPairingCost Y.points Ds[j].points (ps[(j : ℕ)]'(by omega)).cost ∧
      (ps[(j : ℕ)]'(by omega)).cost = matchingCost squaredDistance (fun p => squaredDistance p (toDiagonal p)) Y.points Ds[j].points m ∧
      ∀ i : Fin Y.points.length, ∃ c, (ps[(j : ℕ)]'(by omega)).pairs[(i : ℕ)]? = some ((i : ℕ), c) ∧ ∀ k : Fin Ds[j].points.length, (i, k) ∈ m ↔ c = k := by
    intro j
    obtain ⟨P, hP, hm⟩ := hpair Ds[j] (List.getElem_mem _)
    rw [h3 j] at hP
    rw [Except.ok.inj hP]
    exact hm
  choose m hm1 hm2 hm3 c hc1 hc2 using hspec
  have hlen : ∀ i < Y.points.length, ∀ p ∈ ps, i < p.pairs.length := by
    intro i hi p hp
    obtain ⟨j, hj, rfl⟩ := List.mem_iff_getElem.1 hp
    have := hc1 ⟨j, by omega⟩ ⟨i, hi⟩
    exact (List.getElem?_eq_some_iff.1 this).1
  let a : Fin Ds.length → Fin Y.points.length → α × α := fun j i => assigned i (toDiagonal Y.points[i]) (Ds[j], ps[(j : ℕ)]'(by omega))
  let g : ℕ → α × α := fun i => if h : i < Y.points.length then
      ((∑ j, (a j ⟨i, h⟩).1) / (Ds.length : α), (∑ j, (a j ⟨i, h⟩).2) / (Ds.length : α)) else (0, 0)
  have hZ := meanPoints_spec (Ds := Ds) (ps := ps) Y.points 0 g (by
    intro t ht
    rw [Nat.zero_add, meanPoint_spec h2 _ _ (hlen t ht)]
    simp only [g, dif_pos ht]
    rfl)
  have hZ' : ((List.range Y.points.length).map fun t => g (0 + t)) =
      List.ofFn fun i : Fin Y.points.length => ((∑ j, (a j i).1) / (Ds.length : α), (∑ j, (a j i).2) / (Ds.length : α)) := by
    refine List.ext_getElem (by simp) ?_
    intro i h1 h2
    simp only [List.length_ofFn] at h2
    rw [List.getElem_map, List.getElem_range, List.getElem_ofFn, Nat.zero_add]
    simp only [g, dif_pos h2]
  rw [hZ'] at hZ
  have hstep : IsMeanStep Ds Y.points (List.ofFn fun i : Fin Y.points.length => ((∑ j, (a j i).1) / (Ds.length : α), (∑ j, (a j i).2) / (Ds.length : α))) := by
    refine ⟨m, a, fun j => ⟨hm1 j, ?_⟩, ?_, rfl⟩
    · rw [← hm3 j]
      exact hm2 j
    · intro j i
      constructor
      · intro k hk
        have hck := (hc2 j i k).1 hk
        simp only [a, assigned, hc1 j i, hck]
        rw [List.getElem?_eq_getElem k.2, Option.getD_some]
        rfl
      · intro hk
        simp only [a, assigned, hc1 j i]
        have : Ds[j].points[c j i]? = none := by
          rw [List.getElem?_eq_none_iff]
          by_contra hlt
          push Not at hlt
          exact hk ⟨c j i, hlt⟩ ((hc2 j i ⟨c j i, hlt⟩).2 rfl)
        simp only [Fin.getElem_fin] at this ⊢
        rw [this, Option.getD_none]
  have hpts : ∀ Z : List (α × α), (Z.foldl (fun Z p => Z.add p.1 p.2) Diagram.empty).removeDiagonal = ⟨0, Z.filter fun p => !decide (p.1 = p.2)⟩ := by
    intro Z
    rw [foldl_add]
    rfl
  refine ⟨ps, h1, ⟨h2, fun j => hm2 j⟩, _, hZ, hstep, ?_, by rw [hpts]⟩
  rw [hpts]
  have hlin := fun u v c => mean_linear hN hstep u v c
  generalize hZdef : (List.ofFn fun i : Fin Y.points.length => ((∑ j, (a j i).1) / (Ds.length : α), (∑ j, (a j i).2) / (Ds.length : α))) = Z at hlin
  have hZlen : Z.length = Y.points.length := by
    rw [← hZdef, List.length_ofFn]
  refine ⟨rfl, ?_, ?_, ?_, ?_⟩
  · have := List.length_filter_le (fun p : α × α => !decide (p.1 = p.2)) Z
    have := hY.size
    simp only
    omega
  · intro p hp
    have hp := (List.mem_filter.1 hp).1
    have hdiag : ∀ q ∈ Y.points, lo ≤ (q.1 + q.2) / 2 ∧ (q.1 + q.2) / 2 ≤ hi := by
      intro q hq
      obtain ⟨b1, b2, b3, b4⟩ := hY.box q hq
      constructor <;> linarith
    refine ⟨?_, ?_, ?_, ?_⟩
    · have := hlin (-1) 0 (-lo) (fun D hD q hq => by have := (hA.box D hD q hq).1; linarith) (fun q hq => by
        have := (hdiag q hq).1
        unfold toDiagonal
        simp only
        linarith) p hp
      linarith
    · have := hlin 1 0 hi (fun D hD q hq => by have := (hA.box D hD q hq).2.1; linarith) (fun q hq => by
        have := (hdiag q hq).2
        unfold toDiagonal
        simp only
        linarith) p hp
      linarith
    · have := hlin 0 (-1) (-lo) (fun D hD q hq => by have := (hA.box D hD q hq).2.2.1; linarith) (fun q hq => by
        have := (hdiag q hq).1
        unfold toDiagonal
        simp only
        linarith) p hp
      linarith
    · have := hlin 0 1 hi (fun D hD q hq => by have := (hA.box D hD q hq).2.2.2; linarith) (fun q hq => by
        have := (hdiag q hq).2
        unfold toDiagonal
        simp only
        linarith) p hp
      linarith
  · intro p hp
    have := (List.mem_filter.1 hp).2
    simpa using this
  · intro hup p hp
    have hp := (List.mem_filter.1 hp).1
    have := hlin 1 (-1) 0 (fun D hD q hq => by have := hup D hD q hq; linarith) (fun q hq => by
      unfold toDiagonal
      simp only
      linarith) p hp
    linarith

/-! ### The loop -/

/-- The result of the loop. -/
theorem loop_result [Archimedean α] {Ds : List (Diagram α)} {k0 : ℕ} {lo hi top : α} {solver : ℕ → (ℕ → ℕ → α) → ℕ → ℕ → α} (hsolver : IsMunkres top solver)
    (hN : 0 < Ds.length) (hA : Admissible Ds k0 lo hi top) (fuel : ℕ) {Y : Diagram α} (hY : Good Ds k0 lo hi Y) {ps : List (Pairing α)}
    (hps : pairingsOf solver top Y Ds = .ok ps) {r : Except Unit (Diagram α)} (hr : loop solver top Ds fuel Y ps = some r) :
    ∃ R, r = .ok R ∧ Good Ds k0 lo hi R ∧ ∃ old new, IsMeanStep Ds old new ∧ R.points = (new.filter fun p => !decide (p.1 = p.2)) ∧
      ∀ D ∈ Ds, ∃ w, IsPairingCost old D.points w ∧ IsPairingCost R.points D.points w := by
  induction fuel generalizing Y ps with
  | zero => simp [loop] at hr
  | succ fuel ih =>
    obtain ⟨ps', h1, ⟨h2, h2'⟩, Z, h3, h4, h5, h6⟩ := step_spec hsolver hN hA hY
    rw [hps] at h1
    obtain rfl := Except.ok.inj h1
    obtain ⟨qs, g1, ⟨g2, g2'⟩, _⟩ := step_spec hsolver hN hA h5
    simp only [loop, h3, g1] at hr
    split at hr
    · rename_i hcost
      refine ⟨_, (Option.some.inj hr).symm, h5, Y.points, Z, h4, h6, ?_⟩
      intro D hD
      obtain ⟨j, hj, rfl⟩ := List.mem_iff_getElem.1 hD
      refine ⟨_, h2' ⟨j, hj⟩, ?_⟩
      have hj' := congrArg (fun l => l[j]?) hcost
      simp only [List.getElem?_map, List.getElem?_eq_getElem (show j < qs.length by omega), List.getElem?_eq_getElem (show j < ps.length by omega),
        Option.map_some] at hj'
      have := g2' ⟨j, hj⟩
      simp only [Fin.getElem_fin] at this ⊢
      rw [Option.some.inj hj'] at this
      exact this
    · exact ih h5 g1 hr

omit [IsStrictOrderedRing α] in
theorem pairingsOf_dimension (solver : ℕ → (ℕ → ℕ → α) → ℕ → ℕ → α) (top : α) (Y : Diagram α) (Ds : List (Diagram α))
    (h : ∃ D ∈ Ds, Y.dimension ≠ D.dimension) : pairingsOf solver top Y Ds = .error () := by
  induction Ds with
  | nil => simp at h
  | cons D Ds ih =>
    unfold pairingsOf
    by_cases hd : Y.dimension = D.dimension
    · obtain ⟨E, hE, hne⟩ := h
      rcases List.mem_cons.1 hE with rfl | hE
      · exact absurd hd hne
      · rw [ih ⟨E, hE, hne⟩]
        cases optimalPairing solver top Y D <;> rfl
    · unfold optimalPairing
      rw [if_pos hd]

omit [Field α] [IsStrictOrderedRing α] in
theorem good_start {Ds : List (Diagram α)} {choice : ℕ} {D : Diagram α} {lo hi : α} (hD : Ds[choice]? = some D) (hdim : ∀ D ∈ Ds, D.dimension = 0)
    (hbox : ∀ D ∈ Ds, ∀ p ∈ D.points, Box lo hi p) : Good Ds (D.points.filter fun p => !decide (p.1 = p.2)).length lo hi D.removeDiagonal := by
  have hmem := List.mem_of_getElem? hD
  refine ⟨hdim D hmem, le_refl _, ?_, ?_, ?_⟩
  · intro p hp
    exact hbox D hmem p (List.mem_filter.1 hp).1
  · intro p hp
    have := (List.mem_filter.1 hp).2
    simpa using this
  · intro hup p hp
    exact hup D hmem p (List.mem_filter.1 hp).1

/-- **C109.** For diagrams of dimension zero with bounded coordinates, every result of the computation is a diagram of dimension zero without points on the
diagonal, with at most as many points as the diagram chosen at random has off the diagonal; coordinates stay in every interval that contains all coordinates,
and points above the diagonal yield points above the diagonal.  The points are the means of optimally assigned points of all diagrams, for a previous
candidate whose optimal costs are the same. -/
theorem _root_.Aleph.C109_mean_partial [Archimedean α] {Ds : List (Diagram α)} {choice : ℕ} {D : Diagram α} {lo hi top : α}
    {solver : ℕ → (ℕ → ℕ → α) → ℕ → ℕ → α} (hsolver : IsMunkres top solver) (hD : Ds[choice]? = some D) (hdim : ∀ D ∈ Ds, D.dimension = 0)
    (hbox : ∀ D ∈ Ds, ∀ p ∈ D.points, lo ≤ p.1 ∧ p.1 ≤ hi ∧ lo ≤ p.2 ∧ p.2 ≤ hi)
    (htop : ∀ E ∈ Ds, ((D.points.length + E.points.length : ℕ) : α) * (hi - lo) ^ 2 < top) (fuel : ℕ) {r : Except Unit (Diagram α)}
    (hr : mean solver top Ds choice fuel = some r) :
    ∃ R, r = .ok R ∧ R.dimension = 0 ∧ R.points.length ≤ (D.points.filter fun p => p.1 ≠ p.2).length ∧ (∀ p ∈ R.points, p.1 ≠ p.2) ∧
      (∀ p ∈ R.points, lo ≤ p.1 ∧ p.1 ≤ hi ∧ lo ≤ p.2 ∧ p.2 ≤ hi) ∧
      ((∀ E ∈ Ds, ∀ p ∈ E.points, p.1 ≤ p.2) → ∀ p ∈ R.points, p.1 < p.2) ∧
      ∃ old new, IsMeanStep Ds old new ∧ R.points = (new.filter fun p => p.1 ≠ p.2) ∧
        ∀ E ∈ Ds, ∃ w, IsPairingCost old E.points w ∧ IsPairingCost R.points E.points w := by
  have hfil : ∀ l : List (α × α), (l.filter fun p => decide (p.1 ≠ p.2)) = l.filter fun p => !decide (p.1 = p.2) := by
    intro l
    refine List.filter_congr fun p _ => ?_
    simp
  have hN : 0 < Ds.length := by
    have := (List.getElem?_eq_some_iff.1 hD).1
    omega
  have hA : Admissible Ds (D.points.filter fun p => !decide (p.1 = p.2)).length lo hi top := by
    refine ⟨hdim, hbox, fun E hE => lt_of_le_of_lt ?_ (htop E hE)⟩
    refine mul_le_mul_of_nonneg_right ?_ (sq_nonneg _)
    exact_mod_cast Nat.add_le_add_right (List.length_filter_le _ _) _
  have hY := good_start hD hdim hbox
  obtain ⟨ps, hps, _⟩ := step_spec hsolver hN hA hY
  unfold mean at hr
  simp only [hD, hps] at hr
  obtain ⟨R, h1, h2, old, new, h3, h4, h5⟩ := loop_result hsolver hN hA fuel hY hps hr
  simp only [hfil]
  exact ⟨R, h1, h2.dimension, h2.size, h2.off, h2.box, fun hup p hp => lt_of_le_of_ne (h2.upper hup p hp) (h2.off p hp), old, new, h3, h4, h5⟩

omit [IsStrictOrderedRing α] in
/-- **C109.** A diagram of another dimension than zero makes the computation fail, even if all dimensions agree. -/
theorem _root_.Aleph.C109_dimension (solver : ℕ → (ℕ → ℕ → α) → ℕ → ℕ → α) (top : α) (Ds : List (Diagram α)) (choice fuel : ℕ)
    (h : ∃ D ∈ Ds, D.dimension ≠ 0) : mean solver top Ds choice (fuel + 1) = some (.error ()) := by
  unfold mean
  cases Ds[choice]? with
  | none => rfl
  | some D =>
    simp only
    cases pairingsOf solver top D.removeDiagonal Ds with
    | error e => rfl
    | ok ps =>
      simp only [loop]
      cases meanPoints Ds ps 0 D.removeDiagonal.points with
      | error e => rfl
      | ok points =>
        simp only
        have hdim : (points.foldl (fun Z p => Z.add p.1 p.2) (Diagram.empty : Diagram α)).removeDiagonal.dimension = 0 := by
          rw [foldl_add]
          rfl
        rw [pairingsOf_dimension solver top _ Ds (by
          obtain ⟨E, hE, hne⟩ := h
          exact ⟨E, hE, fun he => hne (he.symm.trans hdim)⟩)]

omit [IsStrictOrderedRing α] in
/-- **C109.** So does the empty collection. -/
theorem _root_.Aleph.C109_empty (solver : ℕ → (ℕ → ℕ → α) → ℕ → ℕ → α) (top : α) (choice fuel : ℕ) :
    mean solver top ([] : List (Diagram α)) choice fuel = some (.error ()) := rfl

/-! ### Equal diagrams -/

theorem squaredDistance_eq_zero {p q : α × α} (h : squaredDistance p q = 0) : p = q := by
  unfold squaredDistance at h
  have h0 := pow_eq_zero_iff (two_ne_zero) |>.1 h
  have h1 : |p.1 - q.1| ≤ 0 := (le_max_left _ _).trans h0.le
  have h2 : |p.2 - q.2| ≤ 0 := (le_max_right _ _).trans h0.le
  have e1 := abs_nonpos_iff.1 h1
  have e2 := abs_nonpos_iff.1 h2
  exact Prod.ext (sub_eq_zero.1 e1) (sub_eq_zero.1 e2)

theorem squaredDistance_self (p : α × α) : squaredDistance p p = 0 := by
  unfold squaredDistance
  simp

omit [IsStrictOrderedRing α] [Field α] in
theorem sum_indicator (B : List (α × α)) :
    (B.map fun b => if b.1 = b.2 then 0 else 1).sum = (B.filter fun p => !decide (p.1 = p.2)).length := by
  induction B with
  | nil => rfl
  | cons b B ih =>
    rw [List.map_cons, List.sum_cons, ih]
    by_cases h : b.1 = b.2
    · simp [h]
    · simp [h]
      omega

/-- Matching the points off the diagonal with themselves costs nothing. -/
theorem zero_matching (B : List (α × α)) :
    ∃ m : Finset (Fin (B.filter fun p => !decide (p.1 = p.2)).length × Fin B.length), IsMatching m ∧
      matchingCost squaredDistance (fun p => squaredDistance p (toDiagonal p)) (B.filter fun p => !decide (p.1 = p.2)) B m = 0 := by
  classical
  obtain ⟨f, hf⟩ := List.sublist_iff_exists_fin_orderEmbedding_get_eq.1 (List.filter_sublist (l := B) (p := fun p : α × α => !decide (p.1 = p.2)))
  have hrange : ∀ k : Fin B.length, B[k].1 ≠ B[k].2 → ∃ i, f i = k := by
    have hsub : univ.image f ⊆ univ.filter fun k : Fin B.length => B[k].1 ≠ B[k].2 := by
      intro k hk
      obtain ⟨i, _, rfl⟩ := mem_image.1 hk
      rw [mem_filter]
      refine ⟨mem_univ _, ?_⟩
      have h1 : (B.filter fun p => !decide (p.1 = p.2)).get i ∈ B.filter fun p => !decide (p.1 = p.2) := List.get_mem _ _
      have h2 := (List.mem_filter.1 h1).2
      rw [hf i] at h2
      simpa using h2
    have hcard : (univ.filter fun k : Fin B.length => B[k].1 ≠ B[k].2).card = (B.filter fun p => !decide (p.1 = p.2)).length := by
      rw [← sum_indicator, card_filter, ← List.sum_ofFn]
      congr 1
      refine List.ext_getElem (by simp) ?_
      intro k h1 h2
      simp only [List.getElem_ofFn, List.getElem_map, ne_eq, ite_not, Fin.getElem_fin]
    have heq := eq_of_subset_of_card_le hsub (by rw [hcard, card_image_of_injective _ f.injective, card_univ, Fintype.card_fin])
    intro k hk
    have : k ∈ univ.image f := by
      rw [heq, mem_filter]
      exact ⟨mem_univ _, hk⟩
    obtain ⟨i, _, hi⟩ := mem_image.1 this
    exact ⟨i, hi⟩
  refine ⟨univ.image fun i => (i, f i), ⟨?_, ?_⟩, ?_⟩
  · intro i k k' h h'
    obtain ⟨t, _, ht⟩ := mem_image.1 h
    obtain ⟨t', _, ht'⟩ := mem_image.1 h'
    rw [Prod.mk.injEq] at ht ht'
    rw [← ht.2, ← ht'.2, ht.1, ht'.1]
  · intro i i' k h h'
    obtain ⟨t, _, ht⟩ := mem_image.1 h
    obtain ⟨t', _, ht'⟩ := mem_image.1 h'
    rw [Prod.mk.injEq] at ht ht'
    rw [← ht.1, ← ht'.1]
    exact f.injective (ht.2.trans ht'.2.symm)
  · unfold matchingCost
    rw [sum_eq_zero, sum_eq_zero, sum_eq_zero, add_zero, add_zero]
    · intro k hk
      have hk := (mem_filter.1 hk).2
      by_cases hd : B[k].1 = B[k].2
      · have : toDiagonal B[k] = B[k] := by
          unfold toDiagonal
          refine Prod.ext ?_ ?_ <;> simp only <;> linarith
        simp only [this, squaredDistance_self]
      · obtain ⟨i, hi⟩ := hrange k hd
        exact absurd (mem_image.2 ⟨i, mem_univ _, by rw [hi]⟩) (hk i)
    · intro i hi
      exact absurd (mem_image.2 ⟨i, mem_univ _, rfl⟩) ((mem_filter.1 hi).2 (f i))
    · intro e he
      obtain ⟨i, _, rfl⟩ := mem_image.1 he
      have := hf i
      simp only [List.get_eq_getElem] at this
      simp only [Fin.getElem_fin, this, squaredDistance_self]

/-- Diagrams that agree up to points on the diagonal are their own mean. -/
theorem step_equal {Ds : List (Diagram α)} (hN : 0 < Ds.length) {Y Z : List (α × α)} (hY : ∀ p ∈ Y, p.1 ≠ p.2)
    (hD : ∀ D ∈ Ds, (D.points.filter fun p => !decide (p.1 = p.2)) = Y) (h : IsMeanStep Ds Y Z) : Z = Y := by
  obtain ⟨m, a, hm, ha, rfl⟩ := h
  have hN' : (Ds.length : α) ≠ 0 := by exact_mod_cast hN.ne'
  have hval : ∀ j i, a j i = Y[i] := by
    intro j i
    have hzero : matchingCost squaredDistance (fun p => squaredDistance p (toDiagonal p)) Y Ds[j].points (m j) ≤ 0 := by
      obtain ⟨m0, hm0, hc0⟩ := zero_matching Ds[j].points
      have hmin := (hm j).2.2
      have hDj := hD Ds[j] (List.getElem_mem _)
      generalize (Ds[j].points.filter fun p => !decide (p.1 = p.2)) = W at hDj m0
      subst hDj
      rw [← hc0]
      exact hmin ⟨m0, hm0, rfl⟩
    unfold matchingCost at hzero
    have n1 : 0 ≤ ∑ e ∈ m j, squaredDistance Y[e.1] Ds[j].points[e.2] := sum_nonneg fun _ _ => squaredDistance_nonneg _ _
    have n2 : 0 ≤ ∑ i ∈ univ.filter (fun i : Fin Y.length => ∀ k, (i, k) ∉ m j), squaredDistance Y[i] (toDiagonal Y[i]) :=
      sum_nonneg fun _ _ => squaredDistance_nonneg _ _
    have n3 : 0 ≤ ∑ k ∈ univ.filter (fun k : Fin Ds[j].points.length => ∀ i, (i, k) ∉ m j),
        squaredDistance Ds[j].points[k] (toDiagonal Ds[j].points[k]) := sum_nonneg fun _ _ => squaredDistance_nonneg _ _
    have z1 : ∑ e ∈ m j, squaredDistance Y[e.1] Ds[j].points[e.2] = 0 := le_antisymm (by linarith) n1
    have z2 : ∑ i ∈ univ.filter (fun i : Fin Y.length => ∀ k, (i, k) ∉ m j), squaredDistance Y[i] (toDiagonal Y[i]) = 0 := le_antisymm (by linarith) n2
    by_cases hk : ∃ k, (i, k) ∈ m j
    · obtain ⟨k, hk⟩ := hk
      rw [(ha j i).1 k hk]
      exact (squaredDistance_eq_zero ((sum_eq_zero_iff_of_nonneg fun _ _ => squaredDistance_nonneg _ _).1 z1 _ hk)).symm
    · push Not at hk
      have := (sum_eq_zero_iff_of_nonneg fun _ _ => squaredDistance_nonneg _ _).1 z2 i (mem_filter.2 ⟨mem_univ _, hk⟩)
      have he := squaredDistance_eq_zero this
      exfalso
      refine hY Y[i] (List.getElem_mem _) ?_
      have e1 := congrArg Prod.fst he
      have e2 := congrArg Prod.snd he
      rw [e1, e2]
      rfl
  refine List.ext_getElem (by simp) ?_
  intro i h1 h2
  rw [List.getElem_ofFn]
  simp only [hval, sum_const, card_univ, Fintype.card_fin, nsmul_eq_mul, Fin.getElem_fin]
  refine Prod.ext ?_ ?_ <;> simp only <;> rw [mul_div_cancel_left₀ _ hN']

/-- **C109.** The mean of diagrams that agree up to points on the diagonal is their common part off the diagonal, reached in the first iteration. -/
theorem _root_.Aleph.C109_equal [Archimedean α] {Ds : List (Diagram α)} {choice : ℕ} {D : Diagram α} {lo hi top : α}
    {solver : ℕ → (ℕ → ℕ → α) → ℕ → ℕ → α} (hsolver : IsMunkres top solver) (hD : Ds[choice]? = some D) (hdim : ∀ D ∈ Ds, D.dimension = 0)
    (hbox : ∀ D ∈ Ds, ∀ p ∈ D.points, lo ≤ p.1 ∧ p.1 ≤ hi ∧ lo ≤ p.2 ∧ p.2 ≤ hi)
    (htop : ∀ E ∈ Ds, ((D.points.length + E.points.length : ℕ) : α) * (hi - lo) ^ 2 < top)
    (heq : ∀ E ∈ Ds, (E.points.filter fun p => p.1 ≠ p.2) = D.points.filter fun p => p.1 ≠ p.2) (fuel : ℕ) :
    mean solver top Ds choice (fuel + 1) = some (.ok ⟨0, D.points.filter fun p => p.1 ≠ p.2⟩) := by
  have hfil : ∀ l : List (α × α), (l.filter fun p => decide (p.1 ≠ p.2)) = l.filter fun p => !decide (p.1 = p.2) := by
    intro l
    refine List.filter_congr fun p _ => ?_
    simp
  simp only [hfil] at heq ⊢
  have hN : 0 < Ds.length := by
    have := (List.getElem?_eq_some_iff.1 hD).1
    omega
  have hA : Admissible Ds (D.points.filter fun p => !decide (p.1 = p.2)).length lo hi top := by
    refine ⟨hdim, hbox, fun E hE => lt_of_le_of_lt ?_ (htop E hE)⟩
    refine mul_le_mul_of_nonneg_right ?_ (sq_nonneg _)
    exact_mod_cast Nat.add_le_add_right (List.length_filter_le _ _) _
  have hY := good_start hD hdim hbox
  obtain ⟨ps, hps, _, Z, h3, h4, h5, h6⟩ := step_spec hsolver hN hA hY
  have hZ : Z = D.removeDiagonal.points := step_equal hN hY.off heq h4
  have hdone : (Z.foldl (fun Z p => Z.add p.1 p.2) (Diagram.empty : Diagram α)).removeDiagonal = D.removeDiagonal := by
    have e1 : (Z.foldl (fun Z p => Z.add p.1 p.2) (Diagram.empty : Diagram α)).removeDiagonal.points = D.removeDiagonal.points := by
      rw [h6, hZ]
      rw [List.filter_eq_self]
      intro p hp
      simpa using hY.off p hp
    have e2 := h5.dimension.trans hY.dimension.symm
    cases hq : (Z.foldl (fun Z p => Z.add p.1 p.2) (Diagram.empty : Diagram α)).removeDiagonal
    rw [hq] at e1 e2
    cases hq' : D.removeDiagonal
    rw [hq'] at e1 e2
    simp only at e1 e2
    rw [e1, e2]
  unfold mean
  simp only [hD, hps, loop, h3, hdone, if_true]
  have e2 := hY.dimension
  have : D.removeDiagonal = ⟨0, D.points.filter fun p => !decide (p.1 = p.2)⟩ := by
    have e3 : D.removeDiagonal.points = D.points.filter fun p => !decide (p.1 = p.2) := rfl
    cases hq' : D.removeDiagonal
    rw [hq'] at e2 e3
    simp only at e2 e3
    rw [e2, e3]
  rw [this]

/-! ### Divergence -/

omit [IsStrictOrderedRing α] in
/-- An optimal matching of two points that are close to each other. -/
theorem close_points {p q : α × α} (h : squaredDistance p q < squaredDistance p (toDiagonal p) + squaredDistance q (toDiagonal q))
    {m : Finset (Fin [p].length × Fin [q].length)}
    (hopt : IsPairingCost [p] [q] (matchingCost squaredDistance (fun p => squaredDistance p (toDiagonal p)) [p] [q] m)) :
    ((0 : Fin 1), (0 : Fin 1)) ∈ m ∧ matchingCost squaredDistance (fun p => squaredDistance p (toDiagonal p)) [p] [q] m = squaredDistance p q := by
  have hsingle : matchingCost squaredDistance (fun p => squaredDistance p (toDiagonal p)) [p] [q] {((0 : Fin 1), (0 : Fin 1))} = squaredDistance p q := by
    unfold matchingCost
    rw [sum_singleton, filter_false_of_mem, filter_false_of_mem, sum_empty, sum_empty, add_zero, add_zero]
    · rfl
    · intro j _ h
      refine h (0 : Fin 1) ?_
      rw [mem_singleton]
      exact congrArg _ (Subsingleton.elim (α := Fin 1) _ _)
    · intro i _ h
      refine h (0 : Fin 1) ?_
      rw [mem_singleton]
      exact congrArg (fun x => (x, _)) (Subsingleton.elim (α := Fin 1) _ _)
  have hempty : matchingCost squaredDistance (fun p => squaredDistance p (toDiagonal p)) [p] [q] ∅ =
      squaredDistance p (toDiagonal p) + squaredDistance q (toDiagonal q) := by
    simp [matchingCost]
  by_cases hmem : ((0 : Fin 1), (0 : Fin 1)) ∈ m
  · have : m = {((0 : Fin 1), (0 : Fin 1))} := by
      ext ⟨i, j⟩
      have hi : i = (0 : Fin 1) := Subsingleton.elim (α := Fin 1) _ _
      have hj : j = (0 : Fin 1) := Subsingleton.elim (α := Fin 1) _ _
      subst hi hj
      simp [hmem]
    rw [this]
    exact ⟨by simp, hsingle⟩
  · exfalso
    have hm0 : m = ∅ := by
      rw [eq_empty_iff_forall_notMem]
      rintro ⟨i, j⟩ hij
      have hi : i = (0 : Fin 1) := Subsingleton.elim (α := Fin 1) _ _
      have hj : j = (0 : Fin 1) := Subsingleton.elim (α := Fin 1) _ _
      subst hi hj
      exact hmem hij
    rw [hm0, hempty] at hopt
    have hle := hopt.2 ⟨{((0 : Fin 1), (0 : Fin 1))}, ⟨by simp, by simp⟩, rfl⟩
    rw [hsingle] at hle
    exact absurd h (not_lt.2 hle)

/-- The three diagrams of the counterexample. -/
def three : List (Diagram ℚ) := [⟨0, [(0, 10)]⟩, ⟨0, [(2, 10)]⟩, ⟨0, []⟩]

theorem step_three {p : ℚ × ℚ} {Z : List (ℚ × ℚ)} (h : IsMeanStep three [p] Z)
    (h1 : squaredDistance p (0, 10) < squaredDistance p (toDiagonal p) + squaredDistance ((0, 10) : ℚ × ℚ) (toDiagonal (0, 10)))
    (h2 : squaredDistance p (2, 10) < squaredDistance p (toDiagonal p) + squaredDistance ((2, 10) : ℚ × ℚ) (toDiagonal (2, 10))) :
    Z = [((0 + 2 + (p.1 + p.2) / 2) / 3, (10 + 10 + (p.1 + p.2) / 2) / 3)] := by
  obtain ⟨m, a, hm, ha, rfl⟩ := h
  have e0 := (ha (0 : Fin 3) (0 : Fin 1)).1 (0 : Fin 1) (close_points h1 (hm (0 : Fin 3)).2).1
  have e1 := (ha (1 : Fin 3) (0 : Fin 1)).1 (0 : Fin 1) (close_points h2 (hm (1 : Fin 3)).2).1
  have e2 := (ha (2 : Fin 3) (0 : Fin 1)).2 fun k => Fin.elim0 (show Fin 0 from k)
  have hsum : ∀ g : Fin 3 → ℚ, ∑ j, g j = g 0 + g 1 + g 2 := Fin.sum_univ_three
  have s1 := hsum fun j => (a j (0 : Fin 1)).1
  have s2 := hsum fun j => (a j (0 : Fin 1)).2
  rw [e0, e1, e2] at s1 s2
  have : (List.ofFn fun i : Fin [p].length => ((∑ j, (a j i).1) / (three.length : ℚ), (∑ j, (a j i).2) / (three.length : ℚ))) =
      [((∑ j, (a j (0 : Fin 1)).1) / (three.length : ℚ), (∑ j, (a j (0 : Fin 1)).2) / (three.length : ℚ))] := by
    rfl
  rw [this]
  refine congrArg (fun x => [x]) (Prod.ext ?_ ?_)
  · exact congrArg (· / (3 : ℚ)) s1
  · exact congrArg (· / (3 : ℚ)) s2

theorem admissible_three {top : ℚ} (htop : 200 < top) : Admissible three 1 0 10 top := by
  unfold three
  refine ⟨by simp, by simp [Box]; norm_num, ?_⟩
  intro D hD
  simp only [List.mem_cons, List.not_mem_nil, or_false] at hD
  rcases hD with rfl | rfl | rfl <;> norm_num <;> linarith

/-- One iteration from a point that is matched in both diagrams. -/
theorem iterate_three {top : ℚ} (htop : 200 < top) {solver : ℕ → (ℕ → ℕ → ℚ) → ℕ → ℕ → ℚ} (hsolver : IsMunkres top solver) {p : ℚ × ℚ}
    (hp : Box 0 10 p) (hoff : p.1 < p.2)
    (h1 : squaredDistance p (0, 10) < squaredDistance p (toDiagonal p) + squaredDistance ((0, 10) : ℚ × ℚ) (toDiagonal (0, 10)))
    (h2 : squaredDistance p (2, 10) < squaredDistance p (toDiagonal p) + squaredDistance ((2, 10) : ℚ × ℚ) (toDiagonal (2, 10))) :
    ∃ ps, pairingsOf solver top ⟨0, [p]⟩ three = .ok ps ∧ (ps.map (·.cost)).head? = some (squaredDistance p (0, 10)) ∧
      meanPoints three ps 0 [p] = .ok [((0 + 2 + (p.1 + p.2) / 2) / 3, (10 + 10 + (p.1 + p.2) / 2) / 3)] := by
  have hgood : Good three 1 0 10 (⟨0, [p]⟩ : Diagram ℚ) :=
    ⟨rfl, le_refl _, by simpa using hp, by simpa using hoff.ne, fun _ => by simpa using hoff.le⟩
  obtain ⟨ps, hps, ⟨hl, hc⟩, Z, h3, h4, _⟩ := step_spec hsolver (by decide) (admissible_three htop) hgood
  refine ⟨ps, hps, ?_, ?_⟩
  · have h0 := hc (0 : Fin 3)
    obtain ⟨⟨m, _, hm⟩, _⟩ := id h0
    have h0' := h0
    rw [hm] at h0'
    have hcost := hm.trans (close_points h1 h0').2
    have hlen : 0 < ps.length := by
      rw [hl]
      decide
    rw [List.head?_map, List.head?_eq_getElem?, List.getElem?_eq_getElem hlen, Option.map_some]
    exact congrArg some hcost
  · rw [h3, step_three h4 h1 h2]

theorem distances_three {x : ℚ} (h1 : 7 / 3 ≤ x) (h2 : x < 5 / 2) :
    squaredDistance (x, x + 6) (0, 10) = x ^ 2 ∧ squaredDistance (x, x + 6) (2, 10) < 9 ∧ squaredDistance (x, x + 6) (toDiagonal (x, x + 6)) = 9 := by
  unfold squaredDistance toDiagonal
  simp only
  refine ⟨?_, ?_, ?_⟩
  · rw [abs_of_nonneg (by linarith), abs_of_nonpos (by linarith), max_eq_left (by linarith), sub_zero]
  · rw [abs_of_nonneg (by linarith), abs_of_nonpos (by linarith), max_eq_right (by linarith)]
    nlinarith
  · rw [abs_of_nonpos (by linarith), abs_of_nonneg (by linarith), max_eq_left (by linarith)]
    have : -(x - (x + (x + 6)) / 2) = 3 := by ring
    rw [this]
    norm_num

theorem corners : squaredDistance ((0, 10) : ℚ × ℚ) (toDiagonal (0, 10)) = 25 ∧ squaredDistance ((2, 10) : ℚ × ℚ) (toDiagonal (2, 10)) = 16 ∧
    squaredDistance ((0, 10) : ℚ × ℚ) (0, 10) = 0 ∧ squaredDistance ((0, 10) : ℚ × ℚ) (2, 10) = 4 := by
  unfold squaredDistance toDiagonal
  norm_num

theorem loop_three {top : ℚ} (htop : 200 < top) {solver : ℕ → (ℕ → ℕ → ℚ) → ℕ → ℕ → ℚ} (hsolver : IsMunkres top solver) (fuel : ℕ) (p : ℚ × ℚ)
    (hp : Box 0 10 p) (hoff : p.1 < p.2)
    (h1 : squaredDistance p (0, 10) < squaredDistance p (toDiagonal p) + squaredDistance ((0, 10) : ℚ × ℚ) (toDiagonal (0, 10)))
    (h2 : squaredDistance p (2, 10) < squaredDistance p (toDiagonal p) + squaredDistance ((2, 10) : ℚ × ℚ) (toDiagonal (2, 10)))
    (x' : ℚ) (hx' : (0 + 2 + (p.1 + p.2) / 2) / 3 = x') (hy' : (10 + 10 + (p.1 + p.2) / 2) / 3 = x' + 6) (b1 : 7 / 3 ≤ x') (b2 : x' < 5 / 2)
    (hne : squaredDistance p (0, 10) ≠ x' ^ 2) (ps : List (Pairing ℚ)) (hps : pairingsOf solver top ⟨0, [p]⟩ three = .ok ps) :
    loop solver top three fuel ⟨0, [p]⟩ ps = none := by
  induction fuel generalizing p x' ps with
  | zero => rfl
  | succ fuel ih =>
    obtain ⟨ps', g1, g2, g3⟩ := iterate_three htop hsolver hp hoff h1 h2
    rw [hps] at g1
    obtain rfl := Except.ok.inj g1
    rw [hx', hy'] at g3
    obtain ⟨d1, d2, d3⟩ := distances_three b1 b2
    obtain ⟨c1, c2, _, _⟩ := corners
    have n1 : squaredDistance (x', x' + 6) (0, 10) < squaredDistance (x', x' + 6) (toDiagonal (x', x' + 6)) + squaredDistance ((0, 10) : ℚ × ℚ) (toDiagonal (0, 10)) := by
      rw [d1, d3, c1]
      nlinarith
    have n2 : squaredDistance (x', x' + 6) (2, 10) < squaredDistance (x', x' + 6) (toDiagonal (x', x' + 6)) + squaredDistance ((2, 10) : ℚ × ℚ) (toDiagonal (2, 10)) := by
      rw [d3, c2]
      linarith
    have hbox : Box 0 10 ((x', x' + 6) : ℚ × ℚ) := by
      unfold Box
      refine ⟨?_, ?_, ?_, ?_⟩ <;> simp only <;> linarith
    have hlt : ((x', x' + 6) : ℚ × ℚ).1 < ((x', x' + 6) : ℚ × ℚ).2 := by
      simp only
      linarith
    obtain ⟨qs, q1, q2, _⟩ := iterate_three htop hsolver hbox hlt n1 n2
    have hnew : ([((x', x' + 6) : ℚ × ℚ)].foldl (fun Z p => Z.add p.1 p.2) (Diagram.empty : Diagram ℚ)).removeDiagonal = ⟨0, [(x', x' + 6)]⟩ := by
      rw [foldl_add]
      unfold Diagram.removeDiagonal
      simp [Diagram.empty]
    simp only [loop, g3, hnew, q1]
    rw [if_neg]
    · refine ih (x', x' + 6) hbox hlt n1 n2 ((x' + 5) / 3) ?_ ?_ ?_ ?_ ?_ qs q1
      · simp only
        ring
      · simp only
        ring
      · linarith
      · linarith
      · rw [d1]
        intro he
        nlinarith
    · intro he
      rw [he, g2, d1] at q2
      exact hne (Option.some.inj q2)

/-- **C109.** In exact arithmetic, the computation need not end: there are three small diagrams of dimension zero for which it does not. -/
theorem _root_.Aleph.C109_divergence {top : ℚ} (htop : 200 < top) {solver : ℕ → (ℕ → ℕ → ℚ) → ℕ → ℕ → ℚ} (hsolver : IsMunkres top solver) (fuel : ℕ) :
    mean solver top [⟨0, [(0, 10)]⟩, ⟨0, [(2, 10)]⟩, ⟨0, []⟩] 0 fuel = none := by
  have hstart : (⟨0, [(0, 10)]⟩ : Diagram ℚ).removeDiagonal = ⟨0, [(0, 10)]⟩ := by
    simp [Diagram.removeDiagonal]
  obtain ⟨c1, c2, c3, c4⟩ := corners
  have hbox : Box 0 10 ((0, 10) : ℚ × ℚ) := by
    unfold Box
    norm_num
  have n1 : squaredDistance ((0, 10) : ℚ × ℚ) (0, 10) < squaredDistance ((0, 10) : ℚ × ℚ) (toDiagonal (0, 10)) + squaredDistance ((0, 10) : ℚ × ℚ) (toDiagonal (0, 10)) := by
    rw [c3, c1]
    norm_num
  have n2 : squaredDistance ((0, 10) : ℚ × ℚ) (2, 10) < squaredDistance ((0, 10) : ℚ × ℚ) (toDiagonal (0, 10)) + squaredDistance ((2, 10) : ℚ × ℚ) (toDiagonal (2, 10)) := by
    rw [c4, c1, c2]
    norm_num
  have hlt : ((0, 10) : ℚ × ℚ).1 < ((0, 10) : ℚ × ℚ).2 := by norm_num
  obtain ⟨ps, q1, _, _⟩ := iterate_three htop hsolver hbox hlt n1 n2
  show mean solver top three 0 fuel = none
  unfold mean
  have h0 : three[0]? = some ⟨0, [(0, 10)]⟩ := rfl
  simp only [h0, hstart, q1]
  refine loop_three htop hsolver fuel (0, 10) hbox hlt n1 n2 (7 / 3) ?_ ?_ ?_ ?_ ?_ ps q1
  · norm_num
  · norm_num
  · norm_num
  · norm_num
  · rw [c3]
    norm_num

/-! ### Examples -/

example : ∃ solver : ℕ → (ℕ → ℕ → ℚ) → ℕ → ℕ → ℚ, IsMunkres 201 solver := exists_isMunkres 201 (by norm_num)

/-- Two equal diagrams meet the assumptions. -/
example (solver : ℕ → (ℕ → ℕ → ℚ) → ℕ → ℕ → ℚ) (h : IsMunkres 1000 solver) :
    mean solver 1000 [⟨0, [(0, 10), (3, 3)]⟩, ⟨0, [(4, 4), (5, 5), (0, 10)]⟩] 1 1 = some (.ok ⟨0, [(0, 10)]⟩) := by
  have := C109_equal (Ds := [⟨0, [(0, 10), (3, 3)]⟩, ⟨0, [(4, 4), (5, 5), (0, 10)]⟩]) (D := ⟨0, [(4, 4), (5, 5), (0, 10)]⟩) (lo := 0) (hi := 10) (choice := 1) h rfl (by simp)
    (by
      simp only [List.mem_cons, List.not_mem_nil, or_false]
      rintro D (rfl | rfl) p hp <;> simp only [List.mem_cons, List.not_mem_nil, or_false] at hp
      · rcases hp with rfl | rfl <;> norm_num
      · rcases hp with rfl | rfl | rfl <;> norm_num) (by simp; norm_num) (by simp) 0
  rw [this]
  simp

end Aleph.DiagramMean
