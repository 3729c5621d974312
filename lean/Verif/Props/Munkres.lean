import Verif.Lemmas.Munkres
import Verif.Spec.Assignment
import Mathlib.Data.Fintype.BigOperators
import Mathlib.Data.Fintype.EquivFin
import Mathlib.Algebra.BigOperators.Fin
import Mathlib.Algebra.Order.Ring.Int
import Mathlib.Algebra.Order.Archimedean.Basic

/-!
# C35: the assignment solver
-/

namespace Aleph

open Finset Spec Munkres

variable {T : Type}

/-- A perfect matching of stars is a permutation. -/
theorem exists_perm {n : ℕ} {stars : ℕ → ℕ → Bool} (h : Matching n stars) (hc : n ≤ (starSet n stars).card) :
    ∃ σ : Equiv.Perm (Fin n), ∀ i j : Fin n, stars i j = true ↔ σ i = j := by
  have hrow := all_rows h hc
  choose f hf using fun i : Fin n => hrow i i.2
  have hlt : ∀ i, f i < n := fun i => (h.lt _ _ (hf i)).2
  let g : Fin n → Fin n := fun i => ⟨f i, hlt i⟩
  have hinj : Function.Injective g := by
    intro i j hij
    have e : f i = f j := congrArg Fin.val hij
    have := hf i
    rw [e] at this
    exact Fin.ext (h.col _ _ _ this (hf j))
  refine ⟨Equiv.ofBijective g (Finite.injective_iff_bijective.1 hinj), ?_⟩
  intro i j
  rw [Equiv.ofBijective_apply]
  constructor
  · intro hs
    exact Fin.ext (h.row _ _ _ (hf i) hs)
  · rintro rfl
    exact hf i

theorem optimal_of_zero [AddCommGroup T] [LinearOrder T] [IsOrderedAddMonoid T] {n : ℕ} {costs m : ℕ → ℕ → T}
    (h : Reduced n costs m) (σ : Equiv.Perm (Fin n)) (hz : ∀ i : Fin n, m i (σ i) = 0) : IsOptimal costs σ := by
  obtain ⟨⟨u, v, huv⟩, hnn⟩ := h
  have key : ∀ τ : Equiv.Perm (Fin n), assignmentCost costs τ =
      ∑ i : Fin n, m i (τ i) + (∑ i : Fin n, u i + ∑ i : Fin n, v i) := by
    intro τ
    unfold assignmentCost
    rw [← Equiv.sum_comp τ (fun i : Fin n => v i), ← sum_add_distrib, ← sum_add_distrib]
    refine sum_congr rfl fun i _ => ?_
    rw [huv i i.2 (τ i) (τ i).2]
    abel
  intro τ
  rw [key σ, key τ, sum_eq_zero fun i _ => hz i]
  exact add_le_add_left (sum_nonneg fun (i : Fin n) _ => hnn i i.2 _ (τ i).2) _

theorem filter_range_eq {n : ℕ} (p : ℕ → Bool) (j : ℕ) (hj : j < n) (h : ∀ c < n, p c = true ↔ c = j) :
    (List.range n).filter p = [j] := by
  have h1 : ∀ x, x ∈ (List.range n).filter p ↔ x = j := by
    intro x
    rw [List.mem_filter, List.mem_range]
    constructor
    · rintro ⟨hx, hp⟩; exact (h x hx).1 hp
    · rintro rfl; exact ⟨hj, (h x hj).2 rfl⟩
  have hnd : ((List.range n).filter p).Nodup := List.nodup_range.filter _
  cases hl : (List.range n).filter p with
  | nil => rw [hl] at h1; exact absurd ((h1 j).2 rfl) (by simp)
  | cons a l =>
    rw [hl] at h1 hnd
    have ha := (h1 a).1 List.mem_cons_self
    cases l with
    | nil => rw [ha]
    | cons b l =>
      have hb := (h1 b).1 (by simp)
      rw [ha, hb] at hnd
      simp at hnd

theorem matching_eq [DecidableEq T] [Zero T] {n : ℕ} {M : ℕ → ℕ → T} (σ : Equiv.Perm (Fin n))
    (h : ∀ i j : Fin n, M i j = 0 ↔ σ i = j) :
    matching n M = (List.finRange n).map fun i : Fin n => ((i : ℕ), (σ i : ℕ)) := by
  unfold matching
  have hrow : ∀ i : Fin n, ((List.range n).filter fun col => decide (M i col = 0)) = [(σ i : ℕ)] := by
    intro i
    refine filter_range_eq _ _ (σ i).2 ?_
    intro c hc
    rw [decide_eq_true_iff, h i ⟨c, hc⟩]
    exact ⟨fun e => by rw [e], fun e => Fin.ext e.symm⟩
  have hR : ∀ g : ℕ → List (ℕ × ℕ), (List.range n).flatMap g = (List.finRange n).flatMap fun i : Fin n => g i := by
    intro g
    rw [← List.map_coe_finRange_eq_range, List.flatMap_map]
  rw [hR, List.map_eq_flatMap]
  refine List.flatMap_congr fun i _ => ?_
  rw [hrow i]
  rfl

/-- C35. For every square matrix of costs the solver stops: there is a number of rounds after which it has a result, which
does not depend on the number of rounds.  The result `M` marks exactly one entry per row and column, and no
assignment has smaller total cost than the marked one. -/
theorem C35_optimal_assignment [AddCommGroup T] [LinearOrder T] [IsOrderedAddMonoid T] [Archimedean T] (top : T)
    (htop : 0 < top) (n : ℕ) (costs : ℕ → ℕ → T) :
    ∃ (M : ℕ → ℕ → T) (σ : Equiv.Perm (Fin n)), IsOptimal costs σ ∧
      (∃ rounds, ∀ k, rounds ≤ k → solve top n costs k = some M) ∧
      ∀ i j : Fin n, M i j = if σ i = j then 0 else top := by
  have h0 : Clean n costs (init (subtractRowMinimum n costs)) :=
    { reduced := reduced_subtractRowMinimum n costs
      stars := ⟨by simp [init], by simp [init], by simp [init]⟩
      zero := by simp [init], primes := fun _ _ => rfl, rowMask := fun _ => rfl, colMask := fun _ => rfl }
  have h1 := step1_spec h0
  obtain ⟨f, S, hf, hb, hc⟩ := clean_finishes htop _ _ le_rfl h1
  obtain ⟨σ, hσ⟩ := exists_perm hb.stars hc
  refine ⟨fun row col => if S.stars row col then 0 else top, σ,
    optimal_of_zero hb.reduced σ (fun i => hb.zero _ _ ((hσ i _).2 rfl)), ⟨f + 1, ?_⟩, ?_⟩
  · intro k hk
    obtain ⟨d, rfl⟩ := Nat.exists_eq_add_of_le hk
    unfold solve
    rw [run_mono top n (f + 1) d 1 _ S (by unfold run; exact hf)]
    rfl
  · intro i j
    simp only [hσ]

/-- C35. From a matrix that marks the assignment `σ`, `matching` reports the pairs `(i, σ i)` and `cost` the total cost of
`σ`. -/
theorem C35_matching_cost [AddCommGroup T] [DecidableEq T] (n : ℕ) (M costs : ℕ → ℕ → T) (top : T) (htop : top ≠ 0)
    (σ : Equiv.Perm (Fin n)) (hM : ∀ i j : Fin n, M i j = if σ i = j then 0 else top) :
    matching n M = (List.finRange n).map (fun i : Fin n => ((i : ℕ), (σ i : ℕ))) ∧
      cost n M costs = assignmentCost costs σ := by
  have hz : ∀ i j : Fin n, M i j = 0 ↔ σ i = j := by
    intro i j
    rw [hM]
    split
    · next h => simp [h]
    · next h => simp [h, htop]
  have h1 := matching_eq σ hz
  refine ⟨h1, ?_⟩
  have h2 : (List.range n).flatMap (fun row =>
      ((List.range n).filter fun col => decide (M row col = 0)).map fun col => costs row col) =
      (matching n M).map fun p => costs p.1 p.2 := by
    unfold matching
    rw [List.map_flatMap]
    refine List.flatMap_congr fun r _ => ?_
    rw [List.map_map]
    rfl
  unfold cost assignmentCost
  rw [h2, h1, List.map_map, ← List.sum_eq_foldl]
  rw [Fin.sum_univ_def]
  rfl

/-- A matrix whose greedy assignment is not optimal. -/
def sampleCosts (r c : ℕ) : ℤ := (((r : ℤ) + 1) * (c + 1))

/-- C35. A concrete case: the solver finds the optimal assignment of a multiplication table. -/
example : (solve (1000 : ℤ) 3 sampleCosts 40).map (fun M => (matching 3 M, cost 3 M sampleCosts)) =
    some ([(0, 2), (1, 1), (2, 0)], 10) := by decide +kernel

example : ∃ (M : ℕ → ℕ → ℤ) (σ : Equiv.Perm (Fin 3)), IsOptimal sampleCosts σ ∧
    (∃ rounds, ∀ k, rounds ≤ k → solve 1000 3 sampleCosts k = some M) ∧
    ∀ i j : Fin 3, M i j = if σ i = j then 0 else 1000 :=
  C35_optimal_assignment 1000 (by decide) 3 sampleCosts

end Aleph
