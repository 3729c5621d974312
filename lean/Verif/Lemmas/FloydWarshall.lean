import Verif.Model.FloydWarshall
import Verif.Spec.Paths
import Verif.Lemmas.SymmetricMatrix
import Verif.Lemmas.Rips
import Mathlib.Algebra.Order.Monoid.WithTop

/-!
# Shortest paths
-/

namespace Aleph.FloydWarshall

open Finset Spec SymMatrix

variable {α : Type}

section Abstract

variable [AddCommMonoid α] [LinearOrder α] [IsOrderedAddMonoid α]

/-- Walks with inner vertices below `k`. -/
inductive Walk (D : ℕ → ℕ → WithTop α) (k : ℕ) : ℕ → ℕ → WithTop α → Prop
  | one (i j : ℕ) : Walk D k i j (D i j)
  | cons {i m j : ℕ} {l : WithTop α} : m < k → Walk D k m j l → Walk D k i j (D i m + l)

theorem Walk.nonneg {D : ℕ → ℕ → WithTop α} (hD : ∀ i j, 0 ≤ D i j) {k i j : ℕ} {l : WithTop α}
    (h : Walk D k i j l) : 0 ≤ l := by
  induction h with
  | one i j => exact hD i j
  | cons _ _ ih => exact add_nonneg (hD _ _) ih

theorem Walk.split {D : ℕ → ℕ → WithTop α} (hD : ∀ i j, 0 ≤ D i j) {k i j : ℕ} {l : WithTop α}
    (h : Walk D (k + 1) i j l) : (∃ l' ≤ l, Walk D k i j l') ∨
      ∃ a b, Walk D k i k a ∧ Walk D k k j b ∧ a + b ≤ l := by
  induction h with
  | one i j => exact Or.inl ⟨_, le_rfl, .one i j⟩
  | @cons i m j l hm hw ih =>
    rcases Nat.lt_succ_iff_lt_or_eq.1 hm with hm | rfl
    · rcases ih with ⟨l', hl, h'⟩ | ⟨a, b, ha, hb, hab⟩
      · exact Or.inl ⟨_, add_le_add_right hl _, .cons hm h'⟩
      · refine Or.inr ⟨_, b, .cons hm ha, hb, ?_⟩
        rw [add_assoc]
        exact add_le_add_right hab _
    · rcases ih with ⟨l', hl, h'⟩ | ⟨a, b, ha, hb, hab⟩
      · exact Or.inr ⟨_, l', .one i m, h', add_le_add_right hl _⟩
      · refine Or.inr ⟨_, b, .one i m, hb, add_le_add_right (le_trans ?_ hab) _⟩
        exact le_add_of_nonneg_left (ha.nonneg hD)

omit [LinearOrder α] [IsOrderedAddMonoid α] in
theorem Walk.mono {D : ℕ → ℕ → WithTop α} {k k' : ℕ} (hk : k ≤ k') {i j : ℕ} {l : WithTop α}
    (h : Walk D k i j l) : Walk D k' i j l := by
  induction h with
  | one i j => exact .one i j
  | cons hm _ ih => exact .cons (by omega) ih

/-- Distances after the phases `0, …, k - 1`. -/
def dist (D : ℕ → ℕ → WithTop α) : ℕ → ℕ → ℕ → WithTop α
  | 0 => D
  | k + 1 => fun i j => min (dist D k i j) (dist D k i k + dist D k k j)

theorem dist_le {D : ℕ → ℕ → WithTop α} (hD : ∀ i j, 0 ≤ D i j) (k : ℕ) :
    ∀ {i j : ℕ} {l : WithTop α}, Walk D k i j l → dist D k i j ≤ l := by
  induction k with
  | zero =>
    intro i j l h
    cases h with
    | one => exact le_rfl
    | cons hm => omega
  | succ k ih =>
    intro i j l h
    rcases h.split hD with ⟨l', hl, h'⟩ | ⟨a, b, ha, hb, hab⟩
    · exact (min_le_left _ _).trans ((ih h').trans hl)
    · exact (min_le_right _ _).trans ((add_le_add (ih ha) (ih hb)).trans hab)

theorem dist_nonneg {D : ℕ → ℕ → WithTop α} (hD : ∀ i j, 0 ≤ D i j) (k i j : ℕ) : 0 ≤ dist D k i j := by
  induction k generalizing i j with
  | zero => exact hD i j
  | succ k ih => exact le_min (ih i j) (add_nonneg (ih _ _) (ih _ _))

theorem dist_self {D : ℕ → ℕ → WithTop α} (hD : ∀ i j, 0 ≤ D i j) (h0 : ∀ i, D i i = 0) (k i : ℕ) :
    dist D k i i = 0 := by
  induction k generalizing i with
  | zero => exact h0 i
  | succ k ih =>
    change min (dist D k i i) _ = 0
    rw [ih, min_eq_left]
    exact add_nonneg (dist_nonneg hD _ _ _) (dist_nonneg hD _ _ _)

omit [IsOrderedAddMonoid α] in
theorem dist_symm {D : ℕ → ℕ → WithTop α} (hD : ∀ i j, D i j = D j i) (k i j : ℕ) :
    dist D k i j = dist D k j i := by
  induction k generalizing i j with
  | zero => exact hD i j
  | succ k ih =>
    change min _ _ = min _ _
    rw [ih i j, ih i k, ih k j, add_comm]

/-! ### One phase on the matrix -/

omit [IsOrderedAddMonoid α] in
theorem relax_spec {M : SymMatrix (WithTop α)} {n : ℕ} {D : ℕ → ℕ → WithTop α} (h : Repr M n D) {i j k : ℕ}
    (hi : i < n) (hj : j < n) (hk : k < n) : ∃ M', relax k M (i, j) = some M' ∧ Repr M' n fun a b =>
      if (a = i ∧ b = j) ∨ (a = j ∧ b = i) then min (D i j) (D i k + D k j) else D a b := by
  unfold relax
  simp only [h.get hi hj, h.get hi hk, h.get hk hj]
  by_cases hc : D i j > D i k + D k j
  · rw [if_pos hc, min_eq_right hc.le]
    exact h.set hi hj _
  · rw [if_neg hc, min_eq_left (not_lt.1 hc)]
    refine ⟨M, rfl, h.rows, h.size, h.length, ?_, ?_⟩
    · intro a b
      by_cases hc : (a = i ∧ b = j) ∨ (a = j ∧ b = i)
      · rw [if_pos hc, if_pos (by omega)]
      · rw [if_neg hc, if_neg (by omega), h.symm]
    · intro a ha b hb
      rw [h.val a ha b hb]
      split
      · rename_i hc
        rcases hc with ⟨rfl, rfl⟩ | ⟨rfl, rfl⟩
        · rfl
        · rw [h.symm]
      · rfl

omit [IsOrderedAddMonoid α] in
theorem phase_loop {n k : ℕ} (hk : k < n) (D : ℕ → ℕ → WithTop α) (h0 : D k k = 0) (ps : List (ℕ × ℕ)) :
    ∀ (M : SymMatrix (WithTop α)) (S : ℕ → ℕ → Prop) [∀ a b, Decidable (S a b)] (_ : ∀ a b, S a b ↔ S b a),
      (∀ p ∈ ps, p.1 < n ∧ p.2 < n ∧ ¬ S p.1 p.2) → (ps.Pairwise fun p q => p ≠ q ∧ (p.2, p.1) ≠ q) →
      Repr M n (fun a b => if S a b then min (D a b) (D a k + D k b) else D a b) →
      ∃ M', ps.foldlM (relax k) M = some M' ∧ Repr M' n fun a b =>
        if S a b ∨ (a, b) ∈ ps ∨ (b, a) ∈ ps then min (D a b) (D a k + D k b) else D a b := by
  induction ps with
  | nil =>
    intro M S _ _ _ _ h
    exact ⟨M, rfl, by simpa using h⟩
  | cons p ps ih =>
    obtain ⟨i, j⟩ := p
    intro M S _ hSs hlt hnd h
    obtain ⟨hi, hj, hS⟩ := hlt _ List.mem_cons_self
    obtain ⟨M', hM', h'⟩ := relax_spec h hi hj hk
    have hkr : ∀ a, min (D a k) (D a k + D k k) = D a k := by intro a; simp [h0]
    have hkl : ∀ a, min (D k a) (D k k + D k a) = D k a := by intro a; simp [h0]
    have hrow : ∀ a, (if S a k then min (D a k) (D a k + D k k) else D a k) = D a k := by
      intro a; split
      · exact hkr a
      · rfl
    have hcol : ∀ a, (if S k a then min (D k a) (D k k + D k a) else D k a) = D k a := by
      intro a; split
      · exact hkl a
      · rfl
    rw [List.pairwise_cons] at hnd
    have hDij : D i j = D j i := by
      have := h.symm i j
      rwa [if_neg hS, if_neg (fun hc => hS ((hSs _ _).2 hc))] at this
    have hDk : ∀ a, D a k = D k a := by
      intro a
      have := h.symm a k
      rwa [hrow, hcol] at this
    have key : (fun a b => if (a = i ∧ b = j) ∨ (a = j ∧ b = i) then
        min (if S i j then min (D i j) (D i k + D k j) else D i j)
          ((if S i k then min (D i k) (D i k + D k k) else D i k) +
            (if S k j then min (D k j) (D k k + D k j) else D k j))
        else (if S a b then min (D a b) (D a k + D k b) else D a b)) =
        fun a b => if (S a b ∨ (a, b) = (i, j) ∨ (b, a) = (i, j)) then min (D a b) (D a k + D k b)
          else D a b := by
      funext a b
      rw [hrow, hcol, if_neg hS]
      by_cases hc : (a = i ∧ b = j) ∨ (a = j ∧ b = i)
      · rw [if_pos hc, if_pos (by rcases hc with ⟨rfl, rfl⟩ | ⟨rfl, rfl⟩ <;> simp)]
        rcases hc with ⟨rfl, rfl⟩ | ⟨rfl, rfl⟩
        · rfl
        · rw [hDij, hDk b, ← hDk a, add_comm]
      · rw [if_neg hc]
        have : (S a b ∨ (a, b) = (i, j) ∨ (b, a) = (i, j)) ↔ S a b := by
          simp only [Prod.mk.injEq]; tauto
        simp only [this]
    rw [key] at h'
    obtain ⟨M'', hM'', h''⟩ := ih M' (fun a b => S a b ∨ (a, b) = (i, j) ∨ (b, a) = (i, j))
      (fun a b => by rw [hSs]; tauto) (by
        intro p hp
        obtain ⟨h1, h2, h3⟩ := hlt p (List.mem_cons_of_mem _ hp)
        have := hnd.1 p hp
        refine ⟨h1, h2, ?_⟩
        rintro (h | h | h)
        · exact h3 h
        · exact this.1 h.symm
        · apply this.2
          simp only [Prod.mk.injEq] at h
          exact Prod.ext h.2.symm h.1.symm) hnd.2 h'
    refine ⟨M'', by rw [List.foldlM_cons, hM']; exact hM'', ?_⟩
    have he : ∀ a b, (S a b ∨ (a, b) ∈ (i, j) :: ps ∨ (b, a) ∈ (i, j) :: ps) ↔
        ((S a b ∨ (a, b) = (i, j) ∨ (b, a) = (i, j)) ∨ (a, b) ∈ ps ∨ (b, a) ∈ ps) := by
      intro a b
      simp only [List.mem_cons]
      tauto
    simp only [he]
    exact h''

theorem mem_pairs {n a b : ℕ} : (a, b) ∈ pairs n ↔ a < n ∧ b < n ∧ a < b := by
  simp [pairs]

theorem pairs_pairwise (n : ℕ) : (pairs n).Pairwise fun p q => p ≠ q ∧ (p.2, p.1) ≠ q := by
  have hnd : (pairs n).Nodup := by
    unfold pairs
    rw [List.nodup_flatMap]
    refine ⟨?_, ?_⟩
    · intro i _
      exact (List.nodup_range.filter _).map fun a b h => by simpa using h
    · refine List.nodup_range.imp ?_
      intro a b hab
      simp only [Function.onFun, List.disjoint_left]
      intro p hp hq
      simp only [List.mem_map] at hp hq
      obtain ⟨_, _, rfl⟩ := hp
      obtain ⟨_, _, h⟩ := hq
      exact hab (by simpa using (congrArg Prod.fst h).symm)
  refine List.Pairwise.imp_of_mem (R := (· ≠ ·)) ?_ hnd
  rintro ⟨a, b⟩ ⟨c, d⟩ hp hq hne
  refine ⟨hne, ?_⟩
  rw [mem_pairs] at hp hq
  simp only [ne_eq, Prod.mk.injEq, not_and]
  omega

theorem phase {M : SymMatrix (WithTop α)} {n k : ℕ} (hk : k < n) {D : ℕ → ℕ → WithTop α} (h : Repr M n D)
    (h0 : ∀ i, D i i = 0) (hD : ∀ i j, 0 ≤ D i j) :
    ∃ M', (pairs n).foldlM (relax k) M = some M' ∧
      Repr M' n fun a b => min (D a b) (D a k + D k b) := by
  obtain ⟨M', hM', h'⟩ := phase_loop hk D (h0 k) (pairs n) M (fun _ _ => False) (fun _ _ => Iff.rfl) (by
      rintro ⟨a, b⟩ hp
      rw [mem_pairs] at hp
      exact ⟨hp.1, hp.2.1, fun h => h⟩) (pairs_pairwise n) (by simpa using h)
  refine ⟨M', hM', h'.rows, h'.size, h'.length, ?_, ?_⟩
  · intro a b
    rw [h.symm a b, h.symm a k, h.symm k b, add_comm]
  · intro a ha b hb
    rw [h'.val a ha b hb]
    split
    · rfl
    · rename_i hc
      have : a = b := by
        by_contra hne
        apply hc
        rw [mem_pairs, mem_pairs]
        omega
      subst this
      rw [h0, min_eq_left]
      exact add_nonneg (hD _ _) (hD _ _)

theorem phases {M : SymMatrix (WithTop α)} {n : ℕ} {D : ℕ → ℕ → WithTop α} (h : Repr M n D)
    (h0 : ∀ i, D i i = 0) (hD : ∀ i j, 0 ≤ D i j) (m : ℕ) (hm : m ≤ n) :
    ∃ M', (List.range m).foldlM (fun M k => (pairs n).foldlM (relax k) M) M = some M' ∧
      Repr M' n (dist D m) := by
  induction m with
  | zero => exact ⟨M, rfl, h⟩
  | succ m ih =>
    obtain ⟨M', hM', h'⟩ := ih (by omega)
    obtain ⟨M'', hM'', h''⟩ := phase (show m < n by omega) h' (dist_self hD h0 m) (dist_nonneg hD m)
    refine ⟨M'', ?_, h''⟩
    rw [List.range_succ, List.foldlM_append, hM']
    simpa using hM''

end Abstract

/-! ### Initialisation -/

theorem setAll_spec {β : Type} {n : ℕ} (l : List (ℕ × ℕ × β)) (hl : ∀ e ∈ l, e.1 < n ∧ e.2.1 < n)
    (f : ℕ → ℕ → β) (hf : ∀ a b, f a b = f b a) (hv : ∀ e ∈ l, e.2.2 = f e.1 e.2.1) :
    ∀ (M : SymMatrix β) (D : ℕ → ℕ → β), Repr M n D →
    ∃ M' D', setAll M l = some M' ∧ Repr M' n D' ∧
      ∀ a b, ((∃ x, (a, b, x) ∈ l ∨ (b, a, x) ∈ l) → D' a b = f a b) ∧
        ((D a b = f a b) → D' a b = f a b) := by
  induction l with
  | nil => intro M D h; exact ⟨M, D, rfl, h, fun a b => ⟨by simp, id⟩⟩
  | cons e l ih =>
    obtain ⟨i, j, x⟩ := e
    intro M D h
    obtain ⟨hi, hj⟩ := hl _ List.mem_cons_self
    have hx : x = f i j := hv _ List.mem_cons_self
    obtain ⟨M1, hM1, h1⟩ := h.set hi hj x
    obtain ⟨M', D', hM', h', hs⟩ := ih (fun e he => hl e (List.mem_cons_of_mem _ he))
      (fun e he => hv e (List.mem_cons_of_mem _ he)) M1 _ h1
    refine ⟨M', D', ?_, h', ?_⟩
    · unfold setAll at hM' ⊢
      rw [List.foldlM_cons]
      simp only at hM1 ⊢
      rw [hM1]; exact hM'
    · intro a b
      have hset : (a = i ∧ b = j) ∨ (a = j ∧ b = i) → D' a b = f a b := by
        intro hc
        apply (hs a b).2
        rw [if_pos hc, hx]
        rcases hc with ⟨rfl, rfl⟩ | ⟨rfl, rfl⟩
        · rfl
        · exact hf _ _
      constructor
      · rintro ⟨y, hy⟩
        by_cases hc : (a = i ∧ b = j) ∨ (a = j ∧ b = i)
        · exact hset hc
        · apply (hs a b).1
          refine ⟨y, ?_⟩
          simp only [List.mem_cons, Prod.mk.injEq] at hy
          tauto
      · intro hd
        by_cases hc : (a = i ∧ b = j) ∨ (a = j ∧ b = i)
        · exact hset hc
        · apply (hs a b).2
          rw [if_neg hc, hd]

theorem initial_spec [Zero α] (n : ℕ) : ∃ M : SymMatrix (WithTop α), initial n = some M ∧
    Repr M n fun a b => if a = b then 0 else ⊤ := by
  obtain ⟨M, D, hM, h, hs⟩ := setAll_spec (β := WithTop α) (n := n)
    ((List.range n).flatMap fun i =>
      (i, i, 0) :: ((List.range n).filter fun j => i < j).map fun j => (i, j, ⊤))
    (by
      rintro ⟨a, b, x⟩ he
      simp at he
      show a < n ∧ b < n
      omega)
    (fun a b => if a = b then 0 else ⊤) (by intro a b; simp only [eq_comm])
    (by
      rintro ⟨a, b, x⟩ he
      simp at he
      obtain ⟨h0, h1, h2⟩ := he
      rcases h2 with ⟨h2, h3, h4⟩ | ⟨⟨h2, h3⟩, h4, h5⟩
      · show x = if a = b then _ else _
        rw [if_pos (by omega), h4]
      · show x = if a = b then _ else _
        rw [if_neg (by omega), h5])
    _ _ (repr_ofRows (0 : WithTop α) n (wrap := id) rfl)
  refine ⟨M, hM, h.rows, h.size, h.length, by intro a b; simp only [eq_comm], ?_⟩
  intro a ha b hb
  rw [h.val a ha b hb]
  congr 1
  refine (hs a b).1 ⟨if a = b then 0 else ⊤, ?_⟩
  simp only [List.mem_flatMap, List.mem_range, List.mem_cons, List.mem_map, List.mem_filter, Prod.mk.injEq,
    decide_eq_true_eq]
  rcases lt_trichotomy a b with hlt | rfl | hlt
  · exact Or.inl ⟨a, ha, Or.inr ⟨b, ⟨hb, hlt⟩, rfl, rfl, by rw [if_neg (by omega)]⟩⟩
  · exact Or.inl ⟨a, ha, Or.inl ⟨rfl, rfl, by simp⟩⟩
  · exact Or.inr ⟨b, hb, Or.inr ⟨a, ⟨ha, hlt⟩, rfl, rfl, by rw [if_neg (by omega)]⟩⟩

end Aleph.FloydWarshall
