import Verif.Model.SymmetricMatrix
import Mathlib.Tactic.Ring
import Mathlib.Tactic.Linarith
import Mathlib.Data.Nat.Choose.Sum
import Mathlib.Algebra.BigOperators.Intervals

/-!
# Symmetric matrices
-/

namespace Aleph.SymMatrix

variable {β : Type}

theorem half_mul (n : ℕ) : 2 * (n * (n + 1) / 2) = n * (n + 1) := by
  have : 2 ∣ n * (n + 1) := (Nat.even_mul_succ_self n).two_dvd
  omega

theorem half_succ (n : ℕ) : (n + 1) * (n + 2) / 2 = n * (n + 1) / 2 + (n + 1) := by
  have h1 := half_mul n
  have h2 : 2 * ((n + 1) * (n + 2) / 2) = (n + 1) * (n + 2) := half_mul (n + 1)
  have : (n + 1) * (n + 2) = n * (n + 1) + 2 * (n + 1) := by ring
  omega

/-- Start of a row. -/
theorem row_le {n r : ℕ} (h : r < n) : r * (r + 1) / 2 ≤ r * n := by
  have h1 := half_mul r
  have : r * (r + 1) ≤ r * n := Nat.mul_le_mul_left r h
  omega

/-- Rows follow one another. -/
theorem row_succ {n r : ℕ} (h : r + 1 < n) :
    r * n - r * (r + 1) / 2 + (n - 1) < (r + 1) * n - (r + 1) * (r + 2) / 2 + (r + 1) := by
  have h1 := row_le (n := n) (r := r) (by omega)
  have h2 := row_le (n := n) (r := r + 1) h
  have h3 := half_succ r
  have h4 : (r + 1) * n = r * n + n := by ring
  have h5 : (r + 1) * (r + 1 + 1) = (r + 1) * (r + 2) := rfl
  omega

theorem row_mono {n r r' : ℕ} (hr : r < r') (h : r' < n) :
    r * n - r * (r + 1) / 2 + (n - 1) < r' * n - r' * (r' + 1) / 2 + r' := by
  induction r' with
  | zero => omega
  | succ r' ih =>
    have hs := row_succ (n := n) (r := r') h
    rcases Nat.lt_succ_iff_lt_or_eq.1 hr with h' | rfl
    · have := ih h' (by omega)
      have e : (r' + 1) * (r' + 1 + 1) = (r' + 1) * (r' + 2) := rfl
      omega
    · exact hs

theorem index_lt {n i j : ℕ} (hi : i < n) (hj : j < n) : index n i j < n * (n + 1) / 2 := by
  unfold index
  simp only
  have hr : min i j < n := by omega
  have hc : max i j ≤ n - 1 := by omega
  generalize min i j = r at *
  generalize max i j = c at *
  -- compare with the last entry
  have hlast : (n - 1) * n - (n - 1) * (n - 1 + 1) / 2 + (n - 1) < n * (n + 1) / 2 := by
    obtain ⟨m, rfl⟩ : ∃ m, n = m + 1 := ⟨n - 1, by omega⟩
    have h1 := half_mul m
    have h2 := half_succ m
    have h3 : (m + 1) * (m + 1 + 1) = (m + 1) * (m + 2) := rfl
    have h4 : m * (m + 1) = 2 * (m * (m + 1) / 2) := h1.symm
    simp only [Nat.add_sub_cancel]
    omega
  by_cases h : r = n - 1
  · subst h; omega
  · have := row_mono (n := n) (r := r) (r' := n - 1) (by omega) (by omega)
    omega

/-- Different unordered pairs have different positions. -/
theorem index_inj {n i j i' j' : ℕ} (hi : i < n) (hj : j < n) (hi' : i' < n) (hj' : j' < n)
    (h : index n i j = index n i' j') : min i j = min i' j' ∧ max i j = max i' j' := by
  unfold index at h
  simp only at h
  have h1 : min i j < n := by omega
  have h2 : max i j ≤ n - 1 := by omega
  have h3 : min i' j' < n := by omega
  have h4 : max i' j' ≤ n - 1 := by omega
  have h5 : min i j ≤ max i j := by omega
  have h6 : min i' j' ≤ max i' j' := by omega
  generalize min i j = r at *
  generalize max i j = c at *
  generalize min i' j' = r' at *
  generalize max i' j' = c' at *
  rcases lt_trichotomy r r' with hlt | rfl | hlt
  · have := row_mono (n := n) hlt h3
    omega
  · exact ⟨rfl, by omega⟩
  · have := row_mono (n := n) hlt h1
    omega

/-- The matrix represents the symmetric function `D` on `0, …, n - 1`. -/
structure Repr (M : SymMatrix β) (n : ℕ) (D : ℕ → ℕ → β) : Prop where
  rows : M.numRows = n
  size : M.size = n * (n + 1) / 2
  length : M.data.length = n * (n + 1) / 2
  symm : ∀ i j, D i j = D j i
  val : ∀ i < n, ∀ j < n, M.data[index n i j]? = some (D i j)

theorem Repr.get {M : SymMatrix β} {n : ℕ} {D : ℕ → ℕ → β} (h : Repr M n D) {i j : ℕ} (hi : i < n)
    (hj : j < n) : M.get i j = some (D i j) := by
  unfold SymMatrix.get
  have := index_lt hi hj
  rw [h.rows, h.size, if_neg (by omega), if_neg (by omega), h.val i hi j hj]

theorem Repr.get_none {M : SymMatrix β} {n : ℕ} {D : ℕ → ℕ → β} (h : Repr M n D) {i j : ℕ}
    (hij : n ≤ i ∨ n ≤ j) : M.get i j = none := by
  unfold SymMatrix.get
  rw [h.rows, if_pos (by omega)]

theorem Repr.set {M : SymMatrix β} {n : ℕ} {D : ℕ → ℕ → β} (h : Repr M n D) {i j : ℕ} (hi : i < n)
    (hj : j < n) (x : β) : ∃ M', M.set i j x = some M' ∧
      Repr M' n fun a b => if (a = i ∧ b = j) ∨ (a = j ∧ b = i) then x else D a b := by
  have hlt := index_lt hi hj
  refine ⟨{ M with data := M.data.set (index n i j) x }, ?_, ?_⟩
  · unfold SymMatrix.set
    rw [h.rows, h.size, if_neg (by omega), if_neg (by omega)]
  · refine ⟨h.rows, h.size, by simp [h.length], ?_, ?_⟩
    · intro a b
      by_cases hc : (a = i ∧ b = j) ∨ (a = j ∧ b = i)
      · rw [if_pos hc, if_pos (by omega)]
      · rw [if_neg hc, if_neg (by omega), h.symm]
    · intro a ha b hb
      rw [List.getElem?_set]
      by_cases hc : (a = i ∧ b = j) ∨ (a = j ∧ b = i)
      · have : index n i j = index n a b := by
          unfold index
          rcases hc with ⟨rfl, rfl⟩ | ⟨rfl, rfl⟩
          · rfl
          · rw [min_comm, max_comm]
        rw [if_pos this, if_pos (by rw [h.length]; exact hlt), if_pos hc]
      · have : index n i j ≠ index n a b := by
          intro he
          have := index_inj hi hj ha hb he
          omega
        rw [if_neg this, if_neg hc, h.val a ha b hb]

theorem repr_ofRows (zero : β) (n : ℕ) {wrap : ℕ → ℕ} (hw : wrap (n * (n + 1) / 2) = n * (n + 1) / 2) :
    Repr (ofRows wrap zero n) n fun _ _ => zero := by
  refine ⟨rfl, hw, by simp [ofRows, hw], fun _ _ => rfl, ?_⟩
  intro i hi j hj
  unfold ofRows
  rw [hw]
  simp [index_lt hi hj]

end Aleph.SymMatrix
