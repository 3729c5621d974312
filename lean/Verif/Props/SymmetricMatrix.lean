import Verif.Lemmas.SymmetricMatrix

/-!
# C41: symmetric matrices
-/

namespace Aleph

open SymMatrix

variable {β : Type}

/-- Specification: the last value assigned to the unordered pair `{a, b}`, initially `x`. -/
def Spec.lastWrite (a b : ℕ) : β → List (ℕ × ℕ × β) → β
  | x, [] => x
  | x, (i, j, y) :: l => Spec.lastWrite a b (if (i = a ∧ j = b) ∨ (i = b ∧ j = a) then y else x) l

theorem lastWrite_symm (a b : ℕ) (x : β) (l : List (ℕ × ℕ × β)) :
    Spec.lastWrite a b x l = Spec.lastWrite b a x l := by
  induction l generalizing x with
  | nil => rfl
  | cons e l ih =>
    obtain ⟨i, j, y⟩ := e
    simp only [Spec.lastWrite]
    rw [ih]
    simp only [or_comm]

theorem setAll_repr {n : ℕ} (l : List (ℕ × ℕ × β)) (hl : ∀ e ∈ l, e.1 < n ∧ e.2.1 < n) (M : SymMatrix β)
    (D : ℕ → ℕ → β) (h : SymMatrix.Repr M n D) :
    ∃ M', M.setAll l = some M' ∧ SymMatrix.Repr M' n fun a b => Spec.lastWrite a b (D a b) l := by
  induction l generalizing M D with
  | nil => exact ⟨M, rfl, h⟩
  | cons e l ih =>
    obtain ⟨i, j, y⟩ := e
    obtain ⟨hi, hj⟩ := hl _ List.mem_cons_self
    obtain ⟨M1, hM1, h1⟩ := h.set hi hj y
    obtain ⟨M', hM', h'⟩ := ih (fun e he => hl e (List.mem_cons_of_mem _ he)) M1 _ h1
    refine ⟨M', ?_, ?_⟩
    · unfold setAll at hM' ⊢
      rw [List.foldlM_cons]
      simp only at hM1 ⊢
      rw [hM1]; exact hM'
    · convert h' using 3 with a b
      simp only [Spec.lastWrite]
      congr 1
      by_cases hc : (i = a ∧ j = b) ∨ (i = b ∧ j = a)
      · rw [if_pos hc, if_pos (by omega)]
      · rw [if_neg hc, if_neg (by omega)]

/-- C41. A symmetric matrix with `n` rows behaves like a table with one cell per unordered pair of indices below `n`: after
any sequence of assignments to valid entries, none of which throws, reading entry `(a, b)` yields the last value
assigned to `(a, b)` or `(b, a)` (initially the given value).  The index type has to represent the number of cells. -/
theorem C41_symmetric_matrix (wrap : ℕ → ℕ) (zero : β) (n : ℕ) (hw : wrap (n * (n + 1) / 2) = n * (n + 1) / 2)
    (l : List (ℕ × ℕ × β)) (hl : ∀ e ∈ l, e.1 < n ∧ e.2.1 < n) :
    ∃ M, (SymMatrix.ofRows wrap zero n).setAll l = some M ∧ M.shape = (n, n * (n + 1) / 2) ∧
      ∀ a < n, ∀ b < n, M.get a b = some (Spec.lastWrite a b zero l) := by
  obtain ⟨M, hM, h⟩ := setAll_repr l hl _ _ (repr_ofRows zero n hw)
  exact ⟨M, hM, by rw [shape, h.rows, h.size], fun a ha b hb => h.get ha hb⟩

/-- C41. Reading or writing an entry throws exactly if an index is not below `n`. -/
theorem C41_range (wrap : ℕ → ℕ) (zero : β) (n : ℕ) (hw : wrap (n * (n + 1) / 2) = n * (n + 1) / 2)
    (l : List (ℕ × ℕ × β)) (M : SymMatrix β) (hM : (SymMatrix.ofRows wrap zero n).setAll l = some M) (a b : ℕ)
    (x : β) : (M.get a b = none ↔ n ≤ a ∨ n ≤ b) ∧ (M.set a b x = none ↔ n ≤ a ∨ n ≤ b) := by
  have key : ∀ (l : List (ℕ × ℕ × β)) (M0 : SymMatrix β), (∃ D, SymMatrix.Repr M0 n D) → M0.setAll l = some M →
      ∃ D, SymMatrix.Repr M n D := by
    intro l
    induction l with
    | nil => intro M0 h hM; cases hM; exact h
    | cons e l ih =>
      intro M0 ⟨D, h⟩ hM
      unfold setAll at hM
      rw [List.foldlM_cons] at hM
      obtain ⟨M1, hM1, hM2⟩ := Option.bind_eq_some_iff.1 hM
      refine ih M1 ?_ hM2
      by_cases hc : e.1 < n ∧ e.2.1 < n
      · obtain ⟨M1', h1, h2⟩ := h.set hc.1 hc.2 e.2.2
        rw [h1] at hM1
        cases hM1
        exact ⟨_, h2⟩
      · unfold SymMatrix.set at hM1
        rw [h.rows, if_pos (by omega)] at hM1
        cases hM1
  obtain ⟨D, h⟩ := key l _ ⟨_, repr_ofRows zero n hw⟩ hM
  constructor
  · constructor
    · intro hg
      by_contra hc
      push Not at hc
      rw [h.get hc.1 hc.2] at hg
      cases hg
    · exact h.get_none
  · constructor
    · intro hg
      by_contra hc
      push Not at hc
      obtain ⟨M', h1, -⟩ := h.set hc.1 hc.2 x
      rw [h1] at hg
      cases hg
    · intro hc
      unfold SymMatrix.set
      rw [h.rows, if_pos (by omega)]

/-- A concrete case: a matrix with 3 rows, writing an entry twice with swapped indices. -/
example : ((SymMatrix.ofRows id 0 3).setAll [(0, 2, 5), (1, 1, 7), (2, 0, 6)]).map
    (fun M => (M.get 0 2, M.get 2 0, M.get 1 1, M.get 1 2, M.get 0 3)) =
    some (some 6, some 6, some 7, some 0, none) := by decide

/-- C41. The hypothesis on the index type is needed: with 16 bit indices a matrix with 362 rows stores only 167 values, and
the valid entry `(1, 1)` cannot be read. -/
theorem C41_ushort_witness : (SymMatrix.ofRows (· % 65536) 0 362).shape = (362, 167) ∧
    (SymMatrix.ofRows (· % 65536) 0 362).get 1 1 = none := by
  decide +kernel

end Aleph
