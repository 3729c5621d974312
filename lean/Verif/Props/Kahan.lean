import Verif.Model.Kahan
import Mathlib.Algebra.BigOperators.Group.List.Basic
import Mathlib.Tactic.Ring

/-!
# C49: compensated summation
-/

namespace Aleph

variable {α : Type}

/-- Specification: the same operation on a plain number. -/
def Spec.plainStep [Field α] (x : α) : Kahan.Op α → α
  | .add v => x + v
  | .sub v => x - v
  | .mul v => x * v
  | .div v => x / v

theorem kahan_step [Field α] (k : Kahan α) (hk : k.c = 0) (o : Kahan.Op α) :
    (k.step o).c = 0 ∧ (k.step o).sum = Spec.plainStep k.sum o := by
  cases o with
  | add v => exact ⟨by simp [Kahan.step, Kahan.add], by simp [Kahan.step, Kahan.add, hk, Spec.plainStep]⟩
  | sub v =>
    exact ⟨by simp [Kahan.step, Kahan.sub, Kahan.add],
      by simp [Kahan.step, Kahan.sub, Kahan.add, hk, Spec.plainStep, sub_eq_add_neg]⟩
  | mul v => exact ⟨hk, rfl⟩
  | div v => exact ⟨hk, rfl⟩

/-- C49. In exact arithmetic any sequence of `+=`, `-=`, `*=` and `/=` on a compensated sum gives the same value as on a
plain number. -/
theorem C49_history [Field α] (x : α) (ops : List (Kahan.Op α)) :
    (ops.foldl Kahan.step (Kahan.init x)).sum = ops.foldl Spec.plainStep x := by
  have key : ∀ (ops : List (Kahan.Op α)) (k : Kahan α), k.c = 0 →
      (ops.foldl Kahan.step k).sum = ops.foldl Spec.plainStep k.sum := by
    intro ops
    induction ops with
    | nil => intro k _; rfl
    | cons o ops ih =>
      intro k hk
      obtain ⟨h1, h2⟩ := kahan_step k hk o
      rw [List.foldl_cons, List.foldl_cons, ih _ h1, h2]
  exact key ops _ rfl

/-- C49. In exact arithmetic `accumulate_kahan` returns the initial value plus the sum of the range. -/
theorem C49_accumulate [Field α] (l : List α) (x : α) : Kahan.accumulate l x = x + l.sum := by
  have key : ∀ (l : List α) (k : Kahan α), k.c = 0 → (l.foldl Kahan.add k).sum = k.sum + l.sum := by
    intro l
    induction l with
    | nil => intro k _; simp
    | cons v l ih =>
      intro k hk
      obtain ⟨h1, h2⟩ := kahan_step k hk (.add v)
      have h1' : (k.add v).c = 0 := h1
      have h2' : (k.add v).sum = k.sum + v := h2
      rw [List.foldl_cons, ih _ h1', h2', List.sum_cons, add_assoc]
  exact key l _ rfl

/-- C49. In exact arithmetic the sorted variant returns the same value, for every order of the range. -/
theorem C49_accumulate_sorted [Field α] [LinearOrder α] (l l' : List α) (h : l'.Perm l) (x : α) :
    Kahan.accumulateSorted l' x = x + l.sum ∧ Kahan.accumulate l' x = x + l.sum := by
  have h1 := C49_accumulate (l'.insertionSort (· ≤ ·)) x
  rw [((List.perm_insertionSort (· ≤ ·) l').trans h).sum_eq] at h1
  exact ⟨h1, by rw [C49_accumulate, h.sum_eq]⟩

example : Kahan.accumulateSorted [3, 1, 2] (4 : ℚ) = 10 := by
  rw [(C49_accumulate_sorted [3, 1, 2] _ (List.Perm.refl _) (4 : ℚ)).1]
  norm_num

end Aleph
