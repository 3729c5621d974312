import Verif.Model.Diagram
import Mathlib.Data.Multiset.AddSub
import Mathlib.Order.Basic

/-!
# C39: operations of the container of persistence diagrams
-/

namespace Aleph

variable {α : Type}

open Diagram

/-- C39. `removeDiagonal` keeps, in order and with multiplicity, exactly the points with different
coordinates. -/
theorem C39_removeDiagonal [DecidableEq α] (D : Diagram α) :
    D.removeDiagonal.dimension = D.dimension ∧ D.removeDiagonal.points.Sublist D.points ∧
    ∀ p, D.removeDiagonal.points.count p = if p.1 = p.2 then 0 else D.points.count p := by
  refine ⟨rfl, List.filter_sublist, fun p => ?_⟩
  unfold removeDiagonal
  split
  · next h => rw [List.count_eq_zero, List.mem_filter]; simp [h]
  · next h => rw [List.count_filter (by simp [h])]

/-- C39. `removeUnpaired` keeps exactly the points with a second coordinate different from `inf`. -/
theorem C39_removeUnpaired [DecidableEq α] (inf : α) (D : Diagram α) :
    (D.removeUnpaired inf).dimension = D.dimension ∧ (D.removeUnpaired inf).points.Sublist D.points ∧
    (∀ p, (D.removeUnpaired inf).points.count p = if p.2 = inf then 0 else D.points.count p) ∧
    (D.removeUnpaired inf).betti inf = 0 := by
  refine ⟨rfl, List.filter_sublist, fun p => ?_, ?_⟩
  · unfold removeUnpaired
    split
    · next h => rw [List.count_eq_zero, List.mem_filter]; simp [h, isUnpaired]
    · next h => rw [List.count_filter (by simp [h, isUnpaired])]
  · unfold removeUnpaired betti
    rw [List.countP_eq_zero]
    intro p hp
    simpa using (List.mem_filter.1 hp).2

theorem pointLt_irrefl [LinearOrder α] (p : α × α) : pointLt p p = false := by simp [pointLt]

theorem pointLt_iff [LinearOrder α] (p q : α × α) :
    pointLt p q = true ↔ p.1 < q.1 ∨ (p.1 = q.1 ∧ p.2 < q.2) := by
  unfold pointLt
  split
  · next h => simp [h]
  · next h => simp [h]

theorem mem_setInsert [LinearOrder α] (p : α × α) (l : List (α × α)) (x : α × α) :
    x ∈ setInsert p l ↔ x = p ∨ x ∈ l := by
  induction l with
  | nil => simp [setInsert]
  | cons q l ih =>
    unfold setInsert
    split
    · simp
    · next h1 =>
      split
      · rw [List.mem_cons, ih, List.mem_cons]; tauto
      · next h2 =>
        rw [pointLt_iff] at h1 h2
        push Not at h1 h2
        have e1 : p.1 = q.1 := le_antisymm h2.1 h1.1
        have e2 : p.2 = q.2 := le_antisymm (h2.2 e1.symm) (h1.2 e1)
        have : p = q := Prod.ext e1 e2
        subst this; simp

theorem setInsert_sorted [LinearOrder α] (p : α × α) {l : List (α × α)}
    (h : l.Pairwise fun a b => pointLt a b = true) :
    (setInsert p l).Pairwise fun a b => pointLt a b = true := by
  induction l with
  | nil => simp [setInsert]
  | cons q l ih =>
    obtain ⟨h1, h2⟩ := List.pairwise_cons.1 h
    unfold setInsert
    split
    · next hp =>
      refine List.pairwise_cons.2 ⟨?_, h⟩
      intro b hb
      rcases List.mem_cons.1 hb with rfl | hb
      · exact hp
      · have := h1 b hb
        rw [pointLt_iff] at this hp ⊢
        rcases this with h | ⟨h, h'⟩ <;> rcases hp with g | ⟨g, g'⟩
        · exact Or.inl (lt_trans g h)
        · exact Or.inl (g ▸ h)
        · exact Or.inl (h ▸ g)
        · exact Or.inr ⟨g.trans h, lt_trans g' h'⟩
    · split
      · next hq =>
        refine List.pairwise_cons.2 ⟨?_, ih h2⟩
        intro b hb
        rcases (mem_setInsert p l b).1 hb with rfl | hb
        · exact hq
        · exact h1 b hb
      · exact h

/-- C39. `removeDuplicates` keeps exactly one copy of each point and sorts the points
lexicographically. -/
theorem C39_removeDuplicates [LinearOrder α] (D : Diagram α) :
    D.removeDuplicates.dimension = D.dimension ∧ D.removeDuplicates.points.Nodup ∧
    (∀ p, p ∈ D.removeDuplicates.points ↔ p ∈ D.points) ∧
    D.removeDuplicates.points.Pairwise fun p q => p.1 < q.1 ∨ (p.1 = q.1 ∧ p.2 < q.2) := by
  have key : ∀ (l acc : List (α × α)), acc.Pairwise (fun a b => pointLt a b = true) →
      (l.foldl (fun l p => setInsert p l) acc).Pairwise (fun a b => pointLt a b = true) ∧
      ∀ p, p ∈ l.foldl (fun l p => setInsert p l) acc ↔ p ∈ acc ∨ p ∈ l := by
    intro l
    induction l with
    | nil => intro acc h; exact ⟨h, by simp⟩
    | cons q l ih =>
      intro acc h
      obtain ⟨i1, i2⟩ := ih (setInsert q acc) (setInsert_sorted q h)
      refine ⟨i1, fun p => ?_⟩
      rw [List.foldl_cons, i2, mem_setInsert, List.mem_cons]; tauto
  obtain ⟨h1, h2⟩ := key D.points [] List.Pairwise.nil
  refine ⟨rfl, ?_, fun p => by rw [removeDuplicates, h2]; simp, h1.imp fun h => (pointLt_iff _ _).1 h⟩
  refine h1.imp fun {a b} h => ?_
  rintro rfl
  rw [pointLt_irrefl] at h
  cases h

/-- C39. `merge` is the union of multisets, keeping the order within both diagrams and the dimension of the first. -/
theorem C39_merge (D E : Diagram α) :
    (D.merge E).dimension = D.dimension ∧
      (↑(D.merge E).points : Multiset (α × α)) = ↑D.points + ↑E.points ∧
      D.points.Sublist (D.merge E).points ∧ E.points.Sublist (D.merge E).points :=
  ⟨rfl, by simp [merge], List.sublist_append_left _ _, List.sublist_append_right _ _⟩

/-- C39. `add` appends one point; one-argument `add` appends an unpaired point. -/
theorem C39_add [DecidableEq α] (inf : α) (D : Diagram α) (x y : α) (q : α × α) :
    (D.add x y).points.count q = D.points.count q + (if q = (x, y) then 1 else 0) ∧
    (D.addUnpaired inf x).points.count q = D.points.count q + (if q = (x, inf) then 1 else 0) ∧
    (D.addUnpaired inf x).betti inf = D.betti inf + 1 ∧
    (D.add x y).betti inf = D.betti inf + (if y = inf then 1 else 0) := by
  refine ⟨?_, ?_, ?_, ?_⟩
  · rw [add, List.count_append, List.count_singleton]; simp only [beq_iff_eq, eq_comm (a := (x, y))]
  · rw [addUnpaired, List.count_append, List.count_singleton]; simp only [beq_iff_eq, eq_comm (a := (x, inf))]
  · simp [betti, addUnpaired, List.countP_append, isUnpaired]
  · simp [betti, add, List.countP_append, isUnpaired, List.countP_cons]

/-- C39. `betti` counts the unpaired points, with multiplicity, and is additive under `merge`. -/
theorem C39_betti [DecidableEq α] (inf : α) (D E : Diagram α) :
    D.betti inf = (D.points.filter fun p => p.2 = inf).length ∧
    (D.merge E).betti inf = D.betti inf + E.betti inf := by
  constructor
  · unfold betti; rw [List.countP_eq_length_filter]; rfl
  · simp [betti, merge, List.countP_append]

/-- C39. Equality of diagrams compares the sequences of points: the stored dimension is ignored, the
order of the points is not. -/
theorem C39_equality [DecidableEq α] (D E : Diagram α) :
    D.eq E = true ↔ ∀ i : ℕ, D.points[i]? = E.points[i]? := by
  unfold Diagram.eq
  rw [beq_iff_eq, List.ext_getElem?_iff]

/-- C39. Hence diagrams of different dimension can be equal, and permuted diagrams can be different. -/
theorem C39_equality_witness :
    Diagram.eq (⟨0, [(1, 2)]⟩ : Diagram ℕ) ⟨1, [(1, 2)]⟩ = true ∧
    Diagram.eq (⟨0, [(1, 2), (3, 4)]⟩ : Diagram ℕ) ⟨0, [(3, 4), (1, 2)]⟩ = false := by decide

/-- C39. `insert` and `erase` at a valid position change exactly that position. -/
theorem C39_insert_erase (D : Diagram α) (i : ℕ) :
    (∀ l E, D.insert i l = some E → E.dimension = D.dimension ∧
      E.points = D.points.take i ++ l ++ D.points.drop i) ∧
    (∀ E, D.erase i = some E → E.dimension = D.dimension ∧
      E.points = D.points.take i ++ D.points.drop (i + 1)) ∧
    (∀ x E, D.insert i [x] = some E → E.erase i = some D) := by
  have herase : ∀ (D E : Diagram α), D.erase i = some E → E.dimension = D.dimension ∧
      E.points = D.points.take i ++ D.points.drop (i + 1) := by
    intro D E h
    unfold Diagram.erase at h
    split at h
    · cases h; exact ⟨rfl, by simp [List.eraseIdx_eq_take_drop_succ]⟩
    · cases h
  refine ⟨?_, herase D, ?_⟩
  · intro l E h
    unfold Diagram.insert at h
    split at h
    · cases h; exact ⟨rfl, rfl⟩
    · cases h
  · intro x E h
    unfold Diagram.insert at h
    split at h
    · next hi =>
      cases h
      unfold Diagram.erase
      rw [if_pos (by simp; omega)]
      congr 1
      cases D with
      | mk d pts =>
        simp only [Diagram.mk.injEq, true_and]
        have hl : (pts.take i).length = i := by simpa using hi
        rw [List.eraseIdx_eq_take_drop_succ]
        simp only [List.append_assoc, List.singleton_append]
        rw [List.take_append_of_le_length (by omega), List.take_of_length_le (by omega),
          List.drop_append, hl, List.drop_eq_nil_of_le (by omega)]
        have : i + 1 - i = 1 := by omega
        simp [this]
    · cases h

/-- A diagram with a repeated point, a diagonal point and an unpaired point. -/
def sampleDiagram : Diagram ℕ := ⟨1, [(2, 3), (1, 1), (2, 3), (0, 9)]⟩

example : sampleDiagram.removeDiagonal.points = [(2, 3), (2, 3), (0, 9)] ∧
    (sampleDiagram.removeUnpaired 9).points = [(2, 3), (1, 1), (2, 3)] ∧
    sampleDiagram.removeDuplicates.points = [(0, 9), (1, 1), (2, 3)] ∧ sampleDiagram.betti 9 = 1 ∧
    sampleDiagram.insert 1 [(7, 8)] = some ⟨1, [(2, 3), (7, 8), (1, 1), (2, 3), (0, 9)]⟩ := by decide

end Aleph
