import Verif.Model.Hdf5
import Verif.Spec.Hdf5
import Verif.Props.MatrixReader
import Mathlib.Algebra.BigOperators.Intervals
import Mathlib.Algebra.BigOperators.Ring.Finset

/-!
# C146: scalar fields in HDF5 files
-/

namespace Aleph.Hdf5

open Finset Spec Spec.Hdf5

variable {α : Type}

open MatrixReader (desc2 desc3 code_inj)

/-- The index of a position in the row above. -/
theorem index_succ (w k x : ℕ) : (k + 1) * w + x = k * w + x + w := by rw [Nat.add_mul]; omega

theorem filter_if {c : Prop} [Decidable c] (p : ℕ → Bool) (a : ℕ) (h : c → p a = true) : (if c then [a] else []).filter p = if c then [a] else [] := by
  split_ifs with hc
  · simp [h hc]
  · rfl

theorem filter_if_not {c : Prop} [Decidable c] (p : ℕ → Bool) (a : ℕ) (h : c → p a = false) : (if c then [a] else []).filter p = [] := by
  split_ifs with hc
  · simp [h hc]
  · rfl

theorem filter_neighbours (w h x y : ℕ) (hx : x < w) : (neighbours w h x y).filter (fun v => coordinatesToIndex w x y > v) =
    (if x > 0 then [y * w + x - 1] else []) ++ (if y > 0 then [y * w + x - w] else []) ++ (if x < w - 1 ∧ y > 0 then [y * w + x - w + 1] else []) := by
  unfold neighbours coordinatesToIndex
  simp only [List.filter_append]
  rw [filter_if _ _ fun h => by simp; omega, filter_if_not _ (y * w + (x + 1)) fun h => by simp, filter_if _ ((y - 1) * w + x), filter_if_not _ ((y + 1) * w + x), filter_if _ ((y - 1) * w + (x + 1))]
  · cases y with
    | zero => simp
    | succ k =>
      simp only [Nat.add_sub_cancel, index_succ]
      simp only [List.append_nil]
      congr 1
      congr 1
      split_ifs
      · congr 1; omega
      · rfl
  · rintro ⟨h1, h2⟩
    obtain ⟨k, rfl⟩ : ∃ k, y = k + 1 := ⟨y - 1, by omega⟩
    simp only [Nat.add_sub_cancel, index_succ]
    simp; omega
  · intro _
    rw [index_succ]
    simp
  · intro h
    obtain ⟨k, rfl⟩ : ∃ k, y = k + 1 := ⟨y - 1, by omega⟩
    simp only [Nat.add_sub_cancel, index_succ]
    simp; omega

/-- The simplices that are created in an iteration of the loops. -/
def cellList (f : α → α → α) (v : ℕ → α) (w x y : ℕ) : List (Simplex α) :=
  let i := y * w + x
  (if x > 0 then [⟨[i, i - 1], f (v i) (v (i - 1))⟩] else []) ++
  (if y > 0 then [⟨[i, i - w], f (v i) (v (i - w))⟩] else []) ++
  (if x < w - 1 ∧ y > 0 then [⟨[i, i - w + 1], f (v i) (v (i - w + 1))⟩] else []) ++
  (if x < w - 1 ∧ y > 0 then [⟨[i + 1, i, i - w + 1], f (v i) (f (v (i - w + 1)) (v (i + 1)))⟩, ⟨[i, i - w + 1, i - w], f (v i) (f (v (i - w)) (v (i - w + 1)))⟩] else [])

theorem desc2' {u t : ℕ} (h : u < t) (d : α) : Simplex.ofRange [t, u] d = ⟨[t, u], d⟩ := by
  have : ([t, u].insertionSort (· ≥ ·)) = [t, u] := by
    simp [List.insertionSort, List.orderedInsert, h.le]
  simp only [Simplex.ofRange, this]
  simp [uniq, Nat.ne_of_gt h]

theorem desc_lower {a b c : ℕ} (h : a < b) (h' : b < c) (d : α) : Simplex.ofRange [b, a, c] d = ⟨[c, b, a], d⟩ := by
  have : ([b, a, c].insertionSort (· ≥ ·)) = [c, b, a] := by
    simp [List.insertionSort, List.orderedInsert, Nat.not_le.2 h', h.le, Nat.not_le.2 (h.trans h')]
  simp only [Simplex.ofRange, this]
  simp [uniq, Nat.ne_of_gt h, Nat.ne_of_gt h']

theorem desc_upper {a b c : ℕ} (h : a < b) (h' : b < c) (d : α) : Simplex.ofRange [c, a, b] d = ⟨[c, b, a], d⟩ := by
  have : ([c, a, b].insertionSort (· ≥ ·)) = [c, b, a] := by
    simp [List.insertionSort, List.orderedInsert, Nat.not_le.2 h, h'.le]
  simp only [Simplex.ofRange, this]
  simp [uniq, Nat.ne_of_gt h, Nat.ne_of_gt h']

theorem index_lt {w h x y : ℕ} (hx : x < w) (hy : y < h) : y * w + x < w * h := by
  have : (y + 1) * w ≤ h * w := Nat.mul_le_mul_right w hy
  rw [Nat.add_mul, Nat.mul_comm h w] at this
  omega

theorem edge_eq (d : α) (f : α → α → α) (data : List α) {u t : ℕ} (hut : u < t) (ht : t < data.length) :
    edge f data t u = some ⟨[t, u], f (data.getD t d) (data.getD u d)⟩ := by
  have hget : ∀ i < data.length, data[i]? = some (data.getD i d) := by
    intro i hi; simp [List.getD_eq_getElem?_getD, List.getElem?_eq_getElem hi]
  rw [edge, hget u (by omega), hget t ht]
  simp only [Option.bind_eq_bind, Option.bind_some, desc2' hut]

theorem mapM_if {β γ : Type} {c : Prop} [Decidable c] (g : β → Option γ) (a : β) (b : γ) (h : c → g a = some b) : (if c then [a] else []).mapM g = some (if c then [b] else []) := by
  split_ifs with hc
  · simp [h hc]
  · rfl

theorem cell_eq (f : α → α → α) (d : α) (data : List α) {w h x y : ℕ} (hl : data.length = w * h) (hx : x < w) (hy : y < h) :
    cell f data w h x y = some (cellList f (fun i => data.getD i d) w x y) := by
  have hget : ∀ i < data.length, data[i]? = some (data.getD i d) := by
    intro i hi; simp [List.getD_eq_getElem?_getD, List.getElem?_eq_getElem hi]
  have hi := index_lt hx hy
  rw [cell, filter_neighbours w h x y hx, List.mapM_append, List.mapM_append]
  rw [mapM_if _ _ ⟨[y * w + x, y * w + x - 1], f (data.getD (y * w + x) d) (data.getD (y * w + x - 1) d)⟩,
    mapM_if _ _ ⟨[y * w + x, y * w + x - w], f (data.getD (y * w + x) d) (data.getD (y * w + x - w) d)⟩,
    mapM_if _ _ ⟨[y * w + x, y * w + x - w + 1], f (data.getD (y * w + x) d) (data.getD (y * w + x - w + 1) d)⟩]
  · have ht : (if x < w - 1 ∧ y > 0 then triangles f data (coordinatesToIndex w x y) (coordinatesToIndex w x (y - 1)) (coordinatesToIndex w (x + 1) y) (coordinatesToIndex w (x + 1) (y - 1)) else some []) =
        some (if x < w - 1 ∧ y > 0 then [⟨[y * w + x + 1, y * w + x, y * w + x - w + 1], f (data.getD (y * w + x) d) (f (data.getD (y * w + x - w + 1) d) (data.getD (y * w + x + 1) d))⟩,
          ⟨[y * w + x, y * w + x - w + 1, y * w + x - w], f (data.getD (y * w + x) d) (f (data.getD (y * w + x - w) d) (data.getD (y * w + x - w + 1) d))⟩] else []) := by
      split_ifs with hc
      · obtain ⟨k, rfl⟩ : ∃ k, y = k + 1 := ⟨y - 1, by omega⟩
        have hi' := index_lt (x := x + 1) (by omega : x + 1 < w) hy
        simp only [coordinatesToIndex, Nat.add_sub_cancel, index_succ] at hi hi' ⊢
        rw [show k * w + (x + 1) + w = k * w + x + w + 1 by omega, show k * w + (x + 1) = k * w + x + 1 by omega] at *
        rw [triangles, hget _ (by omega), hget _ (by omega), hget _ (by omega), hget _ (by omega)]
        simp only [Option.bind_eq_bind, Option.bind_some, Nat.add_sub_cancel]
        rw [desc_lower (by omega) (by omega), desc_upper (by omega) (by omega)]
      · rfl
    by_cases hc : x < w - 1 ∧ y > 0
    · simp only [if_pos hc] at ht
      simp only [Option.bind_eq_bind, Option.bind_some, if_pos hc, ht, Option.pure_def, cellList, List.append_assoc]
    · simp only [Option.bind_eq_bind, Option.bind_some, if_neg hc, Option.pure_def, cellList, List.append_assoc]
  · rintro ⟨h1, h2⟩
    obtain ⟨k, rfl⟩ : ∃ k, y = k + 1 := ⟨y - 1, by omega⟩
    simp only [index_succ, coordinatesToIndex] at hi ⊢
    exact edge_eq d f data (by omega) (by omega)
  · intro h2
    obtain ⟨k, rfl⟩ : ∃ k, y = k + 1 := ⟨y - 1, by omega⟩
    simp only [index_succ, coordinatesToIndex] at hi ⊢
    exact edge_eq d f data (by omega) (by omega)
  · intro h1
    simp only [coordinatesToIndex] at hi ⊢
    exact edge_eq d f data (by omega) (by omega)

/-- All simplices of a field. -/
def allList (f : α → α → α) (v : ℕ → α) (w h : ℕ) : List (Simplex α) :=
  ((List.range (w * h)).map fun i => ⟨[i], v i⟩) ++ (List.range h).flatMap fun y => (List.range w).flatMap fun x => cellList f v w x y

theorem simplices_eq (f : α → α → α) (d : α) (data : List α) {w h : ℕ} (hl : data.length = w * h) :
    simplices f data w h = some (allList f (fun i => data.getD i d) w h) := by
  have h1 : ((List.range (w * h)).mapM fun i => (data[i]?).map fun a => Simplex.ofVertex i a) = some ((List.range (w * h)).map fun i => ⟨[i], data.getD i d⟩) := by
    refine mapM_some_map fun i hi => ?_
    rw [List.mem_range] at hi
    have hi' : i < data.length := by omega
    simp [List.getD_eq_getElem?_getD, List.getElem?_eq_getElem hi', Simplex.ofVertex]
  have h2 : ((List.range h).mapM fun y => (List.range w).mapM fun x => cell f data w h x y) =
      some ((List.range h).map fun y => (List.range w).map fun x => cellList f (fun i => data.getD i d) w x y) := by
    refine mapM_some_map fun y hy => mapM_some_map fun x hx => ?_
    exact cell_eq f d data hl (List.mem_range.1 hx) (List.mem_range.1 hy)
  rw [simplices, h1, h2]
  simp only [Option.bind_eq_bind, Option.bind_some, allList, List.flatMap]
  congr 2
  rw [List.flatten_flatten, List.map_map]
  rfl

theorem mem_cellList {f : α → α → α} {v : ℕ → α} {w x y : ℕ} {s : Simplex α} : s ∈ cellList f v w x y ↔
    (x > 0 ∧ s = ⟨[y * w + x, y * w + x - 1], f (v (y * w + x)) (v (y * w + x - 1))⟩) ∨
    (y > 0 ∧ s = ⟨[y * w + x, y * w + x - w], f (v (y * w + x)) (v (y * w + x - w))⟩) ∨
    ((x < w - 1 ∧ y > 0) ∧ s = ⟨[y * w + x, y * w + x - w + 1], f (v (y * w + x)) (v (y * w + x - w + 1))⟩) ∨
    ((x < w - 1 ∧ y > 0) ∧ s = ⟨[y * w + x + 1, y * w + x, y * w + x - w + 1], f (v (y * w + x)) (f (v (y * w + x - w + 1)) (v (y * w + x + 1)))⟩) ∨
    ((x < w - 1 ∧ y > 0) ∧ s = ⟨[y * w + x, y * w + x - w + 1, y * w + x - w], f (v (y * w + x)) (f (v (y * w + x - w)) (v (y * w + x - w + 1)))⟩) := by
  simp only [cellList, List.mem_append, List.mem_ite_nil_right, List.mem_singleton, List.mem_cons, List.not_mem_nil, or_false]
  tauto

theorem allList_mem {f : α → α → α} {v : ℕ → α} {w h : ℕ} {s : Simplex α} : s ∈ allList f v w h ↔ (∃ i < w * h, s = ⟨[i], v i⟩) ∨ ∃ y < h, ∃ x < w, s ∈ cellList f v w x y := by
  simp only [allList, List.mem_append, List.mem_map, List.mem_range, List.mem_flatMap, eq_comm]

theorem cell_cases {w x y : ℕ} (hx : x < w) : (y = 0 ∨ ∃ k, y = k + 1 ∧ y * w + x = k * w + x + w) := by
  cases y with
  | zero => exact Or.inl rfl
  | succ k => exact Or.inr ⟨k, rfl, index_succ w k x⟩

theorem cellList_nodup (f : α → α → α) (v : ℕ → α) {w x y : ℕ} (hx : x < w) : ((cellList f v w x y).map (·.vertices)).Nodup := by
  unfold cellList
  rcases cell_cases (y := y) hx with rfl | ⟨k, rfl, e⟩
  · by_cases h : x > 0 <;> simp [h]
  · simp only [e]
    by_cases h1 : x > 0 <;> by_cases h2 : x < w - 1 <;> simp [h1, h2] <;> omega

theorem cellList_disjoint (f : α → α → α) (v : ℕ → α) {w x y x' y' : ℕ} (hx : x < w) (hx' : x' < w) {s s' : Simplex α} (hs : s ∈ cellList f v w x y) (hs' : s' ∈ cellList f v w x' y')
    (he : s.vertices = s'.vertices) : x = x' ∧ y = y' := by
  have hinj : ∀ a a' b b', a < w → a' < w → b * w + a = b' * w + a' → b = b' ∧ a = a' := by
    intro a a' b b' h h' e
    rw [Nat.mul_comm b, Nat.mul_comm b'] at e
    exact code_inj h h' e
  have key : y * w + x = y' * w + x' → x = x' ∧ y = y' := fun h => (hinj _ _ _ _ hx hx' h).symm
  rw [mem_cellList] at hs hs'
  rcases hs with ⟨c, rfl⟩ | ⟨c, rfl⟩ | ⟨c, rfl⟩ | ⟨c, rfl⟩ | ⟨c, rfl⟩ <;> rcases hs' with ⟨c', rfl⟩ | ⟨c', rfl⟩ | ⟨c', rfl⟩ | ⟨c', rfl⟩ | ⟨c', rfl⟩ <;>
    simp only [List.cons.injEq, reduceCtorEq, and_false, and_true, List.cons_ne_nil, false_and] at he
  all_goals first | exact key he.1 | exact key (by omega) | skip
  · obtain ⟨k, rfl⟩ : ∃ k, y = k + 1 := ⟨y - 1, by omega⟩
    obtain ⟨k', rfl⟩ : ∃ k, y' = k + 1 := ⟨y' - 1, by omega⟩
    rw [index_succ, index_succ] at he
    have := hinj (x + 1) x' k k' (by omega) (by omega) (by omega)
    omega
  · obtain ⟨k, rfl⟩ : ∃ k, y = k + 1 := ⟨y - 1, by omega⟩
    obtain ⟨k', rfl⟩ : ∃ k, y' = k + 1 := ⟨y' - 1, by omega⟩
    rw [index_succ, index_succ] at he
    have := hinj x (x' + 1) k k' (by omega) (by omega) (by omega)
    omega

theorem cellList_length {f : α → α → α} {v : ℕ → α} {w x y : ℕ} {s : Simplex α} (hs : s ∈ cellList f v w x y) : 2 ≤ s.vertices.length := by
  rw [mem_cellList] at hs
  rcases hs with ⟨c, rfl⟩ | ⟨c, rfl⟩ | ⟨c, rfl⟩ | ⟨c, rfl⟩ | ⟨c, rfl⟩ <;> simp

theorem allList_nodup (f : α → α → α) (v : ℕ → α) (w h : ℕ) : ((allList f v w h).map (·.vertices)).Nodup := by
  rw [allList, List.map_append, List.nodup_append]
  refine ⟨?_, ?_, ?_⟩
  · rw [List.map_map]
    exact List.nodup_range.map fun a b h => by simpa using h
  · rw [List.map_flatMap, List.nodup_flatMap]
    constructor
    · intro y _
      rw [List.map_flatMap, List.nodup_flatMap]
      constructor
      · intro x hx
        exact cellList_nodup f v (List.mem_range.1 hx)
      · refine List.nodup_range.pairwise_of_forall_ne ?_
        intro x hx x' hx' hne
        simp only [Function.onFun, List.disjoint_left, List.mem_map]
        rintro vs ⟨s, hs, rfl⟩ ⟨s', hs', he⟩
        exact hne (cellList_disjoint f v (List.mem_range.1 hx) (List.mem_range.1 hx') hs hs' he.symm).1
    · refine List.nodup_range.pairwise_of_forall_ne ?_
      intro y hy y' hy' hne
      simp only [Function.onFun, List.disjoint_left, List.mem_map, List.mem_flatMap, List.mem_range]
      rintro vs ⟨s, ⟨x, hx, hs⟩, rfl⟩ ⟨s', ⟨x', hx', hs'⟩, he⟩
      exact hne (cellList_disjoint f v hx hx' hs hs' he.symm).2
  · intro vs h1 vs' h2 he
    subst he
    rw [List.mem_map] at h1 h2
    obtain ⟨s, hs, rfl⟩ := h1
    obtain ⟨i, _, rfl⟩ := List.mem_map.1 hs
    obtain ⟨s', hs', he⟩ := h2
    obtain ⟨y, _, hs'⟩ := List.mem_flatMap.1 hs'
    obtain ⟨x, _, hs'⟩ := List.mem_flatMap.1 hs'
    have := cellList_length hs'
    rw [he] at this
    simp at this

theorem allList_normal {f : α → α → α} {v : ℕ → α} {w h : ℕ} {s : Simplex α} (hs : s ∈ allList f v w h) : Normal s.vertices ∧ s.vertices ≠ [] := by
  rw [allList_mem] at hs
  unfold Normal
  rcases hs with ⟨i, _, rfl⟩ | ⟨y, _, x, hx, hs⟩
  · simp
  · rw [mem_cellList] at hs
    rcases cell_cases (y := y) hx with rfl | ⟨k, rfl, e⟩
    · rcases hs with ⟨c, rfl⟩ | ⟨c, rfl⟩ | ⟨c, rfl⟩ | ⟨c, rfl⟩ | ⟨c, rfl⟩ <;> simp at c ⊢ <;> omega
    · rw [e] at hs
      rcases hs with ⟨c, rfl⟩ | ⟨c, rfl⟩ | ⟨c, rfl⟩ | ⟨c, rfl⟩ | ⟨c, rfl⟩ <;> simp <;> omega

theorem allList_wf (f : α → α → α) (v : ℕ → α) (w h : ℕ) : WF (allList f v w h) :=
  ⟨fun _ hs => (allList_normal hs).1, fun _ hs => (allList_normal hs).2, allList_nodup f v w h⟩

theorem at_iff (d : α) (data : List α) {w h : ℕ} (hl : data.length = w * h) (x y : ℕ) (a : α) : At w data x y a ↔ x < w ∧ y < h ∧ a = data.getD (y * w + x) d := by
  constructor
  · rintro ⟨h1, h2⟩
    obtain ⟨h3, rfl⟩ := List.getElem?_eq_some_iff.1 h2
    refine ⟨h1, ?_, by simp [List.getD_eq_getElem?_getD, List.getElem?_eq_getElem h3]⟩
    by_contra hy
    have : h * w ≤ y * w := Nat.mul_le_mul_right w (by omega)
    rw [Nat.mul_comm h w] at this
    omega
  · rintro ⟨h1, h2, rfl⟩
    have := index_lt h1 h2
    have h3 : y * w + x < data.length := by omega
    exact ⟨h1, by simp [List.getD_eq_getElem?_getD, List.getElem?_eq_getElem h3]⟩

theorem allList_data (f : α → α → α) (d : α) (data : List α) {w h : ℕ} (hl : data.length = w * h) (t : Finset ℕ) (a : α) :
    HasData (allList f (fun i => data.getD i d) w h) t a ↔ FieldData f w data t a := by
  have hat := at_iff d data hl
  constructor
  · rintro ⟨s, hs, rfl, rfl⟩
    rcases allList_mem.1 hs with ⟨i, hi, rfl⟩ | ⟨y, hy, x, hx, hs⟩
    · have hw : 0 < w := Nat.pos_of_ne_zero fun h => by simp [h] at hi
      have e : i / w * w + i % w = i := by rw [Nat.mul_comm]; exact Nat.div_add_mod i w
      have := FieldData.vertex (f := f) (i % w) (i / w) _ ((hat (i % w) (i / w) _).2 ⟨Nat.mod_lt _ hw, Nat.div_lt_of_lt_mul hi, rfl⟩)
      rw [e] at this
      simpa [Simplex.vset] using this
    · rw [mem_cellList] at hs
      rcases hs with ⟨c, rfl⟩ | ⟨c, rfl⟩ | ⟨c, rfl⟩ | ⟨c, rfl⟩ | ⟨c, rfl⟩
      · obtain ⟨x, rfl⟩ : ∃ k, x = k + 1 := ⟨x - 1, by omega⟩
        have := FieldData.right (f := f) x y _ _ ((hat x y _).2 ⟨by omega, hy, rfl⟩) ((hat (x + 1) y _).2 ⟨hx, hy, rfl⟩)
        rw [Finset.pair_comm] at this
        simpa [Simplex.vset, ← Nat.add_assoc] using this
      · obtain ⟨y, rfl⟩ : ∃ k, y = k + 1 := ⟨y - 1, by omega⟩
        have := FieldData.down (f := f) x y _ _ ((hat x y _).2 ⟨hx, by omega, rfl⟩) ((hat x (y + 1) _).2 ⟨hx, hy, rfl⟩)
        rw [Finset.pair_comm] at this
        simpa [Simplex.vset, index_succ] using this
      · obtain ⟨y, rfl⟩ : ∃ k, y = k + 1 := ⟨y - 1, by omega⟩
        have := FieldData.diagonal (f := f) x y _ _ ((hat (x + 1) y _).2 ⟨by omega, by omega, rfl⟩) ((hat x (y + 1) _).2 ⟨hx, hy, rfl⟩)
        rw [Finset.pair_comm] at this
        simpa [Simplex.vset, index_succ, ← Nat.add_assoc] using this
      · obtain ⟨y, rfl⟩ : ∃ k, y = k + 1 := ⟨y - 1, by omega⟩
        have := FieldData.lower (f := f) x y _ _ _ ((hat (x + 1) y _).2 ⟨by omega, by omega, rfl⟩) ((hat x (y + 1) _).2 ⟨hx, hy, rfl⟩) ((hat (x + 1) (y + 1) _).2 ⟨by omega, hy, rfl⟩)
        have e : ({(y + 1) * w + x + 1, (y + 1) * w + x, (y + 1) * w + x - w + 1} : Finset ℕ) = {y * w + (x + 1), (y + 1) * w + x, (y + 1) * w + (x + 1)} := by
          rw [index_succ, index_succ, Nat.add_sub_cancel]
          ext i
          simp only [Finset.mem_insert, Finset.mem_singleton]
          omega
        have e2 : (y + 1) * w + x - w + 1 = y * w + (x + 1) := by rw [index_succ]; omega
        convert this using 1
        · simp only [Simplex.vset, List.toFinset_cons, List.toFinset_nil, insert_empty_eq]
          exact e
        · simp only [e2]
          rfl
      · obtain ⟨y, rfl⟩ : ∃ k, y = k + 1 := ⟨y - 1, by omega⟩
        have := FieldData.upper (f := f) x y _ _ _ ((hat x y _).2 ⟨hx, by omega, rfl⟩) ((hat (x + 1) y _).2 ⟨by omega, by omega, rfl⟩) ((hat x (y + 1) _).2 ⟨hx, hy, rfl⟩)
        have e : ({(y + 1) * w + x, (y + 1) * w + x - w + 1, (y + 1) * w + x - w} : Finset ℕ) = {y * w + x, y * w + (x + 1), (y + 1) * w + x} := by
          rw [index_succ, Nat.add_sub_cancel]
          ext i
          simp only [Finset.mem_insert, Finset.mem_singleton]
          omega
        have e2 : (y + 1) * w + x - w + 1 = y * w + (x + 1) := by rw [index_succ]; omega
        have e3 : (y + 1) * w + x - w = y * w + x := by rw [index_succ]; omega
        convert this using 1
        · simp only [Simplex.vset, List.toFinset_cons, List.toFinset_nil, insert_empty_eq]
          exact e
        · simp only
          rw [e2, e3]
  · have key : ∀ y x s, x < w → y < h → s ∈ cellList f (fun i => data.getD i d) w x y → HasData (allList f (fun i => data.getD i d) w h) s.vset s.data :=
      fun y x s hx hy hs => ⟨s, allList_mem.2 (Or.inr ⟨y, hy, x, hx, hs⟩), rfl, rfl⟩
    intro hd
    cases hd with
    | vertex x y a ha =>
      obtain ⟨hx, hy, rfl⟩ := (hat x y a).1 ha
      exact ⟨⟨[y * w + x], _⟩, allList_mem.2 (Or.inl ⟨_, index_lt hx hy, rfl⟩), by simp [Simplex.vset], rfl⟩
    | right x y a b ha hb =>
      obtain ⟨_, _, rfl⟩ := (hat x y a).1 ha
      obtain ⟨hx, hy, rfl⟩ := (hat (x + 1) y b).1 hb
      have := key y (x + 1) _ hx hy (mem_cellList.2 (Or.inl ⟨by omega, rfl⟩))
      rw [Finset.pair_comm]
      simpa [Simplex.vset, ← Nat.add_assoc] using this
    | down x y a b ha hb =>
      obtain ⟨_, _, rfl⟩ := (hat x y a).1 ha
      obtain ⟨hx, hy, rfl⟩ := (hat x (y + 1) b).1 hb
      have := key (y + 1) x _ hx hy (mem_cellList.2 (Or.inr (Or.inl ⟨by omega, rfl⟩)))
      rw [Finset.pair_comm]
      simpa [Simplex.vset, index_succ] using this
    | diagonal x y a b ha hb =>
      obtain ⟨hx', _, rfl⟩ := (hat (x + 1) y a).1 ha
      obtain ⟨hx, hy, rfl⟩ := (hat x (y + 1) b).1 hb
      have := key (y + 1) x _ hx hy (mem_cellList.2 (Or.inr (Or.inr (Or.inl ⟨⟨by omega, by omega⟩, rfl⟩))))
      rw [Finset.pair_comm]
      simpa [Simplex.vset, index_succ, ← Nat.add_assoc] using this
    | upper x y a b c ha hb hc =>
      obtain ⟨_, _, rfl⟩ := (hat x y a).1 ha
      obtain ⟨hx', _, rfl⟩ := (hat (x + 1) y b).1 hb
      obtain ⟨hx, hy, rfl⟩ := (hat x (y + 1) c).1 hc
      have := key (y + 1) x _ hx hy (mem_cellList.2 (Or.inr (Or.inr (Or.inr (Or.inr ⟨⟨by omega, by omega⟩, rfl⟩)))))
      have e : ({(y + 1) * w + x, (y + 1) * w + x - w + 1, (y + 1) * w + x - w} : Finset ℕ) = {y * w + x, y * w + (x + 1), (y + 1) * w + x} := by
        rw [index_succ, Nat.add_sub_cancel]
        ext i
        simp only [Finset.mem_insert, Finset.mem_singleton]
        omega
      have e2 : (y + 1) * w + x - w + 1 = y * w + (x + 1) := by rw [index_succ]; omega
      have e3 : (y + 1) * w + x - w = y * w + x := by rw [index_succ]; omega
      convert this using 1
      · simp only [Simplex.vset, List.toFinset_cons, List.toFinset_nil, insert_empty_eq]
        exact e.symm
      · simp only
        rw [e2, e3]
    | lower x y b c e hb hc hd =>
      obtain ⟨_, _, rfl⟩ := (hat (x + 1) y b).1 hb
      obtain ⟨hx, hy, rfl⟩ := (hat x (y + 1) c).1 hc
      obtain ⟨hx', _, rfl⟩ := (hat (x + 1) (y + 1) e).1 hd
      have := key (y + 1) x _ hx hy (mem_cellList.2 (Or.inr (Or.inr (Or.inr (Or.inl ⟨⟨by omega, by omega⟩, rfl⟩)))))
      have e : ({(y + 1) * w + x + 1, (y + 1) * w + x, (y + 1) * w + x - w + 1} : Finset ℕ) = {y * w + (x + 1), (y + 1) * w + x, (y + 1) * w + (x + 1)} := by
        rw [index_succ, index_succ, Nat.add_sub_cancel]
        ext i
        simp only [Finset.mem_insert, Finset.mem_singleton]
        omega
      have e2 : (y + 1) * w + x - w + 1 = y * w + (x + 1) := by rw [index_succ]; omega
      convert this using 1
      · simp only [Simplex.vset, List.toFinset_cons, List.toFinset_nil, insert_empty_eq]
        exact e.symm
      · simp only [e2]
        rfl

/-! ### Shapes of cells -/

theorem cell_shape {P : Finset (ℕ × ℕ)} (h : IsFieldCell P) : ∃ x y,
    P = {(x, y)} ∨ P = {(x, y), (x + 1, y)} ∨ P = {(x, y), (x, y + 1)} ∨ P = {(x + 1, y), (x, y + 1)} ∨
    P = {(x, y), (x + 1, y), (x, y + 1)} ∨ P = {(x + 1, y), (x, y + 1), (x + 1, y + 1)} := by
  obtain ⟨hne, hP⟩ := h
  obtain ⟨p, hp, hpmin⟩ := P.exists_min_image (fun p => p.1) hne
  obtain ⟨q, hq, hqmin⟩ := P.exists_min_image (fun p => p.2) hne
  obtain ⟨x, hx⟩ : ∃ x, x = p.1 := ⟨_, rfl⟩
  obtain ⟨y, hy⟩ : ∃ y, y = q.2 := ⟨_, rfl⟩
  have hcase : ∀ r ∈ P, r = (x, y) ∨ r = (x + 1, y) ∨ r = (x, y + 1) ∨ r = (x + 1, y + 1) := by
    rintro ⟨a, b⟩ hr
    have h1 := hpmin _ hr
    have h2 := hqmin _ hr
    have h3 := hP _ hr _ hp
    have h4 := hP _ hr _ hq
    simp only [Prod.mk.injEq] at *
    omega
  have hnot : ¬ ((x, y) ∈ P ∧ (x + 1, y + 1) ∈ P) := by
    rintro ⟨h1, h2⟩
    exact (hP _ h1 _ h2).2.2 ⟨by simp, by simp⟩
  have hcol : (x, y) ∈ P ∨ (x, y + 1) ∈ P := by
    have hp' := hp
    rcases hcase p hp with rfl | rfl | rfl | rfl
    · exact Or.inl hp
    · simp only at hx; omega
    · exact Or.inr hp
    · simp only at hx; omega
  have hrow : (x, y) ∈ P ∨ (x + 1, y) ∈ P := by
    rcases hcase q hq with rfl | rfl | rfl | rfl
    · exact Or.inl hq
    · exact Or.inr hq
    · simp only at hy; omega
    · simp only at hy; omega
  have hext : ∀ Q : Finset (ℕ × ℕ), ((x, y) ∈ P ↔ (x, y) ∈ Q) → ((x + 1, y) ∈ P ↔ (x + 1, y) ∈ Q) → ((x, y + 1) ∈ P ↔ (x, y + 1) ∈ Q) → ((x + 1, y + 1) ∈ P ↔ (x + 1, y + 1) ∈ Q) →
      (∀ r ∈ Q, r = (x, y) ∨ r = (x + 1, y) ∨ r = (x, y + 1) ∨ r = (x + 1, y + 1)) → P = Q := by
    intro Q h1 h2 h3 h4 h5
    ext r
    constructor
    · intro hr
      rcases hcase r hr with rfl | rfl | rfl | rfl
      · exact h1.1 hr
      · exact h2.1 hr
      · exact h3.1 hr
      · exact h4.1 hr
    · intro hr
      rcases h5 r hr with rfl | rfl | rfl | rfl
      · exact h1.2 hr
      · exact h2.2 hr
      · exact h3.2 hr
      · exact h4.2 hr
  refine ⟨x, y, ?_⟩
  by_cases h0 : (x, y) ∈ P
  · have h3 : (x + 1, y + 1) ∉ P := fun h => hnot ⟨h0, h⟩
    by_cases h1 : (x + 1, y) ∈ P <;> by_cases h2 : (x, y + 1) ∈ P
    · right; right; right; right; left
      apply hext <;> simp [h0, h1, h2, h3]
    · right; left
      apply hext <;> simp [h0, h1, h2, h3]
    · right; right; left
      apply hext <;> simp [h0, h1, h2, h3]
    · left
      apply hext <;> simp [h0, h1, h2, h3]
  · have h1 := hcol.resolve_left h0
    have h2 := hrow.resolve_left h0
    by_cases h3 : (x + 1, y + 1) ∈ P
    · right; right; right; right; right
      apply hext <;> simp [h0, h1, h2, h3]
    · right; right; right; left
      apply hext <;> simp [h0, h1, h2, h3]

theorem cell_subset {P Q : Finset (ℕ × ℕ)} (h : IsFieldCell P) (hQ : Q ⊆ P) (hne : Q.Nonempty) : IsFieldCell Q :=
  ⟨hne, fun p hp q hq => h.2 p (hQ hp) q (hQ hq)⟩

/-- The vertex sets of the triangulated grid of a field. -/
theorem fieldData_iff (f : α → α → α) (w : ℕ) (data : List α) (t : Finset ℕ) :
    (∃ a, FieldData f w data t a) ↔ ∃ P, IsFieldCell P ∧ (∀ p ∈ P, ∃ a, At w data p.1 p.2 a) ∧ t = P.image fun p => p.2 * w + p.1 := by
  constructor
  · rintro ⟨v, h⟩
    cases h with
    | vertex x y a ha => exact ⟨{(x, y)}, ⟨by simp, by simp⟩, by simpa using ⟨v, ha⟩, by simp⟩
    | right x y a b ha hb => exact ⟨{(x, y), (x + 1, y)}, ⟨by simp, by simp; omega⟩, by simpa using ⟨⟨a, ha⟩, ⟨b, hb⟩⟩, by simp⟩
    | down x y a b ha hb => exact ⟨{(x, y), (x, y + 1)}, ⟨by simp, by simp; omega⟩, by simpa using ⟨⟨a, ha⟩, ⟨b, hb⟩⟩, by simp⟩
    | diagonal x y a b ha hb => exact ⟨{(x + 1, y), (x, y + 1)}, ⟨by simp, by simp; omega⟩, by simpa using ⟨⟨a, ha⟩, ⟨b, hb⟩⟩, by simp⟩
    | upper x y a b c ha hb hc => exact ⟨{(x, y), (x + 1, y), (x, y + 1)}, ⟨by simp, by simp; omega⟩, by simpa using ⟨⟨a, ha⟩, ⟨b, hb⟩, ⟨c, hc⟩⟩, by simp⟩
    | lower x y a b c ha hb hc => exact ⟨{(x + 1, y), (x, y + 1), (x + 1, y + 1)}, ⟨by simp, by simp; omega⟩, by simpa using ⟨⟨a, ha⟩, ⟨b, hb⟩, ⟨c, hc⟩⟩, by simp⟩
  · rintro ⟨P, hP, he, rfl⟩
    obtain ⟨x, y, rfl | rfl | rfl | rfl | rfl | rfl⟩ := cell_shape hP
    · obtain ⟨a, ha⟩ := he (x, y) (by simp)
      exact ⟨_, by simpa using FieldData.vertex (f := f) x y a ha⟩
    · obtain ⟨a, ha⟩ := he (x, y) (by simp)
      obtain ⟨b, hb⟩ := he (x + 1, y) (by simp)
      exact ⟨_, by simpa using FieldData.right (f := f) x y a b ha hb⟩
    · obtain ⟨a, ha⟩ := he (x, y) (by simp)
      obtain ⟨b, hb⟩ := he (x, y + 1) (by simp)
      exact ⟨_, by simpa using FieldData.down (f := f) x y a b ha hb⟩
    · obtain ⟨a, ha⟩ := he (x + 1, y) (by simp)
      obtain ⟨b, hb⟩ := he (x, y + 1) (by simp)
      exact ⟨_, by simpa using FieldData.diagonal (f := f) x y a b ha hb⟩
    · obtain ⟨a, ha⟩ := he (x, y) (by simp)
      obtain ⟨b, hb⟩ := he (x + 1, y) (by simp)
      obtain ⟨c, hc⟩ := he (x, y + 1) (by simp)
      exact ⟨_, by simpa using FieldData.upper (f := f) x y a b c ha hb hc⟩
    · obtain ⟨a, ha⟩ := he (x + 1, y) (by simp)
      obtain ⟨b, hb⟩ := he (x, y + 1) (by simp)
      obtain ⟨c, hc⟩ := he (x + 1, y + 1) (by simp)
      exact ⟨_, by simpa using FieldData.lower (f := f) x y a b c ha hb hc⟩

/-! ### Reading -/

/-- The values that are in the memory after a data set has been read: bytes are used in the order of the file. -/
def memory (double float : List ℕ → α) (encode : α → List ℕ) (k : Kind) (e : Endian) (values : List α) : List α :=
  values.map fun v => (if k = .double then double else float) (if e = .little then encode v else (encode v).reverse)

theorem readDataSet_eq (double float : List ℕ → α) (encode : α → List ℕ) (f : α → α → α) (d : α) {ds : DataSet} {k : Kind} {e : Endian} {rows columns : ℕ} {values : List α}
    (hs : Stores encode ds k e rows columns values) (hk : k ≠ .other) (hpos : 0 < rows * columns) (K : Complex α) :
    readDataSet double float f ds K = .ok (allList f (fun i => (memory double float encode k e values).getD i d) rows columns) := by
  obtain ⟨h1, h2, h3, h4, h5⟩ := hs
  have hm : readValues double float ds (rows * columns) = .ok (memory double float encode k e values) := by
    have ht : transfer ds ds.endian = ds.elements := by simp [transfer]
    rw [readValues, h1, ht, h5]
    cases k with
    | double => simp [memory, show rows * columns ≠ 0 by omega]
    | float => simp [memory, show rows * columns ≠ 0 by omega]
    | other => exact absurd rfl hk
  have hl : (memory double float encode k e values).length = rows * columns := by rw [memory, List.length_map, h4]
  rw [readDataSet, h3]
  simp only [hm, simplices_eq f d _ hl, bind, Except.bind]
  rw [insertRange_nodup [] _ (fun s hs => (allList_normal hs).2) (by simpa using allList_nodup f _ rows columns)]
  rfl

theorem read_eq (double float : List ℕ → α) (encode : α → List ℕ) (f : α → α → α) (r : Reader) (file : File) (g : List Char → Option DataSet) {ds : DataSet} {k : Kind} {e : Endian} {rows columns : ℕ}
    {values : List α} (hg : file r.groupName = some g) (hd : g r.dataSetName = some ds) (hs : Stores encode ds k e rows columns values) (hk : k ≠ .other) (hpos : 0 < rows * columns) (K : Complex α) :
    ∃ d, read double float f r (some file) K = .ok (allList f (fun i => (memory double float encode k e values).getD i d) rows columns) := by
  have : 0 < values.length := by rw [hs.size]; exact hpos
  refine ⟨values[0], ?_⟩
  rw [read, hg]
  simp only [hd]
  exact readDataSet_eq double float encode f _ hs hk hpos K

/-- **C146 (grid).** A data set with two dimensions, at least one value, and a type of floating point numbers becomes a triangulated grid, which is closed under faces.  Its rows have as many vertices as
the first dimension, and bytes are used in the order of the file. -/
theorem _root_.Aleph.C146_grid (double float : List ℕ → α) (encode : α → List ℕ) (f : α → α → α) (r : Reader) (file : File) (g : List Char → Option DataSet) (ds : DataSet) (k : Kind) (e : Endian)
    (rows columns : ℕ) (values : List α) (hg : file r.groupName = some g) (hd : g r.dataSetName = some ds) (hs : Stores encode ds k e rows columns values) (hk : k ≠ .other)
    (hpos : 0 < rows * columns) (K : Complex α) :
    ∃ K', read double float f r (some file) K = .ok K' ∧ WF K' ∧ FaceClosed K' ∧
      (∀ t a, HasData K' t a ↔ FieldData f rows (values.map fun v => (if k = .double then double else float) (if e = .little then encode v else (encode v).reverse)) t a) ∧
      ∀ t, Has K' t ↔ ∃ P, IsFieldCell P ∧ (∀ p ∈ P, p.1 < rows ∧ p.2 < columns) ∧ t = P.image fun p => p.2 * rows + p.1 := by
  obtain ⟨d, h⟩ := read_eq double float encode f r file g hg hd hs hk hpos K
  have hl : (memory double float encode k e values).length = rows * columns := by rw [memory, List.length_map, hs.size]
  have hdata := allList_data f d _ hl
  have hat := at_iff d _ hl
  have hhas : ∀ t, Has (allList f (fun i => (memory double float encode k e values).getD i d) rows columns) t ↔
      ∃ P, IsFieldCell P ∧ (∀ p ∈ P, p.1 < rows ∧ p.2 < columns) ∧ t = P.image fun p => p.2 * rows + p.1 := by
    intro t
    have h1 : Has (allList f (fun i => (memory double float encode k e values).getD i d) rows columns) t ↔ ∃ a, FieldData f rows (memory double float encode k e values) t a := by
      constructor
      · rintro ⟨s, hs, rfl⟩
        exact ⟨_, (hdata _ _).1 ⟨s, hs, rfl, rfl⟩⟩
      · rintro ⟨a, ha⟩
        obtain ⟨s, hs, h, _⟩ := (hdata _ _).2 ha
        exact ⟨s, hs, h⟩
    rw [h1, fieldData_iff]
    constructor
    · rintro ⟨P, hP, he, rfl⟩
      refine ⟨P, hP, fun p hp => ?_, rfl⟩
      obtain ⟨a, ha⟩ := he p hp
      have := (hat _ _ _).1 ha
      exact ⟨this.1, this.2.1⟩
    · rintro ⟨P, hP, he, rfl⟩
      exact ⟨P, hP, fun p hp => ⟨_, (hat _ _ _).2 ⟨(he p hp).1, (he p hp).2, rfl⟩⟩, rfl⟩
  refine ⟨_, h, allList_wf .., ?_, hdata, hhas⟩
  intro s hs t ht hne
  obtain ⟨P, hP, he, hPs⟩ := (hhas s.vset).1 ⟨s, hs, rfl⟩
  rw [hPs, subset_image_iff] at ht
  obtain ⟨Q, hQ, rfl⟩ := ht
  exact (hhas _).2 ⟨Q, cell_subset hP hQ (image_nonempty.1 hne), fun p hp => he p (hQ hp), rfl⟩

theorem memory_little {double float : List ℕ → α} {encode : α → List ℕ} {k : Kind} {values : List α} (hc : ∀ v ∈ values, (if k = .double then double else float) (encode v) = v) :
    (values.map fun v => (if k = .double then double else float) (if Endian.little = .little then encode v else (encode v).reverse)) = values := by
  conv_rhs => rw [← List.map_id values]
  refine List.map_congr_left fun v hv => ?_
  simpa using hc v hv

theorem fieldData_one (f : α → α → α) (n : ℕ) (values : List α) (hl : values.length = n) (t : Finset ℕ) (a : α) : FieldData f 1 values t a ↔ FieldData f n values t a := by
  have h1 : ∀ x y a, At 1 values x y a ↔ x = 0 ∧ values[y]? = some a := by
    intro x y a
    simp only [At, Nat.lt_one_iff, Nat.mul_one]
    constructor
    · rintro ⟨rfl, h⟩; exact ⟨rfl, h⟩
    · rintro ⟨rfl, h⟩; exact ⟨rfl, h⟩
  have h2 : ∀ x y a, At n values x y a ↔ y = 0 ∧ values[x]? = some a := by
    intro x y a
    constructor
    · rintro ⟨h, h'⟩
      obtain ⟨h3, _⟩ := List.getElem?_eq_some_iff.1 h'
      have : y = 0 := by
        by_contra hy
        have : 1 * n ≤ y * n := Nat.mul_le_mul_right n (by omega)
        omega
      subst this
      exact ⟨rfl, by simpa using h'⟩
    · rintro ⟨rfl, h⟩
      obtain ⟨h3, _⟩ := List.getElem?_eq_some_iff.1 h
      exact ⟨by omega, by simpa using h⟩
  constructor
  · intro h
    cases h with
    | vertex x y a ha =>
      obtain ⟨rfl, ga⟩ := (h1 _ _ _).1 ha
      simpa using FieldData.vertex (f := f) y 0 a ((h2 _ _ _).2 ⟨rfl, ga⟩)
    | right x y a b ha hb => exact absurd ((h1 _ _ _).1 hb).1 (by omega)
    | down x y a b ha hb =>
      obtain ⟨rfl, ga⟩ := (h1 _ _ _).1 ha
      obtain ⟨_, gb⟩ := (h1 _ _ _).1 hb
      simpa using FieldData.right (f := f) y 0 a b ((h2 _ _ _).2 ⟨rfl, ga⟩) ((h2 _ _ _).2 ⟨rfl, gb⟩)
    | diagonal x y a b ha hb => exact absurd ((h1 _ _ _).1 ha).1 (by omega)
    | upper x y a b c ha hb hc => exact absurd ((h1 _ _ _).1 hb).1 (by omega)
    | lower x y a b c ha hb hc => exact absurd ((h1 _ _ _).1 ha).1 (by omega)
  · intro h
    cases h with
    | vertex x y a ha =>
      obtain ⟨rfl, ga⟩ := (h2 _ _ _).1 ha
      simpa using FieldData.vertex (f := f) 0 x a ((h1 _ _ _).2 ⟨rfl, ga⟩)
    | right x y a b ha hb =>
      obtain ⟨rfl, ga⟩ := (h2 _ _ _).1 ha
      obtain ⟨_, gb⟩ := (h2 _ _ _).1 hb
      simpa using FieldData.down (f := f) 0 x a b ((h1 _ _ _).2 ⟨rfl, ga⟩) ((h1 _ _ _).2 ⟨rfl, gb⟩)
    | down x y a b ha hb => exact absurd ((h2 _ _ _).1 hb).1 (by omega)
    | diagonal x y a b ha hb => exact absurd ((h2 _ _ _).1 hb).1 (by omega)
    | upper x y a b c ha hb hc => exact absurd ((h2 _ _ _).1 hc).1 (by omega)
    | lower x y a b c ha hb hc => exact absurd ((h2 _ _ _).1 hb).1 (by omega)

/-- **C146 (fields).** If the least significant byte comes first, and the field has as many rows as columns, or only one row or column, the complex is the triangulated grid of the field.  Missing: the
same for other fields. -/
theorem _root_.Aleph.C146_field_partial (double float : List ℕ → α) (encode : α → List ℕ) (f : α → α → α) (r : Reader) (file : File) (g : List Char → Option DataSet) (ds : DataSet) (k : Kind)
    (rows columns : ℕ) (values : List α) (hg : file r.groupName = some g) (hd : g r.dataSetName = some ds) (hs : Stores encode ds k .little rows columns values) (hk : k ≠ .other)
    (hc : ∀ v ∈ values, (if k = .double then double else float) (encode v) = v) (hpos : 0 < rows * columns) (hsq : rows = columns ∨ rows = 1 ∨ columns = 1) (K : Complex α) :
    ∃ K', read double float f r (some file) K = .ok K' ∧ WF K' ∧ FaceClosed K' ∧ ∀ t a, HasData K' t a ↔ FieldData f columns values t a := by
  obtain ⟨K', h1, h2, h3, h4, _⟩ := C146_grid double float encode f r file g ds k .little rows columns values hg hd hs hk hpos K
  refine ⟨K', h1, h2, h3, fun t a => ?_⟩
  rw [h4, memory_little hc]
  rcases hsq with rfl | rfl | rfl
  · rfl
  · exact fieldData_one f columns values (by rw [hs.size, Nat.one_mul]) t a
  · exact (fieldData_one f rows values (by rw [hs.size, Nat.mul_one]) t a).symm

/-- **C146 (other fields).** If a field has several rows and columns, and their numbers differ, the complex contains an edge between two values that are not adjacent in the field, whatever the values
are. -/
theorem _root_.Aleph.C146_transposed (double float : List ℕ → α) (encode : α → List ℕ) (f : α → α → α) (r : Reader) (file : File) (g : List Char → Option DataSet) (ds : DataSet) (k : Kind) (e : Endian)
    (rows columns : ℕ) (values : List α) (hg : file r.groupName = some g) (hd : g r.dataSetName = some ds) (hs : Stores encode ds k e rows columns values) (hk : k ≠ .other)
    (hr : 2 ≤ rows) (hc : 2 ≤ columns) (hne : rows ≠ columns) (K : Complex α) :
    ∃ K', read double float f r (some file) K = .ok K' ∧ Has K' {0, rows} ∧ ∀ f' values' a, ¬ FieldData (α := α) f' columns values' {0, rows} a := by
  have hpos : 0 < rows * columns := Nat.mul_pos (by omega) (by omega)
  obtain ⟨K', h1, _, _, _, h2⟩ := C146_grid double float encode f r file g ds k e rows columns values hg hd hs hk hpos K
  refine ⟨K', h1, (h2 _).2 ⟨{(0, 0), (0, 1)}, ⟨by simp, by simp⟩, by simp; omega, by simp⟩, ?_⟩
  intro f' values' a hf
  have hcard : ({0, rows} : Finset ℕ).card = 2 := Finset.card_pair (by omega)
  obtain ⟨P, hP, he, hPs⟩ := (fieldData_iff f' columns values' _).1 ⟨a, hf⟩
  have hcol : ∀ p ∈ P, p.1 < columns := fun p hp => by obtain ⟨_, h, _⟩ := he p hp; exact h
  have h0 : (0 : ℕ) ∈ P.image fun p => p.2 * columns + p.1 := by rw [← hPs]; simp
  have h3 : rows ∈ P.image fun p => p.2 * columns + p.1 := by rw [← hPs]; simp
  obtain ⟨⟨x, y⟩, hp, hp'⟩ := Finset.mem_image.1 h0
  obtain ⟨⟨x', y'⟩, hq, hq'⟩ := Finset.mem_image.1 h3
  have hcase := hP.2 _ hq _ hp
  have hcase' := hP.2 _ hp _ hq
  simp only [Nat.add_eq_zero_iff, Nat.mul_eq_zero] at hp' hq' hcase hcase'
  obtain ⟨hy, rfl⟩ := hp'
  obtain rfl : y = 0 := by omega
  have : y' = 0 ∨ y' = 1 := by omega
  rcases this with rfl | rfl <;> omega

/-- **C146 (order of bytes).** If the most significant byte comes first, the bytes of all values are reversed: the vertex of a value does not have this value as data, unless its bytes are the same
in both orders. -/
theorem _root_.Aleph.C146_big_endian (double float : List ℕ → α) (encode : α → List ℕ) (f : α → α → α) (r : Reader) (file : File) (g : List Char → Option DataSet) (ds : DataSet) (k : Kind)
    (rows columns : ℕ) (values : List α) (hg : file r.groupName = some g) (hd : g r.dataSetName = some ds) (hs : Stores encode ds k .big rows columns values) (hk : k ≠ .other)
    (hpos : 0 < rows * columns) (K : Complex α) :
    ∃ K', read double float f r (some file) K = .ok K' ∧ ∀ i v, values[i]? = some v → ∀ a, HasData K' {i} a ↔ a = (if k = .double then double else float) (encode v).reverse := by
  obtain ⟨K', h1, hwf, _, h2, _⟩ := C146_grid double float encode f r file g ds k .big rows columns values hg hd hs hk hpos K
  refine ⟨K', h1, fun i v hv a => ?_⟩
  have hr : 0 < rows := Nat.pos_of_ne_zero fun h => by simp [h] at hpos
  have hi : HasData K' {i} ((if k = .double then double else float) (encode v).reverse) := by
    rw [h2]
    have := FieldData.vertex (f := f) (i % rows) (i / rows) ((if k = .double then double else float) (encode v).reverse)
      (show At rows (values.map fun v => (if k = .double then double else float) (if Endian.big = .little then encode v else (encode v).reverse)) _ _ _ from
        ⟨Nat.mod_lt _ hr, by rw [Nat.mul_comm, Nat.div_add_mod, List.getElem?_map, hv]; simp⟩)
    rwa [Nat.mul_comm, Nat.div_add_mod] at this
  constructor
  · intro h
    obtain ⟨s, hs, hsv, rfl⟩ := h
    obtain ⟨s', hs', hsv', he⟩ := hi
    rw [← he, hwf.eq_of_vset hs hs' (hsv.trans hsv'.symm)]
  · rintro rfl
    exact hi

theorem max_spec [LinearOrder α] (w : ℕ) (data : List α) (t : Finset ℕ) (a : α) (h : FieldData max w data t a) : IsGreatest {v | ∃ i ∈ t, data[i]? = some v} a := by
  have key : ∀ (t : Finset ℕ) (u : List (ℕ × α)), t = (u.map (·.1)).toFinset → (∀ p ∈ u, data[p.1]? = some p.2) → ∀ a, (∃ p ∈ u, p.2 = a) → (∀ p ∈ u, p.2 ≤ a) →
      IsGreatest {v | ∃ i ∈ t, data[i]? = some v} a := by
    rintro t u rfl hu a ⟨p, hp, rfl⟩ hle
    refine ⟨⟨p.1, by simpa using ⟨p.2, hp⟩, hu p hp⟩, ?_⟩
    rintro v ⟨i, hi, hv⟩
    obtain ⟨q, hq, rfl⟩ := List.mem_map.1 (List.mem_toFinset.1 hi)
    rw [hu q hq] at hv
    obtain rfl := Option.some.inj hv
    exact hle q hq
  cases h with
  | vertex x y a ha => exact key _ [(y * w + x, a)] (by simp) (by simpa using ha.2) _ (by simp) (by simp)
  | right x y a b ha hb =>
    refine key _ [(y * w + x, a), (y * w + (x + 1), b)] (by simp) (by simpa using ⟨ha.2, hb.2⟩) _ ?_ (by simp)
    rcases max_choice b a with h | h <;> rw [h] <;> simp
  | down x y a b ha hb =>
    refine key _ [(y * w + x, a), ((y + 1) * w + x, b)] (by simp) (by simpa using ⟨ha.2, hb.2⟩) _ ?_ (by simp)
    rcases max_choice b a with h | h <;> rw [h] <;> simp
  | diagonal x y a b ha hb =>
    refine key _ [(y * w + (x + 1), a), ((y + 1) * w + x, b)] (by simp) (by simpa using ⟨ha.2, hb.2⟩) _ ?_ (by simp)
    rcases max_choice b a with h | h <;> rw [h] <;> simp
  | upper x y a b c ha hb hc =>
    refine key _ [(y * w + x, a), (y * w + (x + 1), b), ((y + 1) * w + x, c)] (by simp) (by simpa using ⟨ha.2, hb.2, hc.2⟩) _ ?_ (by simp)
    rcases max_choice c (max a b) with h | h <;> rw [h]
    · simp
    · rcases max_choice a b with h | h <;> rw [h] <;> simp
  | lower x y b c e hb hc he =>
    refine key _ [(y * w + (x + 1), b), ((y + 1) * w + x, c), ((y + 1) * w + (x + 1), e)] (by simp) (by simpa using ⟨hb.2, hc.2, he.2⟩) _ ?_ (by simp)
    rcases max_choice c (max b e) with h | h <;> rw [h]
    · simp
    · rcases max_choice b e with h | h <;> rw [h] <;> simp

/-- **C146 (maximum).** Without a functor, the data of a simplex is the maximum of the data of its vertices; hence faces never have larger data. -/
theorem _root_.Aleph.C146_maximum [LinearOrder α] (double float : List ℕ → α) (encode : α → List ℕ) (r : Reader) (file : File) (g : List Char → Option DataSet) (ds : DataSet) (k : Kind) (e : Endian)
    (rows columns : ℕ) (values : List α) (hg : file r.groupName = some g) (hd : g r.dataSetName = some ds) (hs : Stores encode ds k e rows columns values) (hk : k ≠ .other)
    (hpos : 0 < rows * columns) (K : Complex α) :
    ∃ K', readMax double float r (some file) K = .ok K' ∧ Spec.Monotone K' ∧ ∀ t a, HasData K' t a → IsGreatest {v | ∃ i ∈ t, HasData K' {i} v} a := by
  obtain ⟨K', h1, hwf, _, h2, _⟩ := C146_grid double float encode (fun a b => max a b) r file g ds k e rows columns values hg hd hs hk hpos K
  obtain ⟨data, hdata⟩ : ∃ data, data = values.map fun v => (if k = .double then double else float) (if e = .little then encode v else (encode v).reverse) := ⟨_, rfl⟩
  rw [← hdata] at h2
  have hr : 0 < rows := Nat.pos_of_ne_zero fun h => by simp [h] at hpos
  have hv : ∀ i v, HasData K' {i} v ↔ data[i]? = some v := by
    intro i v
    constructor
    · intro h
      obtain ⟨⟨j, hj, h⟩, _⟩ := max_spec _ _ _ _ ((h2 _ _).1 h)
      rw [Finset.mem_singleton] at hj
      rwa [hj] at h
    · intro h
      rw [h2]
      have := FieldData.vertex (f := fun a b => max a b) (i % rows) (i / rows) v (show At rows data _ _ _ from ⟨Nat.mod_lt _ hr, by rw [Nat.mul_comm, Nat.div_add_mod]; exact h⟩)
      rwa [Nat.mul_comm, Nat.div_add_mod] at this
  have hmax : ∀ t a, HasData K' t a → IsGreatest {v | ∃ i ∈ t, HasData K' {i} v} a := by
    intro t a h
    simp only [hv]
    exact max_spec _ _ _ _ ((h2 _ _).1 h)
  refine ⟨K', h1, ?_, hmax⟩
  intro s hs t ht hst
  obtain ⟨⟨i, hi, hiv⟩, _⟩ := hmax _ _ ⟨s, hs, rfl, rfl⟩
  exact (hmax _ _ ⟨t, ht, rfl, rfl⟩).2 ⟨i, hst hi, hiv⟩

theorem sum_range_list (g : ℕ → ℕ) (n : ℕ) : ((List.range n).map g).sum = ∑ i ∈ Finset.range n, g i := rfl

theorem sum_pos (n : ℕ) : (∑ x ∈ Finset.range n, if x > 0 then 1 else 0) = n - 1 := by
  induction n with
  | zero => rfl
  | succ n ih =>
    rw [Finset.sum_range_succ, ih]
    split_ifs <;> omega

theorem sum_below (n : ℕ) : (∑ x ∈ Finset.range n, if x < n - 1 then 1 else 0) = n - 1 := by
  have h : ∀ m, m ≤ n - 1 → (∑ x ∈ Finset.range m, if x < n - 1 then 1 else 0) = m := by
    intro m
    induction m with
    | zero => intro _; rfl
    | succ m ih =>
      intro hm
      rw [Finset.sum_range_succ, ih (by omega), if_pos (by omega)]
  cases n with
  | zero => rfl
  | succ n =>
    rw [Finset.sum_range_succ, h n (by omega)]
    simp

theorem count_edges (f : α → α → α) (v : ℕ → α) (w x y : ℕ) : (cellList f v w x y).countP (fun s => s.vertices.length = 2) =
    (if x > 0 then 1 else 0) + (if y > 0 then 1 else 0) + (if y > 0 then (if x < w - 1 then 1 else 0) else 0) := by
  unfold cellList
  by_cases h1 : x > 0 <;> by_cases h2 : y > 0 <;> by_cases h3 : x < w - 1 <;> simp [h1, h2, h3]

theorem count_triangles (f : α → α → α) (v : ℕ → α) (w x y : ℕ) : (cellList f v w x y).countP (fun s => s.vertices.length = 3) =
    2 * (if y > 0 then (if x < w - 1 then 1 else 0) else 0) := by
  unfold cellList
  by_cases h1 : x > 0 <;> by_cases h2 : y > 0 <;> by_cases h3 : x < w - 1 <;> simp [h1, h2, h3]

/-- **C146 (numbers of simplices).** The numbers of vertices, edges and triangles; there are no other simplices, and the Euler characteristic is one. -/
theorem _root_.Aleph.C146_count (double float : List ℕ → α) (encode : α → List ℕ) (f : α → α → α) (r : Reader) (file : File) (g : List Char → Option DataSet) (ds : DataSet) (k : Kind) (e : Endian)
    (rows columns : ℕ) (values : List α) (hg : file r.groupName = some g) (hd : g r.dataSetName = some ds) (hs : Stores encode ds k e rows columns values) (hk : k ≠ .other)
    (hpos : 0 < rows * columns) (K : Complex α) :
    ∃ K', read double float f r (some file) K = .ok K' ∧
      K'.countP (fun s => s.vset.card = 1) = rows * columns ∧
      K'.countP (fun s => s.vset.card = 2) = (rows - 1) * columns + rows * (columns - 1) + (rows - 1) * (columns - 1) ∧
      K'.countP (fun s => s.vset.card = 3) = 2 * ((rows - 1) * (columns - 1)) ∧
      K'.countP (fun s => 3 < s.vset.card) = 0 ∧
      (K'.countP (fun s => s.vset.card = 1) : ℤ) - K'.countP (fun s => s.vset.card = 2) + K'.countP (fun s => s.vset.card = 3) = 1 := by
  obtain ⟨d, h⟩ := read_eq double float encode f r file g hg hd hs hk hpos K
  obtain ⟨v, hv⟩ : ∃ v, v = fun i => (memory double float encode k e values).getD i d := ⟨_, rfl⟩
  rw [← hv] at h
  have hcard : ∀ s ∈ allList f v rows columns, s.vset.card = s.vertices.length := by
    intro s hs
    exact List.toFinset_card_of_nodup ((allList_normal hs).1.imp fun h => Nat.ne_of_gt h)
  have hvert : ∀ n, ((List.range (rows * columns)).map fun i => (⟨[i], v i⟩ : Simplex α)).countP (fun s => s.vertices.length = n) = if n = 1 then rows * columns else 0 := by
    intro n
    split_ifs with hn
    · rw [List.countP_eq_length.2]
      · simp
      · intro s hs
        obtain ⟨i, _, rfl⟩ := List.mem_map.1 hs
        simp [hn]
    · rw [List.countP_eq_zero]
      intro s hs
      obtain ⟨i, _, rfl⟩ := List.mem_map.1 hs
      simpa using fun h => hn h.symm
  have hcount : ∀ n, (allList f v rows columns).countP (fun s => s.vset.card = n) = (if n = 1 then rows * columns else 0) +
      ∑ y ∈ Finset.range columns, ∑ x ∈ Finset.range rows, (cellList f v rows x y).countP (fun s => s.vertices.length = n) := by
    intro n
    rw [List.countP_congr (q := fun s => decide (s.vertices.length = n)) fun s hs => by simp [hcard s hs], allList, List.countP_append, hvert, List.countP_flatMap, ← sum_range_list]
    congr 2
    refine List.map_congr_left fun y _ => ?_
    rw [Function.comp, List.countP_flatMap, ← sum_range_list]
    rfl
  have hr : 0 < rows := Nat.pos_of_ne_zero fun h => by simp [h] at hpos
  have hcl : 0 < columns := Nat.pos_of_ne_zero fun h => by simp [h] at hpos
  have c1 : (allList f v rows columns).countP (fun s => s.vset.card = 1) = rows * columns := by
    rw [hcount, if_pos rfl, Finset.sum_eq_zero, Nat.add_zero]
    intro y _
    refine Finset.sum_eq_zero fun x _ => ?_
    rw [List.countP_eq_zero]
    intro s hs
    have := cellList_length hs
    simp only [decide_eq_true_eq]
    omega
  have inner : ∀ y, (∑ x ∈ Finset.range rows, if y > 0 then (if x < rows - 1 then 1 else 0) else 0) = if y > 0 then rows - 1 else 0 := by
    intro y
    split_ifs
    · exact sum_below rows
    · simp
  have outer : ∀ c, (∑ y ∈ Finset.range columns, if y > 0 then c else 0) = c * (columns - 1) := by
    intro c
    rw [← sum_pos columns, Finset.mul_sum]
    refine Finset.sum_congr rfl fun y _ => ?_
    split_ifs <;> simp
  have c2 : (allList f v rows columns).countP (fun s => s.vset.card = 2) = (rows - 1) * columns + rows * (columns - 1) + (rows - 1) * (columns - 1) := by
    rw [hcount, if_neg (by decide), Nat.zero_add]
    simp only [count_edges, Finset.sum_add_distrib, sum_pos, inner, outer, Finset.sum_const, Finset.card_range, Nat.nsmul_eq_mul, Nat.cast_id, mul_ite, mul_one, mul_zero, outer]
    ring
  have c3 : (allList f v rows columns).countP (fun s => s.vset.card = 3) = 2 * ((rows - 1) * (columns - 1)) := by
    rw [hcount, if_neg (by decide), Nat.zero_add]
    simp only [count_triangles, ← Finset.mul_sum, inner, outer]
  refine ⟨_, h, c1, c2, c3, ?_, ?_⟩
  · rw [List.countP_eq_zero]
    intro s hs
    rw [hcard s hs]
    rcases allList_mem.1 hs with ⟨i, _, rfl⟩ | ⟨y, _, x, _, hs⟩
    · simp
    · rw [mem_cellList] at hs
      rcases hs with ⟨c, rfl⟩ | ⟨c, rfl⟩ | ⟨c, rfl⟩ | ⟨c, rfl⟩ | ⟨c, rfl⟩ <;> simp
  · rw [c1, c2, c3]
    obtain ⟨a, rfl⟩ : ∃ a, rows = a + 1 := ⟨rows - 1, by omega⟩
    obtain ⟨b, rfl⟩ : ∃ b, columns = b + 1 := ⟨columns - 1, by omega⟩
    simp only [Nat.add_sub_cancel]
    push_cast
    ring

/-- **C146 (order).** The vertices come first, in the order of the file.  With several rows and columns, the other simplices are not stored with faces first: a triangle comes before one of its
edges. -/
theorem _root_.Aleph.C146_order (double float : List ℕ → α) (encode : α → List ℕ) (f : α → α → α) (r : Reader) (file : File) (g : List Char → Option DataSet) (ds : DataSet) (k : Kind) (e : Endian)
    (rows columns : ℕ) (values : List α) (hg : file r.groupName = some g) (hd : g r.dataSetName = some ds) (hs : Stores encode ds k e rows columns values) (hk : k ≠ .other)
    (hpos : 0 < rows * columns) (K : Complex α) :
    ∃ (K' : Complex α) (L : List (Simplex α)), read double float f r (some file) K = .ok K' ∧
      K' = (values.mapIdx fun i v => ⟨[i], (if k = .double then double else float) (if e = .little then encode v else (encode v).reverse)⟩) ++ L ∧ (∀ s ∈ L, 2 ≤ s.vset.card) ∧
      (2 ≤ rows → 2 ≤ columns → ¬ FacesFirst K') := by
  obtain ⟨d, h⟩ := read_eq double float encode f r file g hg hd hs hk hpos K
  have hl : (memory double float encode k e values).length = rows * columns := by rw [memory, List.length_map, hs.size]
  obtain ⟨v, hv⟩ : ∃ v, v = fun i => (memory double float encode k e values).getD i d := ⟨_, rfl⟩
  rw [← hv] at h
  refine ⟨_, (List.range columns).flatMap fun y => (List.range rows).flatMap fun x => cellList f v rows x y, h, ?_, ?_, ?_⟩
  · rw [allList]
    congr 1
    apply List.ext_getElem
    · simp [hs.size]
    · intro i h1 h2
      have h3 : i < values.length := by simpa using h2
      simp [hv, memory, List.getD_eq_getElem?_getD, List.getElem?_eq_getElem h3]
  · intro s hs
    have hm : s ∈ allList f v rows columns := List.mem_append_right _ hs
    obtain ⟨y, _, hs⟩ := List.mem_flatMap.1 hs
    obtain ⟨x, _, hs⟩ := List.mem_flatMap.1 hs
    rw [Simplex.vset, List.toFinset_card_of_nodup ((allList_normal hm).1.imp fun h => Nat.ne_of_gt h)]
    exact cellList_length hs
  · intro h2 h3 hff
    have hsplit : ∀ n, 2 ≤ n → List.range n = [0, 1] ++ (List.range n).drop 2 := by
      intro n hn
      obtain ⟨j, rfl⟩ : ∃ j, n = j + 2 := ⟨n - 2, by omega⟩
      conv_lhs => rw [← List.take_append_drop 2 (List.range (j + 2))]
      congr 1
      rw [List.take_range]
      simp [List.range_succ]
    have e1 := hsplit columns h3
    have e2 := hsplit rows h2
    rw [allList, e1] at hff
    simp only [List.flatMap_append, List.flatMap_cons, List.flatMap_nil, List.append_nil] at hff
    have hff2 := (List.pairwise_append.1 (List.pairwise_append.1 hff).2.1).1
    have hff3 := (List.pairwise_append.1 hff2).2.1
    rw [e2] at hff3
    simp only [List.flatMap_append, List.flatMap_cons, List.flatMap_nil, List.append_nil] at hff3
    have hff4 := (List.pairwise_append.1 (List.pairwise_append.1 hff3).1).2.2
    have := hff4 ⟨[rows + 1, rows, 1], _⟩ (mem_cellList.2 (Or.inr (Or.inr (Or.inr (Or.inl ⟨⟨by omega, by omega⟩, by simp; rfl⟩)))))
      ⟨[rows + 1, rows], _⟩ (mem_cellList.2 (Or.inl ⟨by omega, by simp; rfl⟩))
    apply this
    rw [Finset.ssubset_iff_of_subset]
    · exact ⟨1, by simp [Simplex.vset], by simp [Simplex.vset]; omega⟩
    · intro i hi
      simp only [Simplex.vset, List.toFinset_cons, List.toFinset_nil, insert_empty_eq, Finset.mem_insert, Finset.mem_singleton] at hi ⊢
      omega

/-- **C146 (other files).** Data sets that do not have two dimensions are ignored: there is no exception, and the complex stays as it is.  Files, groups and data sets that do not exist are reported, as
are values that are not floating point numbers. -/
theorem _root_.Aleph.C146_other (double float : List ℕ → α) (f : α → α → α) (r : Reader) (K : Complex α) :
    (∀ (file : File) g ds, file r.groupName = some g → g r.dataSetName = some ds → ds.dimensions.length ≠ 2 → read double float f r (some file) K = .ok K) ∧
    read double float f r none K = .error .exception ∧
    (∀ file : File, file r.groupName = none → read double float f r (some file) K = .error .exception) ∧
    (∀ (file : File) g, file r.groupName = some g → g r.dataSetName = none → read double float f r (some file) K = .error .exception) ∧
    (∀ (file : File) g ds, file r.groupName = some g → g r.dataSetName = some ds → ds.dimensions.length = 2 → ds.kind = .other → read double float f r (some file) K = .error .exception) ∧
    ∀ (file : File) g ds, file r.groupName = some g → g r.dataSetName = some ds → ds.dimensions.length = 2 → 0 ∈ ds.dimensions → ds.kind ≠ .other →
      read double float f r (some file) K = .error .undefined := by
  refine ⟨?_, rfl, ?_, ?_, ?_, ?_⟩
  · intro file g ds h1 h2 h3
    simp only [read, h1, h2, readDataSet]
    split
    · next hd => rw [hd] at h3; simp at h3
    · rfl
  · intro file h
    simp only [read, h]
  · intro file g h h'
    simp only [read, h, h']
  · intro file g ds h1 h2 h3 h4
    obtain ⟨a, b, hd⟩ := List.length_eq_two.1 h3
    simp only [read, h1, h2, readDataSet, hd, readValues, h4, bind, Except.bind]
  · intro file g ds h1 h2 h3 h0 h4
    obtain ⟨a, b, hd⟩ := List.length_eq_two.1 h3
    have h5 : a * b = 0 := by
      rw [hd] at h0
      rcases List.mem_cons.1 h0 with h | h
      · rw [← h, Nat.zero_mul]
      · rw [← List.mem_singleton.1 h, Nat.mul_zero]
    simp only [read, h1, h2, readDataSet, hd]
    rw [h5]
    cases hk : ds.kind with
    | double => simp only [readValues, hk, if_true, bind, Except.bind]
    | float => simp only [readValues, hk, if_true, bind, Except.bind]
    | other => exact absurd hk h4

/-! ### Examples -/

/-- Values with two bytes. -/
def sampleEncode (v : ℕ) : List ℕ := [v % 256, v / 256]

/-- The value of two bytes. -/
def sampleDecode (b : List ℕ) : ℕ := b.getD 0 0 + 256 * b.getD 1 0

/-- A data set with values 1, 2, …, -/
def sampleSet (endian : Endian) (rows columns : ℕ) : DataSet :=
  ⟨.double, endian, [rows, columns], ((List.range (rows * columns)).map (· + 1)).map fun v => if endian = .little then sampleEncode v else (sampleEncode v).reverse⟩

/-- A file with one data set. -/
def sampleFile (ds : DataSet) : File := fun g => if g = "/".toList then some fun n => if n = "YField".toList then some ds else none else none

theorem sample_stores (endian : Endian) (rows columns : ℕ) : Stores sampleEncode (sampleSet endian rows columns) .double endian rows columns ((List.range (rows * columns)).map (· + 1)) :=
  ⟨rfl, rfl, rfl, by simp, rfl⟩

theorem sample_decode (v : ℕ) : sampleDecode (sampleEncode v) = v := by
  simp only [sampleDecode, sampleEncode, List.getD_cons_zero, List.getD_cons_succ]
  exact Nat.mod_add_div v 256

/-- The hypotheses of `C146_grid`, `C146_maximum`, `C146_count` and `C146_order` hold for a data set with two rows and three columns: vertex 0 is connected to vertex 2, which is in the same row. -/
example : ∃ K', readMax sampleDecode sampleDecode {} (some (sampleFile (sampleSet .little 2 3))) [] = .ok K' ∧ Spec.Monotone K' ∧ ∀ t a, HasData K' t a → IsGreatest {v | ∃ i ∈ t, HasData K' {i} v} a :=
  C146_maximum sampleDecode sampleDecode sampleEncode {} (sampleFile (sampleSet .little 2 3)) _ _ .double .little 2 3 _ rfl rfl (sample_stores .little 2 3) (by decide) (by decide) []

/-- The result for this data set. -/
example : readMax sampleDecode sampleDecode {} (some (sampleFile (sampleSet .little 2 3))) [] = .ok
    [⟨[0], 1⟩, ⟨[1], 2⟩, ⟨[2], 3⟩, ⟨[3], 4⟩, ⟨[4], 5⟩, ⟨[5], 6⟩, ⟨[1, 0], 2⟩, ⟨[2, 0], 3⟩, ⟨[2, 1], 3⟩, ⟨[3, 2, 1], 4⟩, ⟨[2, 1, 0], 3⟩, ⟨[3, 2], 4⟩, ⟨[3, 1], 4⟩, ⟨[4, 2], 5⟩, ⟨[4, 3], 5⟩,
      ⟨[5, 4, 3], 6⟩, ⟨[4, 3, 2], 5⟩, ⟨[5, 4], 6⟩, ⟨[5, 3], 6⟩] := by
  rfl

/-- The hypotheses of `C146_transposed` hold for this data set. -/
example : ∃ K', read sampleDecode sampleDecode max {} (some (sampleFile (sampleSet .little 2 3))) [] = .ok K' ∧ Has K' {0, 2} ∧ ∀ f' values' a, ¬ FieldData (α := ℕ) f' 3 values' {0, 2} a :=
  C146_transposed sampleDecode sampleDecode sampleEncode max {} (sampleFile (sampleSet .little 2 3)) _ _ .double .little 2 3 _ rfl rfl (sample_stores .little 2 3) (by decide) (by decide) (by decide)
    (by decide) []

/-- The hypotheses of `C146_field_partial` hold for a data set with three rows and columns. -/
example : ∃ K', read sampleDecode sampleDecode max {} (some (sampleFile (sampleSet .little 3 3))) [] = .ok K' ∧ WF K' ∧ FaceClosed K' ∧
    ∀ t a, HasData K' t a ↔ FieldData max 3 ((List.range 9).map (· + 1)) t a :=
  C146_field_partial sampleDecode sampleDecode sampleEncode max {} (sampleFile (sampleSet .little 3 3)) _ _ .double 3 3 _ rfl rfl (sample_stores .little 3 3) (by decide)
    (fun v _ => by simpa using sample_decode v) (by decide) (Or.inl rfl) []

/-- The hypotheses of `C146_big_endian` hold: the first value is 256 instead of 1. -/
example : ∃ K', read sampleDecode sampleDecode max {} (some (sampleFile (sampleSet .big 2 2))) [] = .ok K' ∧ HasData K' {0} 256 ∧ ¬ HasData K' {0} 1 := by
  obtain ⟨K', h1, h2⟩ := C146_big_endian sampleDecode sampleDecode sampleEncode max {} (sampleFile (sampleSet .big 2 2)) _ _ .double 2 2 _ rfl rfl (sample_stores .big 2 2) (by decide) (by decide) []
  refine ⟨K', h1, (h2 0 1 rfl _).2 (by decide), fun h => ?_⟩
  exact absurd ((h2 0 1 rfl _).1 h) (by decide)

/-- A data set with three dimensions is ignored, as in `C146_other`. -/
example : read sampleDecode sampleDecode max {} (some (sampleFile ⟨.double, .little, [2, 2, 2], []⟩)) [⟨[7], 1⟩] = .ok [⟨[7], 1⟩] :=
  (C146_other sampleDecode sampleDecode max {} [⟨[7], 1⟩]).1 _ _ _ rfl rfl (by decide)

end Aleph.Hdf5
