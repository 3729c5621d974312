import Verif.Model.MatrixReader
import Verif.Model.Euler
import Verif.Spec.Grid
import Verif.Spec.Conversions
import Verif.Lemmas.Rips
import Verif.Props.CliqueGraph
import Verif.Props.Strings
import Mathlib.Data.List.GetD
import Mathlib.Data.Finset.Max
import Mathlib.Order.Bounds.Basic
import Mathlib.Tactic.Linarith
import Mathlib.Tactic.Ring
import Mathlib.Tactic.Tauto

/-!
# C73, C74: matrices in text format
-/

namespace Aleph.MatrixReader

open Finset Spec

variable {α : Type}

/-! ### Shapes of the cells of a grid -/

/-- The cells of a grid with least position `(y, x)`. -/
theorem cell_shape {P : Finset (ℕ × ℕ)} (h : IsGridCell P) : ∃ y x,
    P = {(y, x)} ∨ P = {(y, x), (y, x + 1)} ∨ P = {(y, x), (y + 1, x)} ∨ P = {(y, x), (y + 1, x + 1)} ∨
    P = {(y, x), (y, x + 1), (y + 1, x + 1)} ∨ P = {(y, x), (y + 1, x + 1), (y + 1, x)} := by
  obtain ⟨hne, hP⟩ := h
  obtain ⟨⟨y, x⟩, hp, hmin⟩ := P.exists_min_image (fun p => p.1 + p.2) hne
  have hle : ∀ q ∈ P, (y, x) ≤ q := by
    intro q hq
    rcases (hP _ hp q hq).2.2 with h | h
    · exact h
    · have := hmin q hq
      obtain ⟨b, a⟩ := q
      simp only [Prod.mk_le_mk] at h ⊢
      simp only at this
      omega
  have hcase : ∀ q ∈ P, q = (y, x) ∨ q = (y, x + 1) ∨ q = (y + 1, x) ∨ q = (y + 1, x + 1) := by
    rintro ⟨b, a⟩ hq
    have h1 := hle _ hq
    have h2 := hP _ hq _ hp
    simp only [Prod.mk_le_mk] at h1 h2
    simp only [Prod.mk.injEq]
    omega
  have hnot : ¬ ((y, x + 1) ∈ P ∧ (y + 1, x) ∈ P) := by
    rintro ⟨h1, h2⟩
    have := (hP _ h1 _ h2).2.2
    simp only [Prod.mk_le_mk] at this
    omega
  refine ⟨y, x, ?_⟩
  by_cases h1 : (y, x + 1) ∈ P <;> by_cases h2 : (y + 1, x) ∈ P <;> by_cases h3 : (y + 1, x + 1) ∈ P
  · exact absurd ⟨h1, h2⟩ hnot
  · exact absurd ⟨h1, h2⟩ hnot
  · right; right; right; right; left
    ext q; simp only [mem_insert, mem_singleton]
    constructor
    · intro hq; rcases hcase q hq with rfl | rfl | rfl | rfl <;> simp_all
    · rintro (rfl | rfl | rfl) <;> assumption
  · right; left
    ext q; simp only [mem_insert, mem_singleton]
    constructor
    · intro hq; rcases hcase q hq with rfl | rfl | rfl | rfl <;> simp_all
    · rintro (rfl | rfl) <;> assumption
  · right; right; right; right; right
    ext q; simp only [mem_insert, mem_singleton]
    constructor
    · intro hq; rcases hcase q hq with rfl | rfl | rfl | rfl <;> simp_all
    · rintro (rfl | rfl | rfl) <;> assumption
  · right; right; left
    ext q; simp only [mem_insert, mem_singleton]
    constructor
    · intro hq; rcases hcase q hq with rfl | rfl | rfl | rfl <;> simp_all
    · rintro (rfl | rfl) <;> assumption
  · right; right; right; left
    ext q; simp only [mem_insert, mem_singleton]
    constructor
    · intro hq; rcases hcase q hq with rfl | rfl | rfl | rfl <;> simp_all
    · rintro (rfl | rfl) <;> assumption
  · left
    ext q; simp only [mem_singleton]
    constructor
    · intro hq; rcases hcase q hq with rfl | rfl | rfl | rfl <;> simp_all
    · rintro rfl; assumption

/-- Subsets of cells are cells. -/
theorem cell_subset {P Q : Finset (ℕ × ℕ)} (h : IsGridCell P) (hQ : Q ⊆ P) (hne : Q.Nonempty) : IsGridCell Q :=
  ⟨hne, fun p hp q hq => h.2 p (hQ hp) q (hQ hq)⟩

/-- The vertex sets of the triangulated grid. -/
def GridSet (tri : Bool) (w : ℕ) (rows : List (List α)) (t : Finset ℕ) : Prop :=
  ∃ P, IsGridCell P ∧ (tri = true ∨ #P ≤ 2) ∧ (∀ p ∈ P, (entry rows p.1 p.2).isSome) ∧ t = P.image fun p => w * p.1 + p.2

theorem gridSet_iff (tri : Bool) (f : α → α → α) (w : ℕ) (rows : List (List α)) (t : Finset ℕ) :
    GridSet tri w rows t ↔ ∃ x, GridData tri f w rows t x := by
  have hs : ∀ {y x : ℕ}, (entry rows y x).isSome → ∃ a, entry rows y x = some a := fun h => Option.isSome_iff_exists.1 h
  constructor
  · rintro ⟨P, hP, ht, he, rfl⟩
    obtain ⟨y, x, rfl | rfl | rfl | rfl | rfl | rfl⟩ := cell_shape hP
    · obtain ⟨a, ha⟩ := hs (he (y, x) (by simp))
      exact ⟨_, by simpa using GridData.vertex y x a ha⟩
    · obtain ⟨a, ha⟩ := hs (he (y, x) (by simp))
      obtain ⟨b, hb⟩ := hs (he (y, x + 1) (by simp))
      exact ⟨_, by simpa using GridData.right (tri := tri) (f := f) (w := w) y x a b ha hb⟩
    · obtain ⟨a, ha⟩ := hs (he (y, x) (by simp))
      obtain ⟨b, hb⟩ := hs (he (y + 1, x) (by simp))
      exact ⟨_, by simpa using GridData.down (tri := tri) (f := f) (w := w) y x a b ha hb⟩
    · obtain ⟨a, ha⟩ := hs (he (y, x) (by simp))
      obtain ⟨b, hb⟩ := hs (he (y + 1, x + 1) (by simp))
      exact ⟨_, by simpa using GridData.diagonal (tri := tri) (f := f) (w := w) y x a b ha hb⟩
    · obtain ⟨a, ha⟩ := hs (he (y, x) (by simp))
      obtain ⟨b, hb⟩ := hs (he (y, x + 1) (by simp))
      obtain ⟨c, hc⟩ := hs (he (y + 1, x + 1) (by simp))
      have htri : tri = true := ht.resolve_right (by simp)
      exact ⟨_, by simpa using GridData.upper (f := f) (w := w) y x a b c htri ha hb hc⟩
    · obtain ⟨a, ha⟩ := hs (he (y, x) (by simp))
      obtain ⟨c, hc⟩ := hs (he (y + 1, x + 1) (by simp))
      obtain ⟨d, hd⟩ := hs (he (y + 1, x) (by simp))
      have htri : tri = true := ht.resolve_right (by simp)
      exact ⟨_, by simpa using GridData.lower (f := f) (w := w) y x a c d htri ha hc hd⟩
  · rintro ⟨v, h⟩
    cases h with
    | vertex y x a ha =>
      exact ⟨{(y, x)}, ⟨by simp, by simp⟩, by simp, by simp [ha], by simp⟩
    | right y x a b ha hb =>
      exact ⟨{(y, x), (y, x + 1)}, ⟨by simp, by simp; omega⟩, Or.inr card_le_two, by simp [ha, hb], by simp⟩
    | down y x a b ha hb =>
      exact ⟨{(y, x), (y + 1, x)}, ⟨by simp, by simp; omega⟩, Or.inr card_le_two, by simp [ha, hb], by simp⟩
    | diagonal y x a b ha hb =>
      exact ⟨{(y, x), (y + 1, x + 1)}, ⟨by simp, by simp; omega⟩, Or.inr card_le_two, by simp [ha, hb], by simp⟩
    | upper y x a b c htri ha hb hc =>
      exact ⟨{(y, x), (y, x + 1), (y + 1, x + 1)}, ⟨by simp, by simp; omega⟩, Or.inl htri, by simp [ha, hb, hc], by simp⟩
    | lower y x a c d htri ha hc hd =>
      exact ⟨{(y, x), (y + 1, x + 1), (y + 1, x)}, ⟨by simp, by simp; omega⟩, Or.inl htri, by simp [ha, hc, hd], by simp⟩

/-! ### The list of simplices -/

theorem mem_positions {h w : ℕ} {p : ℕ × ℕ} : p ∈ positions h w ↔ p.1 < h ∧ p.2 < w := by
  obtain ⟨y, x⟩ := p
  simp [positions]

theorem positions_nodup (h w : ℕ) : (positions h w).Nodup := by
  unfold positions
  rw [List.nodup_flatMap]
  refine ⟨fun y _ => List.nodup_range.map fun a b h => (Prod.mk.inj h).2, ?_⟩
  refine List.nodup_range.imp ?_
  intro a b hab
  simp only [Function.onFun]
  intro p hp hq
  obtain ⟨x, _, rfl⟩ := List.mem_map.1 hp
  obtain ⟨x', _, h⟩ := List.mem_map.1 hq
  exact hab (Prod.mk.inj h).1.symm

theorem positions_length (h w : ℕ) : (positions h w).length = h * w := by
  simp [positions, List.length_flatMap]

theorem code_inj {w y x y' x' : ℕ} (hx : x < w) (hx' : x' < w) (h : w * y + x = w * y' + x') : y = y' ∧ x = x' := by
  have h1 : (w * y + x) / w = y := by
    rw [Nat.mul_add_div (by omega), Nat.div_eq_of_lt hx]; rfl
  have h2 : (w * y' + x') / w = y' := by
    rw [Nat.mul_add_div (by omega), Nat.div_eq_of_lt hx']; rfl
  have : y = y' := by rw [← h1, ← h2, h]
  subst this
  exact ⟨rfl, by omega⟩

theorem code_lt {h w y x : ℕ} (hy : y < h) (hx : x < w) : w * y + x < h * w := by
  have : w * (y + 1) ≤ w * h := Nat.mul_le_mul_left w hy
  rw [Nat.mul_add, Nat.mul_comm w h] at this
  omega

theorem desc2 {u v : ℕ} (h : u < v) (d : α) : Simplex.ofRange [u, v] d = ⟨[v, u], d⟩ := by
  have : ([u, v].insertionSort (· ≥ ·)) = [v, u] := by
    simp [List.insertionSort, List.orderedInsert, Nat.not_le.2 h]
  simp only [Simplex.ofRange, this]
  simp [uniq, Nat.ne_of_gt h]

theorem desc3 {a b c : ℕ} (h : a < b) (h' : b < c) (d : α) : Simplex.ofRange [a, b, c] d = ⟨[c, b, a], d⟩ := by
  have : ([a, b, c].insertionSort (· ≥ ·)) = [c, b, a] := by
    simp [List.insertionSort, List.orderedInsert, Nat.not_le.2 h, Nat.not_le.2 h', Nat.not_le.2 (h.trans h')]
  simp only [Simplex.ofRange, this]
  simp [uniq, Nat.ne_of_gt h, Nat.ne_of_gt h']

theorem desc3' {a b c : ℕ} (h : a < b) (h' : b < c) (d : α) : Simplex.ofRange [a, c, b] d = ⟨[c, b, a], d⟩ := by
  have : ([a, c, b].insertionSort (· ≥ ·)) = [c, b, a] := by
    simp [List.insertionSort, List.orderedInsert, Nat.not_le.2 h, h'.le, Nat.not_le.2 (h.trans h')]
  simp only [Simplex.ofRange, this]
  simp [uniq, Nat.ne_of_gt h, Nat.ne_of_gt h']

section list

variable (tri : Bool) (f : α → α → α) (h w : ℕ) (v : ℕ → α)

def vertexList : List (Simplex α) := (List.range (h * w)).map fun k => ⟨[k], v k⟩

def edgeList (h w' s : ℕ) : List (Simplex α) :=
  (positions h w').map fun p => ⟨[w * p.1 + p.2 + s, w * p.1 + p.2], f (v (w * p.1 + p.2)) (v (w * p.1 + p.2 + s))⟩

def triangleList : List (Simplex α) :=
  (positions (h - 1) (w - 1)).flatMap fun p =>
    let k := w * p.1 + p.2
    [⟨[k + (w + 1), k + 1, k], f (f (v k) (v (k + 1))) (v (k + (w + 1)))⟩,
      ⟨[k + (w + 1), k + w, k], f (f (v k) (v (k + (w + 1)))) (v (k + w))⟩]

def allList : List (Simplex α) :=
  vertexList h w v ++ edgeList f w v h (w - 1) 1 ++ edgeList f w v (h - 1) w w ++ edgeList f w v (h - 1) (w - 1) (w + 1) ++
    if tri then triangleList f h w v else []

end list

theorem edge_eq (d : α) (f : α → α → α) (values : List α) {u t : ℕ} (hut : u < t) (ht : t < values.length) :
    edge f values u t = some ⟨[t, u], f (values.getD u d) (values.getD t d)⟩ := by
  have hget : ∀ i < values.length, values[i]? = some (values.getD i d) := by
    intro i hi; simp [List.getD_eq_getElem?_getD, List.getElem?_eq_getElem hi]
  unfold edge
  rw [hget u (by omega), hget t ht]
  simp only [desc2 hut]

theorem simplices_eq (tri : Bool) (f : α → α → α) {h w : ℕ} (hw : 0 < w) (d : α) (values : List α)
    (hl : values.length = h * w) :
    simplices tri f h w values = some (allList tri f h w fun i => values.getD i d) := by
  have hget : ∀ i < values.length, values[i]? = some (values.getD i d) := by
    intro i hi; simp [List.getD_eq_getElem?_getD, List.getElem?_eq_getElem hi]
  unfold simplices
  have h0 : (values.zipIdx.map fun (a, v) => Simplex.ofVertex v a) = vertexList h w fun i => values.getD i d := by
    apply List.ext_getElem
    · simp [vertexList, hl]
    · intro i h1 h2
      simp only [List.length_map, List.length_zipIdx] at h1
      simp [vertexList, Simplex.ofVertex, List.getD_eq_getElem?_getD, List.getElem?_eq_getElem h1]
  have h1 : ((positions h (w - 1)).mapM fun (y, x) => edge f values (w * y + x) (w * y + x + 1)) =
      some (edgeList f w (fun i => values.getD i d) h (w - 1) 1) := by
    refine mapM_some_map ?_
    rintro ⟨y, x⟩ hp
    rw [mem_positions] at hp
    have := code_lt (y := y) (x := x + 1) hp.1 (by omega : x + 1 < w)
    exact edge_eq d f values (by omega) (by omega)
  have h2 : ((positions (h - 1) w).mapM fun (y, x) => edge f values (w * y + x) (w * (y + 1) + x)) =
      some (edgeList f w (fun i => values.getD i d) (h - 1) w w) := by
    refine mapM_some_map ?_
    rintro ⟨y, x⟩ hp
    rw [mem_positions] at hp
    have := code_lt (y := y + 1) (h := h) (by omega) hp.2
    have e : w * (y + 1) + x = w * y + x + w := by rw [Nat.mul_add]; omega
    simp only
    rw [e] at this ⊢
    exact edge_eq d f values (by omega) (by omega)
  have h3 : ((positions (h - 1) (w - 1)).mapM fun (y, x) => edge f values (w * y + x) (w * (y + 1) + x + 1)) =
      some (edgeList f w (fun i => values.getD i d) (h - 1) (w - 1) (w + 1)) := by
    refine mapM_some_map ?_
    rintro ⟨y, x⟩ hp
    rw [mem_positions] at hp
    have := code_lt (y := y + 1) (x := x + 1) (h := h) (w := w) (by omega) (by omega)
    have e : w * (y + 1) + x + 1 = w * y + x + (w + 1) := by rw [Nat.mul_add]; omega
    have e' : w * (y + 1) + (x + 1) = w * y + x + (w + 1) := by rw [Nat.mul_add]; omega
    simp only
    rw [e]
    rw [e'] at this
    exact edge_eq d f values (by omega) (by omega)
  have h4 : ((positions (h - 1) (w - 1)).mapM fun (y, x) =>
      triangles f values (w * y + x) (w * y + x + 1) (w * (y + 1) + x + 1) (w * (y + 1) + x)) =
      some ((positions (h - 1) (w - 1)).map fun p =>
        let k := w * p.1 + p.2
        [⟨[k + (w + 1), k + 1, k], f (f (values.getD k d) (values.getD (k + 1) d)) (values.getD (k + (w + 1)) d)⟩,
          ⟨[k + (w + 1), k + w, k], f (f (values.getD k d) (values.getD (k + (w + 1)) d)) (values.getD (k + w) d)⟩]) := by
    refine mapM_some_map ?_
    rintro ⟨y, x⟩ hp
    rw [mem_positions] at hp
    have := code_lt (y := y + 1) (x := x + 1) (h := h) (w := w) (by omega) (by omega)
    have e : w * (y + 1) + x + 1 = w * y + x + (w + 1) := by rw [Nat.mul_add]; omega
    have e' : w * (y + 1) + (x + 1) = w * y + x + (w + 1) := by rw [Nat.mul_add]; omega
    have e'' : w * (y + 1) + x = w * y + x + w := by rw [Nat.mul_add]; omega
    simp only
    rw [e, e'']
    rw [e'] at this
    unfold triangles
    rw [hget _ (by omega), hget _ (by omega), hget _ (by omega), hget _ (by omega)]
    simp only at hp
    simp only
    rw [desc3 (by omega) (by omega), desc3' (by omega) (by omega)]
  rw [h0, h1, h2, h3, h4]
  cases tri
  · simp [allList]
  · simp [allList, triangleList, List.flatMap]

theorem allList_mem (tri : Bool) (f : α → α → α) (h w : ℕ) (v : ℕ → α) (s : Simplex α) :
    s ∈ allList tri f h w v ↔
      (∃ k < h * w, s = ⟨[k], v k⟩) ∨
      (∃ y x, y < h ∧ x + 1 < w ∧ s = ⟨[w * y + x + 1, w * y + x], f (v (w * y + x)) (v (w * y + x + 1))⟩) ∨
      (∃ y x, y + 1 < h ∧ x < w ∧ s = ⟨[w * y + x + w, w * y + x], f (v (w * y + x)) (v (w * y + x + w))⟩) ∨
      (∃ y x, y + 1 < h ∧ x + 1 < w ∧
        s = ⟨[w * y + x + (w + 1), w * y + x], f (v (w * y + x)) (v (w * y + x + (w + 1)))⟩) ∨
      (tri = true ∧ ∃ y x, y + 1 < h ∧ x + 1 < w ∧
        (s = ⟨[w * y + x + (w + 1), w * y + x + 1, w * y + x],
            f (f (v (w * y + x)) (v (w * y + x + 1))) (v (w * y + x + (w + 1)))⟩ ∨
          s = ⟨[w * y + x + (w + 1), w * y + x + w, w * y + x],
            f (f (v (w * y + x)) (v (w * y + x + (w + 1)))) (v (w * y + x + w))⟩)) := by
  have e : ∀ (h' w' t : ℕ), s ∈ edgeList f w v h' w' t ↔ ∃ y x, y < h' ∧ x < w' ∧
      s = ⟨[w * y + x + t, w * y + x], f (v (w * y + x)) (v (w * y + x + t))⟩ := by
    intro h' w' t
    simp only [edgeList, List.mem_map, mem_positions, Prod.exists]
    exact exists_congr fun y => exists_congr fun x =>
      ⟨fun ⟨⟨a, b⟩, c⟩ => ⟨a, b, c.symm⟩, fun ⟨a, b, c⟩ => ⟨⟨a, b⟩, c.symm⟩⟩
  simp only [allList, List.mem_append, e, or_assoc]
  refine or_congr ?_ (or_congr ?_ (or_congr ?_ (or_congr ?_ ?_)))
  · simp only [vertexList, List.mem_map, List.mem_range]
    exact exists_congr fun k => ⟨fun ⟨a, b⟩ => ⟨a, b.symm⟩, fun ⟨a, b⟩ => ⟨a, b.symm⟩⟩
  · exact exists_congr fun y => exists_congr fun x => and_congr_right fun _ => and_congr_left fun _ => by omega
  · exact exists_congr fun y => exists_congr fun x => and_congr (by omega) Iff.rfl
  · exact exists_congr fun y => exists_congr fun x => and_congr (by omega) (and_congr (by omega) Iff.rfl)
  · cases tri with
    | false => simp
    | true =>
      simp only [if_true, triangleList, List.mem_flatMap, mem_positions, Prod.exists, List.mem_cons, List.not_mem_nil,
        or_false, true_and]
      exact exists_congr fun y => exists_congr fun x =>
        ⟨fun ⟨⟨a, b⟩, c⟩ => ⟨by omega, by omega, c⟩, fun ⟨a, b, c⟩ => ⟨⟨by omega, by omega⟩, c⟩⟩

theorem edgeList_nodup (f : α → α → α) {w : ℕ} (v : ℕ → α) (h' w' t : ℕ) (hw : w' ≤ w) :
    ((edgeList f w v h' w' t).map (·.vertices)).Nodup := by
  unfold edgeList
  rw [List.map_map]
  refine (positions_nodup h' w').map_on ?_
  rintro ⟨y, x⟩ hp ⟨y', x'⟩ hq he
  rw [mem_positions] at hp hq
  simp only [Function.comp, List.cons.injEq, and_true] at he
  obtain ⟨rfl, rfl⟩ := code_inj (y := y) (y' := y') (by omega) (by omega) he.2
  rfl

theorem allList_nodup (tri : Bool) (f : α → α → α) {h w : ℕ} (hw : 0 < w) (v : ℕ → α) :
    ((allList tri f h w v).map (·.vertices)).Nodup := by
  have e : ∀ (h' w' t : ℕ) (vs : List ℕ), vs ∈ (edgeList f w v h' w' t).map (·.vertices) →
      ∃ y x, x < w' ∧ vs = [w * y + x + t, w * y + x] := by
    intro h' w' t vs hv
    simp only [edgeList, List.map_map, List.mem_map, mem_positions, Prod.exists, Function.comp] at hv
    obtain ⟨y, x, ⟨_, h2⟩, rfl⟩ := hv
    exact ⟨y, x, h2, rfl⟩
  have ev : ∀ vs, vs ∈ (vertexList h w v).map (·.vertices) → ∃ k, vs = [k] := by
    intro vs hv
    simp only [vertexList, List.map_map, List.mem_map, Function.comp] at hv
    obtain ⟨k, _, rfl⟩ := hv
    exact ⟨k, rfl⟩
  have et : ∀ vs, vs ∈ (if tri then triangleList f h w v else []).map (·.vertices) → vs.length = 3 := by
    intro vs hv
    cases tri with
    | false => simp at hv
    | true =>
      simp only [if_true, triangleList, List.map_flatMap, List.mem_flatMap, List.map_cons, List.map_nil, List.mem_cons,
        List.not_mem_nil, or_false] at hv
      obtain ⟨p, _, rfl | rfl⟩ := hv <;> rfl
  unfold allList
  simp only [List.map_append, List.nodup_append]
  refine ⟨⟨⟨⟨?_, edgeList_nodup f v _ _ _ (by omega), ?_⟩, edgeList_nodup f v _ _ _ le_rfl, ?_⟩,
    edgeList_nodup f v _ _ _ (by omega), ?_⟩, ?_, ?_⟩
  · simp only [vertexList, List.map_map]
    exact List.nodup_range.map fun a b hab => by simpa using hab
  · intro a ha b hb hab
    obtain ⟨k, rfl⟩ := ev a ha
    obtain ⟨y, x, _, rfl⟩ := e _ _ _ b hb
    simp at hab
  · intro a ha b hb hab
    obtain ⟨y, x, _, rfl⟩ := e _ _ _ b hb
    rcases List.mem_append.1 ha with ha | ha
    · obtain ⟨k, rfl⟩ := ev a ha
      simp at hab
    · obtain ⟨y', x', hx', rfl⟩ := e _ _ _ a ha
      simp only [List.cons.injEq, and_true] at hab
      omega
  · intro a ha b hb hab
    obtain ⟨y, x, _, rfl⟩ := e _ _ _ b hb
    rcases List.mem_append.1 ha with ha | ha
    · rcases List.mem_append.1 ha with ha | ha
      · obtain ⟨k, rfl⟩ := ev a ha
        simp at hab
      · obtain ⟨y', x', hx', rfl⟩ := e _ _ _ a ha
        simp only [List.cons.injEq, and_true] at hab
        omega
    · obtain ⟨y', x', hx', rfl⟩ := e _ _ _ a ha
      simp only [List.cons.injEq, and_true] at hab
      omega
  · cases tri with
    | false => simp
    | true =>
      simp only [if_true, triangleList, List.map_flatMap]
      rw [List.nodup_flatMap]
      constructor
      · rintro ⟨y, x⟩ hp
        rw [mem_positions] at hp
        simp only [List.map_cons, List.map_nil, List.nodup_cons, List.mem_singleton, List.not_mem_nil, not_false_eq_true,
          List.nodup_nil, and_true, List.cons.injEq, true_and]
        omega
      · refine (positions_nodup _ _).imp_of_mem ?_
        rintro ⟨y, x⟩ ⟨y', x'⟩ hp hq hne
        rw [mem_positions] at hp hq
        simp only [Function.onFun, List.map_cons, List.map_nil]
        intro a ha hb
        apply hne
        simp only [List.mem_cons, List.not_mem_nil, or_false] at ha hb
        have : w * y + x = w * y' + x' := by
          rcases ha with rfl | rfl <;> rcases hb with hb | hb <;> simp only [List.cons.injEq, and_true] at hb <;> omega
        obtain ⟨rfl, rfl⟩ := code_inj (y := y) (y' := y') (by omega) (by omega) this
        rfl
  · intro a ha b hb hab
    have hb := et b hb
    rw [← hab] at hb
    rcases List.mem_append.1 ha with ha | ha
    · rcases List.mem_append.1 ha with ha | ha
      · rcases List.mem_append.1 ha with ha | ha
        · obtain ⟨k, rfl⟩ := ev a ha
          simp at hb
        · obtain ⟨y', x', hx', rfl⟩ := e _ _ _ a ha
          simp at hb
      · obtain ⟨y', x', hx', rfl⟩ := e _ _ _ a ha
        simp at hb
    · obtain ⟨y', x', hx', rfl⟩ := e _ _ _ a ha
      simp at hb

theorem build_eq (tri : Bool) (f : α → α → α) {h w : ℕ} (hh : 0 < h) (hw : 0 < w) (d : α) (values : List α)
    (hl : values.length = h * w) :
    build tri f h w values = some (allList tri f h w fun i => values.getD i d) := by
  unfold build
  rw [if_neg (by omega), simplices_eq tri f hw d values hl]
  simp only [Option.map_some]
  rw [insertRange_nodup [] _ _ (by simpa using allList_nodup tri f hw _)]
  · simp
  · intro s hs
    rw [allList_mem] at hs
    rcases hs with ⟨k, _, rfl⟩ | ⟨y, x, _, _, rfl⟩ | ⟨y, x, _, _, rfl⟩ | ⟨y, x, _, _, rfl⟩ | ⟨_, y, x, _, _, rfl | rfl⟩ <;> simp

/-! ### The grid -/

theorem entry_flatten {w : ℕ} {rows : List (List α)} (hr : ∀ r ∈ rows, r.length = w) {y x : ℕ} (hx : x < w) :
    rows.flatten[w * y + x]? = entry rows y x := by
  induction rows generalizing y with
  | nil => simp [entry]
  | cons r rows ih =>
    have h1 := hr r List.mem_cons_self
    cases y with
    | zero => simp [entry, List.getElem?_append, h1, hx]
    | succ y =>
      rw [List.flatten_cons, List.getElem?_append_right (by rw [h1, Nat.mul_add]; omega)]
      have : w * (y + 1) + x - r.length = w * y + x := by rw [h1, Nat.mul_add]; omega
      rw [this, ih fun r hr' => hr r (List.mem_cons_of_mem _ hr')]
      simp [entry]

theorem entry_isSome {w : ℕ} {rows : List (List α)} (hr : ∀ r ∈ rows, r.length = w) {y x : ℕ} {a : α}
    (h : entry rows y x = some a) : y < rows.length ∧ x < w := by
  unfold entry at h
  cases hy : rows[y]? with
  | none => rw [hy] at h; simp at h
  | some r =>
    rw [hy] at h
    obtain ⟨h1, h2⟩ := List.getElem?_eq_some_iff.1 hy
    have := hr r (h2 ▸ List.getElem_mem h1)
    simp only [Option.bind_some] at h
    obtain ⟨h3, _⟩ := List.getElem?_eq_some_iff.1 h
    exact ⟨h1, this ▸ h3⟩

theorem entry_getD {w : ℕ} {rows : List (List α)} (hr : ∀ r ∈ rows, r.length = w) (d : α) {y x : ℕ}
    (hy : y < rows.length) (hx : x < w) : entry rows y x = some (rows.flatten.getD (w * y + x) d) := by
  rw [← entry_flatten hr hx]
  have : w * y + x < rows.flatten.length := by
    rw [List.length_flatten, List.map_congr_left hr]
    simpa using code_lt hy hx
  simp [List.getD_eq_getElem?_getD, List.getElem?_eq_getElem this]

theorem allList_data (tri : Bool) (f : α → α → α) {w : ℕ} (d : α) {rows : List (List α)}
    (hr : ∀ r ∈ rows, r.length = w) (t : Finset ℕ) (a : α) :
    HasData (allList tri f rows.length w fun i => rows.flatten.getD i d) t a ↔ GridData tri f w rows t a := by
  have hE := fun {y x : ℕ} (hy : y < rows.length) (hx : x < w) => entry_getD hr d hy hx
  have hD : ∀ {y x : ℕ} {a : α}, entry rows y x = some a →
      y < rows.length ∧ x < w ∧ rows.flatten.getD (w * y + x) d = a := by
    intro y x a ha
    obtain ⟨h1, h2⟩ := entry_isSome hr ha
    refine ⟨h1, h2, ?_⟩
    rw [hE h1 h2] at ha
    exact Option.some.inj ha
  have e1 : ∀ y x : ℕ, w * y + (x + 1) = w * y + x + 1 := fun y x => by omega
  have e2 : ∀ y x : ℕ, w * (y + 1) + x = w * y + x + w := fun y x => by rw [Nat.mul_add]; omega
  have e3 : ∀ y x : ℕ, w * (y + 1) + (x + 1) = w * y + x + (w + 1) := fun y x => by rw [Nat.mul_add]; omega
  constructor
  · rintro ⟨s, hs, rfl, rfl⟩
    rw [allList_mem] at hs
    rcases hs with ⟨k, hk, rfl⟩ | ⟨y, x, hy, hx, rfl⟩ | ⟨y, x, hy, hx, rfl⟩ | ⟨y, x, hy, hx, rfl⟩ |
      ⟨ht, y, x, hy, hx, rfl | rfl⟩
    · have hw : 0 < w := Nat.pos_of_ne_zero fun h => by subst h; simp at hk
      have h1 : k / w < rows.length := (Nat.div_lt_iff_lt_mul hw).2 hk
      have h2 : k % w < w := Nat.mod_lt _ hw
      have h3 := GridData.vertex (tri := tri) (f := f) (w := w) (rows := rows) _ _ _ (hE h1 h2)
      rw [Nat.div_add_mod] at h3
      simpa [Simplex.vset] using h3
    · have := GridData.right (tri := tri) (f := f) (w := w) (rows := rows) y x _ _ (hE hy (by omega)) (hE hy hx)
      rw [e1, Finset.pair_comm] at this
      simpa [Simplex.vset] using this
    · have := GridData.down (tri := tri) (f := f) (w := w) (rows := rows) y x _ _ (hE (by omega) hx) (hE hy hx)
      rw [e2, Finset.pair_comm] at this
      simpa [Simplex.vset] using this
    · have := GridData.diagonal (tri := tri) (f := f) (w := w) (rows := rows) y x _ _ (hE (by omega) (by omega)) (hE hy hx)
      rw [e3, Finset.pair_comm] at this
      simpa [Simplex.vset] using this
    · have := GridData.upper (tri := tri) (f := f) (w := w) (rows := rows) y x _ _ _ ht (hE (by omega) (by omega))
        (hE (by omega) hx) (hE hy hx)
      rw [e3, e1] at this
      convert this using 1
      ext z; simp only [Simplex.vset, List.mem_toFinset, List.mem_cons, List.not_mem_nil, or_false, mem_insert, mem_singleton]
      tauto
    · have := GridData.lower (tri := tri) (f := f) (w := w) (rows := rows) y x _ _ _ ht (hE (by omega) (by omega))
        (hE hy hx) (hE hy (by omega))
      rw [e3, e2] at this
      convert this using 1
      ext z; simp only [Simplex.vset, List.mem_toFinset, List.mem_cons, List.not_mem_nil, or_false, mem_insert, mem_singleton]
      tauto
  · intro h
    cases h with
    | vertex y x a ha =>
      obtain ⟨hy, hx, h3⟩ := hD ha
      exact ⟨⟨[w * y + x], _⟩, (allList_mem ..).2 (Or.inl ⟨_, code_lt hy hx, rfl⟩), by simp [Simplex.vset], h3⟩
    | right y x a b ha hb =>
      obtain ⟨hy, hx, h3⟩ := hD ha
      obtain ⟨hy', hx', h3'⟩ := hD hb
      rw [e1] at h3' ⊢
      refine ⟨_, (allList_mem ..).2 (Or.inr (Or.inl ⟨y, x, hy, hx', rfl⟩)), ?_, ?_⟩
      · rw [Finset.pair_comm]; simp [Simplex.vset]
      · simp only [h3, h3']
    | down y x a b ha hb =>
      obtain ⟨hy, hx, h3⟩ := hD ha
      obtain ⟨hy', hx', h3'⟩ := hD hb
      rw [e2] at h3' ⊢
      refine ⟨_, (allList_mem ..).2 (Or.inr (Or.inr (Or.inl ⟨y, x, hy', hx', rfl⟩))), ?_, ?_⟩
      · rw [Finset.pair_comm]; simp [Simplex.vset]
      · simp only [h3, h3']
    | diagonal y x a b ha hb =>
      obtain ⟨hy, hx, h3⟩ := hD ha
      obtain ⟨hy', hx', h3'⟩ := hD hb
      rw [e3] at h3' ⊢
      refine ⟨_, (allList_mem ..).2 (Or.inr (Or.inr (Or.inr (Or.inl ⟨y, x, hy', hx', rfl⟩)))), ?_, ?_⟩
      · rw [Finset.pair_comm]; simp [Simplex.vset]
      · simp only [h3, h3']
    | upper y x a b c ht ha hb hc =>
      obtain ⟨hy, hx, h3⟩ := hD ha
      obtain ⟨_, _, h4⟩ := hD hb
      obtain ⟨hy', hx', h5⟩ := hD hc
      rw [e1] at h4 ⊢
      rw [e3] at h5 ⊢
      refine ⟨_, (allList_mem ..).2 (Or.inr (Or.inr (Or.inr (Or.inr ⟨ht, y, x, hy', hx', Or.inl rfl⟩)))), ?_, ?_⟩
      · ext z; simp only [Simplex.vset, List.mem_toFinset, List.mem_cons, List.not_mem_nil, or_false, mem_insert, mem_singleton]
        tauto
      · simp only [h3, h4, h5]
    | lower y x a c d' ht ha hc hd =>
      obtain ⟨hy, hx, h3⟩ := hD ha
      obtain ⟨_, _, h4⟩ := hD hd
      obtain ⟨hy', hx', h5⟩ := hD hc
      rw [e2] at h4
      rw [e3] at h5
      rw [e3, e2]
      refine ⟨_, (allList_mem ..).2 (Or.inr (Or.inr (Or.inr (Or.inr ⟨ht, y, x, hy', hx', Or.inr rfl⟩)))), ?_, ?_⟩
      · ext z; simp only [Simplex.vset, List.mem_toFinset, List.mem_cons, List.not_mem_nil, or_false, mem_insert, mem_singleton]
        tauto
      · simp only [h3, h4, h5]

theorem allList_facesFirst (tri : Bool) (f : α → α → α) (h w : ℕ) (v : ℕ → α) : FacesFirst (allList tri f h w v) := by
  have key : (allList tri f h w v).Pairwise fun s t => s.vertices.length ≤ t.vertices.length := by
    have hv : ∀ s ∈ vertexList h w v, s.vertices.length = 1 := by
      intro s hs; simp only [vertexList, List.mem_map] at hs; obtain ⟨k, _, rfl⟩ := hs; rfl
    have he : ∀ h' w' t, ∀ s ∈ edgeList f w v h' w' t, s.vertices.length = 2 := by
      intro h' w' t s hs; simp only [edgeList, List.mem_map] at hs; obtain ⟨k, _, rfl⟩ := hs; rfl
    have ht : ∀ s ∈ (if tri then triangleList f h w v else []), s.vertices.length = 3 := by
      intro s hs
      cases tri with
      | false => simp at hs
      | true =>
        simp only [if_true, triangleList, List.mem_flatMap, List.mem_cons, List.not_mem_nil, or_false] at hs
        obtain ⟨p, _, rfl | rfl⟩ := hs <;> rfl
    have same : ∀ (l : List (Simplex α)) (n : ℕ), (∀ s ∈ l, s.vertices.length = n) →
        l.Pairwise fun s t => s.vertices.length ≤ t.vertices.length := by
      intro l n hl
      exact List.pairwise_of_forall_mem_list fun a ha b hb => by rw [hl a ha, hl b hb]
    unfold allList
    simp only [List.pairwise_append]
    refine ⟨⟨⟨⟨same _ 1 hv, same _ 2 (he _ _ _), ?_⟩, same _ 2 (he _ _ _), ?_⟩, same _ 2 (he _ _ _), ?_⟩, same _ 3 ht, ?_⟩
    · intro a ha b hb; rw [hv a ha, he _ _ _ b hb]; omega
    · intro a ha b hb
      rw [he _ _ _ b hb]
      rcases List.mem_append.1 ha with ha | ha
      · rw [hv a ha]; omega
      · rw [he _ _ _ a ha]
    · intro a ha b hb
      rw [he _ _ _ b hb]
      rcases List.mem_append.1 ha with ha | ha
      · rcases List.mem_append.1 ha with ha | ha
        · rw [hv a ha]; omega
        · rw [he _ _ _ a ha]
      · rw [he _ _ _ a ha]
    · intro a ha b hb
      rw [ht b hb]
      rcases List.mem_append.1 ha with ha | ha
      · rcases List.mem_append.1 ha with ha | ha
        · rcases List.mem_append.1 ha with ha | ha
          · rw [hv a ha]; omega
          · rw [he _ _ _ a ha]; omega
        · rw [he _ _ _ a ha]; omega
      · rw [he _ _ _ a ha]; omega
  have hnd : ∀ s ∈ allList tri f h w v, s.vertices.Nodup := by
    intro s hs
    rw [allList_mem] at hs
    rcases hs with ⟨k, _, rfl⟩ | ⟨y, x, _, _, rfl⟩ | ⟨y, x, _, _, rfl⟩ | ⟨y, x, _, _, rfl⟩ | ⟨_, y, x, _, _, rfl | rfl⟩ <;>
      simp <;> omega
  refine List.Pairwise.imp_of_mem ?_ key
  intro s t hs ht hle hss
  have := card_lt_card hss
  rw [Simplex.vset, Simplex.vset, List.toFinset_card_of_nodup (hnd s hs), List.toFinset_card_of_nodup (hnd t ht)] at this
  omega

/-- C73. A matrix with at least one entry becomes the triangulated grid of its entries, with exactly the simplices and values
of the specification; the complex is closed under faces and stored with faces first. -/
theorem _root_.Aleph.C73_grid (tri : Bool) (f : α → α → α) (rows : List (List α)) (w : ℕ) (hw : 0 < w) (hne : rows ≠ [])
    (hr : ∀ r ∈ rows, r.length = w) :
    ∃ K, build tri f rows.length w rows.flatten = some K ∧ IsFiltration K ∧
      ∀ t a, HasData K t a ↔ GridData tri f w rows t a := by
  have hh : 0 < rows.length := List.length_pos_iff.2 hne
  have hl : rows.flatten.length = rows.length * w := by
    rw [List.length_flatten, List.map_congr_left hr]; simp
  obtain ⟨d⟩ : Nonempty α := by
    have : 0 < rows.flatten.length := by rw [hl]; exact Nat.mul_pos hh hw
    exact ⟨rows.flatten[0]⟩
  have hdata := allList_data tri f d hr
  have hnorm : ∀ s ∈ allList tri f rows.length w fun i => rows.flatten.getD i d, Normal s.vertices ∧ s.vertices ≠ [] := by
    intro s hs
    rw [allList_mem] at hs
    unfold Normal
    rcases hs with ⟨k, _, rfl⟩ | ⟨y, x, _, _, rfl⟩ | ⟨y, x, _, _, rfl⟩ | ⟨y, x, _, _, rfl⟩ | ⟨_, y, x, _, _, rfl | rfl⟩ <;>
      simp <;> omega
  refine ⟨_, build_eq tri f hh hw d _ hl, ⟨⟨fun s hs => (hnorm s hs).1, fun s hs => (hnorm s hs).2, allList_nodup tri f hw _⟩,
    ?_, allList_facesFirst ..⟩, hdata⟩
  intro s hs t hts htne
  have h1 := (hdata s.vset s.data).1 ⟨s, hs, rfl, rfl⟩
  obtain ⟨P, hP, hc, he, hPs⟩ := (gridSet_iff tri f w rows s.vset).2 ⟨_, h1⟩
  rw [hPs, subset_image_iff] at hts
  obtain ⟨Q, hQ, rfl⟩ := hts
  have hQne : Q.Nonempty := image_nonempty.1 htne
  obtain ⟨a, ha⟩ := (gridSet_iff tri f w rows _).1
    ⟨Q, cell_subset hP hQ hQne, hc.imp_right fun h => (card_le_card hQ).trans h, fun p hp => he p (hQ hp), rfl⟩
  obtain ⟨u, hu, hu', _⟩ := (hdata _ _).2 ha
  exact ⟨u, hu, hu'⟩

/-- C73. With the default functor, the simplices are the sets of positions that fit into a unit square and are totally ordered by
their position (without the option for triangles, only those with at most two elements), and each of them carries the
maximum of its entries. -/
theorem _root_.Aleph.C73_maximum [LinearOrder α] (tri : Bool) (rows : List (List α)) (w : ℕ) (hw : 0 < w) (hne : rows ≠ [])
    (hr : ∀ r ∈ rows, r.length = w) :
    ∃ K, build tri max rows.length w rows.flatten = some K ∧ Spec.Monotone K ∧
      ∀ t a, HasData K t a ↔ ∃ P, IsGridCell P ∧ (tri = true ∨ #P ≤ 2) ∧ (∀ p ∈ P, (entry rows p.1 p.2).isSome) ∧
        t = P.image (fun p => w * p.1 + p.2) ∧ IsGreatest {v | ∃ p ∈ P, entry rows p.1 p.2 = some v} a := by
  obtain ⟨K, h1, hF, h2⟩ := C73_grid tri max rows w hw hne hr
  have hiff : ∀ t a, HasData K t a ↔ ∃ P, IsGridCell P ∧ (tri = true ∨ #P ≤ 2) ∧ (∀ p ∈ P, (entry rows p.1 p.2).isSome) ∧
        t = P.image (fun p => w * p.1 + p.2) ∧ IsGreatest {v | ∃ p ∈ P, entry rows p.1 p.2 = some v} a := by
    intro t a
    rw [h2]
    have hs : ∀ {y x : ℕ}, (entry rows y x).isSome → ∃ a, entry rows y x = some a := fun h => Option.isSome_iff_exists.1 h
    have g2 : ∀ {p q : ℕ × ℕ} {a b : α}, entry rows p.1 p.2 = some a → entry rows q.1 q.2 = some b →
        IsGreatest {v | ∃ r ∈ ({p, q} : Finset (ℕ × ℕ)), entry rows r.1 r.2 = some v} (max a b) := by
      intro p q a b ha hb
      constructor
      · rcases max_choice a b with h | h <;> rw [h]
        · exact ⟨p, by simp, ha⟩
        · exact ⟨q, by simp, hb⟩
      · rintro v ⟨r, hr, hv⟩
        simp only [mem_insert, mem_singleton] at hr
        rcases hr with rfl | rfl
        · rw [ha] at hv; cases hv; exact le_max_left _ _
        · rw [hb] at hv; cases hv; exact le_max_right _ _
    have g3 : ∀ {p q o : ℕ × ℕ} {a b c : α}, entry rows p.1 p.2 = some a → entry rows q.1 q.2 = some b →
        entry rows o.1 o.2 = some c →
        IsGreatest {v | ∃ r ∈ ({p, q, o} : Finset (ℕ × ℕ)), entry rows r.1 r.2 = some v} (max (max a b) c) := by
      intro p q o a b c ha hb hc
      constructor
      · rcases max_choice (max a b) c with h | h <;> rw [h]
        · rcases max_choice a b with h | h <;> rw [h]
          · exact ⟨p, by simp, ha⟩
          · exact ⟨q, by simp, hb⟩
        · exact ⟨o, by simp, hc⟩
      · rintro v ⟨r, hr, hv⟩
        simp only [mem_insert, mem_singleton] at hr
        rcases hr with rfl | rfl | rfl
        · rw [ha] at hv; cases hv; exact (le_max_left _ _).trans (le_max_left _ _)
        · rw [hb] at hv; cases hv; exact (le_max_right _ _).trans (le_max_left _ _)
        · rw [hc] at hv; cases hv; exact le_max_right _ _
    have g1 : ∀ {p : ℕ × ℕ} {a : α}, entry rows p.1 p.2 = some a →
        IsGreatest {v | ∃ r ∈ ({p} : Finset (ℕ × ℕ)), entry rows r.1 r.2 = some v} a := by
      intro p a ha
      refine ⟨⟨p, by simp, ha⟩, ?_⟩
      rintro v ⟨r, hr, hv⟩
      rw [mem_singleton] at hr
      subst hr
      rw [ha] at hv; cases hv; exact le_rfl
    constructor
    · intro h
      cases h with
      | vertex y x a ha =>
        exact ⟨{(y, x)}, ⟨by simp, by simp⟩, by simp, by simp [ha], by simp, g1 (p := (y, x)) ha⟩
      | right y x a b ha hb =>
        exact ⟨{(y, x), (y, x + 1)}, ⟨by simp, by simp; omega⟩, Or.inr card_le_two, by simp [ha, hb], by simp,
          g2 (p := (y, x)) (q := (y, x + 1)) ha hb⟩
      | down y x a b ha hb =>
        exact ⟨{(y, x), (y + 1, x)}, ⟨by simp, by simp; omega⟩, Or.inr card_le_two, by simp [ha, hb], by simp,
          g2 (p := (y, x)) (q := (y + 1, x)) ha hb⟩
      | diagonal y x a b ha hb =>
        exact ⟨{(y, x), (y + 1, x + 1)}, ⟨by simp, by simp; omega⟩, Or.inr card_le_two, by simp [ha, hb], by simp,
          g2 (p := (y, x)) (q := (y + 1, x + 1)) ha hb⟩
      | upper y x a b c htri ha hb hc =>
        exact ⟨{(y, x), (y, x + 1), (y + 1, x + 1)}, ⟨by simp, by simp; omega⟩, Or.inl htri, by simp [ha, hb, hc], by simp,
          g3 (p := (y, x)) (q := (y, x + 1)) (o := (y + 1, x + 1)) ha hb hc⟩
      | lower y x a c d htri ha hc hd =>
        exact ⟨{(y, x), (y + 1, x + 1), (y + 1, x)}, ⟨by simp, by simp; omega⟩, Or.inl htri, by simp [ha, hc, hd], by simp,
          g3 (p := (y, x)) (q := (y + 1, x + 1)) (o := (y + 1, x)) ha hc hd⟩
    · rintro ⟨P, hP, ht, he, rfl, hg⟩
      obtain ⟨y, x, rfl | rfl | rfl | rfl | rfl | rfl⟩ := cell_shape hP
      · obtain ⟨a, ha⟩ := hs (he (y, x) (by simp))
        rw [hg.unique (g1 (p := (y, x)) ha)]
        simpa using GridData.vertex y x a ha
      · obtain ⟨a, ha⟩ := hs (he (y, x) (by simp))
        obtain ⟨b, hb⟩ := hs (he (y, x + 1) (by simp))
        rw [hg.unique (g2 (p := (y, x)) (q := (y, x + 1)) ha hb)]
        simpa using GridData.right (tri := tri) (f := max) (w := w) y x a b ha hb
      · obtain ⟨a, ha⟩ := hs (he (y, x) (by simp))
        obtain ⟨b, hb⟩ := hs (he (y + 1, x) (by simp))
        rw [hg.unique (g2 (p := (y, x)) (q := (y + 1, x)) ha hb)]
        simpa using GridData.down (tri := tri) (f := max) (w := w) y x a b ha hb
      · obtain ⟨a, ha⟩ := hs (he (y, x) (by simp))
        obtain ⟨b, hb⟩ := hs (he (y + 1, x + 1) (by simp))
        rw [hg.unique (g2 (p := (y, x)) (q := (y + 1, x + 1)) ha hb)]
        simpa using GridData.diagonal (tri := tri) (f := max) (w := w) y x a b ha hb
      · obtain ⟨a, ha⟩ := hs (he (y, x) (by simp))
        obtain ⟨b, hb⟩ := hs (he (y, x + 1) (by simp))
        obtain ⟨c, hc⟩ := hs (he (y + 1, x + 1) (by simp))
        have htri : tri = true := ht.resolve_right (by simp)
        rw [hg.unique (g3 (p := (y, x)) (q := (y, x + 1)) (o := (y + 1, x + 1)) ha hb hc)]
        simpa using GridData.upper (f := max) (w := w) y x a b c htri ha hb hc
      · obtain ⟨a, ha⟩ := hs (he (y, x) (by simp))
        obtain ⟨c, hc⟩ := hs (he (y + 1, x + 1) (by simp))
        obtain ⟨d, hd⟩ := hs (he (y + 1, x) (by simp))
        have htri : tri = true := ht.resolve_right (by simp)
        rw [hg.unique (g3 (p := (y, x)) (q := (y + 1, x + 1)) (o := (y + 1, x)) ha hc hd)]
        simpa using GridData.lower (f := max) (w := w) y x a c d htri ha hc hd
  refine ⟨K, h1, ?_, hiff⟩
  intro s hs t ht hst
  obtain ⟨P, _, _, hPe, hPs, hPg⟩ := (hiff s.vset s.data).1 ⟨s, hs, rfl, rfl⟩
  obtain ⟨Q, _, _, hQe, hQs, hQg⟩ := (hiff t.vset t.data).1 ⟨t, ht, rfl, rfl⟩
  obtain ⟨p, hp, hpv⟩ := hPg.1
  apply hQg.2
  have hmem : w * p.1 + p.2 ∈ t.vset := hst (hPs ▸ mem_image_of_mem _ hp)
  rw [hQs, mem_image] at hmem
  obtain ⟨q, hq, hqp⟩ := hmem
  obtain ⟨b, hb⟩ := Option.isSome_iff_exists.1 (hQe q hq)
  have e1 := entry_isSome hr hpv
  have e2 := entry_isSome hr hb
  obtain ⟨e3, e4⟩ := code_inj e2.2 e1.2 hqp
  have : q = p := Prod.ext e3 e4
  subst this
  exact ⟨q, hq, hpv⟩

/-- C73. Matrices without entries are rejected (the code leaves the last valid loop only after an exception). -/
theorem _root_.Aleph.C73_empty (tri : Bool) (f : α → α → α) (w : ℕ) (values : List α) :
    build tri f 0 w values = none := by simp [build]

/-- C73. The triangulated grid has `h * w` vertices, `h * (w - 1) + (h - 1) * w + (h - 1) * (w - 1)` edges and
`2 * (h - 1) * (w - 1)` triangles. -/
theorem _root_.Aleph.C73_count (tri : Bool) (f : α → α → α) (rows : List (List α)) (w : ℕ) (hw : 0 < w) (hne : rows ≠ [])
    (hr : ∀ r ∈ rows, r.length = w) (K : Complex α) (hK : build tri f rows.length w rows.flatten = some K) :
    let h := rows.length
    K.countP (fun s => s.vset.card = 1) = h * w ∧
    K.countP (fun s => s.vset.card = 2) = h * (w - 1) + (h - 1) * w + (h - 1) * (w - 1) ∧
    K.countP (fun s => s.vset.card = 3) = (if tri then 2 * ((h - 1) * (w - 1)) else 0) ∧
    K.countP (fun s => 3 < s.vset.card) = 0 := by
  have hh : 0 < rows.length := List.length_pos_iff.2 hne
  have hl : rows.flatten.length = rows.length * w := by
    rw [List.length_flatten, List.map_congr_left hr]; simp
  obtain ⟨d⟩ : Nonempty α := by
    have : 0 < rows.flatten.length := by rw [hl]; exact Nat.mul_pos hh hw
    exact ⟨rows.flatten[0]⟩
  rw [build_eq tri f hh hw d _ hl] at hK
  cases hK
  generalize (fun i => rows.flatten.getD i d) = v
  generalize rows.length = h
  have hv : ∀ s ∈ vertexList h w v, s.vset.card = 1 := by
    intro s hs; simp only [vertexList, List.mem_map] at hs; obtain ⟨k, _, rfl⟩ := hs; simp [Simplex.vset]
  have he : ∀ h' w' t, 0 < t → ∀ s ∈ edgeList f w v h' w' t, s.vset.card = 2 := by
    intro h' w' t ht s hs; simp only [edgeList, List.mem_map] at hs; obtain ⟨k, _, rfl⟩ := hs
    simp only [Simplex.vset]
    rw [List.toFinset_card_of_nodup (by simp; omega)]; rfl
  have ht : ∀ s ∈ (if tri then triangleList f h w v else []), s.vset.card = 3 := by
    intro s hs
    cases tri with
    | false => simp at hs
    | true =>
      simp only [if_true, triangleList, List.mem_flatMap, List.mem_cons, List.not_mem_nil, or_false] at hs
      obtain ⟨p, hp, rfl | rfl⟩ := hs
      · rw [mem_positions] at hp
        simp only [Simplex.vset]
        rw [List.toFinset_card_of_nodup (by simp; omega)]; rfl
      · rw [mem_positions] at hp
        simp only [Simplex.vset]
        rw [List.toFinset_card_of_nodup (by simp; omega)]; rfl
  have all : ∀ (l : List (Simplex α)) (n m : ℕ), (∀ s ∈ l, s.vset.card = n) →
      l.countP (fun s => s.vset.card = m) = if n = m then l.length else 0 := by
    intro l n m hl
    split
    · next h => rw [List.countP_eq_length]; intro s hs; simp [hl s hs, h]
    · next h => rw [List.countP_eq_zero]; intro s hs; simp [hl s hs, h]
  have le : ∀ h' w' t, (edgeList f w v h' w' t).length = h' * w' := by
    intro h' w' t; simp [edgeList, positions_length]
  have lv : (vertexList h w v).length = h * w := by simp [vertexList]
  have lt : (if tri then triangleList f h w v else []).length = if tri then 2 * ((h - 1) * (w - 1)) else 0 := by
    cases tri with
    | false => simp
    | true => simp [triangleList, List.length_flatMap, positions_length]; omega
  simp only [allList, List.countP_append]
  refine ⟨?_, ?_, ?_, ?_⟩
  · rw [all _ 1 1 hv, all _ 2 1 (he _ _ _ (by omega)), all _ 2 1 (he _ _ _ hw), all _ 2 1 (he _ _ _ (by omega)), all _ 3 1 ht]
    simp [lv]
  · rw [all _ 1 2 hv, all _ 2 2 (he _ _ _ (by omega)), all _ 2 2 (he _ _ _ hw), all _ 2 2 (he _ _ _ (by omega)), all _ 3 2 ht]
    simp [le]
  · rw [all _ 1 3 hv, all _ 2 3 (he _ _ _ (by omega)), all _ 2 3 (he _ _ _ hw), all _ 2 3 (he _ _ _ (by omega)), all _ 3 3 ht]
    simp only [lt]; simp
  · simp only [Nat.add_eq_zero_iff, List.countP_eq_zero]
    refine ⟨⟨⟨⟨?_, ?_⟩, ?_⟩, ?_⟩, ?_⟩
    · intro s hs; simp [hv s hs]
    · intro s hs; simp [he _ _ _ (by omega) s hs]
    · intro s hs; simp [he _ _ _ hw s hs]
    · intro s hs; simp [he _ _ _ (by omega) s hs]
    · intro s hs; simp [ht s hs]

/-- C73. The Euler characteristic of the triangulated grid is one. -/
theorem _root_.Aleph.C73_euler (f : α → α → α) (rows : List (List α)) (w : ℕ) (hw : 0 < w) (hne : rows ≠ [])
    (hr : ∀ r ∈ rows, r.length = w) (K : Complex α) (hK : build true f rows.length w rows.flatten = some K) :
    (K.countP (fun s => s.vset.card = 1) : ℤ) - K.countP (fun s => s.vset.card = 2) +
      K.countP (fun s => s.vset.card = 3) = 1 := by
  obtain ⟨h1, h2, h3, _⟩ := C73_count true f rows w hw hne hr K hK
  rw [h1, h2, h3]
  obtain ⟨h, hh⟩ : ∃ h, rows.length = h + 1 := ⟨rows.length - 1, by have := List.length_pos_iff.2 hne; omega⟩
  obtain ⟨v, rfl⟩ : ∃ v, w = v + 1 := ⟨w - 1, by omega⟩
  rw [hh]
  simp only [Nat.add_sub_cancel, if_true]
  push_cast
  ring

example : ∃ K, build true max 2 3 [3, 1, 4, 1, 5, 9] = some K ∧ K.length = 19 ∧
    HasData K {0, 1, 4} 5 ∧ HasData K {1, 5} 9 ∧ ¬ Has K {1, 3} := by
  refine ⟨(build true max 2 3 [3, 1, 4, 1, 5, 9]).get (by decide), by simp, by decide, ?_, ?_, ?_⟩ <;>
    simp only [HasData, Has] <;> decide

/-! ### Words and tokens -/

theorem isSpace_eq (c : Char) : Strings.isSpace c = true ↔ c ∈ whitespace := isSpace_iff c

theorem extract_space (l : List Char) {c : Char} (hc : Strings.isSpace c = true) (s : List Char) :
    ∀ cur, Strings.extract cur (l ++ c :: s) = Strings.extract cur l ++ Strings.extract [] s := by
  induction l with
  | nil =>
    intro cur
    rw [List.nil_append, Strings.extract, Strings.extract, if_pos hc]
    split <;> simp_all
  | cons b l ih =>
    intro cur
    rw [List.cons_append, Strings.extract, Strings.extract]
    split
    · split <;> simp [ih]
    · exact ih _

theorem extract_blank (g : List Char) (hg : ∀ c ∈ g, Strings.isSpace c = true) (s : List Char) :
    Strings.extract [] (g ++ s) = Strings.extract [] s := by
  induction g with
  | nil => rfl
  | cons c g ih =>
    rw [List.cons_append, Strings.extract, if_pos (hg c List.mem_cons_self), if_pos (by rfl)]
    exact ih fun c hc => hg c (List.mem_cons_of_mem _ hc)

theorem extract_word (t : List Char) (ht : ∀ c ∈ t, Strings.isSpace c = false) :
    ∀ cur, (cur ≠ [] ∨ t ≠ []) → Strings.extract cur t = [cur.reverse ++ t] := by
  induction t with
  | nil =>
    intro cur h
    have : cur ≠ [] := h.resolve_right (by simp)
    simp [Strings.extract, this]
  | cons c t ih =>
    intro cur _
    rw [Strings.extract, if_neg (by simp [ht c List.mem_cons_self])]
    rw [ih (fun c hc => ht c (List.mem_cons_of_mem _ hc)) _ (by simp)]
    simp

/-- The words of a text are what repeated extraction yields. -/
theorem words_extract {s : List Char} {ts : List (List Char)} (h : Words s ts) : Strings.extract [] s = ts := by
  have hn : ∀ {t : List Char}, (∀ c ∈ t, c ∉ whitespace) → ∀ c ∈ t, Strings.isSpace c = false := by
    intro t ht c hc
    rw [← Bool.not_eq_true, isSpace_eq]
    exact ht c hc
  induction h with
  | nil g hg =>
    have := extract_blank g (fun c hc => (isSpace_eq c).2 (hg c hc)) []
    rw [List.append_nil] at this
    rw [this]; rfl
  | last g t hg hne ht =>
    rw [extract_blank g (fun c hc => (isSpace_eq c).2 (hg c hc)), extract_word t (hn ht) [] (Or.inr hne)]
    rfl
  | cons g t c s ts hg hne ht hc _ ih =>
    rw [List.append_assoc, extract_blank g (fun c hc => (isSpace_eq c).2 (hg c hc)),
      extract_space t ((isSpace_eq c).2 hc), extract_word t (hn ht) [] (Or.inr hne), ih]
    rfl

/-- Each text has words. -/
theorem words_exist (s : List Char) : ∃ ts, Words s ts := by
  suffices h : ∀ n, ∀ s : List Char, s.length ≤ n → ∃ ts, Words s ts from h _ s le_rfl
  intro n
  induction n with
  | zero =>
    intro s hs
    have : s = [] := List.length_eq_zero_iff.1 (by omega)
    subst this
    exact ⟨[], Words.nil [] (by simp)⟩
  | succ n ih =>
    intro s hs
    have e1 : s.takeWhile Strings.isSpace ++ s.dropWhile Strings.isSpace = s := List.takeWhile_append_dropWhile
    have hg : ∀ c ∈ s.takeWhile Strings.isSpace, c ∈ whitespace := fun c hc => (isSpace_eq c).1 (List.mem_takeWhile_imp hc)
    cases hd : s.dropWhile Strings.isSpace with
    | nil =>
      rw [hd, List.append_nil] at e1
      exact ⟨[], Words.nil s (e1 ▸ hg)⟩
    | cons c r =>
      have hc : Strings.isSpace c = false := by
        have := List.head?_dropWhile_not Strings.isSpace s
        rw [hd] at this
        simpa using this
      have e2 : (c :: r).takeWhile (fun c => !Strings.isSpace c) ++ (c :: r).dropWhile (fun c => !Strings.isSpace c) = c :: r :=
        List.takeWhile_append_dropWhile
      have ht : ∀ d ∈ (c :: r).takeWhile (fun c => !Strings.isSpace c), d ∉ whitespace := by
        intro d hd' h
        have := List.mem_takeWhile_imp hd'
        rw [(isSpace_eq d).2 h] at this
        simp at this
      have htne : (c :: r).takeWhile (fun c => !Strings.isSpace c) ≠ [] := by
        rw [List.takeWhile_cons]; simp [hc]
      cases hd2 : (c :: r).dropWhile (fun c => !Strings.isSpace c) with
      | nil =>
        rw [hd2, List.append_nil] at e2
        refine ⟨[c :: r], ?_⟩
        rw [← e1, hd]
        exact Words.last _ _ hg (by simp) (e2 ▸ ht)
      | cons b q =>
        have hb : Strings.isSpace b = true := by
          have := List.head?_dropWhile_not (fun c => !Strings.isSpace c) (c :: r)
          rw [hd2] at this
          simpa using this
        have hlen : q.length ≤ n := by
          have h1 := congrArg List.length e1
          have h2 := congrArg List.length e2
          rw [hd2] at h2
          rw [hd] at h1
          simp only [List.length_append, List.length_cons] at h1 h2
          omega
        obtain ⟨ts, hts⟩ := ih q hlen
        refine ⟨(c :: r).takeWhile (fun c => !Strings.isSpace c) :: ts, ?_⟩
        rw [← e1, hd]
        conv_lhs => rw [← e2, hd2, ← List.append_assoc]
        exact Words.cons _ _ b q ts hg htne ht ((isSpace_eq b).1 hb) hts

/-- The tokens of a trimmed line: its words, but one empty token for a blank line. -/
theorem tokens_eq (l : List Char) : Strings.split Strings.isSpace (Strings.trim l) =
    if Strings.extract [] l = [] then [[]] else Strings.extract [] l := by
  obtain ⟨_, ⟨a, b, hs, ha, hb⟩, hhead, _⟩ := C70_trim l
  have h1 : Strings.extract [] l = Strings.extract [] (Strings.trim l) := by
    conv_lhs => rw [hs]
    rw [List.append_assoc, extract_blank a ha]
    cases b with
    | nil => simp
    | cons c b =>
      rw [extract_space _ (hb c List.mem_cons_self)]
      have := extract_blank b (fun c hc => hb c (List.mem_cons_of_mem _ hc)) []
      rw [List.append_nil] at this
      rw [this]
      simp [Strings.extract]
  rw [h1]
  cases ht : Strings.trim l with
  | nil => simp [Strings.extract, Strings.split, Strings.splitLoop]
  | cons c r =>
    have hc : Strings.isSpace c = false := hhead c (by rw [ht]; rfl)
    have h2 : Strings.extract [] (c :: r) = Strings.split Strings.isSpace (c :: r) := by
      rw [extract_eq, if_pos rfl, Strings.split, Strings.splitLoop, Strings.splitLoop]
      simp only [hc, Bool.false_eq_true, if_false]
      exact splitLoop_matched _ r [c] (by simp)
    rw [h2, if_neg]
    intro h
    have hF : ∀ s ts, Fields Strings.isSpace s ts → ts ≠ [] := by intro s ts h; cases h <;> simp
    exact hF _ _ ((C70_split Strings.isSpace (c :: r) _).1 rfl) h

theorem extract_lines {text : List Char} {ls : List (List Char)} {b : Bool} (h : Lines text ls b) :
    Strings.extract [] text = (ls.map (Strings.extract [])).flatten := by
  induction h with
  | nil => rfl
  | last l hne hl => simp
  | cons l s ls b hl _ ih => rw [extract_space l (by decide), ih]; simp

/-! ### Reading -/

theorem header_eq (w : ℕ) (hw : 0 < w) (ls : List (List Char)) : ∀ h, header h w ls =
    if ∀ l ∈ ls, (Strings.split Strings.isSpace (Strings.trim l)).length = w then some (h + ls.length, w) else none := by
  induction ls with
  | nil => intro h; simp [header]
  | cons l ls ih =>
    intro h
    rw [header]
    simp only [if_neg (by omega : ¬ w = 0)]
    by_cases hl : (Strings.split Strings.isSpace (Strings.trim l)).length = w
    · rw [if_neg (by simp [hl]), ih]
      refine if_congr ?_ (by rw [List.length_cons, Nat.add_right_comm, Nat.add_assoc]) rfl
      simp [hl]
    · rw [if_pos (fun h => hl h.symm), if_neg]
      intro h
      exact hl (h l List.mem_cons_self)

theorem tokens_pos (l : List Char) : 0 < (Strings.split Strings.isSpace (Strings.trim l)).length := by
  rw [tokens_eq]
  split
  · simp
  · next h => exact List.length_pos_iff.2 h

theorem header_start (l : List Char) (ls : List (List Char)) : header 0 0 (l :: ls) =
    header 0 (Strings.split Strings.isSpace (Strings.trim l)).length (l :: ls) := by
  have := tokens_pos l
  conv_rhs => rw [header]
  rw [header]
  simp only [if_true]
  rw [if_neg (by omega), if_neg (by simp)]

theorem mapM_none {β γ : Type} {g : β → Option γ} {l : List β} (h : ∃ x ∈ l, g x = none) : l.mapM g = none := by
  induction l with
  | nil => obtain ⟨x, hx, _⟩ := h; simp at hx
  | cons a l ih =>
    rw [List.mapM_cons]
    obtain ⟨x, hx, hn⟩ := h
    rcases List.mem_cons.1 hx with rfl | hx
    · rw [hn]; rfl
    · rw [ih ⟨x, hx, hn⟩]
      cases g a <;> rfl

/-- Too few values. -/
theorem build_none (tri : Bool) (f : α → α → α) {h w : ℕ} (values : List α) (h2 : 2 ≤ h * w) (hl : values.length < h * w) :
    build tri f h w values = none := by
  have hw : 0 < w := Nat.pos_of_ne_zero fun h => by subst h; simp at h2
  have hh : 0 < h := Nat.pos_of_ne_zero fun h => by subst h; simp at h2
  have hedge : ∀ u v, values.length ≤ v → edge f values u v = none := by
    intro u v hv
    unfold edge
    rw [List.getElem?_eq_none hv]
    cases values[u]? <;> rfl
  have e : h * w = w * (h - 1) + w := by
    obtain ⟨k, rfl⟩ : ∃ k, h = k + 1 := ⟨h - 1, by omega⟩
    rw [Nat.add_sub_cancel]; ring
  unfold build
  rw [if_neg (by omega)]
  have : simplices tri f h w values = none := by
    unfold simplices
    by_cases hw2 : 2 ≤ w
    · have : ((positions h (w - 1)).mapM fun (y, x) => edge f values (w * y + x) (w * y + x + 1)) = none := by
        refine mapM_none ⟨(h - 1, w - 2), mem_positions.2 ⟨by simp; omega, by simp; omega⟩, ?_⟩
        exact hedge _ _ (by omega)
      rw [this]; rfl
    · obtain rfl : w = 1 := by omega
      have : ((positions (h - 1) 1).mapM fun (y, x) => edge f values (1 * y + x) (1 * (y + 1) + x)) = none := by
        refine mapM_none ⟨(h - 2, 0), mem_positions.2 ⟨by simp; omega, by simp⟩, ?_⟩
        exact hedge _ _ (by omega)
      rw [this]
      cases (positions h (1 - 1)).mapM fun (y, x) => edge f values (1 * y + x) (1 * y + x + 1) <;> rfl
  rw [this]; rfl

theorem words_map {ls : List (List Char)} {ws : List (List (List Char))} (hws : List.Forall₂ Words ls ws) :
    ls.map (Strings.extract []) = ws := by
  induction hws with
  | nil => rfl
  | cons h _ ih => rw [List.map_cons, words_extract h, ih]

theorem readValues_length (number : List Char → Option α) (text : List Char) :
    (readValues number text).length ≤ (Strings.extract [] text).length ∧
    ((∃ t ∈ Strings.extract [] text, number t = none) →
      (readValues number text).length < (Strings.extract [] text).length) := by
  unfold readValues
  generalize Strings.extract [] text = l
  induction l with
  | nil => simp
  | cons t l ih =>
    cases hn : number t with
    | none => simp [hn]
    | some a =>
      simp only [List.map_cons, hn, List.takeWhile_cons, Option.isSome_some, if_true, List.filterMap_cons, id_eq, List.length_cons,
        List.mem_cons, exists_eq_or_imp]
      rw [show (fun x : Option α => x) = id from rfl]
      refine ⟨by omega, ?_⟩
      rintro (h | h)
      · simp at h
      · have := ih.2 h; omega

theorem readValues_all (number : List Char → Option α) {text : List Char} {l : List α}
    (h : (Strings.extract [] text).map number = l.map some) : readValues number text = l := by
  unfold readValues
  rw [h]
  clear h
  induction l with
  | nil => rfl
  | cons a l ih => simpa using ih

theorem length_flatten_le {β : Type} (w : ℕ) (ws : List (List β)) (h : ∀ r ∈ ws, r.length ≤ w) :
    ws.flatten.length ≤ ws.length * w ∧ ((∃ r ∈ ws, r.length < w) → ws.flatten.length < ws.length * w) := by
  induction ws with
  | nil => simp
  | cons r ws ih =>
    have ih := ih fun r hr => h r (List.mem_cons_of_mem _ hr)
    have hr := h r List.mem_cons_self
    rw [List.flatten_cons, List.length_append, List.length_cons, Nat.add_mul, one_mul]
    refine ⟨by omega, ?_⟩
    simp only [List.mem_cons, exists_eq_or_imp]
    rintro (h | h)
    · omega
    · have := ih.2 h; omega

/-- What the reader does after counting tokens. -/
theorem read_cases (tri : Bool) (f : α → α → α) (number : List Char → Option α) {text : List Char} {ls : List (List Char)}
    {b : Bool} (hl : Lines text ls b) (hne : ls ≠ []) :
    read tri f number text = none ∨
    ∃ w, 0 < w ∧ (∀ l ∈ ls, (Strings.split Strings.isSpace (Strings.trim l)).length = w) ∧
      read tri f number text = (build tri f ls.length w (readValues number text)).map fun K => (ls.length, w, K) := by
  unfold read
  rw [getlines_spec text ls b hl]
  obtain ⟨l, ls, rfl⟩ := List.exists_cons_of_ne_nil hne
  rw [header_start, header_eq _ (tokens_pos l)]
  by_cases h : ∀ l' ∈ l :: ls, (Strings.split Strings.isSpace (Strings.trim l')).length =
      (Strings.split Strings.isSpace (Strings.trim l)).length
  · rw [if_pos h]
    exact Or.inr ⟨_, tokens_pos l, h, by simp⟩
  · rw [if_neg h]
    exact Or.inl rfl

/-- C74. A text each line of which consists of the same number of words, all of them numbers, is read as the matrix of these
numbers: number of rows, number of columns and the triangulated grid of the entries.  A text with two lines that have a
different number of words (but at least one) is rejected.

Missing: the documentation also permits empty lines and comments, which the code rejects; see `C74_empty_line` and
`C74_comment`. -/
theorem _root_.Aleph.C74_read_partial (tri : Bool) (f : α → α → α) (number : List Char → Option α) (text : List Char)
    (ls : List (List Char)) (b : Bool) (hl : Lines text ls b) (ws : List (List (List Char)))
    (hws : List.Forall₂ Words ls ws) :
    (∀ w rows, 0 < w → ls ≠ [] → (∀ r ∈ ws, r.length = w) →
      List.Forall₂ (fun r row => r.map number = row.map some) ws rows →
      ∃ K, read tri f number text = some (ls.length, w, K) ∧ ∀ t a, HasData K t a ↔ GridData tri f w rows t a) ∧
    ((∃ r ∈ ws, ∃ r' ∈ ws, r ≠ [] ∧ r' ≠ [] ∧ r.length ≠ r'.length) → read tri f number text = none) := by
  have hm := words_map hws
  have htok : ∀ l ∈ ls, Strings.extract [] l ≠ [] →
      (Strings.split Strings.isSpace (Strings.trim l)).length = (Strings.extract [] l).length := by
    intro l _ h
    rw [tokens_eq, if_neg h]
  constructor
  · intro w rows hw hne hr hnum
    have hrows : ∀ r ∈ rows, r.length = w := by
      intro r hr'
      obtain ⟨i, hi, rfl⟩ := List.getElem_of_mem hr'
      have hi' : i < ws.length := by rw [hnum.length_eq]; exact hi
      have := List.forall₂_iff_get.1 hnum |>.2 i hi' hi
      have h2 := congrArg List.length this
      simp only [List.get_eq_getElem, List.length_map] at h2
      rw [← h2]
      exact hr _ (List.getElem_mem hi')
    have hvals : readValues number text = rows.flatten := by
      apply readValues_all
      rw [extract_lines hl, hm]
      clear hws hm hr hrows
      induction hnum with
      | nil => rfl
      | cons h _ ih => simp [h, ih]
    have hlen : ls.length = rows.length := by
      rw [← hnum.length_eq, ← hm, List.length_map]
    obtain ⟨K, h1, _, h2⟩ := C73_grid tri f rows w hw (by
      intro h; rw [h] at hlen; exact hne (List.length_eq_zero_iff.1 hlen)) hrows
    have hhead : ∀ l ∈ ls, (Strings.split Strings.isSpace (Strings.trim l)).length = w := by
      intro l hl'
      have h3 : (Strings.extract [] l).length = w := hr _ (hm ▸ List.mem_map_of_mem hl')
      rw [htok l hl' (by intro h; rw [h] at h3; simp at h3; omega), h3]
    refine ⟨K, ?_, h2⟩
    unfold read
    rw [getlines_spec text ls b hl]
    obtain ⟨l, ls, rfl⟩ := List.exists_cons_of_ne_nil hne
    rw [header_start, hhead l List.mem_cons_self, header_eq w hw, if_pos hhead]
    simp only [hvals, zero_add, hlen, h1, Option.map_some]
  · rintro ⟨r, hr, r', hr', hrn, hrn', hlen⟩
    rw [← hm] at hr hr'
    obtain ⟨l, hl1, rfl⟩ := List.mem_map.1 hr
    obtain ⟨l', hl2, rfl⟩ := List.mem_map.1 hr'
    rcases read_cases tri f number hl (List.ne_nil_of_mem hl1) with h | ⟨w, _, h, _⟩
    · exact h
    · exfalso
      apply hlen
      rw [← htok l hl1 hrn, ← htok l' hl2 hrn', h l hl1, h l' hl2]

/-- C74. Contrary to the documentation, a text with an empty line is rejected (unless this is the only line). -/
theorem _root_.Aleph.C74_empty_line (tri : Bool) (f : α → α → α) (number : List Char → Option α) (text : List Char)
    (ls : List (List Char)) (b : Bool) (hl : Lines text ls b) (h2 : 2 ≤ ls.length) (l : List Char) (hmem : l ∈ ls)
    (hb : Words l []) : read tri f number text = none := by
  rcases read_cases tri f number hl (List.ne_nil_of_mem hmem) with h | ⟨w, hw, h, hread⟩
  · exact h
  · rw [hread]
    have hwords : ∀ r ∈ ls.map (Strings.extract []), r.length ≤ w := by
      intro r hr
      obtain ⟨l', hl', rfl⟩ := List.mem_map.1 hr
      rw [← h l' hl', tokens_eq]
      split
      · next h => simp [h]
      · exact le_rfl
    have hlt := (length_flatten_le w _ hwords).2 ⟨_, List.mem_map_of_mem hmem, by rw [words_extract hb]; exact hw⟩
    rw [← extract_lines hl, List.length_map] at hlt
    have hle := (readValues_length number text).1
    have : 2 ≤ ls.length * w := by nlinarith
    rw [build_none tri f _ this (by omega)]
    rfl

/-- C74. Contrary to the documentation, a comment is not ignored: a text with a word that is not a number is rejected (unless this
is its only word). -/
theorem _root_.Aleph.C74_comment (tri : Bool) (f : α → α → α) (number : List Char → Option α) (text : List Char)
    (ws : List (List Char)) (hws : Words text ws) (h2 : 2 ≤ ws.length) (t : List Char) (ht : t ∈ ws) (hn : number t = none) :
    read tri f number text = none := by
  obtain ⟨ls, b, hl⟩ := lines_exist text
  have hx := words_extract hws
  have hne : ls ≠ [] := by
    rintro rfl
    rw [extract_lines hl] at hx
    simp at hx
    subst hx
    simp at ht
  rcases read_cases tri f number hl hne with h | ⟨w, hw, h, hread⟩
  · exact h
  · rw [hread]
    have hwords : ∀ r ∈ ls.map (Strings.extract []), r.length ≤ w := by
      intro r hr
      obtain ⟨l', hl', rfl⟩ := List.mem_map.1 hr
      rw [← h l' hl', tokens_eq]
      split
      · next h => simp [h]
      · exact le_rfl
    have hle := (length_flatten_le w _ hwords).1
    rw [← extract_lines hl, List.length_map, hx] at hle
    have hlt := (readValues_length number text).2 ⟨t, hx ▸ ht, hn⟩
    rw [hx] at hlt
    rw [build_none tri f _ (by omega) (by omega)]
    rfl

/-- Decimal numbers, for the examples. -/
def digits (s : List Char) : Option ℕ :=
  if s.all (fun c => '0' ≤ c && c ≤ '9') then some (s.foldl (fun n c => 10 * n + (c.toNat - 48)) 0) else none

example : (read true max digits "0 1 2\n3 4 5\n".toList).map (fun r => (r.1, r.2.1, r.2.2.length)) = some (2, 3, 19) := by
  decide

example : read true max digits "0 1\n\n2 3\n".toList = none ∧ read true max digits "# a\n0 1\n".toList = none := by
  decide

example : Lines "0 1\n\n2 3\n".toList ["0 1".toList, [], "2 3".toList] false ∧ Words "0 1".toList [['0'], ['1']] ∧ Words [] [] :=
  ⟨Lines.cons "0 1".toList _ _ _ (by decide) (Lines.cons [] _ _ _ (by decide)
      (Lines.cons "2 3".toList [] [] _ (by decide) Lines.nil)),
    Words.cons [] ['0'] ' ' ['1'] _ (by simp) (by simp) (by decide) (by decide) (Words.last [] ['1'] (by simp) (by simp) (by decide)),
    Words.nil [] (by simp)⟩

end Aleph.MatrixReader
