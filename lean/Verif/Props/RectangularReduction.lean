import Verif.Props.Reduction
import Verif.Spec.RectangularReduction

/-!
# C172: reduction of rectangular matrices
-/

namespace Aleph.Rectangular

open Finset Spec

/-- Reduction of a column of two matrices that agree in the columns that matter. -/
theorem reduceColumn_agree (k : Kind) {n j : ℕ} (lut : List (Option ℕ)) (hj : j < n) (f : ℕ) :
    ∀ r r' : Rep, r.data.length = n → r'.data.length = n → (∀ i s : ℕ, lut[i]? = some (some s) → s ≠ j ∧ s < n ∧ colL r s = colL r' s) → colL r j = colL r' j →
      ∀ c, reduceColumn k lut j f r' = some (⟨r'.data.set j c, r'.dims⟩, c.getLast?) → reduceColumn k lut j f r = some (⟨r.data.set j c, r.dims⟩, c.getLast?) := by
  induction f with
  | zero => intro r r' _ _ _ _ c h; cases h
  | succ f ih =>
    intro r r' hr hr' hreg hcol c h
    have hself : ∀ q : Rep, q.data.length = n → q.data.set j (colL q j) = q.data := by
      intro q hq
      apply List.ext_getElem?
      intro m
      rw [List.getElem?_set]
      split_ifs with h1 h2
      · subst h1; rw [getElem?_data h2]
      · subst h1; rw [List.getElem?_eq_none (by omega)]
      · rfl
    rw [reduceColumn] at h ⊢
    simp only [Rep.getMaximumIndex, getElem?_data (r := r') (k := j) (by omega), getElem?_data (r := r) (k := j) (by omega)] at h ⊢
    rw [hcol]
    have hinj : ∀ x : Option ℕ, (r', x) = (⟨r'.data.set j c, r'.dims⟩, c.getLast?) → (r, x) = (⟨r.data.set j c, r.dims⟩, c.getLast?) := by
      intro x e
      obtain ⟨e1, e2⟩ := Prod.mk.inj e
      have e3 : c = colL r' j := by
        have := congrArg (fun q : Rep => colL q j) e1
        simp only [colL_set (dm' := r'.dims) (show j < r'.data.length by omega), if_true] at this
        exact this.symm
      rw [e2, e3, ← hcol, hself r hr]
    cases hl : (colL r' j).getLast? with
    | none =>
      simp only [hl] at h ⊢
      exact congrArg some (hinj _ (Option.some.inj h))
    | some i =>
      simp only [hl] at h ⊢
      cases hli : lut[i]? with
      | none => simp only [hli] at h; cases h
      | some x =>
        cases x with
        | none =>
          simp only [hli] at h ⊢
          exact congrArg some (hinj _ (Option.some.inj h))
        | some s =>
          obtain ⟨g1, g2, g3⟩ := hreg i s hli
          simp only [hli, Rep.addColumns, getElem?_data (r := r') (k := s) (by omega), getElem?_data (r := r') (k := j) (by omega),
            getElem?_data (r := r) (k := s) (by omega), getElem?_data (r := r) (k := j) (by omega), g3, hcol] at h ⊢
          set d := Rep.store k (symmDiff (colL r' s) (colL r' j))
          have hset : ∀ q : Rep, q.data.length = n → ∀ m, colL ⟨q.data.set j d, q.dims⟩ m = if m = j then d else colL q m := by
            intro q hq m
            exact colL_set (by omega)
          have := ih ⟨r.data.set j d, r.dims⟩ ⟨r'.data.set j d, r'.dims⟩ (by simpa using hr) (by simpa using hr') (by
            intro i' s' h'
            obtain ⟨k1, k2, k3⟩ := hreg i' s' h'
            rw [hset r hr, hset r' hr', if_neg k1, if_neg k1]
            exact ⟨k1, k2, k3⟩) (by rw [hset r hr, hset r' hr', if_pos rfl, if_pos rfl]) c (by simpa using h)
          simpa using this

open Classical in
/-- The matrix with empty columns instead of those that are skipped. -/
noncomputable def shorten (r : Rep) : Rep := ⟨(List.range r.data.length).map fun j => if IsTall r j then [] else colL r j, List.replicate r.data.length 0⟩

theorem shorten_col (r : Rep) (j : ℕ) : (IsTall r j → colL (shorten r) j = []) ∧ (¬ IsTall r j → colL (shorten r) j = colL r j) := by
  classical
  by_cases hj : j < r.data.length
  · have : colL (shorten r) j = if IsTall r j then [] else colL r j := by
      unfold colL shorten
      simp [hj, colL]
    rw [this]
    exact ⟨fun h => if_pos h, fun h => if_neg h⟩
  · have h1 : colL r j = [] := colL_of_ge (by omega)
    have h2 : colL (shorten r) j = [] := colL_of_ge (by simp [shorten]; omega)
    rw [h1, h2]
    simp

theorem shorten_valid {r : Rep} (hs : ∀ c ∈ r.data, c.Pairwise (· < ·)) : Valid (shorten r) := by
  classical
  refine ⟨?_, ?_, by simp [shorten]⟩
  · intro c hc
    obtain ⟨j, hj, rfl⟩ := List.mem_map.1 hc
    split
    · exact List.Pairwise.nil
    · exact hs _ (colL_mem (List.mem_range.1 hj))
  · intro c hc i hi
    obtain ⟨j, hj, rfl⟩ := List.mem_map.1 hc
    have hlen : (shorten r).data.length = r.data.length := by simp [shorten]
    rw [hlen]
    split at hi
    · cases hi
    · rename_i h
      by_contra hge
      exact h ⟨i, by rw [mem_cols]; exact hi, by omega⟩

theorem isTall_last {r : Rep} (hs : ∀ c ∈ r.data, c.Pairwise (· < ·)) {j : ℕ} (hj : j < r.data.length) :
    IsTall r j ↔ r.data.length ≤ (colL r j).getLast?.getD 0 := by
  have hst : Strict (colL r j) := hs _ (colL_mem hj)
  cases hl : (colL r j).getLast? with
  | none =>
    rw [List.getLast?_eq_none_iff] at hl
    simp only [IsTall, mem_cols, hl, Option.getD_none]
    constructor
    · rintro ⟨i, hi, -⟩
      cases hi
    · intro h
      omega
  | some i =>
    have hmax := (maxIs_iff hst).2 hl
    simp only [Option.getD_some]
    constructor
    · rintro ⟨i', hi', hge⟩
      exact hge.trans (hmax.2 i' hi')
    · intro h
      exact ⟨i, hmax.1, h⟩

theorem loop (k : Kind) {r0 : Rep} (hs : ∀ c ∈ r0.data, c.Pairwise (· < ·)) (m : ℕ) (hm : m ≤ r0.data.length) :
    ∃ r r' lut, (List.range m).foldlM (rectangularStep k (r0.data.length + 1)) (r0, List.replicate r0.data.length none) = some (r, lut) ∧
      (List.range m).foldlM (standardStep k (r0.data.length + 1)) (shorten r0, List.replicate r0.data.length none) = some (r', lut) ∧
      r.data.length = r0.data.length ∧ r.dims = r0.dims ∧
      ∀ j, (IsTall r0 j → colL r j = colL r0 j ∧ colL r' j = []) ∧ (¬ IsTall r0 j → colL r j = colL r' j) ∧ (m ≤ j → colL r j = colL r0 j) := by
  have hlen : (shorten r0).data.length = r0.data.length := by simp [shorten]
  induction m with
  | zero =>
    exact ⟨r0, shorten r0, _, rfl, rfl, rfl, rfl, fun j => ⟨fun h => ⟨rfl, (shorten_col r0 j).1 h⟩, fun h => ((shorten_col r0 j).2 h).symm, fun _ => rfl⟩⟩
  | succ m ih =>
    obtain ⟨r, r', lut, h1, h2, h3, h4, h5⟩ := ih (by omega)
    obtain ⟨q, lut', g1, g2⟩ := standard_loop k (shorten_valid hs) m (by omega)
    rw [hlen, h2] at g1
    obtain ⟨rfl, rfl⟩ := Prod.mk.inj (Option.some.inj g1)
    have hr' : r'.data.length = r0.data.length := by rw [g2.len, hlen]
    have hcm : colL r m = colL r0 m := (h5 m).2.2 le_rfl
    rw [List.range_succ, List.foldlM_append, List.foldlM_append, h1, h2]
    simp only [Option.bind_eq_bind, Option.bind_some, List.foldlM_cons, List.foldlM_nil, rectangularStep, Rep.getMaximumIndex,
      getElem?_data (r := r) (k := m) (by omega), Rep.numColumns, h3, hcm]
    by_cases ht : IsTall r0 m
    · rw [if_pos ((isTall_last hs (by omega)).1 ht)]
      refine ⟨r, r', lut, rfl, ?_, h3, h4, fun j => ⟨(h5 j).1, (h5 j).2.1, fun h => (h5 j).2.2 (by omega)⟩⟩
      simp only [standardStep, reduceColumn, Rep.getMaximumIndex, getElem?_data (r := r') (k := m) (by omega), ((h5 m).1 ht).2, List.getLast?_nil]
      rfl
    · rw [if_neg fun h => ht ((isTall_last hs (by omega)).2 h)]
      obtain ⟨c, e1, -, -⟩ := g2.reduce k (j := m) (by omega) (fun i hi => hi) (by omega) (fun s hs i _ _ _ => ⟨hs, fun z hz => hz⟩)
      rw [hlen] at e1
      have hreg : ∀ i s : ℕ, lut[i]? = some (some s) → s ≠ m ∧ s < r0.data.length ∧ colL r s = colL r' s := by
        intro i s h
        obtain ⟨k1, k2, k3⟩ := g2.reg i s h
        refine ⟨by omega, by omega, (h5 s).2.1 fun hts => ?_⟩
        rw [((h5 s).1 hts).2] at k3
        cases k3
      have e2 := reduceColumn_agree k lut (n := r0.data.length) (by omega) _ r r' h3 hr' hreg ((h5 m).2.1 ht) c e1
      have hset : ∀ q : Rep, q.data.length = r0.data.length → ∀ j, colL ⟨q.data.set m c, q.dims⟩ j = if j = m then c else colL q j := by
        intro q hq j
        exact colL_set (by omega)
      have key : ∀ j, (IsTall r0 j → colL ⟨r.data.set m c, r.dims⟩ j = colL r0 j ∧ colL ⟨r'.data.set m c, r'.dims⟩ j = []) ∧
          (¬ IsTall r0 j → colL ⟨r.data.set m c, r.dims⟩ j = colL ⟨r'.data.set m c, r'.dims⟩ j) ∧ (m + 1 ≤ j → colL ⟨r.data.set m c, r.dims⟩ j = colL r0 j) := by
        intro j
        rw [hset r h3, hset r' hr']
        by_cases hj : j = m
        · subst hj
          exact ⟨fun h => absurd h ht, fun _ => by rw [if_pos rfl, if_pos rfl], fun h => by omega⟩
        · rw [if_neg hj, if_neg hj]
          exact ⟨(h5 j).1, (h5 j).2.1, fun h => (h5 j).2.2 (by omega)⟩
      simp only [standardStep, e1, e2]
      cases c.getLast? with
      | none => exact ⟨_, _, _, rfl, rfl, by simpa using h3, h4, key⟩
      | some i => exact ⟨_, _, _, rfl, rfl, by simpa using h3, h4, key⟩

theorem shorten_cols (r : Rep) (j : ℕ) : cols (shorten r) j = shortCols r j := by
  unfold shortCols
  by_cases h : IsTall r j
  · rw [if_pos h, cols_eq, (shorten_col r j).1 h]
    rfl
  · rw [if_neg h, cols_eq, cols_eq, (shorten_col r j).2 h]

/-- C172. `StandardRectangular` ends for all matrices with sorted columns, whatever their entries.  Columns with an entry that is not the index of a column are not changed.  All other columns are
reduced as if those did not exist: each of them is its original column plus original columns before it, and its maximum index is the one it is paired with.  Missing, and wrong:
columns with other entries are neither reduced nor used for the reduction (`C172_same_maximum`, `C172_missing_pair`). -/
theorem _root_.Aleph.C172_rectangular_partial (k : Kind) (r : Rep) (hs : ∀ c ∈ r.data, c.Pairwise (· < ·)) :
    ∃ R, Algorithm.run .rectangular k r = some R ∧ R.data.length = r.data.length ∧ R.dims = r.dims ∧ (∀ j < r.data.length, IsTall r j → R.data[j]? = r.data[j]?) ∧
      ∀ j < r.data.length, ¬ IsTall r j → (∃ c ⊆ range j, cols R j = chainBd (shortCols r) (insert j c)) ∧ ∀ i, MaxIs (cols R j) i ↔ PersPair (shortCols r) i j := by
  have hlen : (shorten r).data.length = r.data.length := by simp [shorten]
  have hv := shorten_valid hs
  obtain ⟨R, R', lut, h1, h2, h3, h4, h5⟩ := loop k hs r.data.length le_rfl
  obtain ⟨R1, s1, s2⟩ := standard_isReduction k hv
  have hstd : standard k (shorten r) = some R' := by
    unfold standard Rep.numColumns
    rw [hlen, h2]
    rfl
  obtain rfl : R1 = R' := Option.some.inj (s1.symm.trans hstd)
  have hD : cols (shorten r) = shortCols r := funext (shorten_cols r)
  refine ⟨R, ?_, h3, h4, ?_, ?_⟩
  · change standardRectangular k r = some R
    unfold standardRectangular Rep.numColumns
    rw [h1]
    rfl
  · intro j hj ht
    rw [getElem?_data (by omega), getElem?_data hj, ((h5 j).1 ht).1]
  · intro j hj ht
    have hc : cols R j = cols R1 j := by rw [cols_eq, cols_eq, (h5 j).2.1 ht]
    refine ⟨?_, fun i => ?_⟩
    · rw [hc, ← hD]
      exact C04_column_combination k (shorten r) R1 hv s1 j (by rw [Rep.numColumns, hlen]; exact hj)
    · rw [hc, cols_eq, maxIs_iff (s2.strict j), s2.isLow_iff (by omega), hD]

/-- C172, disagreement: columns with the same maximum index remain, if it is not the index of a column. -/
theorem _root_.Aleph.C172_same_maximum (k : Kind) (r R : Rep) (hs : ∀ c ∈ r.data, c.Pairwise (· < ·)) (hR : Algorithm.run .rectangular k r = some R) (i j l : ℕ)
    (hi : r.data.length ≤ i) (hj : MaxIs (cols r j) i) (hl : MaxIs (cols r l) i) : MaxIs (cols R j) i ∧ MaxIs (cols R l) i := by
  obtain ⟨R', h1, h2, -, h4, -⟩ := C172_rectangular_partial k r hs
  obtain rfl := Option.some.inj (h1.symm.trans hR)
  have key : ∀ j, MaxIs (cols r j) i → MaxIs (cols R' j) i := by
    intro j hj
    have hjn : j < r.data.length := by
      by_contra h
      have : cols r j = ∅ := by rw [cols_eq, colL_of_ge (by omega)]; rfl
      rw [this] at hj
      exact absurd hj.1 (by simp)
    have := h4 j hjn ⟨i, hj.1, hi⟩
    rw [getElem?_data (by omega), getElem?_data hjn] at this
    rw [cols_eq, Option.some.inj this, ← cols_eq]
    exact hj
  exact ⟨key j hj, key l hl⟩

/-- C172, disagreement: two columns with the entries 5, and 1 and 5, stay the same.  Their sum has the maximum index 1, so 1 should be paired with the second column. -/
theorem _root_.Aleph.C172_missing_pair : PersPair (cols ⟨[[5], [1, 5]], [1, 1]⟩) 1 1 ∧ ∀ k, Algorithm.run .rectangular k ⟨[[5], [1, 5]], [1, 1]⟩ = some ⟨[[5], [1, 5]], [1, 1]⟩ := by
  refine ⟨⟨⟨{0, 1}, by decide, by unfold MaxIs; decide⟩, ?_⟩, ?_⟩
  · rintro ⟨c, hc, hm⟩
    have : c = ∅ ∨ c = {0} := by
      rw [show range 1 = {0} from rfl] at hc
      exact subset_singleton_iff.1 hc
    rcases this with rfl | rfl
    · exact absurd hm.1 (by decide)
    · exact absurd hm.1 (by decide)
  · intro k
    cases k <;> decide

/-- A matrix with four columns, of which one has the entry 6: the others are reduced. -/
example : ∀ k, Algorithm.run .rectangular k ⟨[[0, 1], [0, 6], [1, 2], [0, 2]], [1, 1, 1, 1]⟩ = some ⟨[[0, 1], [0, 6], [1, 2], []], [1, 1, 1, 1]⟩ := by
  intro k
  cases k <;> decide

end Aleph.Rectangular
