import Verif.Lemmas.Dual

/-!
# C01, C02, C07: column operations, representations, dualization
-/

namespace Aleph

open Spec

/-- C01. `addColumns(s,t)` is addition modulo two: for existing, strictly ascending
columns it succeeds, keeps dimensions, number of columns and all columns other than
`t`, and the new column `t` is strictly ascending and contains exactly the indices
that were in precisely one of the two columns. -/
theorem C01_addColumns (k : Kind) (r : Rep) (s t : ℕ) (cs ct : List ℕ)
    (hs : r.getColumn s = some cs) (ht : r.getColumn t = some ct)
    (hcs : cs.Pairwise (· < ·)) (hct : ct.Pairwise (· < ·)) :
    ∃ r' c, r.addColumns k s t = some r' ∧ r'.dims = r.dims ∧ r'.numColumns = r.numColumns ∧
      (∀ j, j ≠ t → r'.getColumn j = r.getColumn j) ∧
      r'.getColumn t = some c ∧ c.Pairwise (· < ·) ∧
      ∀ i, i ∈ c ↔ (i ∈ cs ∧ i ∉ ct) ∨ (i ∉ cs ∧ i ∈ ct) := by
  have hstr := symmDiff_strict hcs hct
  have htl : t < r.data.length := by
    by_contra h
    rw [Rep.getColumn, List.getElem?_eq_none (by omega)] at ht
    simp at ht
  refine ⟨{ r with data := r.data.set t (symmDiff cs ct) }, symmDiff cs ct, ?_, rfl, ?_, ?_, ?_,
    hstr, mem_symmDiff hcs hct⟩
  · unfold Rep.getColumn at hs ht
    simp only [Rep.addColumns, hs, ht, store_eq hstr.nodup]
  · simp [Rep.numColumns]
  · intro j hj
    simp only [Rep.getColumn, List.getElem?_set, if_neg (Ne.symm hj)]
  · simp [Rep.getColumn, htl]

/-- C01. Adding the same column twice restores the matrix. -/
theorem C01_addColumns_twice (k : Kind) (r : Rep) (s t : ℕ) (cs ct : List ℕ) (hst : s ≠ t)
    (hs : r.getColumn s = some cs) (ht : r.getColumn t = some ct)
    (hcs : cs.Pairwise (· < ·)) (hct : ct.Pairwise (· < ·)) :
    (r.addColumns k s t).bind (fun r' => r'.addColumns k s t) = some r := by
  obtain ⟨r1, c, h1, h2, h3, h4, h5, h6, h7⟩ := C01_addColumns k r s t cs ct hs ht hcs hct
  rw [h1, Option.bind_some]
  have hs1 : r1.getColumn s = some cs := by rw [h4 s hst]; exact hs
  obtain ⟨r2, c2, g1, g2, g3, g4, g5, g6, g7⟩ := C01_addColumns k r1 s t cs c hs1 h5 hcs h6
  rw [g1]
  have hc2 : c2 = ct := by
    refine Strict.ext g6 hct fun z => ?_
    rw [g7, h7]
    by_cases a : z ∈ cs <;> by_cases b : z ∈ ct <;> simp [a, b]
  subst hc2
  have hd : r2.data = r.data := by
    apply List.ext_getElem?
    intro m
    by_cases hm : m = t
    · subst hm; exact g5.trans ht.symm
    · exact (g4 m hm).trans (h4 m hm)
  cases r2; cases r
  simp only at hd g2 h2
  rw [hd, g2, h2]

/-- C01. The call throws exactly if one of the columns does not exist. -/
theorem C01_addColumns_throws (k : Kind) (r : Rep) (s t : ℕ) :
    r.addColumns k s t = none ↔ r.numColumns ≤ s ∨ r.numColumns ≤ t := by
  unfold Rep.addColumns Rep.numColumns
  by_cases hs : s < r.data.length
  · by_cases ht : t < r.data.length
    · rw [List.getElem?_eq_getElem hs, List.getElem?_eq_getElem ht]; simp; omega
    · rw [List.getElem?_eq_getElem hs, List.getElem?_eq_none (by omega)]; simp; omega
  · rw [List.getElem?_eq_none (by omega)]; simp; omega

/-- Non-vacuity of C01: a matrix with overlapping columns. -/
example : (Rep.mk [[0, 2, 5], [1, 2, 7]] [2, 2]).addColumns .vector 0 1 =
    some (Rep.mk [[0, 2, 5], [0, 1, 5, 7]] [2, 2]) := by decide

/-- All columns set in a history are free of duplicates. -/
def DuplicateFree (ops : List Rep.Op) : Prop :=
  ∀ o ∈ ops, ∀ j c, o = .setColumn j c → c.Nodup

theorem exec_strict {k : Kind} {r r' : Rep} {o : Rep.Op} (h : ∀ c ∈ r.data, Strict c)
    (hd : ∀ j c, o = .setColumn j c → c.Nodup) (he : r.exec k o = some r') :
    ∀ c ∈ r'.data, Strict c := by
  cases o with
  | setNumColumns n =>
    cases he
    intro c hc
    simp only [Rep.setNumColumns, Rep.resize, List.mem_append, List.mem_replicate] at hc
    rcases hc with hc | ⟨_, rfl⟩
    · exact h c (List.mem_of_mem_take hc)
    · exact List.Pairwise.nil
  | addColumns s t =>
    simp only [Rep.exec, Rep.addColumns] at he
    split at he
    · rename_i cs ct hs ht
      cases he
      intro c hc
      rcases List.mem_or_eq_of_mem_set hc with hc | rfl
      · exact h c hc
      · have := symmDiff_strict (h cs (List.mem_of_getElem? hs)) (h ct (List.mem_of_getElem? ht))
        rw [store_eq this.nodup]; exact this
    · simp at he
  | setColumn j c0 =>
    simp only [Rep.exec, Rep.setColumn] at he
    split_ifs at he
    cases he
    intro c hc
    rcases List.mem_or_eq_of_mem_set hc with hc | rfl
    · exact h c hc
    · have := strict_insertionSort (hd j c0 rfl)
      rw [store_eq this.nodup]; exact this
  | clearColumn j =>
    simp only [Rep.exec, Rep.clearColumn] at he
    split_ifs at he
    cases he
    intro c hc
    rcases List.mem_or_eq_of_mem_set hc with hc | rfl
    · exact h c hc
    · exact List.Pairwise.nil
  | setDimension j d =>
    simp only [Rep.exec, Rep.setDimension] at he
    split_ifs at he
    cases he
    exact h

theorem exec_kind {k k' : Kind} {r : Rep} {o : Rep.Op} (h : ∀ c ∈ r.data, Strict c)
    (hd : ∀ j c, o = .setColumn j c → c.Nodup) : r.exec k o = r.exec k' o := by
  cases o with
  | addColumns s t =>
    simp only [Rep.exec, Rep.addColumns]
    split
    · rename_i cs ct hs ht
      have := symmDiff_strict (h cs (List.mem_of_getElem? hs)) (h ct (List.mem_of_getElem? ht))
      rw [store_eq this.nodup, store_eq this.nodup]
    · rfl
  | setColumn j c0 =>
    have := strict_insertionSort (hd j c0 rfl)
    simp only [Rep.exec, Rep.setColumn, store_eq this.nodup]
  | _ => rfl

theorem runOps_kind (k k' : Kind) (ops : List Rep.Op) (hd : DuplicateFree ops) :
    ∀ r : Rep, (∀ c ∈ r.data, Strict c) →
      r.runOps k ops = r.runOps k' ops ∧ ∀ c ∈ (r.runOps k ops).1.data, Strict c := by
  induction ops with
  | nil => intro r h; exact ⟨rfl, h⟩
  | cons o os ih =>
    intro r h
    have hd1 := hd o (List.mem_cons_self ..)
    have hd2 : DuplicateFree os := fun o' ho' => hd o' (List.mem_cons_of_mem _ ho')
    have e := exec_kind (k := k) (k' := k') h hd1
    unfold Rep.runOps
    rw [← e]
    cases hx : r.exec k o with
    | none =>
      obtain ⟨i1, i2⟩ := ih hd2 r h
      simp only
      rw [i1] at i2 ⊢
      exact ⟨rfl, i2⟩
    | some r1 =>
      obtain ⟨i1, i2⟩ := ih hd2 r1 (exec_strict h hd1 hx)
      simp only
      rw [i1] at i2 ⊢
      exact ⟨rfl, i2⟩

/-- C02. Whatever the history of calls, as long as the columns passed to `setColumn` contain
no duplicates, two representations throw in the same calls and afterwards give the
same answers to all queries. -/
theorem C02_representations_interchangeable (k k' : Kind) (ops : List Rep.Op)
    (hd : DuplicateFree ops) :
    let a := Rep.empty.runOps k ops
    let b := Rep.empty.runOps k' ops
    a.2 = b.2 ∧ a.1.numColumns = b.1.numColumns ∧ a.1.dimension = b.1.dimension ∧
      ∀ j, a.1.getColumn j = b.1.getColumn j ∧ a.1.getMaximumIndex j = b.1.getMaximumIndex j ∧
        a.1.getDimension j = b.1.getDimension j := by
  have h := (runOps_kind k k' ops hd Rep.empty (by simp [Rep.empty])).1
  simp only [h]
  simp

/-- C02. In such a history every column is always strictly ascending. -/
theorem C02_columns_ascending (k : Kind) (ops : List Rep.Op) (hd : DuplicateFree ops) (j : ℕ)
    (c : List ℕ) (h : (Rep.empty.runOps k ops).1.getColumn j = some c) :
    c.Pairwise (· < ·) :=
  (runOps_kind k k ops hd Rep.empty (by simp [Rep.empty])).2 c (List.mem_of_getElem? h)

/-- C02. With duplicate indices the representations do differ. -/
theorem C02_duplicates_differ :
    let ops := [Rep.Op.setNumColumns 1, Rep.Op.setColumn 0 [3, 3]]
    (Rep.empty.runOps .vector ops).1.getColumn 0 ≠ (Rep.empty.runOps .set ops).1.getColumn 0 := by
  decide

/-- Non-vacuity of C02. -/
example : DuplicateFree [.setNumColumns 3, .setColumn 2 [1, 0], .addColumns 2 1, .setColumn 9 []] ∧
    Rep.empty.runOps .set [.setNumColumns 3, .setColumn 2 [1, 0], .addColumns 2 1, .setColumn 9 []]
      = (⟨[[], [0, 1], [0, 1]], [0, 0, 1]⟩, [false, false, false, true]) := by
  refine ⟨?_, by decide⟩
  intro o ho j c hc
  subst hc
  simp only [List.mem_cons, List.not_mem_nil, or_false, reduceCtorEq, false_or,
    Rep.Op.setColumn.injEq] at ho
  rcases ho with ⟨_, rfl⟩ | ⟨_, rfl⟩ <;> decide

/-- C02. Effect of `setColumn`: the column becomes the sorted input, its dimension is the number of
entries minus one, nothing else changes; it throws exactly for an invalid column index. -/
theorem C02_set_column (k : Kind) (r : Rep) (hl : r.dims.length = r.data.length) (j : ℕ)
    (c : List ℕ) (hc : c.Nodup) :
    (r.setColumn k j c = none ↔ r.numColumns ≤ j) ∧
    ∀ r', r.setColumn k j c = some r' → r'.numColumns = r.numColumns ∧
      (∃ c', r'.getColumn j = some c' ∧ c'.Pairwise (· < ·) ∧ ∀ i, i ∈ c' ↔ i ∈ c) ∧
      r'.getDimension j = some (c.length - 1) ∧
      ∀ i, i ≠ j → r'.getColumn i = r.getColumn i ∧ r'.getDimension i = r.getDimension i := by
  have hp := List.perm_insertionSort (· ≤ ·) c
  have hst : Rep.store k (c.insertionSort (· ≤ ·)) = c.insertionSort (· ≤ ·) :=
    store_eq (hp.nodup_iff.2 hc)
  unfold Rep.setColumn Rep.numColumns
  simp only [hl, and_self]
  split
  · next h =>
    refine ⟨by simp; omega, ?_⟩
    rintro r' he
    cases he
    refine ⟨by simp, ⟨c.insertionSort (· ≤ ·), ?_, ?_, fun i => hp.mem_iff⟩, ?_, ?_⟩
    · simp [Rep.getColumn, h, hst]
    · have h1 := List.pairwise_insertionSort (· ≤ ·) c
      have h2 := hp.nodup_iff.2 hc
      exact (h1.and h2).imp fun h => lt_of_le_of_ne h.1 h.2
    · simp [Rep.getDimension, hl, h]
    · intro i hi
      simp [Rep.getColumn, Rep.getDimension, hi.symm]
  · next h =>
    refine ⟨by simp; omega, ?_⟩
    rintro r' he
    cases he

/-- C02. Effect of `clearColumn`: the column is empty, its dimension and all other columns
are kept. -/
theorem C02_clear_column (r : Rep) (j : ℕ) :
    (r.clearColumn j = none ↔ r.numColumns ≤ j) ∧
    ∀ r', r.clearColumn j = some r' → r'.numColumns = r.numColumns ∧ r'.getColumn j = some [] ∧
      (∀ i, i ≠ j → r'.getColumn i = r.getColumn i) ∧ ∀ i, r'.getDimension i = r.getDimension i := by
  unfold Rep.clearColumn Rep.numColumns
  split
  · next h =>
    refine ⟨by simp; omega, ?_⟩
    rintro r' he
    cases he
    refine ⟨by simp, by simp [Rep.getColumn, h], ?_, fun _ => rfl⟩
    intro i hi
    simp [Rep.getColumn, hi.symm]
  · next h =>
    refine ⟨by simp; omega, ?_⟩
    rintro r' he
    cases he

/-- C02. Effect of `setDimension`, and the dimension of the matrix is the largest column dimension. -/
theorem C02_set_dimension (r : Rep) (j d : ℕ) :
    (r.setDimension j d = none ↔ r.dims.length ≤ j) ∧
    (∀ r', r.setDimension j d = some r' → r'.getDimension j = some d ∧
      (∀ i, i ≠ j → r'.getDimension i = r.getDimension i) ∧ ∀ i, r'.getColumn i = r.getColumn i) ∧
    (∀ i e, r.getDimension i = some e → e ≤ r.dimension) ∧
    (0 < r.dimension → ∃ i, r.getDimension i = some r.dimension) := by
  have hmax : ∀ l : List ℕ, (∀ e ∈ l, e ≤ l.foldr max 0) ∧ (0 < l.foldr max 0 → l.foldr max 0 ∈ l) := by
    intro l
    induction l with
    | nil => simp
    | cons a l ih =>
      refine ⟨?_, ?_⟩
      · intro e he
        rcases List.mem_cons.1 he with rfl | he
        · exact le_max_left _ _
        · exact le_trans (ih.1 e he) (le_max_right _ _)
      · intro h
        simp only [List.foldr_cons] at h ⊢
        rcases le_total a (l.foldr max 0) with h1 | h1
        · rw [max_eq_right h1] at h ⊢
          exact List.mem_cons_of_mem _ (ih.2 h)
        · rw [max_eq_left h1]; exact List.mem_cons_self
  refine ⟨?_, ?_, ?_, ?_⟩
  · unfold Rep.setDimension; split <;> simp <;> omega
  · unfold Rep.setDimension
    split
    · next h =>
      rintro r' he
      cases he
      refine ⟨by simp [Rep.getDimension, h], ?_, fun _ => rfl⟩
      intro i hi
      simp [Rep.getDimension, hi.symm]
    · rintro r' he; cases he
  · intro i e he
    exact (hmax r.dims).1 e (List.mem_of_getElem? he)
  · intro h
    obtain ⟨i, hi, he⟩ := List.getElem_of_mem ((hmax r.dims).2 h)
    exact ⟨i, by rw [Rep.getDimension, List.getElem?_eq_getElem hi, he]; rfl⟩

/-- C02. Effect of `setNumColumns`: existing columns are kept as far as they fit, new ones are empty of
dimension zero. -/
theorem C02_set_num_columns (r : Rep) (hl : r.dims.length = r.data.length) (n : ℕ) :
    (r.setNumColumns n).numColumns = n ∧
    ∀ j, (r.setNumColumns n).getColumn j =
        (if n ≤ j then none else if j < r.numColumns then r.getColumn j else some []) ∧
      (r.setNumColumns n).getDimension j =
        (if n ≤ j then none else if j < r.numColumns then r.getDimension j else some 0) := by
  have key : ∀ {β : Type} (d : β) (l : List β) (j : ℕ), (Rep.resize d n l)[j]? =
      if n ≤ j then none else if j < l.length then l[j]? else some d := by
    intro β d l j
    unfold Rep.resize
    rw [List.getElem?_append]
    simp only [List.length_take, List.getElem?_replicate, List.getElem?_take]
    split_ifs <;> first | rfl | (exfalso; omega)
  refine ⟨?_, ?_⟩
  · simp [Rep.numColumns, Rep.setNumColumns, Rep.resize]; omega
  · intro j
    refine ⟨key _ _ _, ?_⟩
    unfold Rep.numColumns Rep.getDimension
    rw [← hl]
    exact key _ _ _

/-- Non-vacuity of C02: growing a matrix and setting a column. -/
example : ((Rep.mk [[0, 2]] [1]).setNumColumns 3).setColumn .vector 2 [5, 1, 3] =
    some (Rep.mk [[0, 2], [], [1, 3, 5]] [1, 0, 2]) := by decide

/-- C07. Entry `(i,j)` of the dual is entry `(n-1-j, n-1-i)` of the original, its
columns are strictly ascending, and the flag is inverted. The dimension of column `a`
is the dimension of the matrix minus the dimension of column `n-1-a`. -/
theorem C07_dualize_entries (M : BM) (hv : Valid M.rep) :
    ∃ M', M.dualize = some M' ∧ M'.dual = !M.dual ∧ Valid M'.rep ∧
      M'.numColumns = M.numColumns ∧
      (∀ i j, i < M.numColumns → j < M.numColumns →
        (i ∈ cols M'.rep j ↔ M.numColumns - 1 - j ∈ cols M.rep (M.numColumns - 1 - i))) ∧
      ∀ a < M.numColumns, M'.rep.getDimension a =
        (M.rep.getDimension (M.numColumns - 1 - a)).map (M.rep.dimension - ·) := by
  obtain ⟨M', h1, h2, h3, h4, h5, h6⟩ := dualize_spec hv
  refine ⟨M', h1, h2, h3, h4, ?_, ?_⟩
  · intro i j hi hj
    rw [h5]
    exact ⟨fun h => h.2.2, fun h => ⟨hj, hi, h⟩⟩
  · intro a ha
    have ha' : a < M.rep.data.length := ha
    have hd := hv.dims
    have hd' := h3.dims
    have := h6 a
    rw [if_pos ha'] at this
    unfold Rep.getDimension BM.numColumns Rep.numColumns
    rw [List.getElem?_eq_getElem (by omega), List.getElem?_eq_getElem (by omega)]
    rw [List.getD_eq_getElem?_getD, List.getD_eq_getElem?_getD,
      List.getElem?_eq_getElem (by omega), List.getElem?_eq_getElem (by omega)] at this
    simpa using this

/-- C07. Dualizing twice gives back the matrix, provided the matrix has a column of dimension
zero (as every boundary matrix of a non-empty simplicial complex has). -/
theorem C07_dualize_involutive (M : BM) (hv : Valid M.rep)
    (h0 : M.numColumns = 0 ∨ ∃ j, M.rep.getDimension j = some 0) :
    M.dualize.bind BM.dualize = some M := by
  obtain ⟨M', h1, h2, h3, h4, h5, h6⟩ := dualize_spec hv
  obtain ⟨M'', g1, g2, g3, g4, g5, g6⟩ := dualize_spec h3
  rw [h1, Option.bind_some, g1]
  have hlen : M''.rep.data.length = M.rep.data.length := g4.trans h4
  have hdata : M''.rep.data = M.rep.data := by
    apply List.ext_getElem? ; intro j
    by_cases hj : j < M.rep.data.length
    · rw [getElem?_data hj, getElem?_data (by omega)]
      congr 1
      refine Strict.ext (g3.sorted _ (colL_mem (by omega))) (hv.sorted _ (colL_mem hj)) ?_
      intro z
      rw [← mem_cols, ← mem_cols, g5, h5, h4]
      constructor
      · rintro ⟨a1, a2, a3, a4, a5⟩
        have e1 : M.rep.data.length - 1 - (M.rep.data.length - 1 - z) = z := by omega
        have e2 : M.rep.data.length - 1 - (M.rep.data.length - 1 - j) = j := by omega
        rwa [e1, e2] at a5
      · intro hz
        have hzn := valid_entries hv j z (mem_cols.1 hz)
        have e1 : M.rep.data.length - 1 - (M.rep.data.length - 1 - z) = z := by omega
        have e2 : M.rep.data.length - 1 - (M.rep.data.length - 1 - j) = j := by omega
        rw [e1, e2]
        exact ⟨hj, hzn, by omega, by omega, hz⟩
    · rw [List.getElem?_eq_none (by omega), List.getElem?_eq_none (by omega)]
  have hd'' := g3.dims
  have hd' := h3.dims
  have hd := hv.dims
  have hdims : M''.rep.dims = M.rep.dims := by
    apply List.ext_getElem (by omega)
    intro a ha ha'
    have e := g6 a
    rw [if_pos (by omega), h6, if_pos (by omega), h4] at e
    have e2 : M.rep.data.length - 1 - (M.rep.data.length - 1 - a) = a := by omega
    rw [e2] at e
    have hmax : M'.rep.dimension = M.rep.dimension := by
      rcases h0 with h0 | ⟨j, hj⟩
      · exfalso
        have : M.rep.data.length = 0 := h0
        omega
      · have hjn : j < M.rep.data.length := by
          by_contra h
          rw [Rep.getDimension, List.getElem?_eq_none (by omega)] at hj
          simp at hj
        apply le_antisymm
        · have : ∀ x ∈ M'.rep.dims, x ≤ M.rep.dimension := by
            intro x hx
            obtain ⟨b, hb, rfl⟩ := List.getElem_of_mem hx
            have := h6 b
            rw [List.getD_eq_getElem?_getD, List.getElem?_eq_getElem hb] at this
            simp only [Option.getD_some] at this
            rw [this]
            split_ifs <;> omega
          unfold Rep.dimension at this ⊢
          generalize M'.rep.dims = l at this
          induction l with
          | nil => simp
          | cons x xs ih =>
            simp only [List.foldr_cons]
            exact max_le (this x (by simp)) (ih fun y hy => this y (by simp [hy]))
        · have h7 := le_foldr_max M'.rep.dims (M.rep.data.length - 1 - j)
          rw [h6, if_pos (by omega)] at h7
          have e3 : M.rep.data.length - 1 - (M.rep.data.length - 1 - j) = j := by omega
          rw [e3] at h7
          have e4 : M.rep.dims.getD j 0 = 0 := by
            rw [List.getD_eq_getElem?_getD]
            rw [Rep.getDimension] at hj
            rw [hj]; rfl
          rw [e4] at h7
          simpa [Rep.dimension] using h7
    have hle := le_foldr_max M.rep.dims a
    rw [hmax] at e
    rw [List.getD_eq_getElem?_getD, List.getElem?_eq_getElem ha] at e
    rw [List.getD_eq_getElem?_getD, List.getElem?_eq_getElem ha'] at e hle
    simp only [Option.getD_some, Rep.dimension] at e hle
    omega
  have hdual : M''.dual = M.dual := by rw [g2, h2, Bool.not_not]
  cases M'' with | mk r'' d'' => cases M with | mk r d =>
    cases r''; cases r
    simp only at hdata hdims hdual
    rw [hdata, hdims, hdual]

/-- C07. Without a column of dimension zero the dimensions are shifted. -/
theorem C07_dualize_shift :
    (BM.mk ⟨[[]], [1]⟩ false).dualize.bind BM.dualize = some (BM.mk ⟨[[]], [0]⟩ false) := by
  decide

/-- Boundary matrix of a filled triangle, used to show that hypotheses can be met. -/
def triangle : Rep :=
  ⟨[[], [], [], [0, 1], [1, 2], [0, 2], [3, 4, 5]], [0, 0, 0, 1, 1, 1, 2]⟩

theorem triangle_valid : Valid triangle := by
  refine ⟨?_, ?_, ?_⟩ <;> decide

/-- Non-vacuity of C07. -/
example : Valid triangle ∧ ∃ j, triangle.getDimension j = some 0 := ⟨triangle_valid, 0, rfl⟩

end Aleph
