import Verif.Lemmas.Twist
import Mathlib.LinearAlgebra.Matrix.Rank
import Mathlib.LinearAlgebra.FiniteDimensional.Lemmas

/-! Dualization: entries of the anti-transpose, and ranks. -/

namespace Aleph

open Spec

theorem mem_dualColumn {n : ℕ} {data : List (List ℕ)} {a x : ℕ} :
    x ∈ BM.dualColumn n data a ↔
      ∃ j < data.length, ∃ i ∈ data.getD j [], n - 1 - i = a ∧ x = n - 1 - j := by
  unfold BM.dualColumn
  simp only [List.mem_flatMap, Prod.exists, List.mem_map, List.mem_filter, decide_eq_true_eq]
  constructor
  · rintro ⟨c, j, hcj, i, ⟨hi, hia⟩, rfl⟩
    rw [List.mem_zipIdx_iff_getElem?] at hcj
    simp only at hcj
    have hj : j < data.length := by
      by_contra h
      rw [List.getElem?_eq_none (by omega)] at hcj
      simp at hcj
    exact ⟨j, hj, i, by simpa [List.getD_eq_getElem?_getD, hcj] using hi, hia, rfl⟩
  · rintro ⟨j, hj, i, hi, hia, rfl⟩
    refine ⟨data.getD j [], j, ?_, i, ⟨hi, hia⟩, rfl⟩
    rw [List.mem_zipIdx_iff_getElem?]
    simp [List.getD_eq_getElem?_getD, List.getElem?_eq_getElem hj]

theorem nodup_dualColumn {n a : ℕ} {data : List (List ℕ)} (hn : n = data.length) (_ha : a < n)
    (hs : ∀ c ∈ data, Strict c) (he : ∀ c ∈ data, ∀ i ∈ c, i < n) :
    (BM.dualColumn n data a).Nodup := by
  unfold BM.dualColumn
  rw [List.nodup_flatMap]
  have hzip : ∀ x ∈ data.zipIdx, x.1 ∈ data ∧ x.2 < n := by
    rintro ⟨c, j⟩ hx
    rw [List.mem_zipIdx_iff_getElem?] at hx
    simp only at hx
    refine ⟨List.mem_of_getElem? hx, ?_⟩
    by_contra h
    rw [List.getElem?_eq_none (by omega)] at hx
    simp at hx
  constructor
  · rintro ⟨c, j⟩ hx
    have hc := (hzip _ hx).1
    simp only at hc
    refine List.Nodup.map_on ?_ ((hs c hc).nodup.filter _)
    intro x hx y hy _
    rw [List.mem_filter] at hx hy
    have h1 := he c hc x hx.1
    have h2 := he c hc y hy.1
    have h3 := hx.2
    have h4 := hy.2
    simp only [decide_eq_true_eq] at h3 h4
    omega
  · have hp : data.zipIdx.Pairwise (fun x y => x.2 < y.2) := by
      have : (data.zipIdx.map Prod.snd).Pairwise (· < ·) := by
        rw [List.zipIdx_map_snd]; exact List.pairwise_lt_range'
      exact List.pairwise_map.1 this
    refine hp.imp_of_mem ?_
    rintro ⟨c, j⟩ ⟨c', j'⟩ hx hy hlt z hz hz'
    have b1 := (hzip _ hx).2
    have b2 := (hzip _ hy).2
    simp only [List.mem_map] at hz hz' hlt b1 b2
    obtain ⟨_, _, rfl⟩ := hz
    obtain ⟨_, _, h⟩ := hz'
    omega

theorem strict_of_sorted {c : List ℕ} (h : c.Pairwise (· ≤ ·)) (hn : c.Nodup) : Strict c :=
  (h.and hn).imp (fun h => lt_of_le_of_ne h.1 h.2)

theorem strict_insertionSort {c : List ℕ} (hn : c.Nodup) :
    Strict (c.insertionSort (· ≤ ·)) :=
  strict_of_sorted (List.pairwise_insertionSort (· ≤ ·) c)
    ((List.perm_insertionSort (· ≤ ·) c).nodup_iff.2 hn)

/-- Entry-wise description of `dualize`. -/
theorem dualize_spec {M : BM} (hv : Valid M.rep) :
    ∃ M', M.dualize = some M' ∧ M'.dual = !M.dual ∧ Valid M'.rep ∧
      M'.rep.data.length = M.rep.data.length ∧
      (∀ a b, b ∈ cols M'.rep a ↔ a < M.rep.data.length ∧ b < M.rep.data.length ∧
        M.rep.data.length - 1 - a ∈ cols M.rep (M.rep.data.length - 1 - b)) ∧
      ∀ a, M'.rep.dims.getD a 0 = if a < M.rep.data.length then
        M.rep.dimension - M.rep.dims.getD (M.rep.data.length - 1 - a) 0 else 0 := by
  have hcond : M.rep.data.all (fun c => c.all (fun i => i < M.rep.data.length)) ∧
      M.rep.dims.length = M.rep.data.length := by
    refine ⟨?_, hv.dims⟩
    simp only [List.all_eq_true, decide_eq_true_eq]
    exact hv.entries
  refine ⟨_, if_pos hcond, rfl, ?_, by simp, ?_, ?_⟩
  · refine ⟨?_, ?_, by simp⟩
    · simp only [List.mem_map, List.mem_range]
      rintro c ⟨a, ha, rfl⟩
      exact strict_insertionSort (nodup_dualColumn rfl ha hv.sorted hv.entries)
    · simp only [List.mem_map, List.mem_range, List.length_map, List.length_range]
      rintro c ⟨a, ha, rfl⟩ i hi
      rw [List.mem_insertionSort, mem_dualColumn] at hi
      obtain ⟨j, hj, _, _, _, rfl⟩ := hi
      omega
  · intro a b
    by_cases ha : a < M.rep.data.length
    · rw [mem_cols, colL]
      simp only [List.getD_eq_getElem?_getD, List.getElem?_map, List.getElem?_range ha,
        Option.map_some, Option.getD_some, List.mem_insertionSort, mem_dualColumn]
      constructor
      · rintro ⟨j, hj, i, hi, rfl, rfl⟩
        have hi' : i ∈ colL M.rep j := by simpa [colL, List.getD_eq_getElem?_getD] using hi
        have hin := valid_entries hv j i hi'
        refine ⟨ha, by omega, ?_⟩
        rw [mem_cols]
        have e1 : M.rep.data.length - 1 - (M.rep.data.length - 1 - i) = i := by omega
        have e2 : M.rep.data.length - 1 - (M.rep.data.length - 1 - j) = j := by omega
        rw [e1, e2]; exact hi'
      · rintro ⟨_, hb, h⟩
        rw [mem_cols, colL, List.getD_eq_getElem?_getD] at h
        exact ⟨_, by omega, _, h, by omega, by omega⟩
    · rw [mem_cols, colL_of_ge (by simpa using ha)]
      simp [ha]
  · intro a
    simp only [BM.dim, List.getD_eq_getElem?_getD, List.getElem?_map]
    split_ifs with ha
    · rw [List.getElem?_range ha]; rfl
    · rw [List.getElem?_eq_none (by simpa using ha)]; rfl

/-! ### Ranks -/

/-- Restriction of a vector to the rows `i ≤ a < n`. -/
def res (n i : ℕ) : Vec →ₗ[ZMod 2] (Fin n → ZMod 2) where
  toFun v := fun a => if i ≤ (a : ℕ) then v a else 0
  map_add' v w := by funext a; by_cases h : i ≤ (a : ℕ) <;> simp [h]
  map_smul' c v := by funext a; by_cases h : i ≤ (a : ℕ) <;> simp [h]

/-- The part of the matrix in rows `≥ i` and columns `< j`. -/
def mask (r : Rep) (n i j : ℕ) : Matrix (Fin n) (Fin n) (ZMod 2) :=
  fun a b => if i ≤ (a : ℕ) ∧ (b : ℕ) < j then colv r b a else 0

theorem span_mask (r : Rep) (n i j : ℕ) (hj : j ≤ n) :
    Submodule.span (ZMod 2) (Set.range (mask r n i j).col) =
      (spanLt (colv r) j).map (res n i) := by
  unfold spanLt
  rw [Submodule.map_span]
  apply le_antisymm
  · rw [Submodule.span_le]
    rintro _ ⟨b, rfl⟩
    by_cases hb : (b : ℕ) < j
    · apply Submodule.subset_span
      refine ⟨colv r b, ⟨b, hb, rfl⟩, ?_⟩
      funext a
      simp only [res, LinearMap.coe_mk, AddHom.coe_mk, Matrix.col, mask, Matrix.transpose_apply]
      by_cases h : i ≤ (a : ℕ) <;> simp [h, hb]
    · have : (mask r n i j).col b = 0 := by
        funext a
        simp [Matrix.col, mask, Matrix.transpose_apply, hb]
      rw [this]; exact Submodule.zero_mem _
  · rw [Submodule.span_le]
    rintro _ ⟨_, ⟨b, hb, rfl⟩, rfl⟩
    have hb' : b < j := hb
    apply Submodule.subset_span
    refine ⟨⟨b, by omega⟩, ?_⟩
    funext a
    simp only [res, LinearMap.coe_mk, AddHom.coe_mk, Matrix.col, mask, Matrix.transpose_apply]
    by_cases h : i ≤ (a : ℕ) <;> simp [h, hb']

/-- Rank of the lower-left part of the matrix. -/
noncomputable def rk (r : Rep) (i j : ℕ) : ℕ :=
  (mask r r.data.length i j).rank

open Classical in
theorem rk_succ {r0 r : Rep} (h : IsReduction r0 r) (i j : ℕ) (hj : j < r0.data.length) :
    rk r0 i (j + 1) = rk r0 i j + if ∃ m, (colL r j).getLast? = some m ∧ i ≤ m then 1 else 0 := by
  unfold rk
  rw [Matrix.rank_eq_finrank_span_cols, Matrix.rank_eq_finrank_span_cols, span_mask _ _ _ _ hj.le,
    span_mask _ _ _ _ hj]
  have hsp := spanLt_eq_of_unipotent h.span
  rw [← hsp j hj.le, ← hsp (j + 1) hj, spanLt_succ, Submodule.map_sup, Submodule.map_span,
    Set.image_singleton]
  split_ifs with hm
  · obtain ⟨m, hm, him⟩ := hm
    apply Submodule.finrank_sup_span_singleton
    rintro ⟨v, hv, hvr⟩
    have hlow := (isLow_colv (h.strict j)).2 hm
    have hval : ∀ z, i ≤ z → z < r0.data.length → v z = colv r j z := by
      intro z hz hzn
      have := congrFun hvr ⟨z, hzn⟩
      simpa [res, hz] using this
    have hmn : m < r0.data.length := h.entries j m (getLast?_mem hm)
    have hnz : v ≠ 0 := by
      rintro rfl
      exact hlow.1 (hval m him hmn).symm
    rcases low_of_mem_spanLt (F := colv r) (n := r0.data.length)
      (fun k _ => ind_zero_or_low _)
      (fun k _ l _ a ha hb => h.distinct k l a ((isLow_colv (h.strict k)).1 ha)
        ((isLow_colv (h.strict l)).1 hb)) j hj.le v hv with h0 | ⟨k, hk, a, h1, h2⟩
    · exact hnz h0
    · have h3 := (isLow_colv (h.strict k)).1 h1
      have han := h.entries k a (getLast?_mem h3)
      have hma : m ≤ a := by
        by_contra hlt
        have := h2.2 m (by omega)
        rw [hval m him hmn] at this
        exact hlow.1 this
      have ham : a ≤ m := by
        by_contra hlt
        have := hval a (by omega) han
        rw [hlow.2 a (by omega)] at this
        exact h2.1 this
      have : a = m := le_antisymm ham hma
      subst this
      have := h.distinct k j a h3 hm
      omega
  · have : res r0.data.length i (colv r j) = 0 := by
      funext a
      simp only [res, LinearMap.coe_mk, AddHom.coe_mk, Pi.zero_apply, ite_eq_right_iff]
      intro hia
      rw [colv, ind_apply_eq, mem_cols]
      intro hmem
      apply hm
      cases hl : (colL r j).getLast? with
      | none => rw [List.getLast?_eq_none_iff] at hl; rw [hl] at hmem; simp at hmem
      | some m => exact ⟨m, rfl, hia.trans ((h.strict j).le_getLast hl _ hmem)⟩
    rw [this, Submodule.span_zero_singleton, sup_bot_eq, add_zero]

theorem low_iff_rk {r0 r : Rep} (h : IsReduction r0 r) {i j : ℕ} (hj : j < r0.data.length) :
    (colL r j).getLast? = some i ↔
      rk r0 i (j + 1) = rk r0 i j + 1 ∧ rk r0 (i + 1) (j + 1) = rk r0 (i + 1) j := by
  rw [rk_succ h i j hj, rk_succ h (i + 1) j hj]
  cases hl : (colL r j).getLast? with
  | none => simp
  | some m =>
    simp only [Option.some.injEq, exists_eq_left']
    constructor
    · rintro rfl; simp
    · rintro ⟨h1, h2⟩
      split_ifs at h1 h2 <;> omega

/-- Ranks of a matrix and its anti-transpose. -/
theorem rk_dual {r r' : Rep} (hlen : r'.data.length = r.data.length)
    (hent : ∀ a b, b ∈ cols r' a ↔ a < r.data.length ∧ b < r.data.length ∧
      r.data.length - 1 - a ∈ cols r (r.data.length - 1 - b)) (i j : ℕ)
    (hi : i ≤ r.data.length) (hj : j ≤ r.data.length) :
    rk r' i j = rk r (r.data.length - j) (r.data.length - i) := by
  unfold rk
  rw [hlen, ← Matrix.rank_transpose (mask r _ _ _),
    ← Matrix.rank_submatrix (mask r _ _ _).transpose Fin.revPerm Fin.revPerm]
  congr 1
  ext a b
  have ha := a.isLt
  have hb := b.isLt
  simp only [mask, Matrix.submatrix_apply, Matrix.transpose_apply, Fin.revPerm_apply,
    Fin.val_rev, colv, ind]
  have e1 : (i ≤ (a : ℕ) ∧ (b : ℕ) < j) ↔
      (r.data.length - j ≤ r.data.length - (b + 1) ∧
        r.data.length - (a + 1) < r.data.length - i) := by omega
  have e2 : (a : ℕ) ∈ cols r' b ↔
      r.data.length - (b + 1) ∈ cols r (r.data.length - (a + 1)) := by
    rw [hent]
    have h1 : r.data.length - 1 - (b : ℕ) = r.data.length - (b + 1) := by omega
    have h2 : r.data.length - 1 - (a : ℕ) = r.data.length - (a + 1) := by omega
    rw [h1, h2]
    simp [ha, hb]
  simp only [e1, e2]

/-- Persistence pairs of the anti-transpose. -/
theorem persPair_dual {r r' : Rep} (hv : Valid r) (hv' : Valid r')
    (hlen : r'.data.length = r.data.length)
    (hent : ∀ a b, b ∈ cols r' a ↔ a < r.data.length ∧ b < r.data.length ∧
      r.data.length - 1 - a ∈ cols r (r.data.length - 1 - b)) {i j : ℕ}
    (hi : i < r.data.length) (hj : j < r.data.length) :
    PersPair (cols r') (r.data.length - 1 - j) (r.data.length - 1 - i) ↔
      PersPair (cols r) i j := by
  obtain ⟨R, _, hR⟩ := standard_isReduction .vector hv
  obtain ⟨R', _, hR'⟩ := standard_isReduction .vector hv'
  rw [← hR.isLow_iff hj, ← hR'.isLow_iff (by omega), low_iff_rk hR hj, low_iff_rk hR' (by omega)]
  have d1 := rk_succ hR i j hj
  have d2 := rk_succ hR (i + 1) j hj
  have d3 := rk_succ hR' (r.data.length - 1 - j) (r.data.length - 1 - i) (by omega)
  have d4 := rk_succ hR' (r.data.length - 1 - j + 1) (r.data.length - 1 - i) (by omega)
  rw [rk_dual hlen hent _ _ (by omega) (by omega), rk_dual hlen hent _ _ (by omega) (by omega)]
    at d3 d4
  rw [rk_dual hlen hent _ _ (by omega) (by omega), rk_dual hlen hent _ _ (by omega) (by omega),
    rk_dual hlen hent _ _ (by omega) (by omega), rk_dual hlen hent _ _ (by omega) (by omega)]
  have a1 : r.data.length - (r.data.length - 1 - i + 1) = i := by omega
  have a2 : r.data.length - (r.data.length - 1 - j) = j + 1 := by omega
  have a3 : r.data.length - (r.data.length - 1 - i) = i + 1 := by omega
  have a4 : r.data.length - (r.data.length - 1 - j + 1) = j := by omega
  rw [a1, a2, a3] at d3
  rw [a1, a4, a3] at d4
  rw [a1, a2, a3, a4]
  split_ifs at d1 d2 d3 d4 <;> omega

end Aleph
