import Verif.Lemmas.Dual
import Verif.Lemmas.Pairing

/-! The pairing in terms of persistence pairs. -/

namespace Aleph

open Finset Spec

theorem IsReduction.low_lt {r0 r : Rep} (h : IsReduction r0 r) (hf : Filtered r0) {j i : ℕ}
    (hl : (colL r j).getLast? = some i) : i < j := by
  have hj : j < r0.data.length := by have := getLast?_lt hl; rw [h.len] at this; exact this
  have hp := (h.isLow_iff hj).1 hl
  obtain ⟨⟨c, hc, hm⟩, _⟩ := hp
  have := mem_chainBd.1 hm.1
  have hpos := this.pos
  rw [Finset.card_pos] at hpos
  obtain ⟨k, hk⟩ := hpos
  rw [Finset.mem_filter] at hk
  have h1 := hf k i hk.2
  have h2 := Finset.mem_range.1 (hc hk.1)
  omega

theorem persPair_lt_length {r : Rep} {i j : ℕ} (hp : PersPair (cols r) i j) :
    j < r.data.length := by
  by_contra h
  obtain ⟨⟨c, hc, hm⟩, hno⟩ := hp
  apply hno
  refine ⟨c.erase j, ?_, ?_⟩
  · intro x hx
    have h1 := mem_range.1 (hc (mem_of_mem_erase hx))
    have h2 := ne_of_mem_erase hx
    rw [mem_range]; omega
  · have he : cols r j = ∅ := by
      ext z; rw [mem_cols, colL_of_ge (by omega)]; simp
    have : chainBd (cols r) (c.erase j) = chainBd (cols r) c := by
      apply ind_inj
      rw [ind_chainBd, ind_chainBd]
      by_cases hj : j ∈ c
      · rw [← Finset.sum_erase_add _ _ hj, he]
        have : ind (∅ : Finset ℕ) = 0 := by funext z; simp [ind]
        rw [this, add_zero]
      · rw [Finset.erase_eq_of_notMem hj]
    rw [this]; exact hm

theorem IsReduction.low_iff {r0 r : Rep} (h : IsReduction r0 r) {i j : ℕ} :
    (colL r j).getLast? = some i ↔ PersPair (cols r0) i j := by
  constructor
  · intro hl
    exact (h.isLow_iff (by have := getLast?_lt hl; rw [h.len] at this; exact this)).1 hl
  · intro hp
    exact (h.isLow_iff (persPair_lt_length hp)).2 hp

theorem persPair_fst_lt {r : Rep} (hv : Valid r) {i j : ℕ} (hp : PersPair (cols r) i j) :
    i < r.data.length := by
  obtain ⟨R, _, hR⟩ := standard_isReduction .vector hv
  exact hR.entries j i (getLast?_mem (hR.low_iff.2 hp))

theorem low_none_iff {r0 r : Rep} (h : IsReduction r0 r) {c : ℕ} :
    (colL r c).getLast? = none ↔ ∀ j, ¬ PersPair (cols r0) j c := by
  constructor
  · intro hl j hp
    rw [h.low_iff.2 hp] at hl; simp at hl
  · intro hno
    cases hl : (colL r c).getLast? with
    | none => rfl
    | some m => exact absurd (h.low_iff.1 hl) (hno m)

/-- Pairing read off any reduction of a filtered matrix, not dualized. -/
theorem mem_readPairing_primal {r0 r : Rep} (h : IsReduction r0 r) (hf : Filtered r0)
    (inc : Bool) (max i j : ℕ) :
    (i, j) ∈ readPairing ⟨r, false⟩ inc max ↔
      (PersPair (cols r0) i j ∨
        (j = idxMax ∧ Unpaired (cols r0) r0.data.length i ∧
          (inc = true ∨ r0.dims.getD i 0 ≠ r0.dimension))) ∧
      (r0.data.length < max ∨ i < max) := by
  have hnum : BM.numColumns ⟨r, false⟩ = r0.data.length := h.len
  rw [mem_readPairing (B := ⟨r, false⟩) (fun j i hl => h.low_lt hf hl)
    (fun j i hl => getLast?_lt hl)]
  have hcol : ∀ j, BM.col ⟨r, false⟩ j = colL r j := fun j => rfl
  have hadm : ∀ u, admissible r0.data.length max u = true ↔
      (r0.data.length < max ∨ u < max) := by
    intro u; simp [admissible]
  have hpred : ∀ c, creatorPred ⟨r, false⟩ inc c = true ↔
      (inc = true ∨ r0.dims.getD c 0 ≠ r0.dimension) := by
    intro c
    simp [creatorPred, BM.dim, h.dims, Rep.dimension, or_comm]
  simp only [hcol, hadm, hpred, reportPair, unflip, low_none_iff h, h.low_iff, hnum, ne_eq]
  constructor
  · rintro (⟨j', i', h1, h2, h3⟩ | ⟨c, h1, h2, h3, h4, h5, h6⟩)
    · cases h2; exact ⟨Or.inl h1, h3⟩
    · cases h5; exact ⟨Or.inr ⟨rfl, ⟨h1, fun j => ⟨h4 j, h2 j⟩⟩, h3⟩, h6⟩
  · rintro ⟨h1 | ⟨rfl, ⟨h1, h2⟩, h3⟩, h4⟩
    · exact Or.inl ⟨j, i, h1, rfl, h4⟩
    · exact Or.inr ⟨i, h1, fun j => (h2 j).2, h3, fun j => (h2 j).1, rfl, h4⟩

theorem IsReduction.same_low {r0 r r' : Rep} (h : IsReduction r0 r) (h' : IsReduction r0 r')
    (j : ℕ) : (colL r j).getLast? = (colL r' j).getLast? := by
  cases hl : (colL r j).getLast? with
  | none =>
    symm; rw [low_none_iff h']; exact (low_none_iff h).1 hl
  | some i => symm; rw [h'.low_iff]; exact h.low_iff.1 hl

/-- Two reductions of the same matrix yield the same pairing. -/
theorem readPairing_congr {r0 r r' : Rep} (h : IsReduction r0 r) (h' : IsReduction r0 r')
    (dual inc : Bool) (max : ℕ) :
    readPairing ⟨r, dual⟩ inc max = readPairing ⟨r', dual⟩ inc max := by
  have hstep : pairStep ⟨r, dual⟩ inc max = pairStep ⟨r', dual⟩ inc max := by
    funext st j
    have e1 : (BM.col ⟨r, dual⟩ j).getLast? = (BM.col ⟨r', dual⟩ j).getLast? := h.same_low h' j
    have e2 : BM.numColumns ⟨r, dual⟩ = BM.numColumns ⟨r', dual⟩ := h.len.trans h'.len.symm
    have e3 : BM.dim ⟨r, dual⟩ j = BM.dim ⟨r', dual⟩ j := by
      simp only [BM.dim, h.dims, h'.dims]
    have e4 : r.dimension = r'.dimension := by simp only [Rep.dimension, h.dims, h'.dims]
    unfold pairStep
    simp only [e1, e2, e3, e4]
  have e2 : BM.numColumns ⟨r, dual⟩ = BM.numColumns ⟨r', dual⟩ := h.len.trans h'.len.symm
  unfold readPairing unpairedEntries
  simp only [hstep, e2]

/-- No index is both creator and destroyer. -/
theorem persPair_exclusive {r : Rep} (hv : Valid r) (hd : Differential r) {u j i : ℕ}
    (hp : PersPair (cols r) u j) : ¬ PersPair (cols r) i u := by
  intro hq
  obtain ⟨R, _, hR⟩ := standard_isReduction .vector hv
  have hlow := hR.low_iff.2 hp
  have hun := persPair_fst_lt hv hp
  have hmem : colv R j ∈ spanLt (colv r) r.data.length := by
    have := spanLt_eq_of_unipotent hR.span r.data.length le_rfl
    rw [← this]
    exact mem_spanLt_self _ (persPair_lt_length hp)
  have hc := clearOK_of_differential hd _ hmem u hun ((isLow_colv (hR.strict j)).2 hlow)
  obtain ⟨⟨v, hv1, hv2⟩, hno⟩ := persPair_iff.1 hq
  apply hno
  rcases mem_spanLt_succ.1 hv1 with h | h
  · exact ⟨v, h, hv2⟩
  · refine ⟨v, ?_, hv2⟩
    have := Submodule.add_mem _ h hc
    have e : v + ind (cols r u) + colv r u = v := by
      rw [add_assoc]
      have : ind (cols r u) + colv r u = 0 := vec_add_self _
      rw [this, add_zero]
    rwa [e] at this

/-! ### Properties of the dual -/

/-- Relation between a matrix and its anti-transpose. -/
structure AntiTranspose (r r' : Rep) : Prop where
  len : r'.data.length = r.data.length
  entry : ∀ a b, b ∈ cols r' a ↔ a < r.data.length ∧ b < r.data.length ∧
      r.data.length - 1 - a ∈ cols r (r.data.length - 1 - b)
  dim : ∀ a, r'.dims.getD a 0 = if a < r.data.length then
        r.dimension - r.dims.getD (r.data.length - 1 - a) 0 else 0

theorem AntiTranspose.filtered {r r' : Rep} (h : AntiTranspose r r') (hf : Filtered r) :
    Filtered r' := by
  intro a b hb
  obtain ⟨h1, h2, h3⟩ := (h.entry a b).1 hb
  have := hf _ _ h3
  omega

theorem AntiTranspose.graded {r r' : Rep} (h : AntiTranspose r r') (hg : Graded r) :
    Graded r' := by
  intro a b hb
  obtain ⟨h1, h2, h3⟩ := (h.entry a b).1 hb
  have := hg _ _ h3
  rw [h.dim, h.dim, if_pos h1, if_pos h2]
  have := le_foldr_max r.dims (r.data.length - 1 - b)
  have := le_foldr_max r.dims (r.data.length - 1 - a)
  unfold Rep.dimension
  omega

theorem AntiTranspose.differential {r r' : Rep} (hv : Valid r) (h : AntiTranspose r r')
    (hd : Differential r) : Differential r' := by
  intro a
  ext x
  simp only [Finset.notMem_empty, iff_false]
  rw [mem_chainBd]
  intro hodd
  have hpos := hodd.pos
  rw [Finset.card_pos] at hpos
  obtain ⟨k, hk⟩ := hpos
  rw [Finset.mem_filter] at hk
  obtain ⟨ha, hk1, _⟩ := (h.entry _ _).1 hk.1
  obtain ⟨_, hx, _⟩ := (h.entry _ _).1 hk.2
  have hno : r.data.length - 1 - a ∉ chainBd (cols r) (cols r (r.data.length - 1 - x)) := by
    rw [hd]; simp
  apply hno
  rw [mem_chainBd]
  have : #{k ∈ cols r' a | x ∈ cols r' k} =
      #{k ∈ cols r (r.data.length - 1 - x) | r.data.length - 1 - a ∈ cols r k} := by
    refine Finset.card_bij' (fun k _ => r.data.length - 1 - k) (fun k _ => r.data.length - 1 - k)
      ?_ ?_ ?_ ?_
    · intro k hk
      rw [Finset.mem_filter] at hk ⊢
      obtain ⟨_, _, h3⟩ := (h.entry _ _).1 hk.1
      obtain ⟨_, _, h4⟩ := (h.entry _ _).1 hk.2
      exact ⟨h4, h3⟩
    · intro k hk
      rw [Finset.mem_filter] at hk ⊢
      have hkn : k < r.data.length := valid_entries hv _ _ (mem_cols.1 hk.1)
      have e : r.data.length - 1 - (r.data.length - 1 - k) = k := by omega
      rw [h.entry, h.entry, e]
      exact ⟨⟨ha, by omega, hk.2⟩, by omega, hx, hk.1⟩
    · intro k hk
      rw [Finset.mem_filter] at hk
      have := ((h.entry _ _).1 hk.1).2.1
      omega
    · intro k hk
      rw [Finset.mem_filter] at hk
      have hkn : k < r.data.length := valid_entries hv _ _ (mem_cols.1 hk.1)
      omega
  rw [← this]; exact hodd

/-- Pairing read off any reduction of the dual of a filtered matrix. -/
theorem mem_readPairing_dual {r0 r' r : Rep} (hv : Valid r0) (hv' : Valid r')
    (ha : AntiTranspose r0 r') (h : IsReduction r' r) (hf : Filtered r0)
    (inc : Bool) (max i j : ℕ) :
    (i, j) ∈ readPairing ⟨r, true⟩ inc max ↔
      (PersPair (cols r0) i j ∨
        (j = idxMax ∧ Unpaired (cols r0) r0.data.length i ∧
          (inc = true ∨ r0.dims.getD i 0 ≠ r0.dimension))) ∧
      (r0.data.length < max ∨ i < max) := by
  have hlen := ha.len
  have hnum : BM.numColumns ⟨r, true⟩ = r0.data.length := h.len.trans ha.len
  have hf' := ha.filtered hf
  rw [mem_readPairing (B := ⟨r, true⟩) (fun j i hl => h.low_lt hf' hl)
    (fun j i hl => getLast?_lt hl)]
  have hcol : ∀ j, BM.col ⟨r, true⟩ j = colL r j := fun j => rfl
  have hadm : ∀ u, admissible r0.data.length max u = true ↔
      (r0.data.length < max ∨ u < max) := by
    intro u; simp [admissible]
  have hpred : ∀ c, c < r0.data.length → (creatorPred ⟨r, true⟩ inc c = true ↔
      (inc = true ∨ r0.dims.getD (r0.data.length - 1 - c) 0 ≠ r0.dimension)) := by
    intro c hc
    have h1 := ha.dim c
    rw [if_pos hc] at h1
    have h2 := le_foldr_max r0.dims (r0.data.length - 1 - c)
    have h3 : BM.dim ⟨r, true⟩ c = r0.dimension - r0.dims.getD (r0.data.length - 1 - c) 0 := by
      rw [← h1, BM.dim, h.dims]
    simp only [creatorPred, h3, Bool.not_true, Bool.false_and, Bool.true_and, Bool.false_or,
      Bool.or_eq_true, bne_iff_ne, ne_eq, Rep.dimension] at h2 ⊢
    rw [or_comm]
    refine or_congr Iff.rfl (not_congr ?_)
    omega
  have key : ∀ i j, i < r0.data.length → j < r0.data.length →
      (PersPair (cols r') (r0.data.length - 1 - j) (r0.data.length - 1 - i) ↔
        PersPair (cols r0) i j) := fun i j hi hj => persPair_dual hv hv' ha.len ha.entry hi hj
  have key' : ∀ a b, PersPair (cols r') a b →
      a < r0.data.length ∧ b < r0.data.length ∧
        PersPair (cols r0) (r0.data.length - 1 - b) (r0.data.length - 1 - a) := by
    intro a b hp
    have h1 := persPair_fst_lt hv' hp
    have h2 := persPair_lt_length hp
    rw [ha.len] at h1 h2
    refine ⟨h1, h2, ?_⟩
    rw [← key _ _ (by omega) (by omega)]
    have e1 : r0.data.length - 1 - (r0.data.length - 1 - a) = a := by omega
    have e2 : r0.data.length - 1 - (r0.data.length - 1 - b) = b := by omega
    rw [e1, e2]; exact hp
  simp only [hcol, hadm, reportPair, unflip, low_none_iff h, h.low_iff, hnum, if_true, ne_eq]
  constructor
  · rintro (⟨j', i', h1, h2, h3⟩ | ⟨c, h1, h2, h3, h4, h5, h6⟩)
    · cases h2; exact ⟨Or.inl (key' _ _ h1).2.2, h3⟩
    · cases h5
      refine ⟨Or.inr ⟨rfl, ⟨by omega, fun j => ⟨?_, ?_⟩⟩, (hpred c h1).1 h3⟩, h6⟩
      · intro hp
        have hj := persPair_lt_length hp
        have := (key _ _ (by omega) hj).2 hp
        have e : r0.data.length - 1 - (r0.data.length - 1 - c) = c := by omega
        rw [e] at this
        exact h2 _ this
      · intro hp
        have hj := persPair_fst_lt hv hp
        have := (key _ _ hj (by omega)).2 hp
        have e : r0.data.length - 1 - (r0.data.length - 1 - c) = c := by omega
        rw [e] at this
        exact h4 _ this
  · rintro ⟨h1 | ⟨rfl, ⟨h1, h2⟩, h3⟩, h4⟩
    · have hj := persPair_lt_length h1
      have hi := persPair_fst_lt hv h1
      refine Or.inl ⟨_, _, (key _ _ hi hj).2 h1, ?_, h4⟩
      ext <;> simp only <;> omega
    · have e : r0.data.length - 1 - (r0.data.length - 1 - i) = i := by omega
      refine Or.inr ⟨r0.data.length - 1 - i, by omega, ?_, ?_, ?_, ?_, h4⟩
      · intro j hp
        have := (key' _ _ hp).2.2
        rw [e] at this
        exact (h2 _).1 this
      · rw [hpred _ (by omega), e]; exact h3
      · intro j hp
        have := (key' _ _ hp).2.2
        rw [e] at this
        exact (h2 _).2 this
      · rw [e]

end Aleph
