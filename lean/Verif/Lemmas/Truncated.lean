import Verif.Props.Reduction

/-! Boundary matrices with columns for an initial part of the simplices only. -/

namespace Aleph

open Finset Spec

theorem exists_persPair {D : ℕ → Finset ℕ} {i m : ℕ}
    (h : ∃ c ⊆ range m, MaxIs (chainBd D c) i) : ∃ j < m, PersPair D i j := by
  induction m with
  | zero =>
    obtain ⟨c, hc, hm⟩ := h
    have : c = ∅ := by simpa using hc
    subst this
    simpa [chainBd] using hm.1
  | succ m ih =>
    by_cases h' : ∃ c ⊆ range m, MaxIs (chainBd D c) i
    · obtain ⟨j, hj, hp⟩ := ih h'
      exact ⟨j, by omega, hp⟩
    · exact ⟨m, by omega, h, h'⟩

/-- Persistence pairs depend on the columns up to the destroyer only. -/
theorem persPair_congr {D D' : ℕ → Finset ℕ} {i j : ℕ} (h : ∀ k ≤ j, D k = D' k) :
    PersPair D i j ↔ PersPair D' i j := by
  have hc : ∀ c ⊆ range (j + 1), chainBd D c = chainBd D' c := by
    intro c hc
    apply ind_inj
    rw [ind_chainBd, ind_chainBd]
    exact Finset.sum_congr rfl fun k hk => by rw [h k (by have := mem_range.1 (hc hk); omega)]
  unfold PersPair
  refine and_congr ?_ (not_congr ?_)
  · exact exists_congr fun c => and_congr_right fun h => by rw [hc c h]
  · refine exists_congr fun c => and_congr_right fun h => ?_
    rw [hc c (h.trans (range_mono (Nat.le_succ j)))]

theorem persPair_exclusive_of_clearOK {r : Rep} (hv : Valid r) (hd : ClearOK r) {u j i : ℕ}
    (hp : PersPair (cols r) u j) : ¬ PersPair (cols r) i u := by
  intro hq
  obtain ⟨R, _, hR⟩ := standard_isReduction .vector hv
  have hlow := hR.low_iff.2 hp
  have hun := persPair_fst_lt hv hp
  have hmem : colv R j ∈ spanLt (colv r) r.data.length := by
    have := spanLt_eq_of_unipotent hR.span r.data.length le_rfl
    rw [← this]
    exact mem_spanLt_self _ (persPair_lt_length hp)
  have hc := hd _ hmem u hun ((isLow_colv (hR.strict j)).2 hlow)
  obtain ⟨⟨v, hv1, hv2⟩, hno⟩ := persPair_iff.1 hq
  apply hno
  rcases mem_spanLt_succ.1 hv1 with h | h
  · exact ⟨v, h, hv2⟩
  · refine ⟨v, ?_, hv2⟩
    have := Submodule.add_mem _ h hc
    have e : v + ind (cols r u) + colv r u = v := by
      rw [add_assoc]
      have : ind (cols r u) + colv r u = 0 := vec_add_self _
      rw [this, add_zero]
    rwa [e] at this

theorem clearOK_of_exclusive {r : Rep} (hv : Valid r)
    (h : ∀ u j i, PersPair (cols r) u j → ¬ PersPair (cols r) i u) : ClearOK r := by
  intro v hvs i hi hlow
  obtain ⟨c, hc, rfl⟩ := mem_spanLt_iff_chain.1 hvs
  obtain ⟨j, _, hp⟩ := exists_persPair ⟨c, hc, isLow_ind.1 hlow⟩
  obtain ⟨R, _, hR⟩ := standard_isReduction .vector hv
  have hnone := (low_none_iff hR).2 fun k => h i j k hp
  have hnil : colL R i = [] := by simpa using hnone
  have hz : colv R i = 0 := by
    funext z; simp [colv, cols_eq, hnil, ind]
  have := hR.span i hi
  rwa [hz, zero_add] at this

theorem clearOK_dual {r r' : Rep} (hv : Valid r) (hv' : Valid r') (ha : AntiTranspose r r')
    (hc : ClearOK r) : ClearOK r' := by
  have key : ∀ a b, PersPair (cols r') a b → a < r.data.length ∧ b < r.data.length ∧
      PersPair (cols r) (r.data.length - 1 - b) (r.data.length - 1 - a) := by
    intro a b hp
    have h1 := persPair_fst_lt hv' hp
    have h2 := persPair_lt_length hp
    rw [ha.len] at h1 h2
    refine ⟨h1, h2, ?_⟩
    rw [← persPair_dual hv hv' ha.len ha.entry (by omega) (by omega)]
    have e1 : r.data.length - 1 - (r.data.length - 1 - a) = a := by omega
    have e2 : r.data.length - 1 - (r.data.length - 1 - b) = b := by omega
    rw [e1, e2]; exact hp
  refine clearOK_of_exclusive hv' fun u j i hp hq => ?_
  exact persPair_exclusive_of_clearOK hv hc (key _ _ hq).2.2 (key _ _ hp).2.2

/-- The columns from `s` on are empty, the others are those of a differential. -/
structure Truncated (r : Rep) (D : ℕ → Finset ℕ) (s : ℕ) : Prop where
  cols : ∀ j, cols r j = if j < s then D j else ∅
  diff : ∀ j, chainBd D (D j) = ∅

/-- The entries below `s` of the columns below `s` precede their column. -/
def Ordered (D : ℕ → Finset ℕ) (s : ℕ) : Prop := ∀ j < s, ∀ i ∈ D j, i < s → i < j

theorem Truncated.persPair {r : Rep} {D : ℕ → Finset ℕ} {s : ℕ} (h : Truncated r D s) {i j : ℕ} :
    PersPair (Spec.cols r) i j ↔ j < s ∧ PersPair D i j := by
  by_cases hj : j < s
  · rw [and_iff_right hj]
    exact persPair_congr fun k hk => by rw [h.cols, if_pos (by omega)]
  · simp only [hj, false_and, iff_false]
    rintro ⟨⟨c, hc, hm⟩, hno⟩
    apply hno
    refine ⟨c.erase j, fun x hx => ?_, ?_⟩
    · have h1 := mem_range.1 (hc (mem_of_mem_erase hx))
      have h2 := ne_of_mem_erase hx
      rw [mem_range]; omega
    · have he : Spec.cols r j = ∅ := by rw [h.cols, if_neg hj]
      have : chainBd (Spec.cols r) (c.erase j) = chainBd (Spec.cols r) c := by
        apply ind_inj
        rw [ind_chainBd, ind_chainBd]
        by_cases hj : j ∈ c
        · rw [← Finset.sum_erase_add _ _ hj, he]
          have : ind (∅ : Finset ℕ) = 0 := by funext z; simp [ind]
          rw [this, add_zero]
        · rw [Finset.erase_eq_of_notMem hj]
      rw [this]; exact hm

theorem Truncated.clearOK {r : Rep} {D : ℕ → Finset ℕ} {s : ℕ} (h : Truncated r D s) : ClearOK r := by
  intro v hv i _ hlow
  have hzero : ind (∅ : Finset ℕ) = 0 := by funext z; simp [ind]
  by_cases his : i < s
  · obtain ⟨c, _, rfl⟩ := mem_spanLt_iff_chain.1 hv
    rw [isLow_ind] at hlow
    have e : chainBd (Spec.cols r) c = chainBd D {k ∈ c | k < s} := by
      apply ind_inj
      rw [ind_chainBd, ind_chainBd, Finset.sum_filter]
      refine Finset.sum_congr rfl fun k _ => ?_
      rw [h.cols]
      split_ifs
      · rfl
      · exact hzero
    rw [e] at hlow
    have h0 : ∑ k ∈ chainBd D {k ∈ c | k < s}, ind (D k) = 0 := by
      rw [← ind_chainBd, chainBd_chainBd h.diff, hzero]
    rw [← Finset.sum_erase_add _ _ hlow.1] at h0
    have hk : ∀ k ∈ chainBd D {k ∈ c | k < s}, colv r k = ind (D k) := by
      intro k hk
      have := hlow.2 k hk
      rw [colv, h.cols, if_pos (by omega)]
    have : colv r i = ∑ k ∈ (chainBd D {k ∈ c | k < s}).erase i, ind (D k) := by
      have := eq_neg_of_add_eq_zero_right h0
      rw [vec_neg] at this
      rw [hk i hlow.1]; exact this
    rw [this]
    refine Submodule.sum_mem _ fun k hk' => ?_
    rw [← hk k (mem_of_mem_erase hk')]
    exact mem_spanLt_self (colv r) (lt_of_le_of_ne (hlow.2 k (mem_of_mem_erase hk')) (ne_of_mem_erase hk'))
  · have : colv r i = 0 := by rw [colv, h.cols, if_neg his, hzero]
    rw [this]; exact Submodule.zero_mem _

/-- A creator below `s` precedes its destroyer. -/
theorem Truncated.lt {r : Rep} {D : ℕ → Finset ℕ} {s : ℕ} (h : Truncated r D s) (ho : Ordered D s) {i j : ℕ} (hi : i < s)
    (hp : PersPair (Spec.cols r) i j) : i < j := by
  obtain ⟨hj, ⟨c, hc, hm⟩, _⟩ := h.persPair.1 hp
  have := (mem_chainBd.1 hm.1).pos
  rw [Finset.card_pos] at this
  obtain ⟨k, hk⟩ := this
  rw [Finset.mem_filter] at hk
  have h1 := mem_range.1 (hc hk.1)
  have h2 := ho k (by omega) i hk.2 hi
  omega

theorem Truncated.pairing_primal {r R : Rep} {D : ℕ → Finset ℕ} {s : ℕ} (h : Truncated r D s) (ho : Ordered D s)
    (hR : IsReduction r R) (hs : s ≤ r.numColumns) (hn : r.numColumns ≤ idxMax) :
    IsPairingOf r true s (readPairing ⟨R, false⟩ true s) := by
  have hnum : BM.numColumns ⟨R, false⟩ = r.data.length := hR.len
  have hb : ∀ j < BM.numColumns ⟨R, false⟩, ∀ i, (BM.col ⟨R, false⟩ j).getLast? = some i →
      i < BM.numColumns ⟨R, false⟩ := by
    intro j _ i hl
    rw [hnum]
    exact hR.entries j i (getLast?_mem hl)
  refine ⟨nodup_readPairing_general hb (by rw [hnum]; exact hn), readPairing_sorted _ _ _, fun i j => ?_⟩
  rw [mem_readPairing_general hb (fun j i hl => getLast?_lt hl)]
  have hcol : ∀ j, BM.col ⟨R, false⟩ j = colL R j := fun j => rfl
  have hadm : ∀ u, admissible r.data.length s u = true ↔ u < s := by
    intro u
    have : ¬ r.data.length < s := by unfold Rep.numColumns at hs; omega
    simp [admissible, this]
  have hpred : ∀ c, creatorPred ⟨R, false⟩ true c = true := by intro c; simp [creatorPred]
  have hns : ¬ r.numColumns < s := by omega
  simp only [hcol, hadm, hpred, reportPair, unflip, low_none_iff hR, hR.low_iff, hnum, ne_eq, hns,
    Bool.false_eq_true, if_false, or_false, false_or, true_or, true_and, and_true]
  constructor
  · rintro (⟨j', i', h1, h2, h3⟩ | ⟨c, h1, h2, h4, h5, h6⟩)
    · cases h2; exact ⟨Or.inl h1, h3⟩
    · cases h5
      refine ⟨Or.inr ⟨rfl, h1, fun j => ⟨fun hp => h4 j (h.lt ho h6 hp) hp, h2 j⟩⟩, h6⟩
  · rintro ⟨h1 | ⟨rfl, ⟨h1, h2⟩⟩, h4⟩
    · exact Or.inl ⟨j, i, h1, rfl, h4⟩
    · exact Or.inr ⟨i, h1, fun j => (h2 j).2, fun j _ => (h2 j).1, rfl, h4⟩

theorem pairing_dual {r r' R : Rep} {s : ℕ}
    (hv : Valid r) (hv' : Valid r') (ha : AntiTranspose r r')
    (hR : IsReduction r' R) (hs : s ≤ r.numColumns) (hn : r.numColumns ≤ idxMax) :
    IsPairingOf r true s (readPairing ⟨R, true⟩ true s) := by
  have hnum : BM.numColumns ⟨R, true⟩ = r.data.length := hR.len.trans ha.len
  have hb : ∀ j < BM.numColumns ⟨R, true⟩, ∀ i, (BM.col ⟨R, true⟩ j).getLast? = some i →
      i < BM.numColumns ⟨R, true⟩ := by
    intro j _ i hl
    rw [hnum, ← ha.len]
    exact hR.entries j i (getLast?_mem hl)
  refine ⟨nodup_readPairing_general hb (by rw [hnum]; exact hn), readPairing_sorted _ _ _, fun i j => ?_⟩
  rw [mem_readPairing_general hb (fun j i hl => getLast?_lt hl)]
  have hcol : ∀ j, BM.col ⟨R, true⟩ j = colL R j := fun j => rfl
  have hadm : ∀ u, admissible r.data.length s u = true ↔ u < s := by
    intro u
    have : ¬ r.data.length < s := by unfold Rep.numColumns at hs; omega
    simp [admissible, this]
  have hpred : ∀ c, creatorPred ⟨R, true⟩ true c = true := by intro c; simp [creatorPred]
  have hns : ¬ r.numColumns < s := by omega
  have key : ∀ i j, i < r.data.length → j < r.data.length →
      (PersPair (Spec.cols r') (r.data.length - 1 - j) (r.data.length - 1 - i) ↔
        PersPair (Spec.cols r) i j) := fun i j hi hj => persPair_dual hv hv' ha.len ha.entry hi hj
  have key' : ∀ a b, PersPair (Spec.cols r') a b →
      a < r.data.length ∧ b < r.data.length ∧
        PersPair (Spec.cols r) (r.data.length - 1 - b) (r.data.length - 1 - a) := by
    intro a b hp
    have h1 := persPair_fst_lt hv' hp
    have h2 := persPair_lt_length hp
    rw [ha.len] at h1 h2
    refine ⟨h1, h2, ?_⟩
    rw [← key _ _ (by omega) (by omega)]
    have e1 : r.data.length - 1 - (r.data.length - 1 - a) = a := by omega
    have e2 : r.data.length - 1 - (r.data.length - 1 - b) = b := by omega
    rw [e1, e2]; exact hp
  simp only [hcol, hadm, hpred, reportPair, unflip, low_none_iff hR, hR.low_iff, hnum, ne_eq, hns,
    if_true, or_true, true_or, true_and, and_true, false_or, forall_const]
  constructor
  · rintro (⟨j', i', h1, h2, h3⟩ | ⟨c, h1, h2, h4, h5, h6⟩)
    · cases h2; exact ⟨Or.inl (key' _ _ h1).2.2, h3⟩
    · cases h5
      refine ⟨Or.inr ⟨rfl, (by unfold Rep.numColumns; omega), fun j => ⟨?_, ?_⟩⟩, h6⟩
      · intro hp
        have hj := persPair_lt_length hp
        have := (key _ _ (by omega) hj).2 hp
        have e : r.data.length - 1 - (r.data.length - 1 - c) = c := by omega
        rw [e] at this
        exact h2 _ this
      · intro hp
        have hj := persPair_fst_lt hv hp
        have := (key _ _ hj (by omega)).2 hp
        have e : r.data.length - 1 - (r.data.length - 1 - c) = c := by omega
        rw [e] at this
        exact h4 _ this
  · rintro ⟨h1 | ⟨rfl, h1, h2⟩, h4⟩
    · have hj := persPair_lt_length h1
      have hi := persPair_fst_lt hv h1
      refine Or.inl ⟨_, _, (key _ _ hi hj).2 h1, ?_, h4⟩
      ext <;> simp only <;> omega
    · unfold Rep.numColumns at h1
      have e : r.data.length - 1 - (r.data.length - 1 - i) = i := by omega
      refine Or.inr ⟨r.data.length - 1 - i, by omega, ?_, ?_, ?_, h4⟩
      · intro j hp
        have := (key' _ _ hp).2.2
        rw [e] at this
        exact (h2 _).1 this
      · intro j hp
        have := (key' _ _ hp).2.2
        rw [e] at this
        exact (h2 _).2 this
      · rw [e]

/-- All algorithms, dualized or not, give the same pairing of a truncated boundary matrix. -/
theorem Truncated.pairing {r : Rep} {D : ℕ → Finset ℕ} {s : ℕ} (h : Truncated r D s) (ho : Ordered D s) (hv : Valid r)
    (hg : Graded r) (hs : s ≤ r.numColumns) (hn : r.numColumns ≤ idxMax) :
    ∃ p, IsPairingOf r true s p ∧ ∀ (a : Algorithm) (k : Kind) (dual : Bool),
      ∃ M, (if dual then (BM.mk r false).dualize else some (BM.mk r false)) = some M ∧
        calculatePersistencePairing a k M true s = some p := by
  obtain ⟨R0, _, hR0⟩ := standard_isReduction .vector hv
  refine ⟨_, h.pairing_primal ho hR0 hs hn, fun a k dual => ?_⟩
  cases dual with
  | false =>
    refine ⟨⟨r, false⟩, rfl, ?_⟩
    obtain ⟨R, e1, hR⟩ : ∃ R, a.run k r = some R ∧ IsReduction r R := by
      cases a with
      | standard => exact standard_isReduction k hv
      | rectangular =>
        obtain ⟨R, e1, e2⟩ := standard_isReduction k hv
        exact ⟨R, by rw [Algorithm.run, rectangular_eq_standard k hv, e1], e2⟩
      | twist => exact twist_isReduction k hv hg h.clearOK
    unfold calculatePersistencePairing
    simp only [e1]
    rw [isPairingOf_unique (h.pairing_primal ho hR hs hn) (h.pairing_primal ho hR0 hs hn)]
  | true =>
    obtain ⟨M', h1, h2, h3, h4, h5, h6⟩ := dualize_spec (M := ⟨r, false⟩) hv
    have hat : AntiTranspose r M'.rep := ⟨h4, h5, h6⟩
    refine ⟨M', h1, ?_⟩
    obtain ⟨R, e1, hR⟩ : ∃ R, a.run k M'.rep = some R ∧ IsReduction M'.rep R := by
      cases a with
      | standard => exact standard_isReduction k h3
      | rectangular =>
        obtain ⟨R, e1, e2⟩ := standard_isReduction k h3
        exact ⟨R, by rw [Algorithm.run, rectangular_eq_standard k h3, e1], e2⟩
      | twist => exact twist_isReduction k h3 (hat.graded hg) (clearOK_dual hv h3 hat h.clearOK)
    unfold calculatePersistencePairing
    simp only [e1, h2, Bool.not_false]
    rw [isPairingOf_unique (pairing_dual hv h3 hat hR hs hn) (h.pairing_primal ho hR0 hs hn)]

/-- All algorithms give the same pairing of a dualized truncated boundary matrix, even if entries do not precede their
columns. -/
theorem Truncated.pairing_dualized {r : Rep} {D : ℕ → Finset ℕ} {s : ℕ} (h : Truncated r D s) (hv : Valid r)
    (hg : Graded r) {m : ℕ} (hs : m ≤ r.numColumns) (hn : r.numColumns ≤ idxMax) :
    ∃ p, IsPairingOf r true m p ∧ ∃ M, (BM.mk r false).dualize = some M ∧ ∀ (a : Algorithm) (k : Kind),
        calculatePersistencePairing a k M true m = some p := by
  obtain ⟨M', h1, h2, h3, h4, h5, h6⟩ := dualize_spec (M := ⟨r, false⟩) hv
  have hat : AntiTranspose r M'.rep := ⟨h4, h5, h6⟩
  obtain ⟨R0, _, hR0⟩ := standard_isReduction .vector h3
  refine ⟨_, pairing_dual hv h3 hat hR0 hs hn, M', h1, fun a k => ?_⟩
  obtain ⟨R, e1, hR⟩ : ∃ R, a.run k M'.rep = some R ∧ IsReduction M'.rep R := by
    cases a with
    | standard => exact standard_isReduction k h3
    | rectangular =>
      obtain ⟨R, e1, e2⟩ := standard_isReduction k h3
      exact ⟨R, by rw [Algorithm.run, rectangular_eq_standard k h3, e1], e2⟩
    | twist => exact twist_isReduction k h3 (hat.graded hg) (clearOK_dual hv h3 hat h.clearOK)
  unfold calculatePersistencePairing
  simp only [e1, h2, Bool.not_false]
  rw [isPairingOf_unique (pairing_dual hv h3 hat hR hs hn) (pairing_dual hv h3 hat hR0 hs hn)]

end Aleph
