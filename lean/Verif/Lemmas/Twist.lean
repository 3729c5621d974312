import Verif.Lemmas.Reduction

/-! Invariants of the twist algorithm. -/

namespace Aleph

open Finset Spec

/-- Clearing an unprocessed column that lies in the span of the earlier columns keeps the
invariant. -/
theorem Inv.clear {r0 r : Rep} {lut : List (Option ℕ)} {proc : ℕ → Prop} {Row : ℕ → ℕ → Prop}
    (h : Inv r0 r lut proc Row) {i : ℕ} (hi : i < r0.data.length) (hnp : ¬ proc i)
    (hs : colv r0 i ∈ spanLt (colv r0) i) :
    r.clearColumn i = some ⟨r.data.set i [], r.dims⟩ ∧
      Inv r0 ⟨r.data.set i [], r.dims⟩ lut proc Row := by
  have hlen := h.len
  have hcol : ∀ m, colL ⟨r.data.set i [], r.dims⟩ m = if m = i then [] else colL r m := by
    intro m; exact colL_set (by omega)
  refine ⟨by rw [Rep.clearColumn, if_pos (by omega)], ?_⟩
  refine ⟨by simpa using h.len, h.dims, h.lutlen, ?_, ?_, ?_, ?_, ?_⟩
  · intro m; rw [hcol]; split_ifs
    · exact List.Pairwise.nil
    · exact h.strict m
  · intro m z hz
    rw [hcol] at hz
    split_ifs at hz
    · simp at hz
    · exact h.rows m z hz
  · intro m hm
    by_cases hmi : m = i
    · subst hmi
      have : colv ⟨r.data.set m [], r.dims⟩ m = 0 := by
        funext z; simp [colv, cols_eq, hcol, ind]
      rw [this, zero_add]; exact hs
    · have : colv ⟨r.data.set i [], r.dims⟩ m = colv r m := by
        rw [colv, cols_eq, hcol, if_neg hmi]; rfl
      rw [this]; exact h.span m hm
  · intro a s ha
    obtain ⟨a1, a2, a3⟩ := h.reg a s ha
    have : s ≠ i := by rintro rfl; exact hnp a2
    refine ⟨a1, a2, ?_⟩
    rw [hcol, if_neg this]; exact a3
  · intro m hm hp a ha
    have : m ≠ i := by rintro rfl; exact hnp hp
    rw [hcol, if_neg this] at ha
    exact h.cmp m hm hp a ha

/-- Rows allowed in a graded matrix. -/
def GRow (r0 : Rep) (i k : ℕ) : Prop :=
  i < r0.data.length ∧ r0.dims.getD i 0 + 1 = r0.dims.getD k 0

/-- Every non-zero vector of the column span has a low whose own column is in the span of the
earlier columns. -/
def ClearOK (r0 : Rep) : Prop :=
  ∀ v ∈ spanLt (colv r0) r0.data.length, ∀ i, i < r0.data.length → IsLow v i →
    colv r0 i ∈ spanLt (colv r0) i

theorem twist_inner (k : Kind) {r0 : Rep} (hv : Valid r0) (hc : ClearOK r0) (d : ℕ)
    {r : Rep} {lut : List (Option ℕ)}
    (h0 : Inv r0 r lut (fun s => d < r0.dims.getD s 0) (GRow r0))
    (m : ℕ) (hm : m ≤ r0.data.length) :
    ∃ r' lut', (List.range m).foldlM (twistStep k (r0.data.length + 1) d) (r, lut)
        = some (r', lut') ∧
      Inv r0 r' lut' (fun s => d < r0.dims.getD s 0 ∨ (r0.dims.getD s 0 = d ∧ s < m))
        (GRow r0) := by
  induction m with
  | zero =>
    refine ⟨r, lut, by simp, h0.proc_congr (by simp)⟩
  | succ m ih =>
    obtain ⟨r', lut', h1, h2⟩ := ih (by omega)
    rw [List.range_succ, List.foldlM_append, h1]
    have hdm : r'.getDimension m = some (r0.dims.getD m 0) := by
      have := hv.dims
      rw [Rep.getDimension, h2.dims, List.getD_eq_getElem?_getD,
        List.getElem?_eq_getElem (by omega)]
      rfl
    simp only [Option.bind_eq_bind, Option.bind_some, List.foldlM_cons, List.foldlM_nil, twistStep,
      hdm]
    by_cases hd : r0.dims.getD m 0 = d
    · rw [if_pos hd]
      have hq : ∀ s, ((d < r0.dims.getD s 0 ∨ r0.dims.getD s 0 = d ∧ s < m) ∨ s = m) ↔
          (d < r0.dims.getD s 0 ∨ r0.dims.getD s 0 = d ∧ s < m + 1) := by
        intro s
        by_cases hsm : s = m
        · subst hsm; constructor
          · intro _; right; exact ⟨hd, Nat.lt_succ_self _⟩
          · intro _; right; rfl
        · omega
      obtain ⟨c, e1, e2, e3⟩ := h2.reduce k (j := m) (by omega) (fun i hi => hi.1)
        (by omega)
        (fun s hs i hi his hsn => by
          have a1 := hi.2
          have a2 := his.2
          refine ⟨by omega, fun z hz => ⟨hz.1, ?_⟩⟩
          have := hz.2
          omega)
      rw [e1]
      cases hl : c.getLast? with
      | none =>
        simp only [hl] at e3 ⊢
        exact ⟨_, _, rfl, e3.proc_congr (fun s _ => hq s)⟩
      | some i =>
        simp only [hl] at e3 ⊢
        obtain ⟨b1, b2, b3⟩ := e2 i hl
        have b4 := b2.2
        have hmem : colv ⟨r'.data.set m c, r'.dims⟩ m ∈ spanLt (colv r0) r0.data.length :=
          e3.span_mem (by omega) (by omega)
        have hcm : colL ⟨r'.data.set m c, r'.dims⟩ m = c := by
          have := h2.len
          rw [colL_set (dm' := r'.dims) (by omega), if_pos rfl]
        have hlow : IsLow (colv ⟨r'.data.set m c, r'.dims⟩ m) i := by
          rw [isLow_colv (e3.strict m), hcm]; exact hl
        have hclear := hc _ hmem i b1 hlow
        obtain ⟨g1, g2⟩ := e3.clear b1 (by
          rintro ((h | h) | h)
          · omega
          · omega
          · subst h; omega) hclear
        rw [g1]
        exact ⟨_, _, rfl, g2.proc_congr (fun s _ => hq s)⟩
    · rw [if_neg hd]
      refine ⟨r', lut', rfl, h2.proc_congr (fun s _ => ?_)⟩
      constructor
      · rintro (h | h)
        · exact Or.inl h
        · right; omega
      · rintro (h | ⟨h, h'⟩)
        · exact Or.inl h
        · right
          refine ⟨h, ?_⟩
          rcases Nat.lt_succ_iff_lt_or_eq.1 h' with h'' | rfl
          · exact h''
          · exact absurd h hd

theorem twistDims_succ (d : ℕ) : twistDims (d + 1) = (d + 1) :: twistDims d := by
  simp [twistDims, List.range_succ]

theorem twist_outer (k : Kind) {r0 : Rep} (hv : Valid r0) (hc : ClearOK r0) (d : ℕ) :
    ∀ {r : Rep} {lut : List (Option ℕ)},
    Inv r0 r lut (fun s => d < r0.dims.getD s 0) (GRow r0) →
    ∃ r' lut', (twistDims d).foldlM
        (fun st d => (List.range r0.data.length).foldlM (twistStep k (r0.data.length + 1) d) st)
        (r, lut) = some (r', lut') ∧
      Inv r0 r' lut' (fun s => 0 < r0.dims.getD s 0) (GRow r0) := by
  induction d with
  | zero => intro r lut h; exact ⟨r, lut, by simp [twistDims], h⟩
  | succ d ih =>
    intro r lut h
    obtain ⟨r1, lut1, h1, h2⟩ := twist_inner k hv hc (d + 1) h r0.data.length le_rfl
    obtain ⟨r2, lut2, h3, h4⟩ := ih (h2.proc_congr (q := fun s => d < r0.dims.getD s 0)
      (fun s hs => by omega))
    refine ⟨r2, lut2, ?_, h4⟩
    rw [twistDims_succ, List.foldlM_cons, h1]
    exact h3

theorem le_foldr_max (l : List ℕ) (k : ℕ) : l.getD k 0 ≤ l.foldr max 0 := by
  induction l generalizing k with
  | nil => simp
  | cons x xs ih =>
    cases k with
    | zero => simp
    | succ k => simpa using Or.inr (ih k)

theorem twist_isReduction (k : Kind) {r0 : Rep} (hv : Valid r0) (hg : Graded r0)
    (hc : ClearOK r0) : ∃ r, twist k r0 = some r ∧ IsReduction r0 r := by
  have hrow : ∀ k, ∀ i ∈ colL r0 k, GRow r0 i k := fun k i hi =>
    ⟨valid_entries hv k i hi, hg k i (mem_cols.2 hi)⟩
  have h0 := (Inv.init hv (GRow r0) hrow).proc_congr
    (q := fun s => r0.dimension < r0.dims.getD s 0) (fun s _ => by
      have := le_foldr_max r0.dims s
      simp only [Rep.dimension, false_iff, not_lt]; exact this)
  obtain ⟨r, lut, h1, h2⟩ := twist_outer k hv hc _ h0
  refine ⟨r, ?_, h2.isReduction ?_ (fun _ _ h => h.1)⟩
  · unfold twist Rep.numColumns
    rw [h1]; rfl
  · intro s hs
    by_cases hp : 0 < r0.dims.getD s 0
    · exact Or.inl hp
    · right
      rw [List.eq_nil_iff_forall_not_mem]
      intro z hz
      have := (h2.rows s z hz).2
      omega

/-- The linear extension of a family of columns. -/
theorem chainBd_ind_sum {D : ℕ → Finset ℕ} {c c' : Finset ℕ}
    (h : ind c = ∑ k ∈ c', ind (D k)) :
    ind (chainBd D c) = ∑ k ∈ c', ind (chainBd D (D k)) := by
  funext i
  have e : ∀ s : Finset ℕ, ∀ S : Finset ℕ, s ⊆ S →
      ind (chainBd D s) i = ∑ x ∈ S, ind s x * ind (D x) i := by
    intro s S hs
    rw [ind_chainBd, Finset.sum_apply, ← Finset.sum_subset hs]
    · refine Finset.sum_congr rfl fun x hx => ?_
      simp [ind, hx]
    · intro x _ hx; simp [ind, hx]
  have hS : ∀ k ∈ c', D k ⊆ c ∪ c'.biUnion D := fun k hk x hx =>
    mem_union_right _ (mem_biUnion.2 ⟨k, hk, hx⟩)
  rw [e c (c ∪ c'.biUnion D) subset_union_left, Finset.sum_apply,
    Finset.sum_congr rfl (fun k hk => e (D k) _ (hS k hk)), Finset.sum_comm]
  refine Finset.sum_congr rfl fun x _ => ?_
  rw [h, Finset.sum_apply, Finset.sum_mul]

/-- A boundary has no boundary. -/
theorem chainBd_chainBd {D : ℕ → Finset ℕ} (h : ∀ j, chainBd D (D j) = ∅) (c : Finset ℕ) :
    chainBd D (chainBd D c) = ∅ := by
  apply ind_inj
  rw [chainBd_ind_sum (ind_chainBd D c)]
  have : ind (∅ : Finset ℕ) = 0 := by funext i; simp [ind]
  rw [this]
  refine Finset.sum_eq_zero fun k _ => ?_
  rw [h, this]

theorem clearOK_of_differential {r0 : Rep} (h : Differential r0) : ClearOK r0 := by
  intro v hv i _ hlow
  obtain ⟨c, _, rfl⟩ := mem_spanLt_iff_chain.1 hv
  rw [isLow_ind] at hlow
  have h0 : ∑ k ∈ chainBd (cols r0) c, ind (cols r0 k) = 0 := by
    rw [← ind_chainBd, chainBd_chainBd h]
    funext z; simp [ind]
  rw [← Finset.sum_erase_add _ _ hlow.1] at h0
  have : colv r0 i = ∑ k ∈ (chainBd (cols r0) c).erase i, ind (cols r0 k) := by
    have := eq_neg_of_add_eq_zero_right h0
    rw [vec_neg] at this
    exact this
  rw [this]
  refine Submodule.sum_mem _ fun k hk => ?_
  refine mem_spanLt_self (colv r0) ?_
  exact lt_of_le_of_ne (hlow.2 k (mem_of_mem_erase hk)) (ne_of_mem_erase hk)

end Aleph
