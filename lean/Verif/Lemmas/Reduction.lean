import Verif.Model.Reduction
import Verif.Lemmas.LowSpan

/-! Invariants of the reduction algorithms. -/

namespace Aleph

open Finset Spec

/-- Column `k` as a list. -/
def colL (r : Rep) (k : ℕ) : List ℕ := r.data.getD k []

/-- Column `k` as a vector. -/
def colv (r : Rep) (k : ℕ) : Vec := ind (cols r k)

theorem cols_eq (r : Rep) (k : ℕ) : cols r k = (colL r k).toFinset := rfl

theorem mem_cols {r : Rep} {k i : ℕ} : i ∈ cols r k ↔ i ∈ colL r k := by
  rw [cols_eq, List.mem_toFinset]

theorem getElem?_data {r : Rep} {k : ℕ} (h : k < r.data.length) :
    r.data[k]? = some (colL r k) := by
  simp [colL, List.getD_eq_getElem?_getD, List.getElem?_eq_getElem h]

theorem colL_of_ge {r : Rep} {k : ℕ} (h : r.data.length ≤ k) : colL r k = [] := by
  simp [colL, List.getD_eq_getElem?_getD, List.getElem?_eq_none h]

theorem colL_mem {r : Rep} {k : ℕ} (h : k < r.data.length) : colL r k ∈ r.data := by
  have := getElem?_data h
  exact List.mem_of_getElem? this

theorem colL_set {d : List (List ℕ)} {dm dm' : List ℕ} {j k : ℕ} {c : List ℕ} (hj : j < d.length) :
    colL ⟨d.set j c, dm⟩ k = if k = j then c else colL ⟨d, dm'⟩ k := by
  unfold colL
  simp only [List.getD_eq_getElem?_getD, List.getElem?_set]
  by_cases h : k = j
  · subst h; simp [hj]
  · rw [if_neg (Ne.symm h), if_neg h]

theorem maxIs_iff {c : List ℕ} (h : Strict c) {i : ℕ} :
    MaxIs c.toFinset i ↔ c.getLast? = some i := by
  rw [h.getLast?_eq]
  simp [MaxIs]

theorem isLow_colv {r : Rep} {k i : ℕ} (h : Strict (colL r k)) :
    IsLow (colv r k) i ↔ (colL r k).getLast? = some i := by
  rw [colv, isLow_ind, cols_eq, maxIs_iff h]

theorem ind_symmDiff {a b : List ℕ} (ha : Strict a) (hb : Strict b) :
    ind (symmDiff a b).toFinset = ind a.toFinset + ind b.toFinset := by
  funext z
  simp only [ind, List.mem_toFinset, Pi.add_apply, mem_symmDiff ha hb]
  by_cases h1 : z ∈ a <;> by_cases h2 : z ∈ b <;> simp [h1, h2]
  decide

/-- The inner loop: it ends within the step budget, adds only registered columns, and stops
with an empty column or an unregistered maximum. -/
theorem reduceColumn_spec (k : Kind) (n j : ℕ) (lut : List (Option ℕ)) (Rw : ℕ → Prop)
    (S : Submodule (ZMod 2) Vec) (hRw : ∀ i, Rw i → i < n) (hlut : lut.length = n) :
    ∀ (f : ℕ) (r : Rep), r.data.length = n → j < n →
      (∀ i s, Rw i → lut[i]? = some (some s) →
        s < n ∧ s ≠ j ∧ Strict (colL r s) ∧ (colL r s).getLast? = some i ∧
          (∀ z ∈ colL r s, Rw z) ∧ colv r s ∈ S) →
      Strict (colL r j) → (∀ z ∈ colL r j, Rw z) → (∀ z ∈ colL r j, z < f) →
      ∃ c : List ℕ, reduceColumn k lut j (f + 1) r = some (⟨r.data.set j c, r.dims⟩, c.getLast?) ∧
        Strict c ∧ (∀ z ∈ c, Rw z) ∧
        (∀ i, c.getLast? = some i → lut[i]? = some none) ∧
        ind c.toFinset + colv r j ∈ S := by
  intro f
  induction f with
  | zero =>
    intro r hr hj hreg hs hrw hf
    have he : colL r j = [] := by
      rw [List.eq_nil_iff_forall_not_mem]
      intro z hz; exact absurd (hf z hz) (Nat.not_lt_zero _)
    refine ⟨[], ?_, by simp, by simp, by simp, ?_⟩
    · have hset : r.data.set j [] = r.data := by
        rw [← he]
        apply List.ext_getElem? ; intro m
        rw [List.getElem?_set]
        split_ifs with h1 h2
        · subst h1; rw [getElem?_data h2]
        · subst h1; rw [List.getElem?_eq_none (by omega)]
        · rfl
      unfold reduceColumn
      simp only [Rep.getMaximumIndex, getElem?_data (r := r) (k := j) (by omega), he, hset]
      rfl
    · have : colv r j = 0 := by funext z; simp [colv, cols_eq, he, ind]
      rw [this]; simp only [add_zero]
      have : ind ([] : List ℕ).toFinset = 0 := by funext z; simp [ind]
      rw [this]; exact Submodule.zero_mem _
  | succ f ih =>
    intro r hr hj hreg hs hrw hf
    have hself : r.data.set j (colL r j) = r.data := by
      apply List.ext_getElem? ; intro m
      rw [List.getElem?_set]
      split_ifs with h1 h2
      · subst h1; rw [getElem?_data h2]
      · subst h1; rw [List.getElem?_eq_none (by omega)]
      · rfl
    have hdone : ind (colL r j).toFinset + colv r j ∈ S := by
      have : ind (colL r j).toFinset + colv r j = 0 := vec_add_self _
      rw [this]; exact Submodule.zero_mem _
    rw [reduceColumn]
    simp only [Rep.getMaximumIndex, getElem?_data (r := r) (k := j) (by omega)]
    cases hl : (colL r j).getLast? with
    | none =>
      refine ⟨colL r j, ?_, hs, hrw, by simp [hl], hdone⟩
      rw [hself, hl]
    | some i =>
      have hmem := getLast?_mem hl
      have hi := hRw i (hrw i hmem)
      cases hli : lut[i]? with
      | none => exact absurd (List.getElem?_eq_none_iff.1 hli) (by omega)
      | some o =>
        cases o with
        | none =>
          refine ⟨colL r j, ?_, hs, hrw, ?_, hdone⟩
          · simp only [hli, hself, hl]
          · intro i' h'; rw [hl] at h'; cases h'; exact hli
        | some s =>
          obtain ⟨hsn, hsj, hss, hsl, hsr, hsS⟩ := hreg i s (hrw i hmem) hli
          simp only [hli, Rep.addColumns, getElem?_data (r := r) (k := s) (by omega),
            getElem?_data (r := r) (k := j) (by omega)]
          have hstr := symmDiff_strict hss hs
          rw [store_eq hstr.nodup]
          set c' := symmDiff (colL r s) (colL r j) with hc'
          have hcol : ∀ m, colL ⟨r.data.set j c', r.dims⟩ m = if m = j then c' else colL r m := by
            intro m; exact colL_set (by omega)
          have hlow := symmDiff_lower hss hs hsl hl
          obtain ⟨c, h1, h2, h3, h4, h5⟩ := ih ⟨r.data.set j c', r.dims⟩ (by simpa using hr) hj
            (by
              intro i' s' hrw' h'
              obtain ⟨a1, a2, a3, a4, a5, a6⟩ := hreg i' s' hrw' h'
              rw [hcol, if_neg a2]
              refine ⟨a1, a2, a3, a4, a5, ?_⟩
              rw [colv, cols_eq, hcol, if_neg a2]; exact a6)
            (by rw [hcol, if_pos rfl]; exact hstr)
            (by
              rw [hcol, if_pos rfl]
              intro z hz
              rcases (mem_symmDiff hss hs z).1 hz with h | h
              · exact hsr z h.1
              · exact hrw z h.2)
            (by
              rw [hcol, if_pos rfl]
              intro z hz
              have := hlow z hz
              have := hf i hmem
              omega)
          refine ⟨c, ?_, h2, h3, h4, ?_⟩
          · rw [h1]; simp
          · rw [colv, cols_eq, hcol, if_pos rfl, ind_symmDiff hss hs] at h5
            have := Submodule.sub_mem _ h5 hsS
            have e : ind c.toFinset + (ind (colL r s).toFinset + ind (colL r j).toFinset) - colv r s
                = ind c.toFinset + colv r j := by
              simp only [colv, cols_eq]; abel
            rwa [e] at this

/-- Invariant of the outer loops.  `proc` tells which columns are already processed, `Row i k`
restricts the entries `i` of column `k`. -/
structure Inv (r0 r : Rep) (lut : List (Option ℕ)) (proc : ℕ → Prop) (Row : ℕ → ℕ → Prop) :
    Prop where
  len : r.data.length = r0.data.length
  dims : r.dims = r0.dims
  lutlen : lut.length = r0.data.length
  strict : ∀ k, Strict (colL r k)
  rows : ∀ k, ∀ i ∈ colL r k, Row i k
  span : ∀ k < r0.data.length, colv r k + colv r0 k ∈ spanLt (colv r0) k
  reg : ∀ i s, lut[i]? = some (some s) →
    s < r0.data.length ∧ proc s ∧ (colL r s).getLast? = some i
  cmp : ∀ k < r0.data.length, proc k → ∀ i, (colL r k).getLast? = some i →
    lut[i]? = some (some k)

theorem Inv.proc_congr {r0 r : Rep} {lut} {p q : ℕ → Prop} {Row} (h : Inv r0 r lut p Row)
    (hpq : ∀ k < r0.data.length, (p k ↔ q k)) : Inv r0 r lut q Row where
  len := h.len
  dims := h.dims
  lutlen := h.lutlen
  strict := h.strict
  rows := h.rows
  span := h.span
  reg := fun i s hs => by
    obtain ⟨a, b, c⟩ := h.reg i s hs
    exact ⟨a, (hpq s a).1 b, c⟩
  cmp := fun k hk hq => h.cmp k hk ((hpq k hk).2 hq)

theorem Inv.span_mem {r0 r : Rep} {lut p Row} (h : Inv r0 r lut p Row) {s : ℕ}
    (hs : s < r0.data.length) {j : ℕ} (hj : s < j) : colv r s ∈ spanLt (colv r0) j := by
  have h1 := spanLt_mono (colv r0) hj.le (h.span s hs)
  have h2 := mem_spanLt_self (colv r0) hj
  have := Submodule.add_mem _ h1 h2
  rwa [add_assoc, vec_add_self, add_zero] at this

/-- Reducing one column keeps the invariant and marks the column as processed. -/
theorem Inv.reduce {r0 r : Rep} {lut : List (Option ℕ)} {proc : ℕ → Prop} {Row : ℕ → ℕ → Prop}
    (k : Kind) {j : ℕ} (h : Inv r0 r lut proc Row) (hj : j < r0.data.length)
    (hRow : ∀ i, Row i j → i < r0.data.length) (hnp : ¬ proc j)
    (hord : ∀ s, proc s → ∀ i, Row i j → Row i s → s < r0.data.length →
      s < j ∧ ∀ z, Row z s → Row z j) :
    ∃ c : List ℕ, reduceColumn k lut j (r0.data.length + 1) r =
        some (⟨r.data.set j c, r.dims⟩, c.getLast?) ∧
      (∀ i, c.getLast? = some i → i < r0.data.length ∧ Row i j ∧ lut[i]? = some none) ∧
      Inv r0 ⟨r.data.set j c, r.dims⟩
        (match c.getLast? with | none => lut | some i => lut.set i (some j))
        (fun m => proc m ∨ m = j) Row := by
  have hlen := h.len
  obtain ⟨c, h1, h2, h3, h4, h5⟩ := reduceColumn_spec k r0.data.length j lut (fun i => Row i j)
    (spanLt (colv r0) j) hRow h.lutlen r0.data.length r h.len hj
    (by
      intro i s hrw hs
      obtain ⟨a1, a2, a3⟩ := h.reg i s hs
      have hrs := h.rows s i (getLast?_mem a3)
      obtain ⟨b1, b2⟩ := hord s a2 i hrw hrs a1
      exact ⟨a1, by omega, h.strict s, a3, fun z hz => b2 z (h.rows s z hz), h.span_mem a1 b1⟩)
    (h.strict j) (h.rows j) (fun z hz => hRow z (h.rows j z hz))
  have hcol : ∀ m, colL ⟨r.data.set j c, r.dims⟩ m = if m = j then c else colL r m := by
    intro m; exact colL_set (by omega)
  have hcolv : ∀ m, m ≠ j → colv ⟨r.data.set j c, r.dims⟩ m = colv r m := by
    intro m hm; rw [colv, cols_eq, hcol, if_neg hm]; rfl
  have hlast : ∀ i, c.getLast? = some i → i < r0.data.length ∧ Row i j ∧ lut[i]? = some none :=
    fun i hi => ⟨hRow i (h3 i (getLast?_mem hi)), h3 i (getLast?_mem hi), h4 i hi⟩
  refine ⟨c, h1, hlast, ?_⟩
  refine ⟨by simpa using h.len, h.dims, ?_, ?_, ?_, ?_, ?_, ?_⟩
  · cases c.getLast? <;> simp [h.lutlen]
  · intro m; rw [hcol]; split_ifs
    · exact h2
    · exact h.strict m
  · intro m i hi
    rw [hcol] at hi
    split_ifs at hi with hm
    · subst hm; exact h3 i hi
    · exact h.rows m i hi
  · intro m hm
    by_cases hmj : m = j
    · subst hmj
      have e1 : colv ⟨r.data.set m c, r.dims⟩ m = ind c.toFinset := by
        rw [colv, cols_eq, hcol, if_pos rfl]
      rw [e1]
      have := Submodule.add_mem _ h5 (h.span m hm)
      rwa [add_assoc, ← add_assoc (colv r m), vec_add_self, zero_add] at this
    · rw [hcolv m hmj]; exact h.span m hm
  · intro i s hs
    have old : lut[i]? = some (some s) →
        s < r0.data.length ∧ (proc s ∨ s = j) ∧
          (colL ⟨r.data.set j c, r.dims⟩ s).getLast? = some i := by
      intro hs
      obtain ⟨a1, a2, a3⟩ := h.reg i s hs
      have : s ≠ j := by rintro rfl; exact hnp a2
      refine ⟨a1, Or.inl a2, ?_⟩
      rw [hcol, if_neg this]; exact a3
    cases hl : c.getLast? with
    | none => rw [hl] at hs; exact old hs
    | some i' =>
      rw [hl] at hs
      simp only [List.getElem?_set] at hs
      split_ifs at hs with e1 e2
      · subst e1
        cases hs
        exact ⟨hj, Or.inr rfl, by rw [hcol, if_pos rfl]; exact hl⟩
      · exact old hs
  · intro m hm hp i hi
    rw [hcol] at hi
    by_cases hmj : m = j
    · rw [if_pos hmj] at hi
      rw [hi]
      simp only [List.getElem?_set, if_true]
      rw [if_pos (by rw [h.lutlen]; exact (hlast i hi).1), hmj]
    · rw [if_neg hmj] at hi
      have hp' : proc m := hp.resolve_right hmj
      have := h.cmp m hm hp' i hi
      cases hl : c.getLast? with
      | none => exact this
      | some i' =>
        simp only [List.getElem?_set]
        have hne : i' ≠ i := by
          rintro rfl
          rw [(hlast i' hl).2.2] at this
          simp at this
        rw [if_neg hne]; exact this

theorem Inv.init {r0 : Rep} (hv : Valid r0) (Row : ℕ → ℕ → Prop)
    (hrow : ∀ k, ∀ i ∈ colL r0 k, Row i k) :
    Inv r0 r0 (List.replicate r0.data.length none) (fun _ => False) Row where
  len := rfl
  dims := rfl
  lutlen := by simp
  strict := fun k => by
    by_cases h : k < r0.data.length
    · exact hv.sorted _ (colL_mem h)
    · rw [colL_of_ge (by omega)]; exact List.Pairwise.nil
  rows := hrow
  span := fun k _ => by rw [vec_add_self]; exact Submodule.zero_mem _
  reg := fun i s hs => by
    rw [List.getElem?_replicate] at hs
    split_ifs at hs
    simp at hs
  cmp := fun k _ h => h.elim

theorem valid_entries {r : Rep} (hv : Valid r) : ∀ k, ∀ i ∈ colL r k, i < r.data.length := by
  intro k i hi
  by_cases h : k < r.data.length
  · exact hv.entries _ (colL_mem h) i hi
  · rw [colL_of_ge (by omega)] at hi; simp at hi

/-! ### Standard -/

theorem standard_loop (k : Kind) {r0 : Rep} (hv : Valid r0) (m : ℕ) (hm : m ≤ r0.data.length) :
    ∃ r lut, (List.range m).foldlM (standardStep k (r0.data.length + 1))
        (r0, List.replicate r0.data.length none) = some (r, lut) ∧
      Inv r0 r lut (fun s => s < m) (fun i _ => i < r0.data.length) := by
  induction m with
  | zero =>
    refine ⟨r0, _, by simp; rfl, ?_⟩
    exact (Inv.init hv _ (valid_entries hv)).proc_congr (by simp)
  | succ m ih =>
    obtain ⟨r, lut, h1, h2⟩ := ih (by omega)
    obtain ⟨c, e1, _, e3⟩ := h2.reduce k (j := m) (by omega) (fun i hi => hi) (by omega)
      (fun s hs i _ _ _ => ⟨hs, fun z hz => hz⟩)
    refine ⟨_, _, ?_, e3.proc_congr (fun s _ => by omega)⟩
    rw [List.range_succ, List.foldlM_append, h1]
    simp only [Option.bind_eq_bind, Option.bind_some, List.foldlM_cons, List.foldlM_nil,
      standardStep, e1]
    cases c.getLast? <;> rfl

/-- The result of a reduction: prefix spans, strictness, sizes, and distinct lows. -/
structure IsReduction (r0 r : Rep) : Prop where
  len : r.data.length = r0.data.length
  dims : r.dims = r0.dims
  strict : ∀ k, Strict (colL r k)
  span : ∀ k < r0.data.length, colv r k + colv r0 k ∈ spanLt (colv r0) k
  entries : ∀ k, ∀ i ∈ colL r k, i < r0.data.length
  distinct : ∀ k l i, (colL r k).getLast? = some i → (colL r l).getLast? = some i → k = l

theorem getLast?_lt {r : Rep} {k i : ℕ} (h : (colL r k).getLast? = some i) : k < r.data.length := by
  by_contra hge
  rw [colL_of_ge (by omega)] at h
  simp at h

theorem Inv.isReduction {r0 r : Rep} {lut proc Row} (h : Inv r0 r lut proc Row)
    (hproc : ∀ k < r0.data.length, proc k ∨ colL r k = [])
    (hent : ∀ i k, Row i k → i < r0.data.length) :
    IsReduction r0 r where
  len := h.len
  dims := h.dims
  strict := h.strict
  span := h.span
  entries := fun k i hi => hent i k (h.rows k i hi)
  distinct := fun k l i hk hl => by
    have a1 := getLast?_lt hk
    have a2 := getLast?_lt hl
    have hl0 := h.len
    have pk : proc k := (hproc k (by omega)).resolve_right (by intro e; rw [e] at hk; simp at hk)
    have pl : proc l := (hproc l (by omega)).resolve_right (by intro e; rw [e] at hl; simp at hl)
    have b1 := h.cmp k (by omega) pk i hk
    have b2 := h.cmp l (by omega) pl i hl
    rw [b1] at b2
    simpa using b2

theorem standard_isReduction (k : Kind) {r0 : Rep} (hv : Valid r0) :
    ∃ r, standard k r0 = some r ∧ IsReduction r0 r := by
  obtain ⟨r, lut, h1, h2⟩ := standard_loop k hv r0.data.length le_rfl
  refine ⟨r, ?_, h2.isReduction (fun k hk => Or.inl hk) (fun _ _ h => h)⟩
  unfold standard Rep.numColumns
  rw [h1]; rfl

/-! ### StandardRectangular on square matrices -/

theorem rectangular_loop (k : Kind) {r0 : Rep} (hv : Valid r0) (m : ℕ) (hm : m ≤ r0.data.length) :
    (List.range m).foldlM (rectangularStep k (r0.data.length + 1))
        (r0, List.replicate r0.data.length none) =
      (List.range m).foldlM (standardStep k (r0.data.length + 1))
        (r0, List.replicate r0.data.length none) := by
  induction m with
  | zero => simp
  | succ m ih =>
    rw [List.range_succ, List.foldlM_append, List.foldlM_append, ih (by omega)]
    obtain ⟨r, lut, h1, h2⟩ := standard_loop k hv m (by omega)
    rw [h1]
    have hlen := h2.len
    simp only [Option.bind_eq_bind, Option.bind_some, List.foldlM_cons, List.foldlM_nil,
      rectangularStep, Rep.getMaximumIndex, getElem?_data (r := r) (k := m) (by omega)]
    rw [if_neg]
    rw [Rep.numColumns, h2.len]
    cases hl : (colL r m).getLast? with
    | none => simp only [Option.getD_none]; omega
    | some i =>
      have := h2.rows m i (getLast?_mem hl)
      simp only [Option.getD_some]; omega

theorem rectangular_eq_standard (k : Kind) {r0 : Rep} (hv : Valid r0) :
    standardRectangular k r0 = standard k r0 := by
  unfold standardRectangular standard Rep.numColumns
  rw [rectangular_loop k hv _ le_rfl]

/-! ### Consequences for the lows -/

theorem IsReduction.isLow_iff {r0 r : Rep} (h : IsReduction r0 r) {i j : ℕ}
    (hj : j < r0.data.length) :
    (colL r j).getLast? = some i ↔ PersPair (cols r0) i j := by
  rw [persPair_iff, ← isLow_colv (h.strict j)]
  refine isLow_iff_of_span (F := colv r0) (R := colv r) (n := r0.data.length)
    (spanLt_eq_of_unipotent h.span) ?_ ?_ hj
  · intro k _; exact ind_zero_or_low _
  · intro k _ l _ i hk hl
    exact h.distinct k l i ((isLow_colv (h.strict k)).1 hk) ((isLow_colv (h.strict l)).1 hl)

end Aleph
