import Verif.Lemmas.Betti
import Verif.Props.Matrix

/-!
# C03–C06, C08–C10: matrix reduction and the persistence pairing
-/

namespace Aleph

open Finset Spec

/-- C03. `Standard` (and `StandardRectangular`) terminates without exception on every valid matrix,
whatever its container, and the result has no two non-empty columns with the
same maximum index; number of columns and dimensions are kept. -/
theorem C03_standard_reduced (k : Kind) (r : Rep) (hv : Valid r) :
    ∃ r', standard k r = some r' ∧ standardRectangular k r = some r' ∧ Valid r' ∧ Reduced r' ∧
      r'.numColumns = r.numColumns ∧ r'.dims = r.dims := by
  obtain ⟨r', h1, h2⟩ := standard_isReduction k hv
  refine ⟨r', h1, by rw [rectangular_eq_standard k hv, h1], ⟨?_, ?_, ?_⟩, ?_, h2.len, h2.dims⟩
  · intro c hc
    obtain ⟨m, hm, rfl⟩ := List.getElem_of_mem hc
    have := getElem?_data hm
    rw [List.getElem?_eq_getElem hm] at this
    rw [Option.some.inj this]; exact h2.strict m
  · intro c hc i hi
    obtain ⟨m, hm, rfl⟩ := List.getElem_of_mem hc
    have := getElem?_data hm
    rw [List.getElem?_eq_getElem hm] at this
    rw [Option.some.inj this] at hi
    rw [h2.len]; exact h2.entries m i hi
  · rw [h2.dims, h2.len]; exact hv.dims
  · intro a b i ha hb
    rw [cols_eq, maxIs_iff (h2.strict _)] at ha hb
    exact h2.distinct a b i ha hb

/-- C04. After `Standard` each column `j` is the original column `j` plus, modulo two,
the original columns of some set `c` of smaller indices. -/
theorem C04_column_combination (k : Kind) (r r' : Rep) (hv : Valid r)
    (h : standard k r = some r') (j : ℕ) (hj : j < r.numColumns) :
    ∃ c ⊆ range j, cols r' j = chainBd (cols r) (insert j c) := by
  obtain ⟨r1, h1, h2⟩ := standard_isReduction k hv
  rw [h] at h1; cases h1
  obtain ⟨c, hc, he⟩ := mem_spanLt_iff_chain.1 (h2.span j hj)
  refine ⟨c, hc, ind_inj ?_⟩
  have hjc : j ∉ c := fun hm => by simpa using hc hm
  rw [ind_chainBd, sum_insert hjc, ← ind_chainBd (cols r) c, ← he]
  have : colv r' j = ind (cols r j) + (colv r' j + colv r j) := by
    have e : ind (cols r j) = colv r j := rfl
    rw [e, add_comm (colv r' j), ← add_assoc, vec_add_self, zero_add]
  exact this

/-- C04. Hence the sets of boundaries of chains on the first `j` simplices agree. -/
theorem C04_prefix_spans (k : Kind) (r r' : Rep) (hv : Valid r)
    (h : standard k r = some r') (j : ℕ) (hj : j ≤ r.numColumns) (s : Finset ℕ) :
    (∃ c ⊆ range j, chainBd (cols r') c = s) ↔ ∃ c ⊆ range j, chainBd (cols r) c = s := by
  obtain ⟨r1, h1, h2⟩ := standard_isReduction k hv
  rw [h] at h1; cases h1
  have hsp := spanLt_eq_of_unipotent h2.span j hj
  have key : ∀ D : ℕ → Finset ℕ, (∃ c ⊆ range j, chainBd D c = s) ↔
      ind s ∈ spanLt (fun k => ind (D k)) j := by
    intro D
    rw [mem_spanLt_iff_chain]
    constructor
    · rintro ⟨c, hc, rfl⟩; exact ⟨c, hc, rfl⟩
    · rintro ⟨c, hc, he⟩; exact ⟨c, hc, (ind_inj he).symm⟩
  rw [key, key]
  have : spanLt (fun k => ind (cols r' k)) j = spanLt (fun k => ind (cols r k)) j := hsp
  rw [this]

/-- What a pairing has to contain: the persistence pairs, and for each unpaired index
that is wanted an entry with the special destroyer `idxMax`; both only for creators
admissible with respect to `max`. -/
def IsPairingOf (r : Rep) (inc : Bool) (max : ℕ) (p : List (ℕ × ℕ)) : Prop :=
  p.Nodup ∧ p.Pairwise pairLE ∧
    ∀ i j, (i, j) ∈ p ↔
      (PersPair (cols r) i j ∨
        (j = idxMax ∧ Unpaired (cols r) r.numColumns i ∧
          (inc = true ∨ r.dims.getD i 0 ≠ r.dimension))) ∧
      (r.numColumns < max ∨ i < max)

theorem isPairingOf_unique {r : Rep} {inc : Bool} {max : ℕ} {p q : List (ℕ × ℕ)}
    (hp : IsPairingOf r inc max p) (hq : IsPairingOf r inc max q) : p = q :=
  pairing_ext hp.2.1 hq.2.1 hp.1 hq.1 (fun x => (hp.2.2 x.1 x.2).trans (hq.2.2 x.1 x.2).symm)

theorem isPairingOf_primal {r0 r : Rep} (h : IsReduction r0 r) (hf : Filtered r0)
    (hn : r0.numColumns ≤ idxMax) (inc : Bool) (max : ℕ) :
    IsPairingOf r0 inc max (readPairing ⟨r, false⟩ inc max) :=
  ⟨nodup_readPairing (fun j i hl => h.low_lt hf hl) (by
      rw [BM.numColumns, Rep.numColumns, h.len]; exact hn),
    readPairing_sorted _ _ _, fun i j => mem_readPairing_primal h hf inc max i j⟩

/-- C05. For every valid matrix in filtration order the result of `calculatePersistencePairing`
(with the algorithms that need no dimensions) consists exactly of the persistence
pairs, which are defined by chains and boundaries only, and of the unpaired creators. -/
theorem C05_pairing_is_persistence_pairing (a : Algorithm) (ha : a ≠ .twist) (k : Kind) (r : Rep)
    (hv : Valid r) (hf : Filtered r) (hn : r.numColumns ≤ idxMax) (inc : Bool) (max : ℕ) :
    ∃ p, calculatePersistencePairing a k ⟨r, false⟩ inc max = some p ∧
      IsPairingOf r inc max p := by
  obtain ⟨r', h1, h2⟩ := standard_isReduction k hv
  refine ⟨_, ?_, isPairingOf_primal h2 hf hn inc max⟩
  unfold calculatePersistencePairing Algorithm.run
  cases a with
  | standard => simp only [h1]
  | rectangular => simp only [rectangular_eq_standard k hv, h1]
  | twist => exact absurd rfl ha

/-- C06. For every valid graded matrix with vanishing double boundary, dualized or not, `Twist`
gives the same pairing as `Standard`, for all containers and options. -/
theorem C06_twist_eq_standard (k k' : Kind) (M : BM) (hv : Valid M.rep) (hg : Graded M.rep)
    (hd : Differential M.rep) (inc : Bool) (max : ℕ) :
    ∃ p, calculatePersistencePairing .twist k M inc max = some p ∧
      calculatePersistencePairing .standard k' M inc max = some p := by
  obtain ⟨r1, h1, h2⟩ := standard_isReduction k' hv
  obtain ⟨r2, g1, g2⟩ := twist_isReduction k hv hg (clearOK_of_differential hd)
  refine ⟨readPairing ⟨r2, M.dual⟩ inc max, ?_, ?_⟩
  · unfold calculatePersistencePairing Algorithm.run
    simp only [g1]
  · unfold calculatePersistencePairing Algorithm.run
    simp only [h1]
    rw [readPairing_congr g2 h2]

/-- C06. `Twist` also terminates with a reduced matrix with the same prefix spans. -/
theorem C06_twist_reduced (k : Kind) (r : Rep) (hv : Valid r) (hg : Graded r)
    (hd : Differential r) :
    ∃ r', twist k r = some r' ∧ Reduced r' ∧ r'.numColumns = r.numColumns ∧ r'.dims = r.dims ∧
      ∀ j < r.numColumns, ∃ c ⊆ range j, cols r' j = chainBd (cols r) (insert j c) := by
  obtain ⟨r', g1, g2⟩ := twist_isReduction k hv hg (clearOK_of_differential hd)
  refine ⟨r', g1, ?_, g2.len, g2.dims, ?_⟩
  · intro a b i ha hb
    rw [cols_eq, maxIs_iff (g2.strict _)] at ha hb
    exact g2.distinct a b i ha hb
  · intro j hj
    obtain ⟨c, hc, he⟩ := mem_spanLt_iff_chain.1 (g2.span j hj)
    refine ⟨c, hc, ind_inj ?_⟩
    have hjc : j ∉ c := fun hm => by simpa using hc hm
    rw [ind_chainBd, sum_insert hjc, ← ind_chainBd (cols r) c, ← he]
    have : colv r' j = ind (cols r j) + (colv r' j + colv r j) := by
      have e : ind (cols r j) = colv r j := rfl
      rw [e, add_comm (colv r' j), ← add_assoc, vec_add_self, zero_add]
    exact this

/-- All hypotheses about a boundary matrix of a filtered complex. -/
structure IsBoundaryMatrix (r : Rep) : Prop where
  valid : Valid r
  filtered : Filtered r
  graded : Graded r
  differential : Differential r
  size : r.numColumns ≤ idxMax

/-- C05 for all three algorithms, on boundary matrices. -/
theorem C05_pairing_all_algorithms (a : Algorithm) (k : Kind) (r : Rep)
    (h : IsBoundaryMatrix r) (inc : Bool) (max : ℕ) :
    ∃ p, calculatePersistencePairing a k ⟨r, false⟩ inc max = some p ∧ IsPairingOf r inc max p := by
  by_cases ha : a = .twist
  · subst ha
    obtain ⟨p, h1, h2⟩ := C05_pairing_is_persistence_pairing .standard (by decide) k r h.valid
      h.filtered h.size inc max
    obtain ⟨q, g1, g2⟩ := C06_twist_eq_standard k k ⟨r, false⟩ h.valid h.graded h.differential inc max
    rw [h1] at g2; cases g2
    exact ⟨p, g1, h2⟩
  · exact C05_pairing_is_persistence_pairing a ha k r h.valid h.filtered h.size inc max

/-- C08. Dualizing a boundary matrix does not change the pairing, for every choice of algorithm
and container on either side. -/
theorem C08_dual_pairing (a a' : Algorithm) (k k' : Kind) (r : Rep) (h : IsBoundaryMatrix r)
    (inc : Bool) (max : ℕ) :
    ∃ M' p, (BM.mk r false).dualize = some M' ∧
      calculatePersistencePairing a k M' inc max = some p ∧
      calculatePersistencePairing a' k' ⟨r, false⟩ inc max = some p := by
  obtain ⟨M', h1, h2, h3, h4, h5, h6⟩ := dualize_spec (M := ⟨r, false⟩) h.valid
  have hat : AntiTranspose r M'.rep := ⟨h4, h5, h6⟩
  obtain ⟨p, g1, g2⟩ := C05_pairing_all_algorithms a' k' r h inc max
  refine ⟨M', p, h1, ?_, g1⟩
  have main : ∀ R, IsReduction M'.rep R → readPairing ⟨R, M'.dual⟩ inc max = p := by
    intro R hR
    rw [h2]
    refine isPairingOf_unique (r := r) ⟨?_, readPairing_sorted _ _ _, ?_⟩ g2
    · refine nodup_readPairing (fun j i hl => hR.low_lt (hat.filtered h.filtered) hl) ?_
      rw [BM.numColumns, Rep.numColumns, hR.len, h4]; exact h.size
    · intro i j
      exact mem_readPairing_dual h.valid h3 hat hR h.filtered inc max i j
  unfold calculatePersistencePairing Algorithm.run
  cases a with
  | standard =>
    obtain ⟨R, e1, e2⟩ := standard_isReduction k h3
    simp only [e1]; rw [main R e2]
  | rectangular =>
    obtain ⟨R, e1, e2⟩ := standard_isReduction k h3
    simp only [rectangular_eq_standard k h3, e1]; rw [main R e2]
  | twist =>
    obtain ⟨R, e1, e2⟩ := twist_isReduction k h3 (hat.graded h.graded)
      (clearOK_of_differential (hat.differential h.valid h.differential))
    simp only [e1]; rw [main R e2]

/-- C09. Pairings of boundary matrices are well formed: sorted without repetitions; creators
are valid indices that occur once; destroyers of finite pairs are valid indices that
occur once and are never creators; creators precede their destroyers, whose
dimension is one larger. -/
theorem C09_pairing_wellformed (a : Algorithm) (k : Kind) (r : Rep) (h : IsBoundaryMatrix r)
    (inc : Bool) (max : ℕ) (p : List (ℕ × ℕ))
    (hp : calculatePersistencePairing a k ⟨r, false⟩ inc max = some p) :
    p.Pairwise pairLE ∧ p.Nodup ∧
    (∀ i j, (i, j) ∈ p → i < r.numColumns ∧ (j = idxMax ∨ (j < r.numColumns ∧ i < j ∧
      r.dims.getD j 0 = r.dims.getD i 0 + 1))) ∧
    (∀ i j j', (i, j) ∈ p → (i, j') ∈ p → j = j') ∧
    (∀ i i' j, j ≠ idxMax → (i, j) ∈ p → (i', j) ∈ p → i = i') ∧
    (∀ i j j', (i, j) ∈ p → (j, j') ∉ p) := by
  obtain ⟨q, h1, h2, h3, h4⟩ := C05_pairing_all_algorithms a k r h inc max
  rw [hp] at h1; cases h1
  have hsize := h.size
  obtain ⟨R, _, hR⟩ := standard_isReduction .vector h.valid
  refine ⟨h3, h2, ?_, ?_, ?_, ?_⟩
  · intro i j hij
    rcases ((h4 i j).1 hij).1 with hpp | ⟨rfl, hu, _⟩
    · refine ⟨persPair_fst_lt h.valid hpp, Or.inr ⟨persPair_lt_length hpp, ?_,
        (persPair_dim h.graded hpp).symm⟩⟩
      exact hR.low_lt h.filtered (hR.low_iff.2 hpp)
    · exact ⟨hu.1, Or.inl rfl⟩
  · intro i j j' hij hij'
    rcases ((h4 i j).1 hij).1 with hpp | ⟨rfl, hu, _⟩ <;>
      rcases ((h4 i j').1 hij').1 with hpp' | ⟨rfl, hu', _⟩
    · exact hR.distinct j j' i (hR.low_iff.2 hpp) (hR.low_iff.2 hpp')
    · exact absurd hpp (hu'.2 j).1
    · exact absurd hpp' (hu.2 j').1
    · rfl
  · intro i i' j hj hij hij'
    rcases ((h4 i j).1 hij).1 with hpp | ⟨rfl, hu, _⟩
    · rcases ((h4 i' j).1 hij').1 with hpp' | ⟨rfl, hu', _⟩
      · have e1 := hR.low_iff.2 hpp
        have e2 := hR.low_iff.2 hpp'
        rw [e1] at e2
        exact Option.some.inj e2
      · exact absurd rfl hj
    · exact absurd rfl hj
  · intro i j j' hij hjj'
    rcases ((h4 i j).1 hij).1 with hpp | ⟨rfl, hu, _⟩
    · rcases ((h4 j j').1 hjj').1 with hpp' | ⟨rfl, hu', _⟩
      · exact persPair_exclusive h.valid h.differential hpp' hpp
      · exact (hu'.2 i).2 hpp
    · rcases ((h4 idxMax j').1 hjj').1 with hpp' | ⟨rfl, hu', _⟩
      · have := persPair_fst_lt h.valid hpp'
        have : r.data.length ≤ idxMax := hsize
        omega
      · have := hu'.1
        omega

/-- C09. With `includeAllUnpairedCreators` and no index limit every index occurs. -/
theorem C09_pairing_complete (a : Algorithm) (k : Kind) (r : Rep) (h : IsBoundaryMatrix r)
    (max : ℕ) (hmax : r.numColumns ≤ max) (p : List (ℕ × ℕ))
    (hp : calculatePersistencePairing a k ⟨r, false⟩ true max = some p) (u : ℕ)
    (hu : u < r.numColumns) : ∃ i j, (i, j) ∈ p ∧ (i = u ∨ j = u) := by
  obtain ⟨q, h1, h2, h3, h4⟩ := C05_pairing_all_algorithms a k r h true max
  rw [hp] at h1; cases h1
  by_cases e1 : ∃ i, PersPair (cols r) i u
  · obtain ⟨i, hi⟩ := e1
    have := persPair_fst_lt h.valid hi
    exact ⟨i, u, (h4 i u).2 ⟨Or.inl hi, Or.inr (lt_of_lt_of_le this hmax)⟩, Or.inr rfl⟩
  · by_cases e2 : ∃ j, PersPair (cols r) u j
    · obtain ⟨j, hj⟩ := e2
      exact ⟨u, j, (h4 u j).2 ⟨Or.inl hj, Or.inr (by omega)⟩, Or.inl rfl⟩
    · refine ⟨u, idxMax, (h4 u idxMax).2 ⟨Or.inr ⟨rfl, ⟨hu, fun j => ⟨fun h => e2 ⟨j, h⟩,
        fun h => e1 ⟨j, h⟩⟩⟩, Or.inl rfl⟩, Or.inr (by omega)⟩, Or.inl rfl⟩

/-- C10. With `includeAllUnpairedCreators` the number `β` of unpaired creators of dimension `d` is
the `d`-th Betti number over the field with two elements: there are `2^β` times as
many `d`-cycles as there are boundaries of `(d+1)`-chains. -/
theorem C10_betti (a : Algorithm) (k : Kind) (r : Rep) (h : IsBoundaryMatrix r)
    (max : ℕ) (hmax : r.numColumns ≤ max) (p : List (ℕ × ℕ))
    (hp : calculatePersistencePairing a k ⟨r, false⟩ true max = some p) (d : ℕ) :
    #(cycles r d) =
      2 ^ (p.countP fun e => e.2 == idxMax && r.dims.getD e.1 0 == d) *
        #(boundariesOf r (d + 1)) := by
  classical
  obtain ⟨q, h1, h2, h3, h4⟩ := C05_pairing_all_algorithms a k r h true max
  rw [hp] at h1; cases h1
  rw [card_cycles_eq h.valid h.graded h.differential]
  congr 2
  rw [List.countP_eq_length_filter, ← List.toFinset_card_of_nodup (h2.filter _)]
  refine Finset.card_bij (fun u _ => (u, idxMax)) ?_ ?_ ?_
  · intro u hu
    obtain ⟨hu1, hu2⟩ := mem_filter.1 hu
    have hu3 := (mem_filter.1 hu1).2
    rw [List.mem_toFinset, List.mem_filter]
    refine ⟨(h4 _ _).2 ⟨Or.inr ⟨rfl, hu2, Or.inl rfl⟩, Or.inr (lt_of_lt_of_le hu2.1 hmax)⟩, ?_⟩
    rw [Bool.and_eq_true, beq_iff_eq, beq_iff_eq]
    exact ⟨rfl, hu3⟩
  · intro u _ v _ he; simpa using he
  · rintro ⟨u, v⟩ huv
    rw [List.mem_toFinset, List.mem_filter] at huv
    obtain ⟨hm, hb⟩ := huv
    rw [Bool.and_eq_true, beq_iff_eq, beq_iff_eq] at hb
    obtain ⟨hv, hdim⟩ := hb
    simp only at hv hdim
    subst hv
    rcases ((h4 _ _).1 hm).1 with hpp | ⟨_, hu, _⟩
    · have h5 := persPair_lt_length hpp
      have h6 : r.data.length ≤ idxMax := h.size
      omega
    · refine ⟨u, ?_, rfl⟩
      rw [mem_filter, ofDim, mem_filter, mem_range]
      exact ⟨⟨hu.1, hdim⟩, hu⟩

/-! ### The hypotheses can be met -/

theorem triangle_boundary : IsBoundaryMatrix triangle := by
  have hbig : ∀ j, 7 ≤ j → cols triangle j = ∅ := by
    intro j hj
    ext z; rw [mem_cols, colL_of_ge (by simpa [triangle] using hj)]; simp
  refine ⟨triangle_valid, ?_, ?_, ?_, by decide⟩
  · intro j
    by_cases hj : 7 ≤ j
    · rw [hbig j hj]; simp
    · have : j < 7 := by omega
      clear hj; revert j; decide
  · intro j
    by_cases hj : 7 ≤ j
    · rw [hbig j hj]; simp
    · have : j < 7 := by omega
      clear hj; revert j; decide
  · intro j
    by_cases hj : 7 ≤ j
    · rw [hbig j hj]; decide
    · have : j < 7 := by omega
      clear hj; revert j; decide

/-- The pairing of the filled triangle: one component survives, two are merged by edges, and the
cycle created by edge 5 is filled by the triangle. -/
example : calculatePersistencePairing .twist .vector ⟨triangle, false⟩ =
    some [(0, idxMax), (1, 3), (2, 4), (5, 6)] := by decide

example : (∃ r', standard .vector triangle = some r') ∧ (∃ M', (BM.mk triangle false).dualize = some M') :=
  ⟨⟨_, rfl⟩, ⟨_, rfl⟩⟩

end Aleph
