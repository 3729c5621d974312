import Verif.Lemmas.Conversions
import Verif.Props.Simplex

/-!
# C11, C12, C51: boundary matrices and diagrams of simplicial complexes
-/

namespace Aleph

open Finset Spec

variable {α : Type}

/-- C11. For each complex closed under faces, in any order and for every column container,
`makeBoundaryMatrix` succeeds and column `j` lists exactly the positions of the
codimension-one faces of the `j`-th simplex (empty from position `max` on, if a limit
is given); the dimension of column `j` is that of the simplex. -/
theorem C11_boundary_matrix (k : Kind) (K : Complex α) (hK : WF K) (hc : FaceClosed K) (max : ℕ) :
    ∃ r, makeBoundaryMatrix k K max = some ⟨r, false⟩ ∧ Valid r ∧ r.numColumns = K.length ∧
      (∀ j, cols r j = if max = 0 ∨ j < max then facets K j else ∅) ∧
      ∀ j, r.dims.getD j 0 = dimAt K j := by
  refine ⟨_, makeBoundaryMatrix_eq k hK hc max, ?_, by simp [Rep.numColumns], ?_, ?_⟩
  · have hcol : ∀ c ∈ K.zipIdx.map (bdCol K max), ∃ s j, K[j]? = some s ∧ c = bdCol K max (s, j) := by
      intro c hc
      obtain ⟨⟨s, j⟩, hm, rfl⟩ := List.mem_map.1 hc
      exact ⟨s, j, by simpa [List.mem_zipIdx_iff_getElem?] using hm, rfl⟩
    refine ⟨?_, ?_, by simp⟩
    · intro c h
      obtain ⟨s, j, h1, rfl⟩ := hcol c h
      exact bdCol_strict hK hc h1
    · intro c h i hi
      obtain ⟨s, j, h1, rfl⟩ := hcol c h
      have := ((mem_bdCol hK hc h1).1 hi).2
      rw [facets, mem_filter, mem_range] at this
      simpa using this.1
  · intro j
    ext i
    rw [mem_cols, colL]
    simp only [List.getD_eq_getElem?_getD, List.getElem?_map, List.getElem?_zipIdx, zero_add]
    cases h : K[j]? with
    | none =>
      have : facets K j = ∅ := by
        ext x; simp [facets, vsetAt, h]
      simp [this]
    | some s =>
      simp only [Option.map_some, Option.getD_some]
      rw [mem_bdCol hK hc h]
      by_cases hm : max = 0 ∨ j < max <;> simp [hm]
  · intro j
    simp only [List.getD_eq_getElem?_getD, List.getElem?_map]
    unfold dimAt
    cases h : K[j]? with
    | none => simp [vsetAt, h]
    | some s =>
      rw [vsetAt_some h]
      have h3 := (hK.normal s (List.mem_of_getElem? h)).length_eq
      change s.vertices.length = s.vset.card at h3
      simp [h3]

/-- C11. The boundary of a boundary vanishes in every complex closed under faces. -/
theorem C11_boundary_of_boundary (K : Complex α) (hK : WF K) (hc : FaceClosed K) (j : ℕ) :
    chainBd (facets K) (facets K j) = ∅ := by
  by_cases hj : j < K.length
  · rw [chainBd, filter_eq_empty_iff]
    intro i _ ho
    exact Nat.not_odd_iff_even.2 (facets_facets_even hK hc hj) ho
  · have : facets K j = ∅ := by
      ext x; simp [facets, vsetAt, List.getElem?_eq_none (by omega : K.length ≤ j)]
    rw [this]; rfl

/-- C11. The matrix of a filtered complex satisfies all hypotheses of C05–C10. -/
theorem C11_is_boundary_matrix (k : Kind) (K : Complex α) (hK : IsFiltration K)
    (hn : K.length ≤ idxMax) :
    ∃ r, makeBoundaryMatrix k K = some ⟨r, false⟩ ∧ IsBoundaryMatrix r ∧ r.numColumns = K.length ∧
      cols r = facets K ∧ ∀ j, r.dims.getD j 0 = dimAt K j := by
  obtain ⟨r, h1, h2, h3, h4, h5⟩ := C11_boundary_matrix k K hK.wf hK.closed 0
  have h6 : cols r = facets K := by funext j; rw [h4, if_pos (Or.inl rfl)]
  refine ⟨r, h1, ⟨h2, ?_, ?_, ?_, by rw [h3]; exact hn⟩, h3, h6, h5⟩
  · intro j i hi
    rw [h6] at hi
    simp only [facets, mem_filter, mem_range] at hi
    obtain ⟨hi1, hi2, hi3⟩ := hi
    by_contra hge
    have hj : j < K.length := by omega
    have hne : j ≠ i := by rintro rfl; omega
    have := List.pairwise_iff_getElem.1 hK.order j i hj hi1 (by omega)
    rw [vsetAt_some (List.getElem?_eq_getElem hi1), vsetAt_some (List.getElem?_eq_getElem hj)] at hi2 hi3
    exact this ⟨hi2, fun h => by have := card_le_card h; omega⟩
  · intro j i hi
    rw [h6] at hi
    simp only [facets, mem_filter, mem_range] at hi
    have := (vsetAt_nonempty hK.wf hi.1).card_pos
    rw [h5, h5, dimAt, dimAt]; omega
  · intro j; rw [h6]; exact C11_boundary_of_boundary K hK.wf hK.closed j

/-- C11, without closure: a face that is not stored is silently read as position `0`.  Here the edge
`{1,2}` without its vertices becomes a column with a (repeated) entry `0`. -/
theorem C11_missing_faces_wrong :
    makeBoundaryMatrix .vector [⟨[1], 0⟩, ⟨[2, 3], 0⟩] = some ⟨⟨[[], [0, 0]], [0, 1]⟩, false⟩ := by
  decide

/-- The diagram points of the pairs `p` with a creator of dimension `d`. -/
def diagramPoints (inf : α) (K : Complex α) (d : ℕ) (p : List (ℕ × ℕ)) : List (α × α) :=
  (p.filter fun ij => dimAt K ij.1 = d).filterMap fun ij =>
    (K[ij.1]?).map fun s => (s.data, ((K[ij.2]?).map (·.data)).getD inf)

/-- A list of diagrams has ascending dimensions and consists of the non-empty diagrams made of the
points of the pairs `p`. -/
def IsDiagramsOf (inf : α) (K : Complex α) (p : List (ℕ × ℕ)) (Ds : List (Diagram α)) : Prop :=
  (Ds.map (·.dimension)).Pairwise (· < ·) ∧
    ∀ D, D ∈ Ds ↔ D.points ≠ [] ∧ D.points = diagramPoints inf K D.dimension p

theorem ptsOf_eq {inf : α} {K : Complex α} (hK : WF K) (d : ℕ) (p : List (ℕ × ℕ)) :
    ptsOf inf K d p = diagramPoints inf K d p := by
  induction p with
  | nil => rfl
  | cons ij p ih =>
    have e : ∀ l : List (ℕ × ℕ), ptsOf inf K d (ij :: l) = ptsOf inf K d [ij] ++ ptsOf inf K d l :=
      fun l => ptsOf_append inf K d [ij] l
    rw [e, ih]
    simp only [ptsOf, List.filterMap_cons, List.filterMap_nil, diagramPoint_eq hK]
    unfold diagramPoints
    rw [List.filter_cons]
    cases h : K[ij.1]? with
    | none =>
      simp only [Option.map_none]
      by_cases hd : dimAt K ij.1 = d
      · simp [hd, h]
      · simp [hd]
    | some s =>
      simp only [Option.map_some]
      by_cases hd : dimAt K ij.1 = d
      · simp [hd, h]
      · simp [hd]

/-- C12. `makePersistenceDiagrams` succeeds if and only if all creators are positions of the complex;
then it lists, by ascending dimension, exactly one diagram for each dimension of a
creator, whose points are the data of creator and destroyer of each pair, in the order of the pairing, with
`inf` for destroyers that are not positions of the complex. -/
theorem C12_diagrams (inf : α) (K : Complex α) (hK : WF K) (p : List (ℕ × ℕ)) :
    ((∀ ij ∈ p, ij.1 < K.length) →
      ∃ Ds, makePersistenceDiagrams inf p K = some Ds ∧ IsDiagramsOf inf K p Ds) ∧
    ((∃ ij ∈ p, K.length ≤ ij.1) → makePersistenceDiagrams inf p K = none) := by
  constructor
  · intro h
    obtain ⟨m, h1, h2, h3⟩ := diag_fold inf K p (by
      intro ij hij
      rw [diagramPoint_eq hK, List.getElem?_eq_getElem (h ij hij)]; rfl) [] [] List.Pairwise.nil
      (by intro e l; simp [ptsOf])
    have hs : (m.map fun (d, l) => (⟨d, l⟩ : Diagram α)).insertionSort
        (fun D E => D.dimension ≤ E.dimension) = m.map fun (d, l) => (⟨d, l⟩ : Diagram α) := by
      apply List.Pairwise.insertionSort_eq
      rw [List.pairwise_map]
      exact h2.imp fun h => h.le
    refine ⟨m.map fun (d, l) => (⟨d, l⟩ : Diagram α), ?_, ?_, ?_⟩
    · unfold makePersistenceDiagrams
      change (match p.foldlM (diagStep inf K) [] with
        | none => none
        | some m => some _) = _
      rw [h1]
      simp only [hs]
    · rw [List.map_map, List.pairwise_map]
      exact h2
    · rintro ⟨d, l⟩
      rw [List.mem_map]
      have := h3 d l
      rw [List.nil_append, ptsOf_eq hK] at this
      rw [← this]
      constructor
      · rintro ⟨⟨d', l'⟩, hm, he⟩
        simp only [Diagram.mk.injEq] at he
        obtain ⟨rfl, rfl⟩ := he; exact hm
      · intro hm; exact ⟨_, hm, rfl⟩
  · rintro ⟨ij, hij, hge⟩
    have := diag_fold_none inf K p ⟨ij, hij, by
      rw [diagramPoint_eq hK, List.getElem?_eq_none hge]; rfl⟩ []
    unfold makePersistenceDiagrams
    change (match p.foldlM (diagStep inf K) [] with
      | none => none
      | some m => some _) = _
    rw [this]

/-- C12. `makePersistenceDiagram` for function values throws if some index, in particular the special
destroyer of an unpaired creator, is not a valid position. -/
theorem C12_function_values (p : List (ℕ × ℕ)) (values : List α) :
    ((∀ ij ∈ p, ij.1 < values.length ∧ ij.2 < values.length) →
      ∃ pts, makePersistenceDiagram p values = some ⟨0, pts⟩ ∧ pts.length = p.length ∧
        ∀ n (h : n < p.length), ∃ x y, pts[n]? = some (x, y) ∧ values[(p[n]).1]? = some x ∧
          values[(p[n]).2]? = some y) ∧
    ((∃ ij ∈ p, values.length ≤ ij.1 ∨ values.length ≤ ij.2) →
      makePersistenceDiagram p values = none) := by
  have key : ∀ p : List (ℕ × ℕ),
      ((∀ ij ∈ p, ij.1 < values.length ∧ ij.2 < values.length) →
        ∃ pts, p.mapM (functionPoint values) = some pts ∧ pts.length = p.length ∧
        ∀ n (h : n < p.length), ∃ x y, pts[n]? = some (x, y) ∧ values[(p[n]).1]? = some x ∧
          values[(p[n]).2]? = some y) ∧
      ((∃ ij ∈ p, values.length ≤ ij.1 ∨ values.length ≤ ij.2) → p.mapM (functionPoint values) = none) := by
    intro p
    induction p with
    | nil => exact ⟨fun _ => ⟨[], rfl, rfl, by simp⟩, by simp⟩
    | cons ij p ih =>
      rw [List.mapM_cons]
      constructor
      · intro h
        obtain ⟨h1, h2⟩ := h ij List.mem_cons_self
        obtain ⟨pts, e1, e2, e3⟩ := ih.1 fun ij hij => h ij (List.mem_cons_of_mem _ hij)
        rw [e1]
        simp only [functionPoint, List.getElem?_eq_getElem h1, List.getElem?_eq_getElem h2]
        refine ⟨_, rfl, by simp [e2], ?_⟩
        intro n hn
        cases n with
        | zero => exact ⟨_, _, rfl, List.getElem?_eq_getElem h1, List.getElem?_eq_getElem h2⟩
        | succ n => exact e3 n (by simpa using hn)
      · rintro ⟨kl, hkl, hge⟩
        rcases List.mem_cons.1 hkl with rfl | hkl
        · have : functionPoint values kl = none := by
            unfold functionPoint
            rcases hge with hge | hge
            · simp [List.getElem?_eq_none hge]
            · rw [List.getElem?_eq_none hge]; cases values[kl.1]? <;> rfl
          rw [this]; rfl
        · rw [ih.2 ⟨kl, hkl, hge⟩]
          cases functionPoint values ij <;> rfl
  unfold makePersistenceDiagram
  constructor
  · intro h
    obtain ⟨pts, e1, e2, e3⟩ := (key p).1 h
    exact ⟨pts, by rw [e1], e2, e3⟩
  · intro h; rw [(key p).2 h]

/-! ### The whole pipeline -/

/-- The pairs reported for a filtered complex: persistence pairs of the boundary operator and unpaired
positions, the latter with the special destroyer; unpaired positions of top dimension only
if wanted. -/
def IsComplexPairing (K : Complex α) (inc : Bool) (p : List (ℕ × ℕ)) : Prop :=
  p.Nodup ∧ p.Pairwise pairLE ∧ ∀ i j, (i, j) ∈ p ↔ PersPair (facets K) i j ∨
    (j = idxMax ∧ Unpaired (facets K) K.length i ∧
      (inc = true ∨ ∃ t < K.length, dimAt K i < dimAt K t))

theorem foldr_max_ge {l : List ℕ} {x : ℕ} (h : x ∈ l) : x ≤ l.foldr max 0 := by
  induction l with
  | nil => simp at h
  | cons a l ih =>
    rcases List.mem_cons.1 h with rfl | h
    · exact le_max_left _ _
    · exact le_trans (ih h) (le_max_right _ _)

theorem foldr_max_mem {l : List ℕ} (h : l ≠ []) : l.foldr max 0 ∈ l := by
  induction l with
  | nil => exact absurd rfl h
  | cons a l ih =>
    by_cases hl : l = []
    · subst hl; simp
    · have := ih hl
      rcases max_choice a (l.foldr max 0) with h1 | h1
      · rw [List.foldr_cons, h1]; exact List.mem_cons_self
      · rw [List.foldr_cons, h1]; exact List.mem_cons_of_mem _ this

theorem isComplexPairing_of {K : Complex α} {r : Rep} {inc : Bool} {p : List (ℕ × ℕ)}
    (hb : IsBoundaryMatrix r) (h1 : r.numColumns = K.length) (h2 : cols r = facets K)
    (h3 : ∀ j, r.dims.getD j 0 = dimAt K j) {max : ℕ} (hmax : K.length ≤ max)
    (hp : IsPairingOf r inc max p) : IsComplexPairing K inc p := by
  obtain ⟨e1, e2, e3⟩ := hp
  refine ⟨e1, e2, fun i j => ?_⟩
  rw [e3, h1, h2, h3]
  have hdl : r.dims.length = K.length := by rw [hb.valid.dims]; exact h1
  have hdim : ∀ i < K.length, (dimAt K i ≠ r.dimension ↔ ∃ t < K.length, dimAt K i < dimAt K t) := by
    intro i hi
    have hle : ∀ t < K.length, dimAt K t ≤ r.dimension := by
      intro t ht
      rw [← h3]
      apply foldr_max_ge
      rw [List.getD_eq_getElem?_getD, List.getElem?_eq_getElem (by omega)]
      exact List.getElem_mem _
    constructor
    · intro hne
      have hne0 : r.dims ≠ [] := by rintro h; rw [h] at hdl; simp at hdl; omega
      obtain ⟨t, ht, he⟩ := List.getElem_of_mem (foldr_max_mem hne0)
      refine ⟨t, by omega, ?_⟩
      have : dimAt K t = r.dimension := by
        rw [← h3, List.getD_eq_getElem?_getD, List.getElem?_eq_getElem ht]
        exact he
      have := hle i hi
      omega
    · rintro ⟨t, ht, hlt⟩ he
      have := hle t ht
      omega
  constructor
  · rintro ⟨h | ⟨h4, h5, h6⟩, _⟩
    · exact Or.inl h
    · exact Or.inr ⟨h4, h5, h6.imp id fun h => (hdim i h5.1).1 h⟩
  · rintro (h | ⟨h4, h5, h6⟩)
    · refine ⟨Or.inl h, Or.inr ?_⟩
      have : i < r.data.length := persPair_fst_lt hb.valid (by rw [h2]; exact h)
      have h7 : r.data.length = K.length := h1
      omega
    · refine ⟨Or.inr ⟨h4, h5, h6.imp id fun h => (hdim i h5.1).2 h⟩, Or.inr ?_⟩
      have := h5.1
      omega

/-- C51. For each filtered simplicial complex `calculatePersistenceDiagrams` returns the same diagrams for
every reduction algorithm, every column container and with or without dualization, namely
those of the persistence pairs of the simplicial boundary operator. -/
theorem C51_pipeline (inf : α) (K : Complex α) (hK : IsFiltration K) (hn : K.length ≤ idxMax)
    (inc : Bool) :
    ∃ p Ds, IsComplexPairing K inc p ∧ IsDiagramsOf inf K p Ds ∧
      ∀ a k dualize, calculatePersistenceDiagrams a k inf K dualize inc = some Ds := by
  obtain ⟨r, h1, h2, h3, h4, h5⟩ := C11_is_boundary_matrix .vector K hK hn
  have hall : ∀ k, makeBoundaryMatrix k K = some ⟨r, false⟩ := by
    intro k
    rw [← h1, makeBoundaryMatrix_eq k hK.wf hK.closed, makeBoundaryMatrix_eq .vector hK.wf hK.closed]
  obtain ⟨p, g1, g2⟩ := C05_pairing_all_algorithms .standard .vector r h2 inc idxMax
  have hcp : IsComplexPairing K inc p := isComplexPairing_of h2 h3 h4 h5 hn g2
  have hcr : ∀ ij ∈ p, ij.1 < K.length := by
    rintro ⟨i, j⟩ hij
    have := (C09_pairing_wellformed .standard .vector r h2 inc idxMax p g1).2.2.1 i j hij
    rw [h3] at this; exact this.1
  obtain ⟨Ds, d1, d2⟩ := (C12_diagrams inf K hK.wf p).1 hcr
  refine ⟨p, Ds, hcp, d2, fun a k dualize => ?_⟩
  unfold calculatePersistenceDiagrams
  rw [hall]
  cases dualize with
  | false =>
    obtain ⟨q, q1, q2⟩ := C05_pairing_all_algorithms a k r h2 inc idxMax
    have : q = p := isPairingOf_unique q2 g2
    subst this
    simp only [Bool.false_eq_true, if_false, q1, d1]
  | true =>
    obtain ⟨M', q, m1, m2, m3⟩ := C08_dual_pairing a .standard k .vector r h2 inc idxMax
    rw [g1] at m3; cases m3
    simp only [if_true, m1, m2, d1]

/-- C51. If the complex is in the order of its data then each point of each diagram has a creation value
not larger than its destruction value, provided `inf` is not smaller than the data. -/
theorem C51_points_above_diagonal [Preorder α] (inf : α) (K : Complex α) (hK : IsFiltration K)
    (hn : K.length ≤ idxMax) (hs : K.Pairwise fun s t => s.data ≤ t.data)
    (hinf : ∀ s ∈ K, s.data ≤ inf) (inc : Bool) (a : Algorithm) (k : Kind) (dualize : Bool)
    (Ds : List (Diagram α)) (h : calculatePersistenceDiagrams a k inf K dualize inc = some Ds) :
    ∀ D ∈ Ds, ∀ x ∈ D.points, x.1 ≤ x.2 := by
  obtain ⟨p, Ds', h1, h2, h3⟩ := C51_pipeline inf K hK hn inc
  rw [h3 a k dualize] at h; cases h
  obtain ⟨r, g1, g2, g3, g4, g5⟩ := C11_is_boundary_matrix .vector K hK hn
  intro D hD x hx
  rw [((h2.2 D).1 hD).2] at hx
  simp only [diagramPoints, List.mem_filterMap, List.mem_filter] at hx
  obtain ⟨⟨i, j⟩, ⟨hij, _⟩, he⟩ := hx
  cases hi : K[i]? with
  | none => simp [hi] at he
  | some s =>
    simp only [hi, Option.map_some, Option.some.injEq] at he
    subst he
    have hil : i < K.length := (List.getElem?_eq_some_iff.1 hi).1
    rcases (h1.2.2 i j).1 hij with hpp | ⟨rfl, hu, _⟩
    · have hlt : i < j := by
        obtain ⟨R, _, hR⟩ := standard_isReduction .vector g2.valid
        exact hR.low_lt g2.filtered (hR.low_iff.2 (by rw [g4]; exact hpp))
      have hjl : j < K.length := by
        have : j < r.data.length := persPair_lt_length (by rw [g4]; exact hpp)
        have e : r.data.length = K.length := g3
        omega
      have := List.pairwise_iff_getElem.1 hs i j hil hjl hlt
      rw [List.getElem?_eq_getElem hil] at hi
      cases hi
      simpa [List.getElem?_eq_getElem hjl] using this
    · simp only [List.getElem?_eq_none hn, Option.map_none, Option.getD_none]
      exact hinf s (List.mem_of_getElem? hi)

/-- The unpaired points of the diagrams of a pairing are those of its pairs without destroyer. -/
theorem betti_sum [DecidableEq α] (inf : α) (K : Complex α) (hn : K.length ≤ idxMax) (hinf : ∀ s ∈ K, s.data ≠ inf)
    (q : List (ℕ × ℕ)) (hq : ∀ i j, (i, j) ∈ q → i < K.length ∧ (j = idxMax ∨ j < K.length)) (Ds : List (Diagram α))
    (h2 : IsDiagramsOf inf K q Ds) (d : ℕ) :
    ((Ds.filter fun D => D.dimension = d).map (Diagram.betti inf)).sum =
        q.countP fun e => e.2 == idxMax && dimAt K e.1 == d := by
  -- count points
  have hpts : (diagramPoints inf K d q).countP (Diagram.isUnpaired inf) =
      q.countP fun e => e.2 == idxMax && dimAt K e.1 == d := by
    unfold diagramPoints
    have hmem : ∀ ij ∈ q, ∃ s, K[ij.1]? = some s := by
      rintro ⟨i, j⟩ hij
      exact ⟨_, List.getElem?_eq_getElem (hq i j hij).1⟩
    have hfin : ∀ ij ∈ q, (((K[ij.2]?).map (·.data)).getD inf = inf ↔ ij.2 = idxMax) := by
      rintro ⟨i, j⟩ hij
      rcases (hq i j hij).2 with h | h
      · have : K.length ≤ j := by omega
        change ((K[j]?).map (·.data)).getD inf = inf ↔ j = idxMax
        rw [List.getElem?_eq_none this]
        simp [h]
      · simp only [List.getElem?_eq_getElem h, Option.map_some, Option.getD_some]
        constructor
        · intro he; exact absurd he (hinf _ (List.getElem_mem h))
        · intro he; omega
    clear hq h2
    revert hmem hfin
    generalize q = q
    intro hmem hfin
    induction q with
    | nil => rfl
    | cons ij q ih =>
      have := ih (fun x hx => hmem x (List.mem_cons_of_mem _ hx)) (fun x hx => hfin x (List.mem_cons_of_mem _ hx))
      obtain ⟨s, hs⟩ := hmem ij List.mem_cons_self
      have hf := hfin ij List.mem_cons_self
      rw [List.countP_cons, List.filter_cons, ← this]
      by_cases hd : dimAt K ij.1 = d
      · simp only [hd, decide_true, if_true, List.filterMap_cons, hs, Option.map_some,
          List.countP_cons, Diagram.isUnpaired, hf]
        simp
      · simp [hd]
  have hsum : ((Ds.filter fun D => D.dimension = d).map (Diagram.betti inf)).sum =
      (diagramPoints inf K d q).countP (Diagram.isUnpaired inf) := by
    have huniq : ∀ D ∈ Ds, D.dimension = d → D = ⟨d, diagramPoints inf K d q⟩ := by
      rintro ⟨e, l⟩ hD rfl
      have := ((h2.2 _).1 hD).2
      simp only at this
      rw [← this]
    by_cases hne : diagramPoints inf K d q = []
    · have : (Ds.filter fun D => D.dimension = d) = [] := by
        rw [List.filter_eq_nil_iff]
        intro D hD hd
        have hd : D.dimension = d := by simpa using hd
        have h5 := huniq D hD hd
        have := ((h2.2 D).1 hD).1
        rw [h5] at this
        exact this hne
      rw [this, hne]; rfl
    · have hmem : (⟨d, diagramPoints inf K d q⟩ : Diagram α) ∈ Ds := (h2.2 _).2 ⟨hne, rfl⟩
      have hnd : Ds.Nodup := List.Nodup.of_map _ (h2.1.imp fun h => ne_of_lt h)
      have : (Ds.filter fun D => D.dimension = d) = [⟨d, diagramPoints inf K d q⟩] := by
        have h6 : ∀ D ∈ Ds.filter fun D => D.dimension = d, D = ⟨d, diagramPoints inf K d q⟩ := by
          intro D hD
          rw [List.mem_filter] at hD
          exact huniq D hD.1 (by simpa using hD.2)
        have h7 := List.eq_replicate_of_mem h6
        have h8 : (⟨d, diagramPoints inf K d q⟩ : Diagram α) ∈ Ds.filter fun D => D.dimension = d := by
          rw [List.mem_filter]; exact ⟨hmem, by simp⟩
        have h9 : (Ds.filter fun D => D.dimension = d).Nodup := hnd.filter _
        rw [h7] at h9 h8 ⊢
        have h10 := List.nodup_replicate.1 h9
        have h11 : (Ds.filter fun D => D.dimension = d).length ≠ 0 := by
          intro h; rw [h] at h8; simp at h8
        have : (Ds.filter fun D => D.dimension = d).length = 1 := by omega
        rw [this]; rfl
      rw [this]
      simp [Diagram.betti]
  rw [hsum, hpts]

/-- The unpaired points of the diagrams correspond to the unpaired creators of the pairing. -/
theorem betti_count [DecidableEq α] (inf : α) (K : Complex α) (hK : IsFiltration K)
    (hn : K.length ≤ idxMax) (hinf : ∀ s ∈ K, s.data ≠ inf) (a : Algorithm) (k : Kind)
    (dualize : Bool) (Ds : List (Diagram α))
    (h : calculatePersistenceDiagrams a k inf K dualize true = some Ds) :
    ∃ r q, IsBoundaryMatrix r ∧ r.numColumns = K.length ∧ cols r = facets K ∧
      (∀ j, r.dims.getD j 0 = dimAt K j) ∧
      calculatePersistencePairing .standard .vector ⟨r, false⟩ true idxMax = some q ∧
      IsDiagramsOf inf K q Ds ∧
      ∀ d, ((Ds.filter fun D => D.dimension = d).map (Diagram.betti inf)).sum =
        q.countP fun e => e.2 == idxMax && dimAt K e.1 == d := by
  obtain ⟨p, Ds', h1, h2, h3⟩ := C51_pipeline inf K hK hn true
  rw [h3 a k dualize] at h; cases h
  obtain ⟨r, g1, g2, g3, g4, g5⟩ := C11_is_boundary_matrix .vector K hK hn
  obtain ⟨q, q1, q2⟩ := C05_pairing_all_algorithms .standard .vector r g2 true idxMax
  have hcq := isComplexPairing_of g2 g3 g4 g5 hn q2
  have hpq : q = p := pairing_ext hcq.2.1 h1.2.1 hcq.1 h1.1
    (fun x => (hcq.2.2 x.1 x.2).trans (h1.2.2 x.1 x.2).symm)
  subst hpq
  refine ⟨r, q, g2, g3, g4, g5, q1, h2, betti_sum inf K hn hinf q (fun i j hij => ?_) Ds h2⟩
  have := (C09_pairing_wellformed .standard .vector r g2 true idxMax q q1).2.2.1 i j hij
  rw [g3] at this
  exact ⟨this.1, this.2.imp (fun h => h) fun h => h.1⟩

/-- C51. With all unpaired creators, the number of unpaired points `β` in dimension `d` is the Betti number:
there are `2^β` times as many `d`-cycles as boundaries of `(d+1)`-chains of the
complex. -/
theorem C51_betti [DecidableEq α] (inf : α) (K : Complex α) (hK : IsFiltration K)
    (hn : K.length ≤ idxMax) (hinf : ∀ s ∈ K, s.data ≠ inf) (a : Algorithm) (k : Kind)
    (dualize : Bool) (Ds : List (Diagram α))
    (h : calculatePersistenceDiagrams a k inf K dualize true = some Ds) (d : ℕ) :
    #(simplicialCycles K d) =
      2 ^ ((Ds.filter fun D => D.dimension = d).map (Diagram.betti inf)).sum *
        #(simplicialBoundaries K (d + 1)) := by
  obtain ⟨r, q, g2, g3, g4, g5, q1, -, hcount⟩ := betti_count inf K hK hn hinf a k dualize Ds h
  have hb := C10_betti .standard .vector r g2 idxMax (by rw [g3]; exact hn) q q1 d
  have hof : ∀ d, ofDim r d = {k ∈ range K.length | dimAt K k = d} := by
    intro d
    have e : r.data.length = K.length := g3
    unfold ofDim; rw [e]; simp only [g5]
  have hc1 : cycles r d = simplicialCycles K d := by
    unfold cycles simplicialCycles; rw [hof, g4]
  have hc2 : boundariesOf r (d + 1) = simplicialBoundaries K (d + 1) := by
    unfold boundariesOf simplicialBoundaries; rw [hof, g4]
  rw [hc1, hc2] at hb
  rw [hb]
  congr 2
  simp only [g5]
  exact (hcount d).symm

/-! ### A concrete case: the filled triangle, sorted by data -/

/-- A triangle with vertices at 0, edges at 1, 2, 3 and its interior at 5. -/
def filledTriangle : Complex ℕ :=
  [⟨[0], 0⟩, ⟨[1], 0⟩, ⟨[2], 0⟩, ⟨[1, 0], 1⟩, ⟨[2, 1], 2⟩, ⟨[2, 0], 3⟩, ⟨[2, 1, 0], 5⟩]

theorem filledTriangle_filtration : IsFiltration filledTriangle where
  wf := ⟨by decide, by decide, by decide⟩
  closed := Closed1.faceClosed (by decide) (by unfold Closed1; decide)
  order := by unfold FacesFirst; decide

example : filledTriangle.length ≤ idxMax ∧ filledTriangle.Pairwise (fun s t => s.data ≤ t.data) ∧
    (∀ s ∈ filledTriangle, s.data ≤ 9) ∧ (∀ s ∈ filledTriangle, s.data ≠ 9) := by decide

example : calculatePersistenceDiagrams .twist .vector 9 filledTriangle =
    some [⟨0, [(0, 9), (0, 1), (0, 2)]⟩, ⟨1, [(3, 5)]⟩] := by decide

example : makePersistenceDiagram [(0, 1), (2, 0)] [5, 6, 7] = some ⟨0, [(5, 6), (7, 5)]⟩ := by decide

end Aleph
