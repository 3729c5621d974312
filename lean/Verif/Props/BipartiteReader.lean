import Verif.Model.BipartiteReader
import Verif.Spec.BipartiteReader
import Verif.Props.AdjacencyMatrixReader
import Verif.Lemmas.Collects

/-!
# C130: bipartite adjacency matrices
-/

namespace Aleph.BipartiteReader

open Spec AdjacencyMatrixReader

variable {α : Type}

/-! ### Weights of vertices -/

section

variable [AddGroup α] [LinearOrder α]

/-- The comparison of weights. -/
def Below (absolute : Bool) (a b : α) : Prop := if absolute then |a| ≤ |b| else a ≤ b

theorem below_trans {absolute : Bool} {a b c : α} (h1 : Below absolute a b) (h2 : Below absolute b c) : Below absolute a c := by
  cases absolute
  · exact le_trans (show a ≤ b from h1) (show b ≤ c from h2)
  · exact le_trans (show |a| ≤ |b| from h1) (show |b| ≤ |c| from h2)

theorem below_refl (absolute : Bool) (a : α) : Below absolute a a := by cases absolute <;> exact le_rfl

/-- The stored weights are the smallest ones. -/
def Smallest (absolute : Bool) (L : List (ℕ × α)) (m : Weights α) : Prop :=
  ∀ v, match m v with
    | none => ∀ p ∈ L, p.1 ≠ v
    | some a => (v, a) ∈ L ∧ ∀ b, (v, b) ∈ L → Below absolute a b

theorem update_smallest {absolute : Bool} {L : List (ℕ × α)} {m : Weights α} (h : Smallest absolute L m) (v : ℕ) (w : α) :
    Smallest absolute (L ++ [(v, w)]) (update absolute m v w) := by
  intro u
  have hu := h u
  by_cases huv : u = v
  · subst huv
    cases hm : m u with
    | none =>
      rw [hm] at hu
      simp only [update, hm, Function.update_self]
      refine ⟨by simp, fun b hb => ?_⟩
      rcases List.mem_append.1 hb with hb | hb
      · exact absurd rfl (hu _ hb)
      · simp at hb; subst hb; exact below_refl _ _
    | some w' =>
      rw [hm] at hu
      cases absolute with
      | true =>
        by_cases hlt : |w| < |w'|
        · simp only [update, hm, if_true, if_pos hlt, Function.update_self]
          refine ⟨by simp, fun b hb => ?_⟩
          rcases List.mem_append.1 hb with hb | hb
          · exact below_trans (show Below true w w' from hlt.le) (hu.2 b hb)
          · simp at hb; subst hb; exact below_refl _ _
        · simp only [update, hm, if_true, if_neg hlt]
          refine ⟨by simp [hu.1], fun b hb => ?_⟩
          rcases List.mem_append.1 hb with hb | hb
          · exact hu.2 b hb
          · simp at hb; subst hb; exact not_lt.1 hlt
      | false =>
        simp only [update, hm, Bool.false_eq_true, if_false, Function.update_self]
        refine ⟨?_, fun b hb => ?_⟩
        · rcases min_choice w' w with h | h <;> rw [h]
          · simp [hu.1]
          · simp
        · rcases List.mem_append.1 hb with hb | hb
          · exact le_trans (min_le_left w' w) (hu.2 b hb)
          · simp at hb; subst hb; exact min_le_right w' b
  · have hne : update absolute m v w u = m u := by
      unfold update
      cases m v with
      | none => simp [huv]
      | some w' => simp only; split_ifs <;> simp [huv]
    rw [hne]
    cases hm : m u with
    | none =>
      rw [hm] at hu
      intro p hp
      rcases List.mem_append.1 hp with hp | hp
      · exact hu p hp
      · simp at hp; subst hp; exact fun h => huv h.symm
    | some a =>
      rw [hm] at hu
      refine ⟨by simp [hu.1], fun b hb => ?_⟩
      rcases List.mem_append.1 hb with hb | hb
      · exact hu.2 b hb
      · simp at hb; exact absurd hb.1 huv

/-- The updates of a position. -/
def updates (h w : ℕ) (values : List α) (p : ℕ × ℕ) : List (ℕ × α) :=
  match values[w * p.1 + p.2]? with
  | none => []
  | some a => [(p.1, a), (p.2 + h, a)]

theorem minWeight_smallest (absolute : Bool) (h w : ℕ) (values : List α) :
    Smallest absolute ((MatrixReader.positions h w).flatMap (updates h w values)) (minWeight absolute h w values) := by
  have key : ∀ (ps : List (ℕ × ℕ)) (L : List (ℕ × α)) (m : Weights α), Smallest absolute L m → Smallest absolute (L ++ ps.flatMap (updates h w values))
      (ps.foldl (fun m (y, x) =>
        match values[w * y + x]? with
        | none => m
        | some a => update absolute (update absolute m y a) (x + h) a) m) := by
    intro ps
    induction ps with
    | nil => intro L m hm; simpa using hm
    | cons p ps ih =>
      intro L m hm
      obtain ⟨y, x⟩ := p
      rw [List.foldl_cons, List.flatMap_cons, ← List.append_assoc]
      refine ih _ _ ?_
      unfold updates
      simp only
      cases hv : values[w * y + x]? with
      | none => simpa using hm
      | some a =>
        simp only
        rw [show L ++ [(y, a), (x + h, a)] = (L ++ [(y, a)]) ++ [(x + h, a)] by simp]
        exact update_smallest (update_smallest hm _ _) _ _
  exact key (MatrixReader.positions h w) [] (fun _ => none) (by intro v; simp)

omit [AddGroup α] [LinearOrder α] in
theorem mem_updates {w : ℕ} {rows : List (List α)} (hr : ∀ r ∈ rows, r.length = w) (v : ℕ) (a : α) :
    (v, a) ∈ (MatrixReader.positions rows.length w).flatMap (updates rows.length w rows.flatten) ↔ a ∈ incidentWeights rows v := by
  simp only [List.mem_flatMap, MatrixReader.mem_positions, incidentWeights, Set.mem_ofPred_eq]
  constructor
  · rintro ⟨⟨y, x⟩, ⟨hy, hx⟩, hmem⟩
    simp only [updates] at hmem
    rw [MatrixReader.entry_flatten hr hx] at hmem
    cases he : entry rows y x with
    | none => rw [he] at hmem; simp at hmem
    | some b =>
      rw [he] at hmem
      simp only [List.mem_cons, Prod.mk.injEq, List.not_mem_nil, or_false] at hmem
      rcases hmem with ⟨rfl, rfl⟩ | ⟨rfl, rfl⟩
      · exact ⟨v, x, he, Or.inl rfl⟩
      · exact ⟨y, x, he, Or.inr (Nat.add_comm _ _)⟩
  · rintro ⟨y, x, he, hv⟩
    obtain ⟨hy, hx⟩ := MatrixReader.entry_isSome hr he
    refine ⟨(y, x), ⟨hy, hx⟩, ?_⟩
    simp only [updates]
    rw [MatrixReader.entry_flatten hr hx, he]
    rcases hv with rfl | rfl
    · simp
    · simp [Nat.add_comm]

end

theorem minimum_spec [LinearOrder α] : ∀ (l : List α) (a : α), IsLeast {b | b = a ∨ b ∈ l} (minimum a l) := by
  intro l
  induction l with
  | nil => intro a; simp [minimum, IsLeast, lowerBounds]
  | cons b l ih =>
    intro a
    have := ih (min a b)
    refine ⟨?_, ?_⟩
    · rcases this.1 with h | h
      · rw [minimum, List.foldl_cons]
        change minimum (min a b) l = a ∨ minimum (min a b) l ∈ b :: l
        rw [h]
        rcases min_choice a b with h | h <;> simp [h]
      · exact Or.inr (List.mem_cons_of_mem _ h)
    · rintro c hc
      rw [minimum, List.foldl_cons]
      change minimum (min a b) l ≤ c
      have hm : minimum (min a b) l ≤ min a b := this.2 (Or.inl rfl)
      rcases hc with rfl | hc
      · exact hm.trans (min_le_left _ _)
      · rcases List.mem_cons.1 hc with rfl | hc
        · exact hm.trans (min_le_right _ _)
        · exact this.2 (Or.inr hc)

/-! ### The complex -/

variable [AddCommGroup α] [LinearOrder α]

/-- The weight of a vertex. -/
def vertexWeight (assignMinimum assignAbsolute : Bool) (h w : ℕ) (a : α) (values : List α) (i : ℕ) : α :=
  if assignMinimum || assignAbsolute then (minWeight assignAbsolute h w values i).getD 0 else minimum a values

/-- The simplices of the complex. -/
def entries (vw : ℕ → α) (h w : ℕ) (values : List α) : List (List ℕ × α) :=
  ((MatrixReader.positions h w).filterMap fun p => (values[w * p.1 + p.2]?).map fun a => ([p.1, p.2 + h], a)) ++ (List.range (h + w)).map fun i => ([i], vw i)

theorem build_eq (assignMinimum assignAbsolute : Bool) (h w : ℕ) (a : α) (values : List α) : ∃ L : Complex α,
    build assignMinimum assignAbsolute h w a values = L.sort (asLt (Filtration.data fun a b => decide (a < b))) ∧
    Collects L (entries (vertexWeight assignMinimum assignAbsolute h w a values) h w values) := by
  have hcol := insertRange_collects (entries (vertexWeight assignMinimum assignAbsolute h w a values) h w values) (by
    intro e he
    rw [entries, List.mem_append] at he
    rcases he with he | he
    · obtain ⟨p, _, hp⟩ := List.mem_filterMap.1 he
      obtain ⟨b, _, rfl⟩ := Option.map_eq_some_iff.1 hp
      simp
    · obtain ⟨i, _, rfl⟩ := List.mem_map.1 he
      simp)
  refine ⟨_, ?_, hcol⟩
  simp only [build]
  congr 3
  rw [entries, List.map_append, List.map_map, List.map_filterMap]
  congr 1
  · unfold edges
    congr 1
    funext p
    obtain ⟨y, x⟩ := p
    simp only
    cases values[w * y + x]? <;> rfl

omit [AddCommGroup α] [LinearOrder α] in
theorem mem_entries {vw : ℕ → α} {w : ℕ} {rows : List (List α)} (hr : ∀ r ∈ rows, r.length = w) (e : List ℕ × α) :
    e ∈ entries vw rows.length w rows.flatten ↔ (∃ y x a, entry rows y x = some a ∧ e = ([y, x + rows.length], a)) ∨ ∃ i < rows.length + w, e = ([i], vw i) := by
  rw [entries, List.mem_append]
  refine or_congr ?_ ?_
  · simp only [List.mem_filterMap, MatrixReader.mem_positions, Option.map_eq_some_iff]
    constructor
    · rintro ⟨⟨y, x⟩, ⟨_, hx⟩, a, ha, rfl⟩
      exact ⟨y, x, a, by rw [← MatrixReader.entry_flatten hr hx]; exact ha, rfl⟩
    · rintro ⟨y, x, a, he, rfl⟩
      obtain ⟨hy, hx⟩ := MatrixReader.entry_isSome hr he
      exact ⟨(y, x), ⟨hy, hx⟩, a, by rw [MatrixReader.entry_flatten hr hx]; exact he, rfl⟩
  · simp only [List.mem_map, List.mem_range]
    exact ⟨fun ⟨i, h1, h2⟩ => ⟨i, h1, h2.symm⟩, fun ⟨i, h1, h2⟩ => ⟨i, h1, h2.symm⟩⟩

omit [AddCommGroup α] [LinearOrder α] in
theorem incident_nonempty {w : ℕ} {rows : List (List α)} (hr : ∀ r ∈ rows, r.length = w) (hw : 0 < w) (hne : rows ≠ []) {i : ℕ} (hi : i < rows.length + w) :
    ∃ a, a ∈ incidentWeights rows i := by
  have key : ∀ y x, y < rows.length → x < w → ∃ a, entry rows y x = some a := by
    intro y x hy hx
    have h1 := hr _ (List.getElem_mem hy)
    exact ⟨rows[y][x], by simp [entry, List.getElem?_eq_getElem hy, List.getElem?_eq_getElem (h1.symm ▸ hx : x < rows[y].length)]⟩
  by_cases h : i < rows.length
  · obtain ⟨a, ha⟩ := key i 0 h hw
    exact ⟨a, i, 0, ha, Or.inl rfl⟩
  · obtain ⟨a, ha⟩ := key 0 (i - rows.length) (List.length_pos_iff.2 hne) (by omega)
    exact ⟨a, 0, i - rows.length, ha, Or.inr (by omega)⟩

/-- The weights of the vertices. -/
theorem vertexWeight_spec (assignMinimum assignAbsolute : Bool) {w : ℕ} {rows : List (List α)} (hr : ∀ r ∈ rows, r.length = w) (hw : 0 < w) (hne : rows ≠ []) {a : α} {l : List α}
    (hv : rows.flatten = a :: l) {i : ℕ} (hi : i < rows.length + w) :
    (assignMinimum = false → assignAbsolute = false → IsLeast {v | ∃ y x, entry rows y x = some v} (vertexWeight assignMinimum assignAbsolute rows.length w a (a :: l) i)) ∧
    (assignMinimum = true → assignAbsolute = false → IsLeast (incidentWeights rows i) (vertexWeight assignMinimum assignAbsolute rows.length w a (a :: l) i)) ∧
    (assignAbsolute = true → vertexWeight assignMinimum assignAbsolute rows.length w a (a :: l) i ∈ incidentWeights rows i ∧
      ∀ b ∈ incidentWeights rows i, |vertexWeight assignMinimum assignAbsolute rows.length w a (a :: l) i| ≤ |b|) := by
  have hs := minWeight_smallest assignAbsolute rows.length w rows.flatten i
  have key : assignMinimum = true ∨ assignAbsolute = true → vertexWeight assignMinimum assignAbsolute rows.length w a (a :: l) i ∈ incidentWeights rows i ∧
      ∀ b ∈ incidentWeights rows i, Below assignAbsolute (vertexWeight assignMinimum assignAbsolute rows.length w a (a :: l) i) b := by
    intro h
    rw [vertexWeight, if_pos (by simpa using h), ← hv]
    cases hm : minWeight assignAbsolute rows.length w rows.flatten i with
    | none =>
      rw [hm] at hs
      obtain ⟨b, hb⟩ := incident_nonempty hr hw hne hi
      exact absurd rfl (hs (i, b) ((mem_updates hr i b).2 hb))
    | some b =>
      rw [hm] at hs
      exact ⟨(mem_updates hr i b).1 hs.1, fun c hc => hs.2 c ((mem_updates hr i c).2 hc)⟩
  refine ⟨?_, ?_, ?_⟩
  · rintro rfl rfl
    have hset : {v | v = a ∨ v ∈ a :: l} = {v | ∃ y x, entry rows y x = some v} := by
      ext v
      show (v = a ∨ v ∈ a :: l) ↔ ∃ y x, entry rows y x = some v
      rw [← mem_flatten_iff, hv]
      simp
    rw [← hset]
    exact minimum_spec (a :: l) a
  · rintro rfl rfl
    obtain ⟨h1, h2⟩ := key (Or.inl rfl)
    exact ⟨h1, fun b hb => h2 b hb⟩
  · rintro rfl
    obtain ⟨h1, h2⟩ := key (Or.inr rfl)
    exact ⟨h1, fun b hb => h2 b hb⟩

/-- C130 (partial). The complex for a matrix is its weighted bipartite graph, a well-formed complex that is closed under faces and sorted by weight.  By default, vertices have the smallest
weight of the matrix; otherwise, their weight is the smallest weight of an incident edge, or one with the smallest absolute value.  The complex is in filtration order if and only if no vertex
is heavier than one of its edges; this may fail for absolute values, see `C130_absolute`. -/
theorem _root_.Aleph.C130_graph_partial (assignMinimum assignAbsolute : Bool) {w : ℕ} (rows : List (List α)) (hr : ∀ r ∈ rows, r.length = w) (hw : 0 < w) (hne : rows ≠ []) (a : α) (l : List α)
    (hv : rows.flatten = a :: l) :
    let K := build assignMinimum assignAbsolute rows.length w a (a :: l)
    ∃ vw : ℕ → α, (∀ i < rows.length + w,
        (assignMinimum = false → assignAbsolute = false → IsLeast {v | ∃ y x, entry rows y x = some v} (vw i)) ∧
        (assignMinimum = true → assignAbsolute = false → IsLeast (incidentWeights rows i) (vw i)) ∧
        (assignAbsolute = true → vw i ∈ incidentWeights rows i ∧ ∀ b ∈ incidentWeights rows i, |vw i| ≤ |b|)) ∧
      WF K ∧ FaceClosed K ∧ K.Pairwise (fun s t => s.data ≤ t.data) ∧ (∀ t d, HasData K t d ↔ BipartiteData vw w rows t d) ∧
      (FacesFirst K ↔ ∀ i < rows.length + w, ∀ b ∈ incidentWeights rows i, vw i ≤ b) := by
  intro K
  refine ⟨vertexWeight assignMinimum assignAbsolute rows.length w a (a :: l), fun i hi => vertexWeight_spec assignMinimum assignAbsolute hr hw hne hv hi, ?_⟩
  generalize hvw : vertexWeight assignMinimum assignAbsolute rows.length w a (a :: l) = vw
  obtain ⟨L, hL, hcol⟩ := build_eq assignMinimum assignAbsolute rows.length w a (a :: l)
  rw [hvw, ← hv] at hcol
  have hK : K = L.sort (asLt (Filtration.data fun a b => decide (a < b))) := hL
  obtain ⟨hp, hs, hf⟩ := sortData_spec hcol.1
  rw [← hK] at hp hs hf
  have hset : ∀ y x, ([y, x + rows.length] : List ℕ).toFinset = {y, rows.length + x} := by
    intro y x
    rw [Nat.add_comm x]
    simp
  have hdata : ∀ t d, HasData L t d ↔ BipartiteData vw w rows t d := by
    intro t d
    rw [hcol.hasData]
    · constructor
      · rintro ⟨e, he, rfl, rfl⟩
        rcases (mem_entries hr e).1 he with ⟨y, x, b, hb, rfl⟩ | ⟨i, hi, rfl⟩
        · rw [hset]
          exact .edge y x b hb
        · by_cases h : i < rows.length
          · simpa using BipartiteData.row (vertexWeight := vw) (w := w) (rows := rows) i h
          · have := BipartiteData.column (vertexWeight := vw) (w := w) (rows := rows) (i - rows.length) (by omega)
            rw [show rows.length + (i - rows.length) = i by omega] at this
            simpa using this
      · intro h
        cases h with
        | row y hy => exact ⟨([y], vw y), (mem_entries hr _).2 (Or.inr ⟨y, by omega, rfl⟩), by simp, rfl⟩
        | column x hx => exact ⟨([rows.length + x], vw (rows.length + x)), (mem_entries hr _).2 (Or.inr ⟨rows.length + x, by omega, rfl⟩), by simp, rfl⟩
        | edge y x b hb => exact ⟨([y, x + rows.length], d), (mem_entries hr _).2 (Or.inl ⟨y, x, d, hb, rfl⟩), hset y x, rfl⟩
    · intro e he e' he' heq
      rcases (mem_entries hr e).1 he with ⟨y, x, b, hb, rfl⟩ | ⟨i, hi, rfl⟩
      · have hy := (MatrixReader.entry_isSome hr hb).1
        rcases (mem_entries hr e').1 he' with ⟨y', x', b', hb', rfl⟩ | ⟨i, hi, rfl⟩
        · have hy' := (MatrixReader.entry_isSome hr hb').1
          rw [hset, hset] at heq
          have h1 : y ∈ ({y', rows.length + x'} : Finset ℕ) := by rw [← heq]; simp
          have h2 : rows.length + x ∈ ({y', rows.length + x'} : Finset ℕ) := by rw [← heq]; simp
          simp only [Finset.mem_insert, Finset.mem_singleton] at h1 h2
          obtain ⟨rfl, rfl⟩ : y = y' ∧ x = x' := by omega
          rw [hb] at hb'
          exact Option.some.inj hb'
        · rw [hset] at heq
          have h1 : y ∈ ([i] : List ℕ).toFinset := by rw [← heq]; simp
          have h2 : rows.length + x ∈ ([i] : List ℕ).toFinset := by rw [← heq]; simp
          simp at h1 h2
          omega
      · rcases (mem_entries hr e').1 he' with ⟨y', x', b', hb', rfl⟩ | ⟨j, hj, rfl⟩
        · have hy' := (MatrixReader.entry_isSome hr hb').1
          rw [hset] at heq
          have h1 : y' ∈ ([i] : List ℕ).toFinset := by rw [heq]; simp
          have h2 : rows.length + x' ∈ ([i] : List ℕ).toFinset := by rw [heq]; simp
          simp at h1 h2
          omega
        · simp at heq
          rw [heq]
  have hKdata : ∀ t d, HasData K t d ↔ BipartiteData vw w rows t d := by
    intro t d
    rw [← hdata t d]
    exact exists_congr fun s => and_congr_left fun _ => hp.mem_iff
  have hvert : ∀ i < rows.length + w, BipartiteData vw w rows {i} (vw i) := by
    intro i hi
    by_cases h : i < rows.length
    · exact .row i h
    · have := BipartiteData.column (vertexWeight := vw) (w := w) (rows := rows) (i - rows.length) (by omega)
      rwa [show rows.length + (i - rows.length) = i by omega] at this
  refine ⟨hcol.1.perm hp, ?_, hs, hKdata, ?_⟩
  · intro s hs t ht hne'
    have hv' : ∀ i < rows.length + w, ∃ u ∈ K, u.vset = {i} := by
      intro i hi
      obtain ⟨u, hu, hu', _⟩ := (hKdata _ _).2 (hvert i hi)
      exact ⟨u, hu, hu'⟩
    have hd := (hKdata s.vset s.data).1 ⟨s, hs, rfl, rfl⟩
    generalize hvs : s.vset = vs at hd ht
    generalize s.data = d at hd
    cases hd with
    | row y hy =>
      rcases Finset.subset_singleton_iff.1 ht with rfl | rfl
      · exact absurd hne' (by simp)
      · exact hv' y (by omega)
    | column x hx =>
      rcases Finset.subset_singleton_iff.1 ht with rfl | rfl
      · exact absurd hne' (by simp)
      · exact hv' _ (by omega)
    | edge y x b hb =>
      obtain ⟨hy, hx⟩ := MatrixReader.entry_isSome hr hb
      rcases subset_pair ht with rfl | rfl | rfl | rfl
      · exact absurd hne' (by simp)
      · exact hv' y (by omega)
      · exact hv' _ (by omega)
      · exact ⟨s, hs, hvs⟩
  · rw [hf]
    constructor
    · intro hm i hi b hb
      obtain ⟨y, x, he, hi'⟩ := hb
      obtain ⟨u, hu, hu', hud⟩ := (hdata _ _).2 (hvert i hi)
      obtain ⟨e, he1, he2, hed⟩ := (hdata _ _).2 (BipartiteData.edge (vertexWeight := vw) (w := w) y x b he)
      rw [← hud, ← hed]
      refine hm u hu e he1 ?_
      rw [hu', he2]
      rcases hi' with rfl | rfl <;> simp
    · intro h s hs t ht hst
      have hds := (hdata s.vset s.data).1 ⟨s, hs, rfl, rfl⟩
      have hdt := (hdata t.vset t.data).1 ⟨t, ht, rfl, rfl⟩
      by_cases hEq : s.vset = t.vset
      · rw [hcol.1.eq_of_vset hs ht hEq]
      · generalize s.vset = vs at hds hst hEq
        generalize t.vset = vt at hdt hst hEq
        generalize s.data = ds at hds ⊢
        generalize t.data = dt at hdt ⊢
        have hsub1 : ∀ i j : ℕ, ({i} : Finset ℕ) ⊆ {j} → i = j := by
          intro i j h
          simpa using h (Finset.mem_singleton_self i)
        cases hdt with
        | row y hy =>
          cases hds with
          | row y' hy' => rw [hsub1 _ _ hst]
          | column x' hx' => rw [hsub1 _ _ hst]
          | edge y' x' b hb =>
            have hy' := (MatrixReader.entry_isSome hr hb).1
            have h1 := hst (show y' ∈ ({y', rows.length + x'} : Finset ℕ) by simp)
            have h2 := hst (show rows.length + x' ∈ ({y', rows.length + x'} : Finset ℕ) by simp)
            simp at h1 h2
            omega
        | column x hx =>
          cases hds with
          | row y' hy' => rw [hsub1 _ _ hst]
          | column x' hx' => rw [hsub1 _ _ hst]
          | edge y' x' b hb =>
            have hy' := (MatrixReader.entry_isSome hr hb).1
            have h1 := hst (show y' ∈ ({y', rows.length + x'} : Finset ℕ) by simp)
            have h2 := hst (show rows.length + x' ∈ ({y', rows.length + x'} : Finset ℕ) by simp)
            simp at h1 h2
            omega
        | edge y x b hb =>
          obtain ⟨hy, hx⟩ := MatrixReader.entry_isSome hr hb
          cases hds with
          | row y' hy' =>
            have := hst (Finset.mem_singleton_self y')
            simp only [Finset.mem_insert, Finset.mem_singleton] at this
            exact h y' (by omega) _ ⟨y, x, hb, this⟩
          | column x' hx' =>
            have := hst (Finset.mem_singleton_self _)
            simp only [Finset.mem_insert, Finset.mem_singleton] at this
            exact h _ (by omega) _ ⟨y, x, hb, this⟩
          | edge y' x' b' hb' =>
            have hy' := (MatrixReader.entry_isSome hr hb').1
            have h1 := hst (show y' ∈ ({y', rows.length + x'} : Finset ℕ) by simp)
            have h2 := hst (show rows.length + x' ∈ ({y', rows.length + x'} : Finset ℕ) by simp)
            simp only [Finset.mem_insert, Finset.mem_singleton] at h1 h2
            obtain ⟨rfl, rfl⟩ : y' = y ∧ x' = x := by omega
            exact absurd rfl hEq

/-- C130. Unless absolute values are used, the complex is a filtration. -/
theorem _root_.Aleph.C130_filtration (assignMinimum : Bool) {w : ℕ} (rows : List (List α)) (hr : ∀ r ∈ rows, r.length = w) (hw : 0 < w) (hne : rows ≠ []) (a : α) (l : List α)
    (hv : rows.flatten = a :: l) : IsFiltration (build assignMinimum false rows.length w a (a :: l)) := by
  obtain ⟨vw, h1, h2, h3, _, _, h6⟩ := Aleph.C130_graph_partial assignMinimum false rows hr hw hne a l hv
  refine ⟨h2, h3, h6.2 fun i hi b hb => ?_⟩
  cases assignMinimum with
  | true => exact ((h1 i hi).2.1 rfl rfl).2 hb
  | false =>
    obtain ⟨y, x, he, _⟩ := hb
    exact ((h1 i hi).1 rfl rfl).2 ⟨y, x, he⟩

/-- C130. With absolute values, the complex is a filtration if there are no negative weights. -/
theorem _root_.Aleph.C130_nonnegative [IsOrderedAddMonoid α] (assignMinimum : Bool) {w : ℕ} (rows : List (List α)) (hr : ∀ r ∈ rows, r.length = w) (hw : 0 < w) (hne : rows ≠ []) (a : α) (l : List α)
    (hv : rows.flatten = a :: l) (hpos : ∀ y x b, entry rows y x = some b → 0 ≤ b) : IsFiltration (build assignMinimum true rows.length w a (a :: l)) := by
  obtain ⟨vw, h1, h2, h3, _, _, h6⟩ := Aleph.C130_graph_partial assignMinimum true rows hr hw hne a l hv
  refine ⟨h2, h3, h6.2 fun i hi b hb => ?_⟩
  obtain ⟨h4, h5⟩ := (h1 i hi).2.2 rfl
  have := h5 b hb
  obtain ⟨y, x, he, _⟩ := hb
  obtain ⟨y', x', he', _⟩ := h4
  rwa [abs_of_nonneg (hpos _ _ _ he), abs_of_nonneg (hpos _ _ _ he')] at this

/-- C130. With absolute values, edges may precede their vertices: this happens if a row contains a negative weight that does not have the smallest absolute value in this row. -/
theorem _root_.Aleph.C130_absolute [IsOrderedAddMonoid α] (assignMinimum : Bool) {w : ℕ} (rows : List (List α)) (hr : ∀ r ∈ rows, r.length = w) (hw : 0 < w) (hne : rows ≠ []) (a : α)
    (l : List α) (hv : rows.flatten = a :: l) (i : ℕ) (hi : i < rows.length + w) (b c : α) (hb : b ∈ incidentWeights rows i) (hc : c ∈ incidentWeights rows i) (hneg : c < 0) (hlt : |b| < |c|) :
    ¬ FacesFirst (build assignMinimum true rows.length w a (a :: l)) := by
  obtain ⟨vw, h1, h2, h3, _, _, h6⟩ := Aleph.C130_graph_partial assignMinimum true rows hr hw hne a l hv
  rw [h6]
  intro h
  obtain ⟨h4, h5⟩ := (h1 i hi).2.2 rfl
  have h7 : vw i ≤ c := h i hi c hc
  have h8 : |vw i| ≤ |b| := h5 b hb
  have h9 : |c| ≤ |vw i| := by
    rw [abs_of_neg hneg, abs_of_neg (h7.trans_lt hneg)]
    exact neg_le_neg h7
  exact absurd (h9.trans h8) (not_le.2 hlt)

/-! ### Text -/

/-- C130 (partial). A text each line of which consists of the same number of words, all of them numbers, is read as the matrix of these numbers.  The documentation also permits empty lines and
comments, see `C130_lines` and `C130_comment`. -/
theorem _root_.Aleph.C130_read_partial (assignMinimum assignAbsolute : Bool) (number : List Char → Option α) (text : List Char) (height width : ℕ) (K : Complex α) (ls : List (List Char)) (b : Bool)
    (hl : Lines text ls b) (ws : List (List (List Char))) (hws : List.Forall₂ Words ls ws) (w : ℕ) (rows : List (List α)) (hw : 0 < w) (hne : rows ≠ []) (hr : ∀ r ∈ rows, r.length = w)
    (hnum : List.Forall₂ (fun r row => r.map number = row.map some) ws rows) :
    ∃ a l, rows.flatten = a :: l ∧
      read assignMinimum assignAbsolute number text height width K = some (rows.length, w, build assignMinimum assignAbsolute rows.length w a (a :: l)) := by
  have hm := MatrixReader.words_map hws
  have hvals : MatrixReader.readValues number text = rows.flatten := by
    apply MatrixReader.readValues_all
    rw [MatrixReader.extract_lines hl, hm]
    clear hws hm hr hne
    induction hnum with
    | nil => rfl
    | cons h _ ih => simp [h, ih]
  have hcount : (Strings.getlines [] text).length = rows.length := by
    rw [getlines_spec text ls b hl, ← hnum.length_eq, ← hm, List.length_map]
  have hlen : rows.flatten.length = rows.length * w := by
    rw [List.length_flatten, List.map_congr_left hr]; simp
  have hpos := List.length_pos_iff.2 hne
  cases hv : rows.flatten with
  | nil =>
    rw [hv, List.length_nil] at hlen
    have := Nat.mul_pos hpos hw
    omega
  | cons a l =>
    refine ⟨a, l, rfl, ?_⟩
    simp only [read, hvals, hv, hcount]
    rw [← hv, hlen, if_neg (by simp), Nat.mul_div_cancel_left _ hpos]

/-- C130. Empty lines count as rows: if the number of values is a multiple of the number of all lines, the values are distributed to as many rows as there are lines, and otherwise an exception is
thrown. -/
theorem _root_.Aleph.C130_lines (assignMinimum assignAbsolute : Bool) (number : List Char → Option α) (text : List Char) (height width : ℕ) (K : Complex α) (ls : List (List Char)) (b : Bool)
    (hl : Lines text ls b) (ws : List (List Char)) (hws : Words text ws) (a : α) (l : List α) (hnum : ws.map number = (a :: l).map some) :
    (∀ w, (a :: l).length = ls.length * w → read assignMinimum assignAbsolute number text height width K = some (ls.length, w, build assignMinimum assignAbsolute ls.length w a (a :: l))) ∧
    ((¬ ∃ w, (a :: l).length = ls.length * w) → read assignMinimum assignAbsolute number text height width K = none) := by
  have hvals : MatrixReader.readValues number text = a :: l := by
    apply MatrixReader.readValues_all
    rw [MatrixReader.words_extract hws, hnum]
  constructor
  · intro w hw
    have hpos : 0 < ls.length := by
      rcases Nat.eq_zero_or_pos ls.length with h | h
      · rw [h] at hw; simp at hw
      · exact h
    simp only [read, hvals, getlines_spec text ls b hl]
    rw [hw, if_neg (by simp), Nat.mul_div_cancel_left _ hpos]
  · intro h
    simp only [read, hvals, getlines_spec text ls b hl]
    rw [if_pos]
    intro h0
    exact h (Nat.dvd_of_mod_eq_zero h0)

/-- C130. A text that starts with a comment, or with any other word that is not a number, is not read at all, without any error. -/
theorem _root_.Aleph.C130_comment (assignMinimum assignAbsolute : Bool) (number : List Char → Option α) (text : List Char) (height width : ℕ) (K : Complex α) (t : List Char) (ts : List (List Char))
    (hws : Words text (t :: ts)) (hn : number t = none) : read assignMinimum assignAbsolute number text height width K = some (height, width, K) := by
  have : MatrixReader.readValues number text = [] := by
    unfold MatrixReader.readValues
    rw [MatrixReader.words_extract hws]
    simp [hn]
  simp only [read, this]

/-- C130. A file that cannot be opened raises an exception; from any other file, its text is read with the same settings. -/
theorem _root_.Aleph.C130_file (assignMinimum assignAbsolute : Bool) (number : List Char → Option α) (height width : ℕ) (K : Complex α) :
    readFile assignMinimum assignAbsolute number none height width K = none ∧
    ∀ text, readFile assignMinimum assignAbsolute number (some text) height width K = read assignMinimum assignAbsolute number text height width K :=
  ⟨rfl, fun _ => rfl⟩

/-! ### Examples -/

/-- Whole numbers, for the examples. -/
def integer (s : List Char) : Option ℤ :=
  match s with
  | '-' :: s => (MatrixReader.digits s).map fun n => -(n : ℤ)
  | s => (MatrixReader.digits s).map fun n => (n : ℤ)

/-- Hypotheses of C130: the matrix of the documentation. -/
example : (read false false integer "0 1 2\n3 4 5\n".toList 0 0 []).map (fun r => (r.1, r.2.1, r.2.2.map fun s => (s.vertices, s.data))) =
    some (2, 3, [([0], 0), ([1], 0), ([2], 0), ([3], 0), ([4], 0), ([2, 0], 0), ([3, 0], 1), ([4, 0], 2), ([2, 1], 3), ([3, 1], 4), ([4, 1], 5)]) := by decide

/-- An empty line at the end turns the matrix with two rows and three columns into a matrix with three rows and two columns. -/
example : (read false false integer "0 1 2\n3 4 5\n\n".toList 0 0 []).map (fun r => (r.1, r.2.1)) = some (3, 2) := by decide

/-- Hypotheses of C130_absolute: the edge with weight -2 precedes its vertex with weight 1. -/
example : (read false true integer "1 -2\n".toList 0 0 []).map (fun r => r.2.2.map fun s => (s.vertices, s.data)) = some [([2], -2), ([2, 0], -2), ([0], 1), ([1], 1), ([1, 0], 1)] := by decide

example : ¬ FacesFirst (build false true 1 2 (1 : ℤ) [1, -2]) :=
  Aleph.C130_absolute false [[1, -2]] (w := 2) (by simp) (by simp) (by simp) 1 [-2] rfl 0 (by simp) 1 (-2) ⟨0, 0, by simp [entry], Or.inl rfl⟩ ⟨0, 1, by simp [entry], Or.inl rfl⟩ (by decide) (by decide)

end Aleph.BipartiteReader
