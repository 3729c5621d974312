import Verif.Lemmas.SortedLevels
import Verif.Model.VtkExample
import Verif.Props.ImageAnalysis
import Verif.Props.VtkReader
import Verif.Spec.VtkExample

/-!
# C168: the example `vtk`
-/

namespace Aleph.VtkExample

open Finset Spec Spec.Vtk NetworkAnalysis

variable {α : Type}

section Grid

variable {nx ny nz : ℕ}

theorem adjacent_symm {p q : ℕ × ℕ × ℕ} (h : Adjacent p q) : Adjacent q p := by
  unfold Adjacent at h ⊢
  omega

/-- The difference of the numbers of adjacent points. -/
theorem index_cases {p q : ℕ × ℕ × ℕ} (hp : Inside nx ny nz p) (hq : Inside nx ny nz q) (h : Adjacent p q) :
    (index nx ny q < index nx ny p ∧ (index nx ny q = index nx ny p - 1 ∨ index nx ny q = index nx ny p - nx ∨ index nx ny q = index nx ny p - ny * nx)) ∨
      index nx ny p < index nx ny q := by
  obtain ⟨x, y, z⟩ := p
  obtain ⟨x', y', z'⟩ := q
  obtain ⟨h1, h2, h3⟩ := hp
  obtain ⟨h4, h5, h6⟩ := hq
  simp only at h1 h2 h3 h4 h5 h6
  unfold Adjacent at h
  simp only at h
  have hx : 0 < nx := by omega
  have hy : 0 < ny := by omega
  have hxy : 0 < ny * nx := Nat.mul_pos hy hx
  unfold index
  simp only
  by_cases c1 : x = x'
  · subst c1
    by_cases c2 : y = y'
    · subst c2
      rcases Nat.lt_or_ge z z' with c | c
      · right
        obtain rfl : z' = z + 1 := by omega
        have : (((z + 1) * ny + y) * nx + x) = ((z * ny + y) * nx + x) + ny * nx := by ring
        omega
      · left
        obtain rfl : z = z' + 1 := by omega
        have : (((z' + 1) * ny + y) * nx + x) = ((z' * ny + y) * nx + x) + ny * nx := by ring
        omega
    · obtain rfl : z = z' := by omega
      rcases Nat.lt_or_ge y y' with c | c
      · right
        obtain rfl : y' = y + 1 := by omega
        have : ((z * ny + (y + 1)) * nx + x) = ((z * ny + y) * nx + x) + nx := by ring
        omega
      · left
        obtain rfl : y = y' + 1 := by omega
        have : ((z * ny + (y' + 1)) * nx + x) = ((z * ny + y') * nx + x) + nx := by ring
        omega
  · obtain rfl : y = y' := by omega
    obtain rfl : z = z' := by omega
    omega

variable (nx ny nz) in
/-- A complex that consists of the points and edges of a grid, with the larger one of the values of its points as the value of an edge. -/
structure IsGrid [LinearOrder α] (values : List α) (K : Complex α) : Prop where
  wf : WF K
  closed : FaceClosed K
  data : ∀ t d, HasData K t d ↔ GridData max nx ny nz values t d

variable [LinearOrder α] {values : List α} {K : Complex α}

omit [LinearOrder α] in
theorem getElem?_lt {v : ℕ} {a : α} (h : values[v]? = some a) : v < values.length := (List.getElem?_eq_some_iff.1 h).1

/-- Membership in terms of values. -/
theorem IsGrid.mem_cells (h : IsGrid nx ny nz values K) (p : α → Prop) (hp : ∀ a b, p (max a b) ↔ p a ∧ p b) (t : Finset ℕ) :
    (∃ s ∈ K, s.vset = t ∧ p s.data) ↔ t ∈ gridCells nx ny nz values p := by
  classical
  unfold gridCells
  rw [mem_filter, mem_powerset]
  constructor
  · rintro ⟨s, hs, e, hx⟩
    rcases (h.data t s.data).1 ⟨s, hs, e, rfl⟩ with ⟨v, hv, rfl⟩ | ⟨q, r, a, b, h1, h2, h3, h4, h5, h6, rfl, hd⟩
    · exact ⟨by simpa using getElem?_lt hv, Or.inl ⟨v, ⟨_, hv, hx⟩, rfl⟩⟩
    · rw [hd, hp] at hx
      refine ⟨?_, Or.inr ⟨_, _, ⟨q, r, a, b, h1, h2, h3, rfl, rfl, h5, h6, hx.1, hx.2⟩, rfl⟩⟩
      intro v hv
      rw [mem_insert, mem_singleton] at hv
      rw [mem_range]
      rcases hv with rfl | rfl
      · exact getElem?_lt h5
      · exact getElem?_lt h6
  · rintro ⟨-, ⟨u, ⟨a, ha, hx⟩, rfl⟩ | ⟨u, v, ⟨q, r, a, b, h1, h2, h3, rfl, rfl, h5, h6, hxa, hxb⟩, rfl⟩⟩
    · obtain ⟨s, hs, e, rfl⟩ := (h.data {u} a).2 (Or.inl ⟨u, ha, rfl⟩)
      exact ⟨s, hs, e, hx⟩
    · rcases index_cases h1 h2 h3 with ⟨h4, -⟩ | h4
      · obtain ⟨s, hs, e, hd⟩ := (h.data _ (max a b)).2 (Or.inr ⟨q, r, a, b, h1, h2, h3, h4, h5, h6, rfl, rfl⟩)
        exact ⟨s, hs, e, by rw [hd, hp]; exact ⟨hxa, hxb⟩⟩
      · obtain ⟨s, hs, e, hd⟩ := (h.data _ (max b a)).2 (Or.inr ⟨r, q, b, a, h2, h1, adjacent_symm h3, h4, h6, h5, rfl, rfl⟩)
        exact ⟨s, hs, by rw [e, pair_comm], by rw [hd, hp]; exact ⟨hxb, hxa⟩⟩

theorem IsGrid.sublevel (h : IsGrid nx ny nz values K) (x : α) : Spec.sublevel K x = gridCells nx ny nz values (· ≤ x) := by
  ext t
  rw [← h.mem_cells (· ≤ x) (fun a b => max_le_iff), Spec.sublevel, mem_sets]
  constructor
  · rintro ⟨s, hs, e⟩
    obtain ⟨h1, h2⟩ := List.mem_filter.1 hs
    exact ⟨s, h1, e, by simpa using h2⟩
  · rintro ⟨s, hs, e, hx⟩
    exact ⟨s, List.mem_filter.2 ⟨hs, by simpa using hx⟩, e⟩

theorem IsGrid.all (h : IsGrid nx ny nz values K) : sets K = gridCells nx ny nz values fun _ => True := by
  ext t
  rw [← h.mem_cells (fun _ => True) (by simp), mem_sets]
  simp

theorem IsGrid.monotone (h : IsGrid nx ny nz values K) : Spec.Monotone K := by
  intro s hs t ht hst
  rcases (h.data t.vset t.data).1 ⟨t, ht, rfl, rfl⟩ with ⟨v, hv, e⟩ | ⟨q, r, a, b, h1, h2, h3, h4, h5, h6, e, hd⟩
  · rw [e] at hst
    have hne : s.vset.Nonempty := h.wf.vset_nonempty hs
    have : s.vset = {v} := (subset_singleton_iff.1 hst).resolve_left hne.ne_empty
    rw [h.wf.eq_of_vset hs ht (this.trans e.symm)]
  · rcases (h.data s.vset s.data).1 ⟨s, hs, rfl, rfl⟩ with ⟨v, hv, e'⟩ | ⟨q', r', a', b', -, -, -, h4', -, -, e', -⟩
    · rw [e', e, singleton_subset_iff, mem_insert, mem_singleton] at hst
      rw [hd]
      rcases hst with rfl | rfl
      · rw [hv] at h5
        obtain h5 := Option.some.inj h5
        exact h5 ▸ le_max_left _ _
      · rw [hv] at h6
        obtain h6 := Option.some.inj h6
        exact h6 ▸ le_max_right _ _
    · have c1 : #s.vset = 2 := by rw [e', card_pair h4'.ne']
      have c2 : #t.vset = 2 := by rw [e, card_pair h4.ne']
      rw [h.wf.eq_of_vset hs ht (eq_of_subset_of_card_le hst (by omega))]

/-- There are at most three edges for each point. -/
theorem IsGrid.length_le (h : IsGrid nx ny nz values K) : K.length ≤ 4 * values.length := by
  rw [show K.length = #(sets K) from ?_]
  · have hsub : sets K ⊆ (range values.length).image (fun v => {v}) ∪
        ((range values.length).image (fun v => {v, v - 1}) ∪ ((range values.length).image (fun v => {v, v - nx}) ∪ (range values.length).image fun v => {v, v - ny * nx})) := by
      intro t ht
      obtain ⟨s, hs, rfl⟩ := mem_sets.1 ht
      simp only [mem_union, mem_image, mem_range]
      rcases (h.data s.vset s.data).1 ⟨s, hs, rfl, rfl⟩ with ⟨v, hv, e⟩ | ⟨q, r, a, b, h1, h2, h3, h4, h5, h6, e, -⟩
      · exact Or.inl ⟨v, getElem?_lt hv, e.symm⟩
      · rcases index_cases h1 h2 h3 with ⟨-, g | g | g⟩ | g
        · exact Or.inr (Or.inl ⟨_, getElem?_lt h5, by rw [e, ← g]⟩)
        · exact Or.inr (Or.inr (Or.inl ⟨_, getElem?_lt h5, by rw [e, ← g]⟩))
        · exact Or.inr (Or.inr (Or.inr ⟨_, getElem?_lt h5, by rw [e, ← g]⟩))
        · omega
    refine (card_le_card hsub).trans ?_
    have hc : ∀ f : ℕ → Finset ℕ, #((range values.length).image f) ≤ values.length := fun f => card_image_le.trans (card_range _).le
    refine (card_union_le _ _).trans ?_
    have g1 := card_union_le ((range values.length).image fun v => ({v, v - 1} : Finset ℕ)) ((range values.length).image (fun v => {v, v - nx}) ∪ (range values.length).image fun v => {v, v - ny * nx})
    have g2 := card_union_le ((range values.length).image fun v => ({v, v - nx} : Finset ℕ)) ((range values.length).image fun v => {v, v - ny * nx})
    have := hc fun v => {v}
    have := hc fun v => {v, v - 1}
    have := hc fun v => {v, v - nx}
    have := hc fun v => {v, v - ny * nx}
    omega
  · rw [sets, List.toFinset_card_of_nodup, List.length_map]
    exact h.wf.nodup.map_on fun s hs t ht e => h.wf.eq_of_vset hs ht e

theorem IsGrid.vertices (h : IsGrid nx ny nz values K) (x : α) : verticesUpTo K x = PointsWith values (· ≤ x) := by
  ext u
  constructor
  · rintro ⟨s, hs, e, hx⟩
    rcases (h.data s.vset s.data).1 ⟨s, hs, rfl, rfl⟩ with ⟨v, hv, e'⟩ | ⟨q, r, a, b, h1, h2, h3, h4, h5, h6, e', -⟩
    · obtain rfl : u = v := singleton_injective (e.symm.trans e')
      exact ⟨_, hv, hx⟩
    · have := congrArg Finset.card (e.symm.trans e')
      rw [card_singleton, card_pair h4.ne'] at this
      omega
  · rintro ⟨a, ha, hx⟩
    obtain ⟨s, hs, e, rfl⟩ := (h.data {u} a).2 (Or.inl ⟨u, ha, rfl⟩)
    exact ⟨s, hs, e, hx⟩

theorem IsGrid.connected (h : IsGrid nx ny nz values K) (y : α) : ConnectedUpTo K y = Relation.EqvGen (Step nx ny nz values (· ≤ y)) := by
  funext u v
  refine propext ⟨ImageAnalysis.eqvGen_le ?_, ImageAnalysis.eqvGen_le ?_⟩
  · rintro a b ⟨hab, s, hs, e, hy⟩
    rcases (h.data s.vset s.data).1 ⟨s, hs, rfl, rfl⟩ with ⟨v, hv, e'⟩ | ⟨q, r, c, d, h1, h2, h3, h4, h5, h6, e', hd⟩
    · have := congrArg Finset.card (e.symm.trans e')
      rw [card_singleton, card_pair hab] at this
      omega
    · rw [hd, max_le_iff] at hy
      have hst : Step nx ny nz values (· ≤ y) (index nx ny q) (index nx ny r) := ⟨q, r, c, d, h1, h2, h3, rfl, rfl, h5, h6, hy.1, hy.2⟩
      have e := e.symm.trans e'
      have ha : a ∈ ({index nx ny q, index nx ny r} : Finset ℕ) := by rw [← e]; simp
      have hb : b ∈ ({index nx ny q, index nx ny r} : Finset ℕ) := by rw [← e]; simp
      rw [mem_insert, mem_singleton] at ha hb
      rcases ha with rfl | rfl <;> rcases hb with rfl | rfl
      · exact absurd rfl hab
      · exact .rel _ _ hst
      · exact .symm _ _ (.rel _ _ hst)
      · exact absurd rfl hab
  · rintro a b ⟨q, r, c, d, h1, h2, h3, rfl, rfl, h5, h6, hc, hd⟩
    refine .rel _ _ ⟨VtkReader.index_ne h1 h2 h3, ?_⟩
    rcases index_cases h1 h2 h3 with ⟨h4, -⟩ | h4
    · obtain ⟨s, hs, e, hd'⟩ := (h.data _ (max c d)).2 (Or.inr ⟨q, r, c, d, h1, h2, h3, h4, h5, h6, rfl, rfl⟩)
      exact ⟨s, hs, e, by rw [hd']; exact max_le hc hd⟩
    · obtain ⟨s, hs, e, hd'⟩ := (h.data _ (max d c)).2 (Or.inr ⟨r, q, d, c, h2, h1, adjacent_symm h3, h4, h6, h5, rfl, rfl⟩)
      exact ⟨s, hs, by rw [e, pair_comm], by rw [hd']; exact max_le hd hc⟩

theorem IsGrid.data_mem (h : IsGrid nx ny nz values K) {s : Simplex α} (hs : s ∈ K) : s.data ∈ values := by
  rcases (h.data s.vset s.data).1 ⟨s, hs, rfl, rfl⟩ with ⟨v, hv, -⟩ | ⟨q, r, a, b, -, -, -, -, h5, h6, -, hd⟩
  · exact List.mem_of_getElem? hv
  · rw [hd]
    rcases max_choice a b with e | e <;> rw [e]
    · exact List.mem_of_getElem? h5
    · exact List.mem_of_getElem? h6

/-- Two adjacent points of a grid. -/
theorem exists_adjacent (hn : 2 ≤ nx * ny * nz) : ∃ p q, Inside nx ny nz p ∧ Inside nx ny nz q ∧ Adjacent p q := by
  have hx : 0 < nx := Nat.pos_of_ne_zero fun h => by simp [h] at hn
  have hy : 0 < ny := Nat.pos_of_ne_zero fun h => by simp [h] at hn
  have hz : 0 < nz := Nat.pos_of_ne_zero fun h => by simp [h] at hn
  by_cases h1 : 2 ≤ nx
  · exact ⟨(1, 0, 0), (0, 0, 0), ⟨h1, hy, hz⟩, ⟨hx, hy, hz⟩, by simp [Adjacent]⟩
  · obtain rfl : nx = 1 := by omega
    by_cases h2 : 2 ≤ ny
    · exact ⟨(0, 1, 0), (0, 0, 0), ⟨hx, h2, hz⟩, ⟨hx, hy, hz⟩, by simp [Adjacent]⟩
    · obtain rfl : ny = 1 := by omega
      exact ⟨(0, 0, 1), (0, 0, 0), ⟨hx, hy, by simpa [Nat.succ_le_iff] using hn⟩, ⟨hx, hy, hz⟩, by simp [Adjacent]⟩

theorem IsGrid.edge_iff (h : IsGrid nx ny nz values K) (hv : nx * ny * nz ≤ values.length) (e : ℕ) : (∃ t ∈ sets K, #t = e + 2) ↔ e = 0 ∧ 2 ≤ nx * ny * nz := by
  constructor
  · rintro ⟨t, ht, hc⟩
    obtain ⟨s, hs, rfl⟩ := mem_sets.1 ht
    rcases (h.data s.vset s.data).1 ⟨s, hs, rfl, rfl⟩ with ⟨v, hv, e'⟩ | ⟨q, r, a, b, h1, h2, h3, h4, h5, h6, e', -⟩
    · rw [e', card_singleton] at hc
      omega
    · rw [e', card_pair h4.ne'] at hc
      have := VtkReader.index_lt h1
      omega
  · rintro ⟨rfl, hn⟩
    obtain ⟨p, q, h1, h2, h3⟩ := exists_adjacent hn
    have key : ∀ p q, Inside nx ny nz p → Inside nx ny nz q → Adjacent p q → index nx ny q < index nx ny p → ∃ t ∈ sets K, #t = 0 + 2 := by
      intro p q h1 h2 h3 h4
      obtain ⟨s, hs, e, -⟩ := (h.data _ _).2 (Or.inr ⟨p, q, _, _, h1, h2, h3, h4, List.getElem?_eq_getElem ((VtkReader.index_lt h1).trans_le hv),
        List.getElem?_eq_getElem ((VtkReader.index_lt h2).trans_le hv), rfl, rfl⟩)
      exact ⟨s.vset, mem_sets.2 ⟨s, hs, rfl⟩, by rw [e, card_pair h4.ne']⟩
    rcases index_cases h1 h2 h3 with ⟨h4, -⟩ | h4
    · exact key p q h1 h2 h3 h4
    · exact key q p h2 h1 (adjacent_symm h3) h4

theorem grid_run {inf : α} (h : IsGrid nx ny nz values K) (hv : nx * ny * nz ≤ values.length) (hinf : inf ∉ values) (hsize : 4 * values.length ≤ idxMax) :
    ∃ Ds, calculatePersistenceDiagrams .twist .vector inf (K.sort (asLt (Filtration.data fun a b => decide (a < b)))) = some Ds ∧
      IsGridAnalysis inf nx ny nz values (Ds.map fun D => (D.dimension, D.removeDiagonal.points)) := by
  obtain ⟨Ds, h1, h2⟩ := sorted_levels h.wf h.closed h.monotone (h.length_le.trans hsize) (inf := inf) fun s hs e => hinf (e ▸ h.data_mem hs)
  obtain ⟨h3, h4, h5⟩ := h2
  have hdim : (Ds.map fun D => (D.dimension, D.removeDiagonal.points)).map Prod.fst = if 2 ≤ nx * ny * nz then [0] else [] := by
    have := ImageAnalysis.dims_eq h3.ascending (a := 2 ≤ nx * ny * nz) (b := False) (fun e => by rw [h3.dimensions, h.edge_iff hv]; simp) (by simp)
    rw [this]
    simp only [not_false_eq_true, if_true]
    split_ifs <;> rfl
  refine ⟨Ds, h1, ?_, hdim, ?_, ?_⟩
  · rw [show (fun x => gridCells nx ny nz values (· ≤ x)) = Spec.sublevel K from funext fun x => (h.sublevel x).symm, ← h.all]
    exact h3
  · intro E hE x y hxy
    rw [← h.vertices, ← h.connected]
    refine h4 E hE ?_ x y hxy
    have : E.1 ∈ if 2 ≤ nx * ny * nz then [0] else [] := hdim ▸ List.mem_map_of_mem hE
    split_ifs at this
    · simpa using this
    · simp at this
  · intro E hE p hp
    obtain ⟨⟨s, hs, e⟩, h6⟩ := h5 E hE p hp
    exact ⟨e ▸ h.data_mem hs, h6.imp_right fun ⟨t, ht, e⟩ => e ▸ h.data_mem ht⟩

end Grid

/-! ### The program -/

theorem sublevel_run [LinearOrder α] {inf : α} {number : List Char → Option ℕ} (hnum : ∀ d v, Pajek.Numeral d v → number d = some v) {convert : List Char → α} {text : List Char}
    {ls : List (List Char)} {b : Bool} (hl : Lines text ls b) {nx ny nz n size : ℕ} {ws : List (List Char)} {ss : List (List Char × List Char)} (h : File ls nx ny nz n size ws ss)
    (hv : nx * ny * nz ≤ ws.length) (hinf : ∀ w ∈ ws, convert w ≠ inf) (hsize : 4 * ws.length ≤ idxMax) :
    ∃ Ds, diagrams inf number convert false (some text) = some Ds ∧ IsGridAnalysis inf nx ny nz (ws.map convert) (Ds.map fun D => (D.dimension, D.removeDiagonal.points)) := by
  obtain ⟨r, K, k1, k2, k3, k4, -⟩ := C136_read_partial number hnum convert max {} [] text ls b hl nx ny nz n size ws ss h hv
  obtain ⟨Ds, h1, h2⟩ := grid_run (inf := inf) ⟨k2, k3, k4⟩ (by simpa using hv) (by
    intro hm
    obtain ⟨w, hw, e⟩ := List.mem_map.1 hm
    exact hinf w hw e) (by simpa using hsize)
  refine ⟨Ds, ?_, h2⟩
  simp only [diagrams, VtkReader.readFile, Bool.false_eq_true, if_false, k1, h1]

/-- C168. The program writes the persistence diagram of the graph of a structured grid, for superlevel sets if this is the last option about levels: one line for each point, and an
empty line. -/
theorem _root_.Aleph.C168_output [LinearOrder α] (inf : α) (number : List Char → Option ℕ) (hnum : ∀ d v, Pajek.Numeral d v → number d = some v) (convert : List Char → α)
    (print : α → List Char) (files : List Char → Option (List Char)) (opts : List ImageAnalysis.Opt) (filename : List Char) (rest : List (List Char)) (text : List Char)
    (hf : files filename = some text) (ls : List (List Char)) (b : Bool) (hl : Lines text ls b) (nx ny nz n size : ℕ) (ws : List (List Char)) (ss : List (List Char × List Char))
    (h : File ls nx ny nz n size ws ss) (hv : nx * ny * nz ≤ ws.length) (hinf : ∀ w ∈ ws, convert w ≠ inf) (hsize : 4 * ws.length ≤ idxMax) :
    ∃ Es : List (ℕ × List (α × α)), main inf number convert print files opts (filename :: rest) =
        some (0, Es.flatMap fun E => (E.2.flatMap fun p => print p.1 ++ '\t' :: print p.2 ++ ['\n']) ++ ['\n']) ∧
      ((∃ before after, opts = before ++ .superlevel :: after ∧ ImageAnalysis.Opt.sublevel ∉ after) → IsGridAnalysis (α := αᵒᵈ) inf nx ny nz (ws.map convert) Es) ∧
      ((¬ ∃ before after, opts = before ++ .superlevel :: after ∧ ImageAnalysis.Opt.sublevel ∉ after) → IsGridAnalysis inf nx ny nz (ws.map convert) Es) := by
  have hmain : ∀ Ds, diagrams inf number convert (ImageAnalysis.settings opts) (some text) = some Ds → main inf number convert print files opts (filename :: rest) =
        some (0, (Ds.map fun D => (D.dimension, D.removeDiagonal.points)).flatMap fun E => (E.2.flatMap fun p => print p.1 ++ '\t' :: print p.2 ++ ['\n']) ++ ['\n']) := by
    intro Ds hD
    have hb : diagramBlock print = fun D : Diagram α => (D.removeDiagonal.points.flatMap fun p => print p.1 ++ '\t' :: print p.2 ++ ['\n']) ++ ['\n'] := by
      funext D
      simp [diagramBlock, FunctionAnalysis.diagramText]
    simp only [main, hf, hD, List.flatMap_map, hb]
  rw [← C166_options]
  cases hs : ImageAnalysis.settings opts with
  | false =>
    obtain ⟨Ds, h1, h2⟩ := sublevel_run hnum hl h hv hinf hsize
    exact ⟨_, hmain Ds (by rw [hs]; exact h1), (by intro h; cases h), fun _ => h2⟩
  | true =>
    obtain ⟨Ds, h1, h2⟩ : ∃ Ds : List (Diagram α), diagrams inf number convert true (some text) = some Ds ∧
        IsGridAnalysis (α := αᵒᵈ) inf nx ny nz (ws.map convert) (Ds.map fun D : Diagram α => (D.dimension, D.removeDiagonal.points)) :=
      sublevel_run (α := αᵒᵈ) (inf := inf) (convert := convert) hnum hl h hv hinf hsize
    exact ⟨Ds.map fun D => (D.dimension, D.removeDiagonal.points), hmain Ds (by rw [hs]; exact h1), fun _ => h2, fun h => absurd rfl h⟩

/-- C168. Without an argument, the program does nothing but report failure; a file that cannot be opened ends it with an exception, and so does a file with at least two points but
at most one value. -/
theorem _root_.Aleph.C168_errors [LinearOrder α] (inf : α) (number : List Char → Option ℕ) (hnum : ∀ d v, Pajek.Numeral d v → number d = some v) (convert : List Char → α)
    (print : α → List Char) (files : List Char → Option (List Char)) (opts : List ImageAnalysis.Opt) (filename : List Char) (rest : List (List Char)) :
    main inf number convert print files opts [] = some (-1, []) ∧
    (files filename = none → main inf number convert print files opts (filename :: rest) = none) ∧
    ∀ text ls b nx ny nz n size ws ss, files filename = some text → Lines text ls b → File ls nx ny nz n size ws ss → 2 ≤ nx * ny * nz → ws.length ≤ 1 →
      main inf number convert print files opts (filename :: rest) = none := by
  refine ⟨rfl, fun h => ?_, fun text ls b nx ny nz n size ws ss hf hl h hn hw => ?_⟩
  · simp only [main, h, diagrams, VtkReader.readFile]
  · have := C136_missing (if ImageAnalysis.settings opts = true then min else max) nx ny nz (ws.map convert) hn (by simpa using hw)
    simp only [main, hf, diagrams, VtkReader.readFile, VtkReader.read_spec number hnum convert _ {} [] hl h, this]
    rfl

/-- A grid of three by two points. -/
def sampleGrid : List Char :=
  "# vtk DataFile Version 3.0\nsample\nASCII\nDATASET STRUCTURED_GRID\nDIMENSIONS 3 2 1\nPOINTS 6 float\n0 0 0 1 0 0 2 0 0\n0 1 0 1 1 0 2 1 0\nPOINT_DATA 6\nSCALARS f float\nLOOKUP_TABLE default\n1 9 0\n2 5 3\n".toList

example : main 99 (fun w => some (ImageAnalysis.digit w |>.getD 0)) (fun w => (ImageAnalysis.digit w).getD 0) (fun n => if n = 99 then "inf".toList else [Char.ofNat (n + 48)])
    (fun _ => some sampleGrid) [] [['x']] = some (0, "0\tinf\n1\t5\n\n".toList) := by decide +kernel

/-- Superlevel sets. -/
example : main 99 (fun w => some (ImageAnalysis.digit w |>.getD 0)) (fun w => (ImageAnalysis.digit w).getD 0) (fun n => if n = 99 then "inf".toList else [Char.ofNat (n + 48)])
    (fun _ => some sampleGrid) [.sublevel, .superlevel] [['x']] = some (0, "9\tinf\n\n".toList) := by decide +kernel

/-- The hypotheses of `C168_output` hold for a grid with two points. -/
example : ∃ text, ∃ Es : List (ℕ × List (ℕ × ℕ)), main 99 VtkReader.exampleNumber (fun w => (VtkReader.exampleNumber w).getD 0) (fun _ => []) (fun _ => some text) [] [['x']] =
      some (0, Es.flatMap fun E => (E.2.flatMap fun _ => ['\t', '\n']) ++ ['\n']) ∧ IsGridAnalysis 99 2 1 1 [5, 7] Es := by
  have hl := SparseReader.lines_flat (text := _) rfl (ls := VtkReader.exampleHeader ++ ["0 0 0".toList, "1 0 0".toList] ++
    ["POINT_DATA 2".toList, "SCALARS height float 1".toList, "LOOKUP_TABLE default".toList, "5 7".toList]) (by decide)
  obtain ⟨Es, h1, -, h2⟩ := C168_output 99 VtkReader.exampleNumber VtkReader.example_number (fun w => (VtkReader.exampleNumber w).getD 0) (fun _ => []) (fun _ => some _) [] ['x'] [] _ rfl _ _ hl
    2 1 1 2 4 _ _ VtkReader.example_file (by decide) (by decide) (by simp [idxMax])
  exact ⟨_, Es, h1, h2 (by simp)⟩

end Aleph.VtkExample
