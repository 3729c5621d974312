import Verif.Lemmas.SortedLevels
import Verif.Model.PlyExample
import Verif.Props.ImageAnalysis
import Verif.Props.PlyReader
import Verif.Spec.PlyExample

/-!
# C169: the example `ply`
-/

namespace Aleph.PlyExample

open Finset Spec Spec.Ply NetworkAnalysis

variable {α : Type}

section Mesh

variable {faces : List (ℕ × ℕ × ℕ)} [LinearOrder α] {weights : List α} {K : Complex α}

/-- A complex that consists of the simplices of a mesh, with the largest one of the values of its vertices as the value of a simplex. -/
structure IsMesh (faces : List (ℕ × ℕ × ℕ)) (weights : List α) (K : Complex α) : Prop where
  wf : WF K
  closed : FaceClosed K
  data : ∀ t d, HasData K t d ↔ MeshSimplex weights.length faces t ∧ Maximum weights t d
  inside : ∀ f ∈ faces, f.1 < weights.length ∧ f.2.1 < weights.length ∧ f.2.2 < weights.length

omit [LinearOrder α] in
theorem vertex_lt (hin : ∀ f ∈ faces, f.1 < weights.length ∧ f.2.1 < weights.length ∧ f.2.2 < weights.length) {t : Finset ℕ} (h : MeshSimplex weights.length faces t) {v : ℕ} (hv : v ∈ t) :
    v < weights.length := by
  obtain ⟨-, ⟨u, hu, rfl⟩ | ⟨f, hf, ht⟩⟩ := h
  · rw [mem_singleton.1 hv]
    exact hu
  · have := ht hv
    obtain ⟨h1, h2, h3⟩ := hin f hf
    unfold corners at this
    simp only [mem_insert, mem_singleton] at this
    rcases this with rfl | rfl | rfl <;> assumption

/-- The maximum of the values of the vertices exists. -/
theorem exists_maximum (hin : ∀ f ∈ faces, f.1 < weights.length ∧ f.2.1 < weights.length ∧ f.2.2 < weights.length) {t : Finset ℕ} (h : MeshSimplex weights.length faces t) :
    ∃ d, Maximum weights t d := by
  obtain ⟨u, hu⟩ := h.1
  have : Nonempty α := ⟨weights[u]'(vertex_lt hin h hu)⟩
  have hf : ∀ v ∈ t, ∃ a, weights[v]? = some a := fun v hv => ⟨_, List.getElem?_eq_getElem (vertex_lt hin h hv)⟩
  choose! f hf using hf
  obtain ⟨v, hv, hmax⟩ := exists_max_image t f h.1
  refine ⟨f v, ⟨v, hv, hf v hv⟩, ?_⟩
  rintro a ⟨w, hw, e⟩
  rw [hf w hw] at e
  exact Option.some.inj e ▸ hmax w hw

omit [LinearOrder α] in
theorem mem_meshCells {p : α → Prop} {t : Finset ℕ} :
    t ∈ meshCells faces weights p ↔ t ⊆ range weights.length ∧ MeshSimplex weights.length faces t ∧ ∀ v ∈ t, ∃ a, weights[v]? = some a ∧ p a := by
  classical
  unfold meshCells
  rw [mem_filter, mem_powerset]

/-- Membership in terms of values. -/
theorem IsMesh.mem_cells (h : IsMesh faces weights K) (p : α → Prop) (hp : ∀ a b, a ≤ b → p b → p a) (t : Finset ℕ) :
    (∃ s ∈ K, s.vset = t ∧ p s.data) ↔ t ∈ meshCells faces weights p := by
  rw [mem_meshCells]
  constructor
  · rintro ⟨s, hs, e, hx⟩
    obtain ⟨h1, h2⟩ := (h.data t s.data).1 ⟨s, hs, e, rfl⟩
    refine ⟨fun v hv => mem_range.2 (vertex_lt h.inside h1 hv), h1, fun v hv => ?_⟩
    have e := List.getElem?_eq_getElem (vertex_lt h.inside h1 hv)
    exact ⟨_, e, hp _ _ (h2.2 ⟨v, hv, e⟩) hx⟩
  · rintro ⟨-, h1, h2⟩
    obtain ⟨d, hd⟩ := exists_maximum h.inside h1
    obtain ⟨s, hs, e, rfl⟩ := (h.data t d).2 ⟨h1, hd⟩
    obtain ⟨v, hv, e'⟩ := hd.1
    obtain ⟨a, ha, hpa⟩ := h2 v hv
    rw [ha] at e'
    exact ⟨s, hs, e, Option.some.inj e' ▸ hpa⟩

theorem IsMesh.sublevel (h : IsMesh faces weights K) (x : α) : Spec.sublevel K x = meshCells faces weights (· ≤ x) := by
  ext t
  rw [← h.mem_cells (· ≤ x) (fun a b h1 h2 => h1.trans h2), Spec.sublevel, mem_sets]
  constructor
  · rintro ⟨s, hs, e⟩
    obtain ⟨h1, h2⟩ := List.mem_filter.1 hs
    exact ⟨s, h1, e, by simpa using h2⟩
  · rintro ⟨s, hs, e, hx⟩
    exact ⟨s, List.mem_filter.2 ⟨hs, by simpa using hx⟩, e⟩

theorem IsMesh.all (h : IsMesh faces weights K) : sets K = meshCells faces weights fun _ => True := by
  ext t
  rw [← h.mem_cells (fun _ => True) (by simp), mem_sets]
  simp

theorem IsMesh.data_mem (h : IsMesh faces weights K) {s : Simplex α} (hs : s ∈ K) : s.data ∈ weights := by
  obtain ⟨-, ⟨v, -, e⟩, -⟩ := (h.data s.vset s.data).1 ⟨s, hs, rfl, rfl⟩
  exact List.mem_of_getElem? e

theorem IsMesh.length_le (h : IsMesh faces weights K) : K.length ≤ weights.length + 8 * faces.length := by
  rw [show K.length = #(sets K) from ?_]
  · have hsub : sets K ⊆ (range weights.length).image (fun v => {v}) ∪ faces.toFinset.biUnion fun f => (corners f).powerset := by
      intro t ht
      obtain ⟨s, hs, rfl⟩ := mem_sets.1 ht
      obtain ⟨⟨-, ⟨v, hv, e⟩ | ⟨f, hf, e⟩⟩, -⟩ := (h.data s.vset s.data).1 ⟨s, hs, rfl, rfl⟩
      · exact mem_union_left _ (mem_image.2 ⟨v, mem_range.2 hv, e.symm⟩)
      · exact mem_union_right _ (mem_biUnion.2 ⟨f, List.mem_toFinset.2 hf, mem_powerset.2 e⟩)
    refine (card_le_card hsub).trans ((card_union_le _ _).trans (add_le_add (card_image_le.trans (card_range _).le) ?_))
    have hc : ∀ f ∈ faces.toFinset, #(corners f).powerset ≤ 8 := by
      intro f _
      rw [card_powerset]
      exact (Nat.pow_le_pow_right (by omega) (card_le_three (a := f.1) (b := f.2.1) (c := f.2.2))).trans (by norm_num)
    refine (card_biUnion_le_card_mul _ _ _ hc).trans ?_
    rw [Nat.mul_comm]
    exact Nat.mul_le_mul_left _ (List.toFinset_card_le _)
  · rw [sets, List.toFinset_card_of_nodup, List.length_map]
    exact h.wf.nodup.map_on fun s hs t ht e => h.wf.eq_of_vset hs ht e

theorem IsMesh.vertices (h : IsMesh faces weights K) (x : α) : verticesUpTo K x = Vtk.PointsWith weights (· ≤ x) := by
  ext u
  constructor
  · rintro ⟨s, hs, e, hx⟩
    obtain ⟨-, ⟨v, hv, e'⟩, -⟩ := (h.data s.vset s.data).1 ⟨s, hs, rfl, rfl⟩
    rw [e, mem_singleton] at hv
    subst hv
    exact ⟨_, e', hx⟩
  · rintro ⟨a, ha, hx⟩
    obtain ⟨s, hs, e, rfl⟩ := (h.data {u} a).2 ⟨⟨by simp, Or.inl ⟨u, (List.getElem?_eq_some_iff.1 ha).1, rfl⟩⟩, ⟨u, by simp, ha⟩, by
      rintro b ⟨v, hv, e⟩
      rw [mem_singleton.1 hv, ha] at e
      exact (Option.some.inj e).ge⟩
    exact ⟨s, hs, e, hx⟩

theorem IsMesh.connected (h : IsMesh faces weights K) (y : α) : ConnectedUpTo K y = Relation.EqvGen (Step faces weights (· ≤ y)) := by
  have hcell : ∀ t, (∃ s ∈ K, s.vset = t ∧ s.data ≤ y) ↔ t ∈ meshCells faces weights (· ≤ y) := h.mem_cells (· ≤ y) fun a b h1 h2 => h1.trans h2
  funext u v
  refine propext ⟨ImageAnalysis.eqvGen_le ?_, ImageAnalysis.eqvGen_le ?_⟩
  · rintro a b ⟨hab, hs⟩
    rw [hcell, mem_meshCells] at hs
    obtain ⟨-, ⟨-, ⟨w, -, e⟩ | ⟨f, hf, e⟩⟩, h2⟩ := hs
    · have := congrArg Finset.card e
      rw [card_singleton, card_pair hab] at this
      omega
    · exact .rel _ _ ⟨f, hf, e (by simp), e (by simp), h2 a (by simp), h2 b (by simp)⟩
  · rintro a b ⟨f, hf, h1, h2, h3, h4⟩
    by_cases hab : a = b
    · subst hab
      exact .refl _
    · refine .rel _ _ ⟨hab, ?_⟩
      rw [hcell, mem_meshCells]
      have hm : MeshSimplex weights.length faces {a, b} := ⟨by simp, Or.inr ⟨f, hf, by
        intro v hv
        rw [mem_insert, mem_singleton] at hv
        rcases hv with rfl | rfl <;> assumption⟩⟩
      refine ⟨fun v hv => mem_range.2 (vertex_lt h.inside hm hv), hm, fun v hv => ?_⟩
      rw [mem_insert, mem_singleton] at hv
      rcases hv with rfl | rfl <;> assumption

theorem IsMesh.dimensions (h : IsMesh faces weights K) (hf : faces ≠ []) (hd : ∀ f ∈ faces, Distinct f) (e : ℕ) : (∃ t ∈ sets K, #t = e + 2) ↔ e = 0 ∨ e = 1 := by
  constructor
  · rintro ⟨t, ht, hc⟩
    obtain ⟨s, hs, rfl⟩ := mem_sets.1 ht
    obtain ⟨⟨-, ⟨v, hv, e'⟩ | ⟨f, hf, e'⟩⟩, -⟩ := (h.data s.vset s.data).1 ⟨s, hs, rfl, rfl⟩
    · rw [e', card_singleton] at hc
      omega
    · have : #s.vset ≤ 3 := (card_le_card e').trans card_le_three
      omega
  · intro he
    obtain ⟨f, hf⟩ := List.exists_mem_of_ne_nil _ hf
    obtain ⟨d1, d2, d3⟩ := hd f hf
    have key : ∀ t : Finset ℕ, t.Nonempty → t ⊆ corners f → t ∈ sets K := by
      intro t ht hsub
      have hm : MeshSimplex weights.length faces t := ⟨ht, Or.inr ⟨f, hf, hsub⟩⟩
      obtain ⟨d, hd⟩ := exists_maximum h.inside hm
      obtain ⟨s, hs, e, -⟩ := (h.data t d).2 ⟨hm, hd⟩
      exact mem_sets.2 ⟨s, hs, e⟩
    rcases he with rfl | rfl
    · exact ⟨{f.1, f.2.1}, key _ (by simp) (by simp [corners, insert_subset_iff]), card_pair d1⟩
    · exact ⟨corners f, key _ (by simp [corners]) subset_rfl, card_eq_three.2 ⟨_, _, _, d1, d2, d3, rfl⟩⟩

theorem mesh_run {inf : α} (h : IsMesh faces weights K) (hs : K.Pairwise fun s t => s.data ≤ t.data) (hff : FacesFirst K) (hf : faces ≠ []) (hd : ∀ f ∈ faces, Distinct f)
    (hinf : inf ∉ weights) (hsize : weights.length + 8 * faces.length ≤ idxMax) :
    ∃ Ds, calculatePersistenceDiagrams .twist .vector inf K = some Ds ∧ IsMeshAnalysis inf faces weights (Ds.map fun D => (D.dimension, D.removeDiagonal.points)) := by
  obtain ⟨Ds, h1, h2⟩ := ordered_levels (inf := inf) ⟨h.wf, h.closed, hff⟩ (h.length_le.trans hsize) hs fun s hs e => hinf (e ▸ h.data_mem hs)
  obtain ⟨h3, h4, h5⟩ := h2
  have hdim : (Ds.map fun D => (D.dimension, D.removeDiagonal.points)).map Prod.fst = [0, 1] := by
    have := ImageAnalysis.dims_eq h3.ascending (a := True) (b := True) (fun e => by rw [h3.dimensions, h.dimensions hf hd]; simp) (by simp)
    simpa using this
  refine ⟨Ds, h1, ?_, hdim, ?_, ?_⟩
  · rw [show (fun x => meshCells faces weights (· ≤ x)) = Spec.sublevel K from funext fun x => (h.sublevel x).symm, ← h.all]
    exact h3
  · intro E hE h0 x y hxy
    rw [← h.vertices, ← h.connected]
    exact h4 E hE h0 x y hxy
  · intro E hE p hp
    obtain ⟨⟨s, hs, e⟩, h6⟩ := h5 E hE p hp
    exact ⟨e ▸ h.data_mem hs, h6.imp_right fun ⟨t, ht, e⟩ => e ▸ h.data_mem ht⟩

end Mesh

/-! ### The program -/

variable [Zero α] [LinearOrder α]

/-- C169. The program writes the persistence diagrams of a triangular mesh whose vertices have the values of a property, by default of the coordinate `z`: for each of the dimensions
zero and one, a line for each point, and two empty lines.  Missing: superlevel sets (see `C169_superlevel`), and files that the reader does not handle (see C137). -/
theorem _root_.Aleph.C169_output_partial (c : Context α) (hlo : ∀ a, c.lo ≤ a) (hnum : ∀ d v, Pajek.Numeral d v → c.number d = some v) (files : List Char → Option (List Char))
    (opts : List ImageAnalysis.Opt) (hopts : ¬ ∃ before after, opts = before ++ .superlevel :: after ∧ ImageAnalysis.Opt.sublevel ∉ after) (filename : List Char)
    (rest : List (List Char)) (text : List Char) (hfile : files filename = some text) (header vls fls other : List (List Char)) (b : Bool)
    (hl : Lines text (header ++ (vls ++ (fls ++ other))) b) (names others : List (List Char)) (weights : List α) (faces : List (ℕ × ℕ × ℕ))
    (hh : HeaderLines header "ascii 1.0".toList weights.length names faces.length others) (prop : List Char)
    (hprop : (∃ r, rest = prop :: r ∧ prop ≠ []) ∨ (prop = ['z'] ∧ (rest = [] ∨ ∃ r, rest = [] :: r))) (hp : prop ∈ names ∨ prop ∉ others) (hw : weights ≠ []) (hf : faces ≠ [])
    (hv : List.Forall₂ (VertexLine c.real c.convert prop names) vls weights) (hfl : List.Forall₂ FaceLine fls faces) (hd : ∀ f ∈ faces, Distinct f)
    (hin : ∀ f ∈ faces, f.1 < weights.length ∧ f.2.1 < weights.length ∧ f.2.2 < weights.length) (hinf : c.inf ∉ weights) (hsize : weights.length + 8 * faces.length ≤ idxMax) :
    ∃ Es : List (ℕ × List (α × α)), main c files opts (filename :: rest) =
        .ok (0, Es.flatMap fun E => (E.2.flatMap fun p => c.print p.1 ++ '\t' :: c.print p.2 ++ ['\n']) ++ ['\n', '\n']) ∧ IsMeshAnalysis c.inf faces weights Es := by
  have e : property rest = prop := by
    rcases hprop with ⟨r, rfl, hne⟩ | ⟨rfl, rfl | ⟨r, rfl⟩⟩
    · simp [property, hne]
    · rfl
    · rfl
  obtain ⟨K, k1, k2, k3, k4, k5, k6⟩ := C137_read_partial c.lo c.hi hlo c.number hnum c.real c.convert prop text header vls fls other b hl names others weights faces hh (Or.inr hp)
    hw hf hv hfl hd hin
  obtain ⟨Ds, h1, h2⟩ := mesh_run (inf := c.inf) ⟨k2, k3, k4, hin⟩ k5 k6 hf hd hinf hsize
  refine ⟨_, ?_, h2⟩
  rw [← C166_options, Bool.not_eq_true] at hopts
  have hb : diagramBlock c = fun D : Diagram α => (D.removeDiagonal.points.flatMap fun p => c.print p.1 ++ '\t' :: c.print p.2 ++ ['\n']) ++ ['\n', '\n'] := by
    funext D
    simp [diagramBlock, FunctionAnalysis.diagramText]
  simp only [main, diagrams, complexOf, hfile, PlyReader.readFile, hopts, e, k1, Bool.false_eq_true, if_false, h1, List.flatMap_map, hb]

/-- C169. For superlevel sets, simplices are sorted by ascending values although the value of a simplex is the smallest one of those of its vertices.  Whenever two vertices of a
triangle have different values, some simplices precede their faces, so what the algorithm processes is not a filtration. -/
theorem _root_.Aleph.C169_superlevel (c : Context α) (hlo : ∀ a, c.lo ≤ a) (hnum : ∀ d v, Pajek.Numeral d v → c.number d = some v)
    (text : List Char) (header vls fls other : List (List Char)) (b : Bool)
    (hl : Lines text (header ++ (vls ++ (fls ++ other))) b) (names others : List (List Char)) (weights : List α) (faces : List (ℕ × ℕ × ℕ))
    (hh : HeaderLines header "ascii 1.0".toList weights.length names faces.length others) (prop : List Char) (hp : prop ∈ names ∨ prop ∉ others) (hw : weights ≠ []) (hf : faces ≠ [])
    (hv : List.Forall₂ (VertexLine c.real c.convert prop names) vls weights) (hfl : List.Forall₂ FaceLine fls faces) (hd : ∀ f ∈ faces, Distinct f)
    (hin : ∀ f ∈ faces, f.1 < weights.length ∧ f.2.1 < weights.length ∧ f.2.2 < weights.length)
    (hhi : ∀ a ∈ weights, a ≤ c.hi) :
    ∃ L, complexOf c true prop (some text) = .ok L ∧ sets L = meshCells faces weights (fun _ => True) ∧ L.Pairwise (fun s t => s.data ≤ t.data) ∧
      (∀ s ∈ L, ∀ v ∈ s.vset, ∀ a, weights[v]? = some a → s.data ≤ a) ∧
      ((∃ f ∈ faces, ∃ u ∈ corners f, ∃ v ∈ corners f, weights[u]? ≠ weights[v]?) → ¬ FacesFirst L) := by
  obtain ⟨K, k1, k2, k3, k4, -, -⟩ := C137_read_partial c.lo c.hi hlo c.number hnum c.real c.convert prop text header vls fls other b hl names others weights faces hh (Or.inr hp)
    hw hf hv hfl hd hin
  have hK : IsMesh faces weights K := ⟨k2, k3, k4, hin⟩
  obtain ⟨w1, w2, -, w4⟩ := C25_recalculateWeights_min c.lo c.hi false K k2 k3 fun s hs => hhi _ (hK.data_mem hs)
  set K' := Complex.recalculateWeights c.lo c.hi false false K with hK'
  have hwf : WF K' := k2.of_vertices w1
  obtain ⟨s1, s2, s3⟩ := sortData_spec hwf
  have hsets : sets K' = sets K := by
    unfold sets
    congr 1
    have : ∀ M : Complex α, M.map Simplex.vset = (M.map (·.vertices)).map List.toFinset := fun M => by rw [List.map_map]; rfl
    rw [this, this, w1]
  have hvertex : ∀ v a, weights[v]? = some a → ∃ s ∈ K', s.vset = {v} ∧ s.data = a := by
    intro v a ha
    obtain ⟨s, hs, e, e'⟩ := (k4 {v} a).2 ⟨⟨by simp, Or.inl ⟨v, (List.getElem?_eq_some_iff.1 ha).1, rfl⟩⟩, ⟨v, by simp, ha⟩, by
      rintro b ⟨u, hu, e⟩
      rw [mem_singleton.1 hu, ha] at e
      exact (Option.some.inj e).ge⟩
    exact ⟨s, w2 s hs (by simp [e]), e, e'⟩
  have hle : ∀ s ∈ K', ∀ v ∈ s.vset, ∀ a, weights[v]? = some a → s.data ≤ a := by
    intro s hs v hv a ha
    obtain ⟨t, ht, e, rfl⟩ := hvertex v a ha
    exact w4 rfl t ht s hs (by rw [e]; simpa using hv)
  refine ⟨K'.sort (asLt (Filtration.data fun a b => decide (a < b))), ?_, ?_, s2, ?_, ?_⟩
  · simp only [complexOf, PlyReader.readFile, k1, if_true, ← hK']
  · rw [← hK.all, ← hsets]
    ext t
    rw [mem_sets, mem_sets]
    simp only [s1.mem_iff]
  · intro s hs
    exact hle s (s1.mem_iff.1 hs)
  · rintro ⟨f, hf, u, hu, v, hv, hne⟩ hff
    have hmono := s3.1 hff
    have hm : MeshSimplex weights.length faces {u, v} := ⟨by simp, Or.inr ⟨f, hf, by
      intro x hx
      rw [mem_insert, mem_singleton] at hx
      rcases hx with rfl | rfl <;> assumption⟩⟩
    obtain ⟨d, hd⟩ := exists_maximum hin hm
    obtain ⟨t, ht, e, -⟩ := (k4 _ d).2 ⟨hm, hd⟩
    have : {u, v} ∈ sets K' := by rw [hsets]; exact mem_sets.2 ⟨t, ht, e⟩
    obtain ⟨t, ht, e⟩ := mem_sets.1 this
    have eu := List.getElem?_eq_getElem (vertex_lt hin hm (show u ∈ {u, v} by simp))
    have ev := List.getElem?_eq_getElem (vertex_lt hin hm (show v ∈ {u, v} by simp))
    obtain ⟨su, hsu, e1, e2⟩ := hvertex u _ eu
    obtain ⟨sv, hsv, e3, e4⟩ := hvertex v _ ev
    have a1 := hmono su hsu t ht (by rw [e1, e]; simp)
    have a2 := hmono sv hsv t ht (by rw [e3, e]; simp)
    have a3 := hle t ht u (by rw [e]; simp) _ eu
    have a4 := hle t ht v (by rw [e]; simp) _ ev
    rw [e2] at a1
    rw [e4] at a2
    apply hne
    rw [eu, ev, ← le_antisymm a3 a1, ← le_antisymm a4 a2]

/-- C169. Without an argument, the program does nothing but report failure; a file that cannot be opened ends it with an exception. -/
theorem _root_.Aleph.C169_errors (c : Context α) (files : List Char → Option (List Char)) (opts : List ImageAnalysis.Opt) (filename : List Char) (rest : List (List Char)) :
    main c files opts [] = .ok (-1, []) ∧ (files filename = none → main c files opts (filename :: rest) = .error .exception) := by
  refine ⟨rfl, fun h => ?_⟩
  simp only [main, h, diagrams, complexOf, PlyReader.readFile]

/-- Numbers are small; 99 is infinite. -/
def sampleContext : Context ℕ where
  inf := 99
  lo := 0
  hi := 98
  number := VtkReader.exampleNumber
  real := PlyReader.exampleReal
  convert := PlyReader.exampleConvert
  print n := if n = 99 then "inf".toList else [Char.ofNat (n + 48)]

/-- Two triangles; the values are 5, 0, 1 and 7, or 0, 6, 3, 6. -/
def sampleMesh : List Char :=
  "ply\nformat ascii 1.0\nelement vertex 4\nproperty float x\nproperty float y\nproperty float z\nproperty float q\nelement face 2\nproperty list uchar int vertex_indices\nend_header\n0 0 5 0\n1 0 0 6\n0 1 1 3\n1 1 7 6\n3 0 1 2\n3 1 2 3\n".toList

example : (match main sampleContext (fun _ => some sampleMesh) [] [['x']] with | .ok r => some r | .error _ => none) = some (0, "0\tinf\n\n\n\n\n".toList) := by decide +kernel

example : (match main sampleContext (fun _ => some sampleMesh) [.superlevel, .sublevel] [['x'], ['q']] with | .ok r => some r | .error _ => none) =
    some (0, "0\tinf\n\n\n\n\n".toList) := by decide +kernel

/-- The superlevel sets of a connected mesh with maximum seven have an infinite point that is created at seven, and no point is destroyed at a larger value than it is created.  The program
reports an infinite point that is created at the minimum, and destroys every other component, also that of the maximum. -/
example : (match main sampleContext (fun _ => some sampleMesh) [.superlevel] [['x']] with | .ok r => some r | .error _ => none) =
    some (0, "0\tinf\n1\t0\n5\t0\n7\t0\n\n\n1\t0\n1\t0\n\n\n".toList) := by decide +kernel

/-- The hypotheses of `C169_output_partial` hold for a triangle. -/
example : ∃ text, ∃ Es : List (ℕ × List (ℕ × ℕ)), main sampleContext (fun _ => some text) [] [['x'], "quality".toList] =
      .ok (0, Es.flatMap fun E => (E.2.flatMap fun p => sampleContext.print p.1 ++ '\t' :: sampleContext.print p.2 ++ ['\n']) ++ ['\n', '\n']) ∧
    IsMeshAnalysis 99 [(0, 1, 2)] [5, 7, 3] Es := by
  have hl := SparseReader.lines_flat (text := _) rfl (ls := PlyReader.exampleHeader "ascii 1.0" "3" "1" ++ (PlyReader.exampleVertices ++ (["3 0 1 2".toList] ++ []))) (by decide)
  exact ⟨_, C169_output_partial sampleContext (fun a => Nat.zero_le a) VtkReader.example_number (fun _ => some _) [] (by simp) ['x'] ["quality".toList] _ rfl _ _ _ _ _ hl PlyReader.exampleNames
    ["vertex_indices".toList] [5, 7, 3] [(0, 1, 2)] PlyReader.example_ascii _ (Or.inl ⟨[], rfl, by decide⟩) (by decide) (by decide) (by decide) PlyReader.example_vertices
    (.cons PlyReader.example_face .nil) (by simp [Distinct]) (by simp) (by decide) (by simp [idxMax])⟩

/-- The hypotheses of `C169_superlevel` hold for a triangle. -/
example : ∃ text L, complexOf sampleContext true "quality".toList (some text) = .ok L ∧ ¬ FacesFirst L := by
  have hl := SparseReader.lines_flat (text := _) rfl (ls := PlyReader.exampleHeader "ascii 1.0" "3" "1" ++ (PlyReader.exampleVertices ++ (["3 0 1 2".toList] ++ []))) (by decide)
  obtain ⟨L, h1, -, -, -, h2⟩ := C169_superlevel sampleContext (fun a => Nat.zero_le a) VtkReader.example_number _ _ _ _ _ _ hl PlyReader.exampleNames
    ["vertex_indices".toList] [5, 7, 3] [(0, 1, 2)] PlyReader.example_ascii _ (by decide) (by decide) (by decide) PlyReader.example_vertices
    (.cons PlyReader.example_face .nil) (by simp [Distinct]) (by simp) (by simp [sampleContext])
  exact ⟨_, L, h1, h2 ⟨(0, 1, 2), by simp, 0, by simp [corners], 1, by simp [corners], by simp⟩⟩

end Aleph.PlyExample
