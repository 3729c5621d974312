import Verif.Model.SparseReader
import Verif.Spec.SparseReader
import Verif.Lemmas.Collects
import Verif.Props.TriangulationReader
import Verif.Props.AdjacencyMatrixReader

/-!
# C133: sparse adjacency matrices
-/

namespace Aleph

open Spec

variable {α : Type}

/-- The data of a set of vertices is that of its first occurrence in the list. -/
theorem Spec.Collects.hasData_find {K : Complex α} {entries : List (List ℕ × α)} (h : Collects K entries) (t : Finset ℕ) (d : α) :
    HasData K t d ↔ (entries.find? fun e => decide (e.1.toFinset = t)).map Prod.snd = some d := by
  obtain ⟨h1, h2, h3, h4⟩ := h
  constructor
  · rintro ⟨s, hs, rfl, rfl⟩
    exact h4 s hs
  · intro hf
    rw [Option.map_eq_some_iff] at hf
    obtain ⟨e, he, rfl⟩ := hf
    have hm := List.mem_of_find?_eq_some he
    have ht : e.1.toFinset = t := by simpa using List.find?_some he
    obtain ⟨s, hs, hst⟩ := List.mem_map.1 (h2 e hm)
    refine ⟨s, hs, hst.trans ht, ?_⟩
    have := h4 s hs
    rw [hst, ht, he] at this
    simpa using this.symm

theorem insertRange_append (K : Complex α) (l l' : List (Simplex α)) (h : ∀ s ∈ l, s.vertices ≠ []) :
    Complex.insertRange (Complex.insertRange K l).1 l' = Complex.insertRange K (l ++ l') := by
  induction l generalizing K with
  | nil => rfl
  | cons s l ih =>
    have hs : K.pushBack s ≠ none := by
      have := h s List.mem_cons_self
      simp only [Complex.pushBack]
      rw [if_neg (by simpa using this)]
      split <;> simp
    rw [List.cons_append, Complex.insertRange, Complex.insertRange]
    cases hp : K.pushBack s with
    | none => exact absurd hp hs
    | some K' => exact ih K' fun t ht => h t (List.mem_cons_of_mem _ ht)

namespace SparseReader

open Spec.Sparse Spec.Triangulation

/-! ### Texts -/

theorem getPrefix_spec {filename p : List Char} (h : Prefix filename p) : getPrefix filename = p := by
  rcases h with ⟨rest, rfl, hr⟩ | ⟨hn, rfl⟩
  · rw [getPrefix, if_pos (by simp), List.reverse_append, List.reverse_cons, List.append_assoc, List.dropWhile_append_of_pos]
    · simp
    · intro c hc
      have : c ∈ rest := List.mem_reverse.1 hc
      simp only [ne_eq, decide_eq_true_eq]
      rintro rfl
      exact hr this
  · rw [getPrefix, if_neg hn]

theorem prefix_exists (filename : List Char) : ∃ p, Prefix filename p := by
  by_cases h : '_' ∈ filename
  · have key : ∀ l : List Char, '_' ∈ l → ∃ a b, l = a ++ '_' :: b ∧ '_' ∉ b := by
      intro l
      induction l with
      | nil => simp
      | cons c l ih =>
        intro hc
        by_cases hl : '_' ∈ l
        · obtain ⟨a, b, rfl, hb⟩ := ih hl
          exact ⟨c :: a, b, rfl, hb⟩
        · rcases List.mem_cons.1 hc with rfl | hc
          · exact ⟨[], l, rfl, hl⟩
          · exact absurd hc hl
    obtain ⟨a, b, e, hb⟩ := key _ h
    exact ⟨a, Or.inl ⟨b, e, hb⟩⟩
  · exact ⟨filename, Or.inr ⟨h, rfl⟩⟩

theorem splitEach_columns {sep : Char} {ts : List (List Char)} (h0 : ts ≠ []) (hs : ∀ t ∈ ts, sep ∉ t) :
    ∀ m, (m = false ∧ ts.length = 1 ∨ ts.getLast? ≠ some []) → TriangulationReader.splitEach sep [] m ([sep].intercalate ts) = ts := by
  induction ts with
  | nil => exact absurd rfl h0
  | cons t ts ih =>
    intro m hm
    have ht : ∀ c ∈ t, c ≠ sep := fun c hc e => hs t List.mem_cons_self (e ▸ hc)
    cases ts with
    | nil =>
      have := TriangulationReader.splitEach_prefix sep t ht [] m []
      rw [List.append_nil, List.append_nil] at this
      rw [show [sep].intercalate [t] = t by simp [List.intercalate], this, TriangulationReader.splitEach]
      have : ¬ (m && t.reverse.isEmpty) = true := by
        intro h
        rw [Bool.and_eq_true, List.isEmpty_iff, List.reverse_eq_nil_iff] at h
        rcases hm with ⟨hm, _⟩ | hm
        · rw [hm] at h; cases h.1
        · rw [h.2] at hm; exact hm rfl
      rw [if_neg this, List.reverse_reverse]
    | cons t' ts =>
      have e : [sep].intercalate (t :: t' :: ts) = t ++ sep :: [sep].intercalate (t' :: ts) := by simp [List.intercalate]
      rw [e, TriangulationReader.splitEach_prefix sep t ht, TriangulationReader.splitEach, if_pos rfl, List.append_nil, List.reverse_reverse,
        ih (by simp) (fun t ht => hs t (List.mem_cons_of_mem _ ht)) true (Or.inr ?_)]
      rcases hm with ⟨_, hm⟩ | hm
      · simp at hm
      · rwa [List.getLast?_cons_cons] at hm

theorem columns_split {sep : Char} {l : List Char} {ts : List (List Char)} (h : Columns sep l ts) : TriangulationReader.splitEach sep [] false l = ts := by
  obtain ⟨rfl, h0, hs, hl⟩ := h
  exact splitEach_columns h0 hs false (hl.imp (fun h => ⟨rfl, h⟩) id)

theorem mapM_forall2 {γ δ ε : Type} {R : γ → δ → Prop} {f : γ → Except ε δ} {l : List γ} {xs : List δ} (h : List.Forall₂ R l xs) (hf : ∀ a b, R a b → f a = .ok b) :
    l.mapM f = .ok xs := by
  induction h with
  | nil => rfl
  | cons h _ ih => rw [List.mapM_cons, hf _ _ h, ih]; rfl

theorem map_forall2 {γ δ : Type} {R : γ → δ → Prop} {f : γ → δ} {l : List γ} {xs : List δ} (h : List.Forall₂ R l xs) (hf : ∀ a b, R a b → f a = b) : l.map f = xs := by
  induction h with
  | nil => rfl
  | cons h _ ih => rw [List.map_cons, hf _ _ h, ih]

theorem part_eq {trim : Bool} {l t : List Char} (h : Part trim l t) : (if trim then Strings.trim l else l) = t := by
  rcases h with ⟨rfl, h⟩ | ⟨rfl, rfl⟩
  · rw [if_pos rfl]; exact TriangulationReader.trim_content h
  · rfl

theorem readEdges_spec {files : List Char → Option (List Char)} {name : List Char} {sep : Char} {convert : List Char → ℕ} {edges : List (ℕ × ℕ)}
    (h : FileLines files name (EdgeLine sep convert) edges) : ∃ text, files name = some text ∧ readEdges sep convert text = .ok edges := by
  obtain ⟨text, ls, b, hf, hl, h2⟩ := h
  refine ⟨text, hf, ?_⟩
  rw [readEdges, getlines_spec text ls b hl]
  refine mapM_forall2 h2 ?_
  rintro l e ⟨s, t, hc, rfl⟩
  rw [columns_split hc]

theorem readGraphs_spec {files : List Char → Option (List Char)} {name : List Char} {convertId : List Char → Option ℕ} {graphs : List ℕ}
    (h : FileLines files name (GraphLine convertId) graphs) : ∃ text, files name = some text ∧ readGraphs convertId text = .ok graphs := by
  obtain ⟨text, ls, b, hf, hl, h2⟩ := h
  refine ⟨text, hf, ?_⟩
  rw [readGraphs, getlines_spec text ls b hl]
  refine mapM_forall2 h2 ?_
  rintro l g ⟨t, ht, hg⟩
  rw [TriangulationReader.trim_content ht, hg]

theorem readLabels_spec {files : List Char → Option (List Char)} {name : List Char} {trim : Bool} {labels : List (List Char)}
    (h : FileLines files name (Part trim) labels) : ∃ text, files name = some text ∧ readLabels trim text = labels := by
  obtain ⟨text, ls, b, hf, hl, h2⟩ := h
  refine ⟨text, hf, ?_⟩
  rw [readLabels, getlines_spec text ls b hl]
  exact map_forall2 h2 fun _ _ h => part_eq h

theorem readAttributes_spec {files : List Char → Option (List Char)} {name : List Char} {trim : Bool} {sep : Char} {value : List Char → α} {rows : List (List α)}
    (h : FileLines files name (Row trim sep value) rows) : ∃ text, files name = some text ∧ readAttributes trim sep value text = rows := by
  obtain ⟨text, ls, b, hf, hl, h2⟩ := h
  refine ⟨text, hf, ?_⟩
  rw [readAttributes, getlines_spec text ls b hl]
  refine map_forall2 h2 ?_
  rintro l r ⟨p, ts, hp, hc, rfl⟩
  rw [part_eq hp, columns_split hc]

/-! ### Indices -/

theorem sortedSet_spec (l : List ℕ) : (sortedSet l).Pairwise (· < ·) ∧ ∀ x, x ∈ sortedSet l ↔ x ∈ l := by
  constructor
  · have h1 : (sortedSet l).Pairwise (· ≤ ·) := List.pairwise_insertionSort (r := (· ≤ ·)) _
    have h2 : (sortedSet l).Nodup := (List.perm_insertionSort _ _).nodup_iff.2 (List.nodup_dedup l)
    exact (h1.and h2).imp fun h => lt_of_le_of_ne h.1 h.2
  · intro x
    rw [sortedSet, (List.perm_insertionSort _ _).mem_iff, List.mem_dedup]

theorem sorted_unique {l l' : List ℕ} (h : l.Pairwise (· < ·)) (h' : l'.Pairwise (· < ·)) (hm : ∀ x, x ∈ l ↔ x ∈ l') : l = l' := by
  have hp : l.Perm l' := (List.perm_ext_iff_of_nodup (h.imp fun h => h.ne) (h'.imp fun h => h.ne)).2 hm
  exact hp.eq_of_pairwise (fun a b _ _ h1 h2 => absurd h1 (not_lt.2 h2.le)) h h'

theorem idxOf?_getD {l : List ℕ} (hl : l.Nodup) {j x : ℕ} (h : l[j]? = some x) : (l.idxOf? x).getD 0 = j := by
  obtain ⟨hj, rfl⟩ := List.getElem?_eq_some_iff.1 h
  rw [List.idxOf?_eq_some_iff.2 ⟨hj, by simp, ?_⟩]
  · rfl
  · intro k hk
    have := (List.pairwise_iff_getElem.1 hl) k j (by omega) hj hk
    simpa using this

theorem graphOf_spec {graphs : List ℕ} {v g : ℕ} (h : NodeOf graphs v g) : graphOf graphs v = g := by
  obtain ⟨h1, h2⟩ := h
  rw [graphOf, if_neg (by omega), List.getD_eq_getElem?_getD, h2, Option.getD_some]

theorem nodeOf_mem {graphs : List ℕ} {v g : ℕ} (h : NodeOf graphs v g) : g ∈ graphs := List.mem_of_getElem? h.2

theorem nodeOf_unique {graphs : List ℕ} {v g g' : ℕ} (h : NodeOf graphs v g) (h' : NodeOf graphs v g') : g = g' := by
  have := h.2
  rw [h'.2] at this
  exact (Option.some.inj this).symm

/-- Graphs are numbered in ascending order. -/
theorem graphIndex_spec {graphs ids : List ℕ} (hids : ids.Pairwise (· < ·)) (hm : ∀ g, g ∈ ids ↔ g ∈ graphs) {j g : ℕ} :
    ids[j]? = some g ↔ g ∈ graphs ∧ graphIndex graphs g = j := by
  have e : sortedSet graphs = ids := sorted_unique (sortedSet_spec graphs).1 hids fun x => by rw [(sortedSet_spec graphs).2, hm]
  have hnd : ids.Nodup := hids.imp fun h => h.ne
  constructor
  · intro h
    exact ⟨(hm g).1 (List.mem_of_getElem? h), by rw [graphIndex, e]; exact idxOf?_getD hnd h⟩
  · rintro ⟨h1, rfl⟩
    obtain ⟨j, hj, hj'⟩ := List.getElem_of_mem ((hm g).2 h1)
    have hj2 : ids[j]? = some g := by rw [List.getElem?_eq_getElem hj, hj']
    rw [graphIndex, e, idxOf?_getD hnd hj2]
    exact hj2

/-- If all vertices are nodes, the index of a node is its number minus one. -/
theorem nodeIndex_spec {vertices graphs : List ℕ} (h : ∀ v ∈ vertices, 1 ≤ v ∧ v ≤ graphs.length) {v : ℕ} (hv : v ∈ vertices) : nodeIndex vertices graphs v = v - 1 := by
  have e : sortedSet (vertices ++ List.range' 1 graphs.length) = List.range' 1 graphs.length := by
    refine sorted_unique (sortedSet_spec _).1 List.pairwise_lt_range' fun x => ?_
    rw [(sortedSet_spec _).2, List.mem_append, List.mem_range'_1]
    constructor
    · rintro (hx | hx)
      · have := h x hx; omega
      · exact hx
    · exact Or.inr
  obtain ⟨h1, h2⟩ := h v hv
  rw [nodeIndex, e]
  apply idxOf?_getD (List.nodup_range' (h := by decide))
  rw [List.getElem?_range' (by omega)]
  congr 1
  omega

theorem dataOf_spec [Zero α] {use : Bool} {column : Option ℕ} {rows : List (List α)} {i : ℕ} {a : α} (h : Attribute use column rows i a) :
    dataOf use column rows i = .ok a := by
  rcases h with ⟨k, r, rfl, rfl, h1, h2⟩ | ⟨rfl | rfl, rfl⟩
  · simp [dataOf, h1, h2]
  · rfl
  · cases use <;> rfl

theorem attribute_unique [Zero α] {use : Bool} {column : Option ℕ} {rows : List (List α)} {i : ℕ} {a b : α} (h : Attribute use column rows i a)
    (h' : Attribute use column rows i b) : a = b := by
  have := (dataOf_spec h).symm.trans (dataOf_spec h')
  cases this; rfl

/-! ### Loops -/

/-- The first loop. -/
theorem addVertex_loop [Zero α] (o : Options) (graphs vertices : List ℕ) (graphLabels : List (List Char)) (attributes : List (List α)) (n : ℕ) (nd : ℕ → α)
    (idx : ℕ → ℕ) (hidx : ∀ v, idx v = graphIndex graphs (graphOf graphs v)) (hn : n ≤ graphLabels.length) :
    ∀ (vs : List ℕ) (C : List (Complex α)) (L : List (List Char)), C.length = n → L.length = n →
      (∀ v ∈ vs, idx v < n ∧ dataOf o.readNodeAttributes o.nodeAttributeIndex attributes (nodeIndex vertices graphs v) = .ok (nd v)) →
      ∃ C' L', vs.foldlM (addVertex o graphs vertices graphLabels attributes) (C, L) = .ok (C', L') ∧ C'.length = n ∧ L'.length = n ∧
        (∀ j < n, C'[j]? = C[j]?.map fun K => (Complex.insertRange K ((vs.filter fun v => idx v = j).map fun v => Simplex.ofVertex v (nd v))).1) ∧
        (∀ j < n, L'[j]? = if ∃ v ∈ vs, idx v = j then graphLabels[j]? else L[j]?) := by
  intro vs
  induction vs with
  | nil =>
    intro C L hC hL _
    refine ⟨C, L, rfl, hC, hL, ?_, ?_⟩
    · intro j hj
      rw [List.getElem?_eq_getElem (by omega)]
      rfl
    · intro j _; simp
  | cons v vs ih =>
    intro C L hC hL h
    obtain ⟨hv, hd⟩ := h v List.mem_cons_self
    have e1 : addVertex o graphs vertices graphLabels attributes (C, L) v =
        .ok (C.set (idx v) (Complex.insertRange (C[idx v]'(by omega)) [Simplex.ofVertex v (nd v)]).1, L.set (idx v) (graphLabels[idx v]'(by omega))) := by
      simp only [addVertex, ← hidx, List.getElem?_eq_getElem (show idx v < C.length by omega), List.getElem?_eq_getElem (show idx v < graphLabels.length by omega), hd]
    obtain ⟨C', L', h1, h2, h3, h4, h5⟩ := ih (C.set (idx v) (Complex.insertRange (C[idx v]'(by omega)) [Simplex.ofVertex v (nd v)]).1)
      (L.set (idx v) (graphLabels[idx v]'(by omega))) (by simpa using hC) (by simpa using hL) fun w hw => h w (List.mem_cons_of_mem _ hw)
    refine ⟨C', L', ?_, h2, h3, ?_, ?_⟩
    · rw [List.foldlM_cons, e1]; exact h1
    · intro j hj
      rw [h4 j hj]
      by_cases hj' : idx v = j
      · subst hj'
        rw [List.getElem?_set_self (by omega), List.getElem?_eq_getElem (by omega), Option.map_some, Option.map_some, List.filter_cons_of_pos (by simp), List.map_cons,
          insertRange_append _ _ _ (by simp [Simplex.ofVertex]), List.singleton_append]
      · rw [List.getElem?_set_ne hj', List.filter_cons_of_neg (by simpa using hj')]
    · intro j hj
      rw [h5 j hj]
      by_cases hvs : ∃ w ∈ vs, idx w = j
      · obtain ⟨w, hw, hw'⟩ := hvs
        rw [if_pos ⟨w, hw, hw'⟩, if_pos ⟨w, List.mem_cons_of_mem _ hw, hw'⟩]
      · rw [if_neg hvs]
        by_cases hj' : idx v = j
        · subst hj'
          rw [if_pos ⟨v, List.mem_cons_self, rfl⟩, List.getElem?_set_self (by omega), List.getElem?_eq_getElem (by omega)]
        · rw [List.getElem?_set_ne hj', if_neg]
          rintro ⟨w, hw, hw'⟩
          rcases List.mem_cons.1 hw with rfl | hw
          · exact hj' hw'
          · exact hvs ⟨w, hw, hw'⟩

/-- The second loop. -/
theorem addEdge_loop [Zero α] (o : Options) (graphs : List ℕ) (attributes : List (List α)) (n : ℕ) (ed : ℕ → α)
    (idx : ℕ → ℕ) (hidx : ∀ v, idx v = graphIndex graphs (graphOf graphs v)) :
    ∀ (es : List ((ℕ × ℕ) × ℕ)) (C : List (Complex α)), C.length = n →
      (∀ e ∈ es, idx e.1.1 < n ∧ graphOf graphs e.1.1 = graphOf graphs e.1.2 ∧ dataOf o.readEdgeAttributes o.edgeAttributeIndex attributes e.2 = .ok (ed e.2)) →
      ∃ C', es.foldlM (addEdge o graphs attributes) C = .ok C' ∧ C'.length = n ∧
        (∀ j < n, C'[j]? = C[j]?.map fun K =>
          (Complex.insertRange K ((es.filter fun e => idx e.1.1 = j).map fun e => Simplex.ofRange [e.1.1, e.1.2] (ed e.2))).1) := by
  intro es
  induction es with
  | nil =>
    intro C hC _
    refine ⟨C, rfl, hC, ?_⟩
    intro j hj
    rw [List.getElem?_eq_getElem (by omega)]
    rfl
  | cons e es ih =>
    intro C hC h
    obtain ⟨hv, hg, hd⟩ := h e List.mem_cons_self
    have e1 : addEdge o graphs attributes C e =
        .ok (C.set (idx e.1.1) (Complex.insertRange (C[idx e.1.1]'(by omega)) [Simplex.ofRange [e.1.1, e.1.2] (ed e.2)]).1) := by
      rw [addEdge, if_neg (by simpa using hg)]
      simp only [← hidx, List.getElem?_eq_getElem (show idx e.1.1 < C.length by omega), hd]
    obtain ⟨C', h1, h2, h4⟩ := ih (C.set (idx e.1.1) (Complex.insertRange (C[idx e.1.1]'(by omega)) [Simplex.ofRange [e.1.1, e.1.2] (ed e.2)]).1)
      (by simpa using hC) fun w hw => h w (List.mem_cons_of_mem _ hw)
    refine ⟨C', ?_, h2, ?_⟩
    · rw [List.foldlM_cons, e1]; exact h1
    · intro j hj
      rw [h4 j hj]
      by_cases hj' : idx e.1.1 = j
      · subst hj'
        rw [List.getElem?_set_self (by omega), List.getElem?_eq_getElem (by omega), Option.map_some, Option.map_some, List.filter_cons_of_pos (by simp), List.map_cons,
          insertRange_append _ _ _ (by
            intro s hs
            rw [List.mem_singleton] at hs
            subst hs
            exact ofRange_ne_nil (by simp) _), List.singleton_append]
      · rw [List.getElem?_set_ne hj', List.filter_cons_of_neg (by simpa using hj')]

/-- The entries of a graph. -/
def entriesOf (edges : List (ℕ × ℕ)) (vs : List ℕ) (idx : ℕ → ℕ) (nd ed : ℕ → α) (j : ℕ) : List (List ℕ × α) :=
  ((vs.filter fun v => idx v = j).map fun v => ([v], nd v)) ++ ((edges.zipIdx.filter fun e => idx e.1.1 = j).map fun e => ([e.1.1, e.1.2], ed e.2))

/-- Creation of the output: every complex is collected from the vertices and edges of its graph, and sorted. -/
theorem assemble_spec [Zero α] [LinearOrder α] (o : Options) (order : List ℕ → List ℕ) (hord : ∀ l v, v ∈ order l ↔ v ∈ l)
    (edges : List (ℕ × ℕ)) (graphs ids : List ℕ) (graphLabels : List (List Char)) (nodeRows edgeRows : List (List α))
    (hids : ids.Pairwise (· < ·)) (hm : ∀ g, g ∈ ids ↔ g ∈ graphs) (hc : Consistent o edges graphs nodeRows edgeRows) (hl : ids.length ≤ graphLabels.length)
    (nd ed : ℕ → α) (hnd : ∀ v, Incident edges v → Attribute o.readNodeAttributes o.nodeAttributeIndex nodeRows (v - 1) (nd v))
    (hed : ∀ i < edges.length, Attribute o.readEdgeAttributes o.edgeAttributeIndex edgeRows i (ed i)) :
    ∃ C L, assemble o order edges graphs graphLabels nodeRows edgeRows = .ok (C, L) ∧ C.length = ids.length ∧
      (∀ j < ids.length, ∃ K, C[j]? = some (K.sort (asLt (Filtration.data fun a b => decide (a < b)))) ∧
        Collects K (entriesOf edges (order (edges.flatMap fun e => [e.1, e.2])) (fun v => graphIndex graphs (graphOf graphs v)) nd ed j)) ∧
      (graphLabels.length = ids.length → L = graphLabels) ∧
      (ids.length < graphLabels.length → L.length = ids.length ∧
        ∀ j < ids.length, ((∃ v, Incident edges v ∧ graphIndex graphs (graphOf graphs v) = j) → L[j]? = graphLabels[j]?) ∧
          ((¬ ∃ v, Incident edges v ∧ graphIndex graphs (graphOf graphs v) = j) → L[j]? = some [])) := by
  have esorted : sortedSet graphs = ids := sorted_unique (sortedSet_spec graphs).1 hids fun x => by rw [(sortedSet_spec graphs).2, hm]
  have hinc : ∀ v, v ∈ edges.flatMap (fun e => [e.1, e.2]) ↔ Incident edges v := by
    intro v
    simp only [List.mem_flatMap, List.mem_cons, List.not_mem_nil, or_false, Incident]
  have hnode : ∀ v, Incident edges v → ∃ g, NodeOf graphs v g := by
    rintro v ⟨e, he, hv⟩
    obtain ⟨g, h1, h2⟩ := hc.graph e he
    rcases hv with rfl | rfl
    · exact ⟨g, h1⟩
    · exact ⟨g, h2⟩
  have hidx : ∀ v, Incident edges v → graphIndex graphs (graphOf graphs v) < ids.length := by
    intro v hv
    obtain ⟨g, hg⟩ := hnode v hv
    rw [graphOf_spec hg]
    exact (List.getElem?_eq_some_iff.1 ((graphIndex_spec hids hm).2 ⟨nodeOf_mem hg, rfl⟩)).1
  generalize hvs : order (edges.flatMap fun e => [e.1, e.2]) = vs
  have hmem : ∀ v, v ∈ vs ↔ Incident edges v := by
    intro v
    rw [← hvs, hord, hinc]
  have hrange : ∀ v ∈ vs, 1 ≤ v ∧ v ≤ graphs.length := by
    intro v hv
    obtain ⟨g, h1, h2⟩ := hnode v ((hmem v).1 hv)
    have := (List.getElem?_eq_some_iff.1 h2).1
    omega
  obtain ⟨C, L, h1, h2, h3, h4, h5⟩ := addVertex_loop o graphs vs graphLabels nodeRows ids.length nd _ (fun _ => rfl) hl vs
    (List.replicate ids.length []) (List.replicate ids.length []) (by simp) (by simp) (by
      intro v hv
      refine ⟨hidx v ((hmem v).1 hv), ?_⟩
      rw [nodeIndex_spec hrange hv]
      exact dataOf_spec (hnd v ((hmem v).1 hv)))
  obtain ⟨C', h6, h7, h8⟩ := addEdge_loop o graphs edgeRows ids.length ed _ (fun _ => rfl) edges.zipIdx C h2 (by
    rintro ⟨⟨u, v⟩, i⟩ he
    have hi := List.mk_mem_zipIdx_iff_getElem?.1 he
    have hmem' := List.mem_of_getElem? hi
    obtain ⟨g, g1, g2⟩ := hc.graph _ hmem'
    exact ⟨hidx u ⟨(u, v), hmem', Or.inl rfl⟩, by rw [graphOf_spec g1, graphOf_spec g2], dataOf_spec (hed i (List.getElem?_eq_some_iff.1 hi).1)⟩)
  refine ⟨C'.map fun K => K.sort (asLt (Filtration.data fun a b => decide (a < b))), if ids.length < graphLabels.length then L else graphLabels, ?_, ?_, ?_, ?_, ?_⟩
  · simp only [assemble, esorted, hvs, h1, h6]
  · simpa using h7
  · intro j hj
    have e1 := h8 j hj
    rw [h4 j hj, List.getElem?_replicate, if_pos hj, Option.map_some, Option.map_some, insertRange_append _ _ _ (by
      intro s hs
      obtain ⟨v, _, rfl⟩ := List.mem_map.1 hs
      simp [Simplex.ofVertex])] at e1
    refine ⟨_, by rw [List.getElem?_map, e1, Option.map_some], ?_⟩
    have := insertRange_collects (entriesOf edges vs (fun v => graphIndex graphs (graphOf graphs v)) nd ed j) (by
      intro e he
      rcases List.mem_append.1 he with he | he <;> obtain ⟨x, _, rfl⟩ := List.mem_map.1 he <;> simp)
    rw [entriesOf, List.map_append, List.map_map, List.map_map] at this
    exact this
  · intro h
    rw [if_neg (by omega)]
  · intro h
    rw [if_pos h]
    refine ⟨h3, fun j hj => ?_⟩
    rw [h5 j hj, List.getElem?_replicate, if_pos hj]
    have : (∃ v ∈ vs, graphIndex graphs (graphOf graphs v) = j) ↔ ∃ v, Incident edges v ∧ graphIndex graphs (graphOf graphs v) = j :=
      exists_congr fun v => and_congr_left fun _ => hmem v
    rw [← this]
    exact ⟨fun h => if_pos h, fun h => if_neg h⟩

/-- The data of a graph. -/
theorem entries_data [Zero α] (o : Options) (edges : List (ℕ × ℕ)) (graphs ids vs : List ℕ) (nodeRows edgeRows : List (List α))
    (hids : ids.Pairwise (· < ·)) (hm : ∀ g, g ∈ ids ↔ g ∈ graphs) (hc : Consistent o edges graphs nodeRows edgeRows) (hvs : ∀ v, v ∈ vs ↔ Incident edges v)
    (nd ed : ℕ → α) (hnd : ∀ v, Incident edges v → Attribute o.readNodeAttributes o.nodeAttributeIndex nodeRows (v - 1) (nd v))
    (hed : ∀ i < edges.length, Attribute o.readEdgeAttributes o.edgeAttributeIndex edgeRows i (ed i)) {j g : ℕ} (hj : ids[j]? = some g) (t : Finset ℕ) (d : α) :
    ((entriesOf edges vs (fun v => graphIndex graphs (graphOf graphs v)) nd ed j).find? fun e => decide (e.1.toFinset = t)).map Prod.snd = some d ↔
      GraphData o edges graphs nodeRows edgeRows g t d := by
  have hidx : ∀ v g', NodeOf graphs v g' → (graphIndex graphs (graphOf graphs v) = j ↔ g' = g) := by
    intro v g' hg
    rw [graphOf_spec hg]
    constructor
    · intro h
      have := (graphIndex_spec hids hm).2 ⟨nodeOf_mem hg, h⟩
      rw [hj] at this
      exact (Option.some.inj this).symm
    · rintro rfl
      exact ((graphIndex_spec hids hm).1 hj).2
  have hnode : ∀ v, Incident edges v → ∃ g, NodeOf graphs v g := by
    rintro v ⟨e, he, hv⟩
    obtain ⟨g, h1, h2⟩ := hc.graph e he
    rcases hv with rfl | rfl
    · exact ⟨g, h1⟩
    · exact ⟨g, h2⟩
  -- the vertices
  have hV : ∀ e, (((vs.filter fun v => decide (graphIndex graphs (graphOf graphs v) = j)).map fun v => ([v], nd v)).find? fun e => decide (e.1.toFinset = t)) = some e →
      ∃ v, NodeOf graphs v g ∧ Incident edges v ∧ t = {v} ∧ e.2 = nd v := by
    intro e he
    have hmem := List.mem_of_find?_eq_some he
    have ht : e.1.toFinset = t := by simpa using List.find?_some he
    obtain ⟨v, hv, rfl⟩ := List.mem_map.1 hmem
    rw [List.mem_filter, decide_eq_true_eq] at hv
    obtain ⟨g', hg'⟩ := hnode v ((hvs v).1 hv.1)
    obtain rfl := (hidx v g' hg').1 hv.2
    exact ⟨v, hg', (hvs v).1 hv.1, by rw [← ht]; simp, rfl⟩
  have hV' : ∀ v, NodeOf graphs v g → Incident edges v → t = {v} →
      ∃ e, (((vs.filter fun v => decide (graphIndex graphs (graphOf graphs v) = j)).map fun v => ([v], nd v)).find? fun e => decide (e.1.toFinset = t)) = some e := by
    rintro v hg hv rfl
    rw [← Option.isSome_iff_exists, List.find?_isSome]
    refine ⟨([v], nd v), List.mem_map.2 ⟨v, ?_, rfl⟩, by simp⟩
    rw [List.mem_filter, decide_eq_true_eq]
    exact ⟨(hvs v).2 hv, (hidx v g hg).2 rfl⟩
  -- the edges
  have hE : ∀ e, (((edges.zipIdx.filter fun e => decide (graphIndex graphs (graphOf graphs e.1.1) = j)).map fun e => ([e.1.1, e.1.2], ed e.2)).find? fun e => decide (e.1.toFinset = t)) = some e ↔
      ∃ i u v, edges[i]? = some (u, v) ∧ NodeOf graphs u g ∧ t = {u, v} ∧ (∀ j < i, ∀ u' v', edges[j]? = some (u', v') → ({u', v'} : Finset ℕ) ≠ {u, v}) ∧ e = ([u, v], ed i) := by
    intro e
    rw [List.find?_map, List.find?_filter, Option.map_eq_some_iff]
    have hset : ∀ u v : ℕ, [u, v].toFinset = {u, v} := by intro u v; ext x; simp
    constructor
    · rintro ⟨⟨⟨u, v⟩, i⟩, hf, rfl⟩
      rw [List.find?_eq_some_iff_getElem] at hf
      obtain ⟨hp, k, hk, hke, hfirst⟩ := hf
      simp only [List.getElem_zipIdx, Prod.mk.injEq, zero_add, Function.comp_apply, Bool.decide_and, Bool.and_eq_true, decide_eq_true_eq] at hke hp
      obtain ⟨hke, rfl⟩ := hke
      have hk' : k < edges.length := by simpa using hk
      have hget : edges[k]? = some (u, v) := by rw [List.getElem?_eq_getElem hk', hke]
      obtain ⟨g', g1, g2⟩ := hc.graph _ (List.mem_of_getElem? hget)
      obtain rfl := (hidx u g' g1).1 (by simpa using hp.1)
      have ht : t = {u, v} := by rw [← hset]; simpa using hp.2.symm
      refine ⟨k, u, v, hget, g1, ht, ?_, rfl⟩
      intro i hi u' v' hi' heq
      have hil : i < edges.length := by omega
      have hie : edges[i] = (u', v') := by
        have := List.getElem?_eq_getElem hil
        rw [hi'] at this
        exact (Option.some.inj this).symm
      have hnot := hfirst i hi
      simp only [List.getElem_zipIdx, hie, zero_add, Function.comp_apply, hset, heq, ht, decide_true, Bool.not_eq_true', decide_eq_false_iff_not] at hnot
      apply hnot
      have hu' : u' = u ∨ u' = v := by
        have : u' ∈ ({u, v} : Finset ℕ) := by rw [← heq]; simp
        simpa using this
      rcases hu' with rfl | rfl
      · exact ⟨decide_eq_true ((hidx _ g' g1).2 rfl), trivial⟩
      · exact ⟨decide_eq_true ((hidx _ g' g2).2 rfl), trivial⟩
    · rintro ⟨i, u, v, hi, hg, rfl, hfirst, rfl⟩
      refine ⟨((u, v), i), ?_, rfl⟩
      obtain ⟨hil, hie⟩ := List.getElem?_eq_some_iff.1 hi
      rw [List.find?_eq_some_iff_getElem]
      refine ⟨?_, i, by simpa using hil, by simp [hie], ?_⟩
      · simp only [Function.comp_apply, hset, decide_true, decide_eq_true_eq]
        exact ⟨(hidx u g hg).2 rfl, trivial⟩
      · intro k hk
        have hkl : k < edges.length := by omega
        have := hfirst k hk edges[k].1 edges[k].2 (by rw [List.getElem?_eq_getElem hkl])
        simp [hset, this]
  rw [entriesOf, List.find?_append]
  cases hf : (((vs.filter fun v => decide (graphIndex graphs (graphOf graphs v) = j)).map fun v => ([v], nd v)).find? fun e => decide (e.1.toFinset = t)) with
  | some e =>
    obtain ⟨v, h1, h2, rfl, h4⟩ := hV e hf
    rw [Option.some_or, Option.map_some, Option.some.injEq, h4]
    constructor
    · rintro rfl
      exact Or.inl ⟨v, h1, h2, rfl, hnd v h2⟩
    · rintro (⟨w, _, _, hw, ha⟩ | ⟨i, u, w, _, hne, _, ht, _⟩)
      · have : v = w := by simpa using hw
        subst this
        exact attribute_unique (hnd v h2) ha
      · exfalso
        have hu : u ∈ ({v} : Finset ℕ) := by rw [ht]; simp
        have hw : w ∈ ({v} : Finset ℕ) := by rw [ht]; simp
        simp at hu hw
        omega
  | none =>
    rw [Option.none_or, Option.map_eq_some_iff]
    constructor
    · rintro ⟨e, he, rfl⟩
      obtain ⟨i, u, v, h1, h2, h3, h4, rfl⟩ := (hE e).1 he
      refine Or.inr ⟨i, u, v, h1, ?_, h2, h3, h4, hed i (List.getElem?_eq_some_iff.1 h1).1⟩
      rintro rfl
      obtain ⟨e, he'⟩ := hV' u h2 ⟨(u, u), List.mem_of_getElem? h1, Or.inl rfl⟩ (by rw [h3]; simp)
      rw [hf] at he'
      cases he'
    · rintro (⟨v, h1, h2, h3, _⟩ | ⟨i, u, v, h1, _, h3, h4, h5, h6⟩)
      · obtain ⟨e, he⟩ := hV' v h1 h2 h3
        rw [hf] at he
        cases he
      · exact ⟨([u, v], ed i), (hE _).2 ⟨i, u, v, h1, h3, h4, h5, rfl⟩, attribute_unique (hed i (List.getElem?_eq_some_iff.1 h1).1) h6⟩

/-- What is read from a dataset. -/
theorem read_dataset [Zero α] [LinearOrder α] (o : Options) (convert : List Char → ℕ) (convertId : List Char → Option ℕ) (value : List Char → α)
    (files : List Char → Option (List Char)) (filename : List Char) (stored : Labels) (edges : List (ℕ × ℕ)) (graphs : List ℕ) (labels : List (List Char))
    (nodeRows edgeRows : List (List α)) (hd : Dataset o convert convertId value files filename edges graphs labels nodeRows edgeRows) (ho : o.readGraphLabels = true) :
    ∃ nl nr er, (o.readNodeAttributes = true → nr = nodeRows) ∧ (o.readEdgeAttributes = true → er = edgeRows) ∧
      ∀ order : List ℕ → List ℕ, read o order convert convertId value files filename stored =
        (match assemble o order edges graphs labels nr er with
          | .error e => .error e
          | .ok r => .ok (r.1, ⟨r.2, nl⟩)) := by
  obtain ⟨p, hp⟩ := prefix_exists filename
  obtain ⟨t1, f1, e1⟩ := readEdges_spec hd.matrix
  obtain ⟨t2, f2, e2⟩ := readGraphs_spec (hd.indicator p hp)
  obtain ⟨t3, f3, e3⟩ := readLabels_spec (hd.labels p hp)
  have h4 : ∃ nr, optional o.readNodeAttributes (files (p ++ "_node_attributes.txt".toList)) (readAttributes o.trimLines o.separator value) [] = .ok nr ∧
      (o.readNodeAttributes = true → nr = nodeRows) := by
    by_cases h : o.readNodeAttributes = true
    · obtain ⟨t, f, e⟩ := readAttributes_spec (hd.nodeRows h p hp)
      refine ⟨nodeRows, ?_, fun _ => rfl⟩
      rw [optional, if_pos h, f, ← e]; rfl
    · exact ⟨[], by rw [optional, if_neg h], fun h' => absurd h' h⟩
  have h5 : ∃ er, optional o.readEdgeAttributes (files (p ++ "_edge_attributes.txt".toList)) (readAttributes o.trimLines o.separator value) [] = .ok er ∧
      (o.readEdgeAttributes = true → er = edgeRows) := by
    by_cases h : o.readEdgeAttributes = true
    · obtain ⟨t, f, e⟩ := readAttributes_spec (hd.edgeRows h p hp)
      refine ⟨edgeRows, ?_, fun _ => rfl⟩
      rw [optional, if_pos h, f, ← e]; rfl
    · exact ⟨[], by rw [optional, if_neg h], fun h' => absurd h' h⟩
  obtain ⟨nr, h4, h4'⟩ := h4
  obtain ⟨er, h5, h5'⟩ := h5
  refine ⟨if o.readNodeLabels then
      match files (p ++ "_node_labels.txt".toList) with
      | none => stored.node
      | some t => readLabels o.trimLines t
    else stored.node, nr, er, h4', h5', fun order => ?_⟩
  rw [read]
  have h3 : optional o.readGraphLabels (files (p ++ "_graph_labels.txt".toList)) (readLabels o.trimLines) stored.graph = .ok labels := by
    rw [optional, if_pos ho, f3, ← e3]; rfl
  simp only [getPrefix_spec hp, f1, f2, required, bind, Except.bind, e1, e2, h3, h4, h5]
  cases assemble o order edges graphs labels nr er <;> rfl

theorem attribute_congr [Zero α] {use : Bool} {column : Option ℕ} {rows rows' : List (List α)} (h : use = true → rows' = rows) {i : ℕ} {a : α} :
    Attribute use column rows' i a ↔ Attribute use column rows i a := by
  by_cases hu : use = true
  · rw [h hu]
  · unfold Attribute
    simp [hu]

theorem consistent_congr [Zero α] {o : Options} {edges : List (ℕ × ℕ)} {graphs : List ℕ} {nodeRows edgeRows nr er : List (List α)} (h1 : o.readNodeAttributes = true → nr = nodeRows)
    (h2 : o.readEdgeAttributes = true → er = edgeRows) (h : Consistent o edges graphs nodeRows edgeRows) : Consistent o edges graphs nr er :=
  ⟨h.graph, fun v hv => (h.node v hv).imp fun _ => (attribute_congr h1).2, fun i hi => (h.edge i hi).imp fun _ => (attribute_congr h2).2⟩

theorem graphData_congr [Zero α] {o : Options} {edges : List (ℕ × ℕ)} {graphs : List ℕ} {nodeRows edgeRows nr er : List (List α)} (h1 : o.readNodeAttributes = true → nr = nodeRows)
    (h2 : o.readEdgeAttributes = true → er = edgeRows) (g : ℕ) (t : Finset ℕ) (d : α) : GraphData o edges graphs nr er g t d ↔ GraphData o edges graphs nodeRows edgeRows g t d := by
  unfold GraphData
  simp only [attribute_congr h1, attribute_congr h2]

theorem exists_data [Zero α] {o : Options} {edges : List (ℕ × ℕ)} {graphs : List ℕ} {nodeRows edgeRows : List (List α)} (h : Consistent o edges graphs nodeRows edgeRows) :
    ∃ nd ed : ℕ → α, (∀ v, Incident edges v → Attribute o.readNodeAttributes o.nodeAttributeIndex nodeRows (v - 1) (nd v)) ∧
      ∀ i < edges.length, Attribute o.readEdgeAttributes o.edgeAttributeIndex edgeRows i (ed i) := by
  classical
  refine ⟨fun v => if hv : Incident edges v then (h.node v hv).choose else 0, fun i => if hi : i < edges.length then (h.edge i hi).choose else 0, ?_, ?_⟩
  · intro v hv
    simp only [dif_pos hv]
    exact (h.node v hv).choose_spec
  · intro i hi
    simp only [dif_pos hi]
    exact (h.edge i hi).choose_spec

/-- The graph of a number. -/
theorem index_iff {graphs ids : List ℕ} (hids : ids.Pairwise (· < ·)) (hm : ∀ g, g ∈ ids ↔ g ∈ graphs) {edges : List (ℕ × ℕ)} (hnode : ∀ e ∈ edges, ∃ g, NodeOf graphs e.1 g ∧ NodeOf graphs e.2 g)
    {j g : ℕ} (hj : ids[j]? = some g) : (∃ v, Incident edges v ∧ graphIndex graphs (graphOf graphs v) = j) ↔ ∃ v, Incident edges v ∧ NodeOf graphs v g := by
  refine exists_congr fun v => and_congr_right ?_
  rintro ⟨e, he, hv⟩
  obtain ⟨g', hg'⟩ : ∃ g', NodeOf graphs v g' := by
    obtain ⟨g', h1, h2⟩ := hnode e he
    rcases hv with rfl | rfl
    · exact ⟨g', h1⟩
    · exact ⟨g', h2⟩
  rw [graphOf_spec hg']
  constructor
  · intro h
    have := (graphIndex_spec hids hm).2 ⟨nodeOf_mem hg', h⟩
    rw [hj] at this
    obtain rfl := Option.some.inj this
    exact hg'
  · intro h
    obtain rfl := nodeOf_unique h hg'
    exact ((graphIndex_spec hids hm).1 hj).2

section

variable [Zero α] [LinearOrder α] (o : Options) (convert : List Char → ℕ) (convertId : List Char → Option ℕ) (value : List Char → α)
  (files : List Char → Option (List Char)) (filename : List Char) (stored : Labels)

/-- **C133 (graphs).** Reading a consistent dataset yields one complex for every graph, in ascending order of their numbers.  Each contains the edges of the
graph and the nodes that occur in edges, with the selected attributes as data, sorted by data (which is a filtration if and only if data is monotone).  If there
are as many labels as graphs, labels are those of the file; otherwise, the first labels are used for graphs with edges, and other graphs have no label. -/
theorem _root_.Aleph.C133_graphs_partial (order : List ℕ → List ℕ) (hord : ∀ l v, v ∈ order l ↔ v ∈ l)
    (edges : List (ℕ × ℕ)) (graphs ids : List ℕ) (labels : List (List Char)) (nodeRows edgeRows : List (List α))
    (hd : Dataset o convert convertId value files filename edges graphs labels nodeRows edgeRows) (ho : o.readGraphLabels = true)
    (hids : ids.Pairwise (· < ·)) (hm : ∀ g, g ∈ ids ↔ g ∈ graphs) (hc : Consistent o edges graphs nodeRows edgeRows) (hl : ids.length ≤ labels.length) :
    ∃ C L, read o order convert convertId value files filename stored = .ok (C, L) ∧ C.length = ids.length ∧
      (∀ (j g : ℕ) (K : Complex α), ids[j]? = some g → C[j]? = some K → WF K ∧ FaceClosed K ∧ K.Pairwise (fun s t => s.data ≤ t.data) ∧
        (∀ t d, HasData K t d ↔ GraphData o edges graphs nodeRows edgeRows g t d) ∧ (FacesFirst K ↔ Spec.Monotone K)) ∧
      (labels.length = ids.length → L.graph = labels) ∧
      (ids.length < labels.length → L.graph.length = ids.length ∧ ∀ j g : ℕ, ids[j]? = some g →
        ((∃ v, Incident edges v ∧ NodeOf graphs v g) → L.graph[j]? = labels[j]?) ∧ ((¬ ∃ v, Incident edges v ∧ NodeOf graphs v g) → L.graph[j]? = some [])) := by
  obtain ⟨nl, nr, er, hnr, her, hread⟩ := read_dataset o convert convertId value files filename stored edges graphs labels nodeRows edgeRows hd ho
  have hc' := consistent_congr hnr her hc
  obtain ⟨nd, ed, hnd, hed⟩ := exists_data hc'
  obtain ⟨C, L, h1, h2, h3, h4, h5⟩ := assemble_spec o order hord edges graphs ids labels nr er hids hm hc' hl nd ed hnd hed
  refine ⟨C, ⟨L, nl⟩, ?_, h2, ?_, h4, ?_⟩
  · rw [hread, h1]
  · intro j g K hj hK
    obtain ⟨K', e, hcol⟩ := h3 j (List.getElem?_eq_some_iff.1 hj).1
    rw [hK, Option.some.injEq] at e
    obtain ⟨hp, hs, hf⟩ := sortData_spec hcol.1
    rw [← e] at hp hs hf
    have hinc : ∀ v, v ∈ order (edges.flatMap fun e => [e.1, e.2]) ↔ Incident edges v := by
      intro v
      rw [hord]
      simp only [List.mem_flatMap, List.mem_cons, List.not_mem_nil, or_false, Incident]
    have hdata : ∀ t d, HasData K t d ↔ GraphData o edges graphs nodeRows edgeRows g t d := by
      intro t d
      rw [← graphData_congr hnr her, ← entries_data o edges graphs ids _ nr er hids hm hc' hinc nd ed hnd hed hj, ← hcol.hasData_find]
      exact exists_congr fun s => and_congr_left fun _ => hp.mem_iff
    refine ⟨hcol.1.perm hp, ?_, hs, hdata, ?_⟩
    · intro s hs t ht hne
      have hv : ∀ v, NodeOf graphs v g → Incident edges v → ∃ u ∈ K, u.vset = {v} := by
        intro v hg hv
        obtain ⟨a, ha⟩ := hc.node v hv
        obtain ⟨u, hu, hu', _⟩ := (hdata {v} a).2 (Or.inl ⟨v, hg, hv, rfl, ha⟩)
        exact ⟨u, hu, hu'⟩
      rcases (hdata s.vset s.data).1 ⟨s, hs, rfl, rfl⟩ with ⟨v, _, _, hv', _⟩ | ⟨i, u, v, hi, _, hg, huv, _⟩
      · rw [hv'] at ht
        rcases Finset.subset_singleton_iff.1 ht with rfl | rfl
        · exact absurd hne (by simp)
        · exact ⟨s, hs, hv'⟩
      · have hmem := List.mem_of_getElem? hi
        have hg2 : NodeOf graphs v g := by
          obtain ⟨g', k1, k2⟩ := hc.graph _ hmem
          obtain rfl := nodeOf_unique hg k1
          exact k2
        rw [huv] at ht
        rcases AdjacencyMatrixReader.subset_pair ht with rfl | rfl | rfl | rfl
        · exact absurd hne (by simp)
        · exact hv _ hg ⟨_, hmem, Or.inl rfl⟩
        · exact hv _ hg2 ⟨_, hmem, Or.inr rfl⟩
        · exact ⟨s, hs, huv⟩
    · rw [hf]
      exact ⟨fun h s hs t ht => h s (hp.subset hs) t (hp.subset ht), fun h s hs t ht => h s (hp.symm.subset hs) t (hp.symm.subset ht)⟩
  · intro h
    obtain ⟨k1, k2⟩ := h5 h
    refine ⟨k1, fun j g hj => ?_⟩
    rw [← index_iff hids hm hc.graph hj]
    exact k2 j (List.getElem?_eq_some_iff.1 hj).1

omit [Zero α] in
/-- Sorted complexes with the same data are equal. -/
theorem sort_congr {K K' : Complex α} (h : WF K) (h' : WF K') (hd : ∀ t d, HasData K t d ↔ HasData K' t d) :
    K.sort (asLt (Filtration.data fun a b => decide (a < b))) = K'.sort (asLt (Filtration.data fun a b => decide (a < b))) := by
  have key : ∀ {K K' : Complex α}, WF K → WF K' → (∀ t d, HasData K t d ↔ HasData K' t d) → ∀ s ∈ K, s ∈ K' := by
    intro K K' h h' hd s hs
    obtain ⟨u, hu, h1, h2⟩ := (hd s.vset s.data).1 ⟨s, hs, rfl, rfl⟩
    have h3 := congrArg vlist h1
    rw [Simplex.vset, Simplex.vset, vlist_of_normal (h'.normal u hu), vlist_of_normal (h.normal s hs)] at h3
    have : u = s := by
      cases u; cases s
      simp only at h2 h3
      rw [h2, h3]
    exact this ▸ hu
  have hperm : K.Perm K' := (List.perm_ext_iff_of_nodup h.nodup h'.nodup).2 fun s => ⟨key h h' hd s, key h' h (fun t d => (hd t d).symm) s⟩
  have hst : StrictTotalOn Proper (Filtration.data fun a b : α => decide (a < b)) := by
    refine data_strictTotal (by simp) ?_ ?_
    · intro a b c; simp only [decide_eq_true_eq]; exact lt_trans
    · intro a b h; simp only [decide_eq_true_eq]; exact lt_or_gt_of_ne h
  have hS : ∀ s ∈ K, Proper s := fun s hs => ⟨h.normal s hs, h.nonempty s hs⟩
  have hS' : ∀ s ∈ K', Proper s := fun s hs => ⟨h'.normal s hs, h'.nonempty s hs⟩
  refine sort_unique h' hst hS' ((sort_perm _ _).trans hperm) ?_
  refine (sort_pairwise h hst hS).imp_of_mem ?_
  intro s t hs ht hlt
  exact hst.asymm (hS s ((sort_perm _ _).subset hs)) (hS t ((sort_perm _ _).subset ht)) hlt

/-- **C133 (order).** The result does not depend on the order in which the vertices of the unordered set are traversed. -/
theorem _root_.Aleph.C133_order (order order' : List ℕ → List ℕ) (hord : ∀ l v, v ∈ order l ↔ v ∈ l) (hord' : ∀ l v, v ∈ order' l ↔ v ∈ l)
    (edges : List (ℕ × ℕ)) (graphs ids : List ℕ) (labels : List (List Char)) (nodeRows edgeRows : List (List α))
    (hd : Dataset o convert convertId value files filename edges graphs labels nodeRows edgeRows) (ho : o.readGraphLabels = true)
    (hids : ids.Pairwise (· < ·)) (hm : ∀ g, g ∈ ids ↔ g ∈ graphs) (hc : Consistent o edges graphs nodeRows edgeRows) (hl : ids.length ≤ labels.length) :
    read o order convert convertId value files filename stored = read o order' convert convertId value files filename stored := by
  obtain ⟨nl, nr, er, hnr, her, hread⟩ := read_dataset o convert convertId value files filename stored edges graphs labels nodeRows edgeRows hd ho
  have hc' := consistent_congr hnr her hc
  obtain ⟨nd, ed, hnd, hed⟩ := exists_data hc'
  obtain ⟨C, L, h1, h2, h3, h4, h5⟩ := assemble_spec o order hord edges graphs ids labels nr er hids hm hc' hl nd ed hnd hed
  obtain ⟨C', L', h1', h2', h3', h4', h5'⟩ := assemble_spec o order' hord' edges graphs ids labels nr er hids hm hc' hl nd ed hnd hed
  have hinc : ∀ order : List ℕ → List ℕ, (∀ l v, v ∈ order l ↔ v ∈ l) → ∀ v, v ∈ order (edges.flatMap fun e => [e.1, e.2]) ↔ Incident edges v := by
    intro order hord v
    rw [hord]
    simp only [List.mem_flatMap, List.mem_cons, List.not_mem_nil, or_false, Incident]
  have eC : C = C' := by
    apply List.ext_getElem? fun j => ?_
    by_cases hj : j < ids.length
    · obtain ⟨K, e, hcol⟩ := h3 j hj
      obtain ⟨K', e', hcol'⟩ := h3' j hj
      rw [e, e', Option.some.injEq]
      refine sort_congr hcol.1 hcol'.1 fun t d => ?_
      rw [hcol.hasData_find, hcol'.hasData_find, entries_data o edges graphs ids _ nr er hids hm hc' (hinc order hord) nd ed hnd hed (List.getElem?_eq_getElem hj),
        entries_data o edges graphs ids _ nr er hids hm hc' (hinc order' hord') nd ed hnd hed (List.getElem?_eq_getElem hj)]
    · rw [List.getElem?_eq_none (by omega), List.getElem?_eq_none (by omega)]
  have eL : L = L' := by
    rcases hl.lt_or_eq with hlt | heq
    · obtain ⟨k1, k2⟩ := h5 hlt
      obtain ⟨k1', k2'⟩ := h5' hlt
      apply List.ext_getElem? fun j => ?_
      by_cases hj : j < ids.length
      · by_cases hv : ∃ v, Incident edges v ∧ graphIndex graphs (graphOf graphs v) = j
        · rw [(k2 j hj).1 hv, (k2' j hj).1 hv]
        · rw [(k2 j hj).2 hv, (k2' j hj).2 hv]
      · rw [List.getElem?_eq_none (by omega), List.getElem?_eq_none (by omega)]
    · rw [h4 heq.symm, h4' heq.symm]
  rw [hread, hread, h1, h1', eC, eL]

/-- **C133 (isolated nodes).** The code violates the property: nodes without edges are lost.  The complex of a graph without edges is empty. -/
theorem _root_.Aleph.C133_isolated (order : List ℕ → List ℕ) (hord : ∀ l v, v ∈ order l ↔ v ∈ l)
    (edges : List (ℕ × ℕ)) (graphs ids : List ℕ) (labels : List (List Char)) (nodeRows edgeRows : List (List α))
    (hd : Dataset o convert convertId value files filename edges graphs labels nodeRows edgeRows) (ho : o.readGraphLabels = true)
    (hids : ids.Pairwise (· < ·)) (hm : ∀ g, g ∈ ids ↔ g ∈ graphs) (hc : Consistent o edges graphs nodeRows edgeRows) (hl : ids.length ≤ labels.length)
    (C : List (Complex α)) (L : Labels) (hr : read o order convert convertId value files filename stored = .ok (C, L)) (j g : ℕ) (hj : ids[j]? = some g) :
    (∀ v d, ¬ Incident edges v → ∀ K, C[j]? = some K → ¬ HasData K {v} d) ∧ ((∀ v, NodeOf graphs v g → ¬ Incident edges v) → C[j]? = some []) := by
  obtain ⟨C', L', h1, h2, h3, _⟩ := C133_graphs_partial o convert convertId value files filename stored order hord edges graphs ids labels nodeRows edgeRows hd ho hids hm hc hl
  rw [hr] at h1
  obtain ⟨rfl, rfl⟩ : C = C' ∧ L = L' := by cases h1; exact ⟨rfl, rfl⟩
  have hjl := (List.getElem?_eq_some_iff.1 hj).1
  constructor
  · intro v d hv K hK h
    rcases ((h3 j g K hj hK).2.2.2.1 _ _).1 h with ⟨w, _, hw, e, _⟩ | ⟨i, a, b, _, hne, _, e, _⟩
    · have : v = w := by simpa using e
      exact hv (this ▸ hw)
    · have ha : a ∈ ({v} : Finset ℕ) := by rw [e]; simp
      have hb : b ∈ ({v} : Finset ℕ) := by rw [e]; simp
      simp at ha hb
      omega
  · intro hv
    have hK := List.getElem?_eq_getElem (show j < C.length by omega)
    rw [hK, Option.some.injEq]
    rw [List.eq_nil_iff_forall_not_mem]
    intro s hs
    rcases ((h3 j g _ hj hK).2.2.2.1 _ _).1 ⟨s, hs, rfl, rfl⟩ with ⟨w, h1, h2, _⟩ | ⟨i, a, b, h1, _, h2, _⟩
    · exact hv w h1 h2
    · exact hv a h2 ⟨_, List.mem_of_getElem? h1, Or.inl rfl⟩

/-- **C133 (graph labels).** The code violates the property: if the file of graph labels is not requested, and no labels have been read before, every dataset
with an edge raises an exception. -/
theorem _root_.Aleph.C133_no_labels (order : List ℕ → List ℕ) (hord : ∀ l v, v ∈ order l ↔ v ∈ l) (edges : List (ℕ × ℕ)) (graphs : List ℕ)
    (hmat : FileLines files filename (EdgeLine o.separator convert) edges)
    (hind : ∀ p, Prefix filename p → FileLines files (p ++ "_graph_indicator.txt".toList) (GraphLine convertId) graphs)
    (he : edges ≠ []) (hg : graphs ≠ []) (ho : o.readGraphLabels = false) (hs : stored.graph = []) :
    read o order convert convertId value files filename stored = .error .exception := by
  obtain ⟨p, hp⟩ := prefix_exists filename
  obtain ⟨t1, f1, e1⟩ := readEdges_spec hmat
  obtain ⟨t2, f2, e2⟩ := readGraphs_spec (hind p hp)
  have hopt : ∀ use name, (∃ r, optional use (files name) (readAttributes o.trimLines o.separator value) [] = .ok r) ∨
      optional use (files name) (readAttributes o.trimLines o.separator value) [] = .error .exception := by
    intro use name
    unfold optional required
    cases use
    · exact Or.inl ⟨_, rfl⟩
    · cases files name
      · exact Or.inr rfl
      · exact Or.inl ⟨_, rfl⟩
  have hasm : ∀ nr er : List (List α), assemble o order edges graphs [] nr er = .error .exception := by
    intro nr er
    unfold assemble
    obtain ⟨e, es, rfl⟩ := List.exists_cons_of_ne_nil he
    have hne : order ((e :: es).flatMap fun e => [e.1, e.2]) ≠ [] := List.ne_nil_of_mem ((hord _ e.1).2 (by simp))
    generalize order ((e :: es).flatMap fun e => [e.1, e.2]) = vs at hne
    obtain ⟨v, vs', rfl⟩ := List.exists_cons_of_ne_nil hne
    have hn : 0 < (sortedSet graphs).length := by
      obtain ⟨g, gs, rfl⟩ := List.exists_cons_of_ne_nil hg
      exact List.length_pos_of_mem (((sortedSet_spec _).2 g).2 List.mem_cons_self)
    have hidx : graphIndex graphs (graphOf graphs v) < (sortedSet graphs).length := by
      unfold graphIndex
      cases h : (sortedSet graphs).idxOf? (graphOf graphs v) with
      | none => exact hn
      | some i => exact (List.idxOf?_eq_some_iff.1 h).1
    have : addVertex o graphs (v :: vs') [] nr (List.replicate (sortedSet graphs).length ([] : Complex α), List.replicate (sortedSet graphs).length []) v = .error .exception := by
      simp only [addVertex, List.getElem?_replicate, if_pos hidx, List.getElem?_nil]
    simp only [List.foldlM_cons, this]
    rfl
  have h3 : optional o.readGraphLabels (files (p ++ "_graph_labels.txt".toList)) (readLabels o.trimLines) stored.graph = .ok [] := by
    rw [optional, ho, hs]; rfl
  rw [read]
  simp only [getPrefix_spec hp, f1, f2, required, bind, Except.bind, e1, e2, h3]
  rcases hopt o.readNodeAttributes (p ++ "_node_attributes.txt".toList) with ⟨nr, h4⟩ | h4
  · rw [h4]
    rcases hopt o.readEdgeAttributes (p ++ "_edge_attributes.txt".toList) with ⟨er, h5⟩ | h5
    · rw [h5]
      simp only [hasm]
    · rw [h5]
  · rw [h4]

/-- **C133 (edges between graphs).** An edge between two graphs raises an exception. -/
theorem _root_.Aleph.C133_cross (order : List ℕ → List ℕ) (hord : ∀ l v, v ∈ order l ↔ v ∈ l)
    (edges : List (ℕ × ℕ)) (graphs ids : List ℕ) (labels : List (List Char)) (nodeRows edgeRows : List (List α))
    (hd : Dataset o convert convertId value files filename edges graphs labels nodeRows edgeRows) (ho : o.readGraphLabels = true)
    (hids : ids.Pairwise (· < ·)) (hm : ∀ g, g ∈ ids ↔ g ∈ graphs) (hl : ids.length ≤ labels.length)
    (hnode : ∀ v, Incident edges v → (∃ g, NodeOf graphs v g) ∧ ∃ a, Attribute o.readNodeAttributes o.nodeAttributeIndex nodeRows (v - 1) a)
    (hedge : ∀ i < edges.length, ∃ a, Attribute o.readEdgeAttributes o.edgeAttributeIndex edgeRows i a)
    (hcross : ∃ e ∈ edges, ∃ g g', NodeOf graphs e.1 g ∧ NodeOf graphs e.2 g' ∧ g ≠ g') :
    read o order convert convertId value files filename stored = .error .exception := by
  classical
  obtain ⟨nl, nr, er, hnr, her, hread⟩ := read_dataset o convert convertId value files filename stored edges graphs labels nodeRows edgeRows hd ho
  have esorted : sortedSet graphs = ids := sorted_unique (sortedSet_spec graphs).1 hids fun x => by rw [(sortedSet_spec graphs).2, hm]
  have hidx : ∀ v, Incident edges v → graphIndex graphs (graphOf graphs v) < ids.length := by
    intro v hv
    obtain ⟨⟨g, hg⟩, _⟩ := hnode v hv
    rw [graphOf_spec hg]
    exact (List.getElem?_eq_some_iff.1 ((graphIndex_spec hids hm).2 ⟨nodeOf_mem hg, rfl⟩)).1
  have hmem : ∀ v, v ∈ order (edges.flatMap fun e => [e.1, e.2]) ↔ Incident edges v := by
    intro v
    rw [hord]
    simp only [List.mem_flatMap, List.mem_cons, List.not_mem_nil, or_false, Incident]
  generalize hvs : order (edges.flatMap fun e => [e.1, e.2]) = vs at hmem
  have hrange : ∀ v ∈ vs, 1 ≤ v ∧ v ≤ graphs.length := by
    intro v hv
    obtain ⟨⟨g, h1, h2⟩, _⟩ := hnode v ((hmem v).1 hv)
    have := (List.getElem?_eq_some_iff.1 h2).1
    omega
  obtain ⟨C, L, h1, h2, _⟩ := addVertex_loop o graphs vs labels nr ids.length (fun v => if hv : Incident edges v then (hnode v hv).2.choose else 0) _ (fun _ => rfl) hl vs
    (List.replicate ids.length []) (List.replicate ids.length []) (by simp) (by simp) (by
      intro v hv
      refine ⟨hidx v ((hmem v).1 hv), ?_⟩
      rw [nodeIndex_spec hrange hv, dif_pos ((hmem v).1 hv)]
      exact dataOf_spec ((attribute_congr hnr).2 (hnode v ((hmem v).1 hv)).2.choose_spec))
  have hloop : ∀ (es : List ((ℕ × ℕ) × ℕ)) (C : List (Complex α)), C.length = ids.length →
      (∀ e ∈ es, graphIndex graphs (graphOf graphs e.1.1) < ids.length ∧ ∃ a, dataOf o.readEdgeAttributes o.edgeAttributeIndex er e.2 = .ok a) →
      (∃ e ∈ es, graphOf graphs e.1.1 ≠ graphOf graphs e.1.2) → es.foldlM (addEdge o graphs er) C = .error .exception := by
    intro es
    induction es with
    | nil => rintro C _ _ ⟨e, he, _⟩; simp at he
    | cons e es ih =>
      rintro C hC h ⟨x, hx, hne⟩
      rw [List.foldlM_cons]
      by_cases hg : graphOf graphs e.1.1 = graphOf graphs e.1.2
      · obtain ⟨k1, a, k2⟩ := h e List.mem_cons_self
        have e1 : addEdge o graphs er C e =
            .ok (C.set (graphIndex graphs (graphOf graphs e.1.1)) (Complex.insertRange (C[graphIndex graphs (graphOf graphs e.1.1)]'(by omega)) [Simplex.ofRange [e.1.1, e.1.2] a]).1) := by
          rw [addEdge, if_neg (by simpa using hg)]
          simp only [List.getElem?_eq_getElem (show graphIndex graphs (graphOf graphs e.1.1) < C.length by omega), k2]
        rw [e1]
        refine ih _ (by simpa using hC) (fun e he => h e (List.mem_cons_of_mem _ he)) ?_
        rcases List.mem_cons.1 hx with rfl | hx
        · exact absurd hg hne
        · exact ⟨x, hx, hne⟩
      · rw [addEdge, if_pos hg]; rfl
  have h6 := hloop edges.zipIdx C h2 (by
      rintro ⟨⟨u, v⟩, i⟩ he
      have hi := List.mk_mem_zipIdx_iff_getElem?.1 he
      obtain ⟨a, ha⟩ := hedge i (List.getElem?_eq_some_iff.1 hi).1
      exact ⟨hidx u ⟨(u, v), List.mem_of_getElem? hi, Or.inl rfl⟩, a, dataOf_spec ((attribute_congr her).2 ha)⟩) (by
      obtain ⟨e, he, g, g', k1, k2, hne⟩ := hcross
      obtain ⟨i, hi, rfl⟩ := List.getElem_of_mem he
      refine ⟨(edges[i], i), List.mk_mem_zipIdx_iff_getElem?.2 (List.getElem?_eq_getElem hi), ?_⟩
      rw [graphOf_spec k1, graphOf_spec k2]
      exact hne)
  rw [hread]
  simp only [assemble, esorted, hvs, h1, h6]

/-- **C133 (files).** A matrix or a graph indicator that does not exist, and an empty line in the matrix, raise an exception. -/
theorem _root_.Aleph.C133_file (order : List ℕ → List ℕ) (h : files filename = none ∨ (∃ text ls b, files filename = some text ∧ Lines text ls b ∧ [] ∈ ls) ∨
      (∃ edges, FileLines files filename (EdgeLine o.separator convert) edges) ∧ ∀ p, Prefix filename p → files (p ++ "_graph_indicator.txt".toList) = none) :
    read o order convert convertId value files filename stored = .error .exception := by
  rw [read]
  rcases h with h | ⟨text, ls, b, h, hl, hls⟩ | ⟨⟨edges, he⟩, h⟩
  · simp only [h, required, bind, Except.bind]
  · have : readEdges o.separator convert text = .error .exception := by
      rw [readEdges, getlines_spec text ls b hl]
      clear hl
      induction ls with
      | nil => simp at hls
      | cons l ls ih =>
        rw [List.mapM_cons]
        rcases List.mem_cons.1 hls with rfl | hls
        · rfl
        · split
          · rw [ih hls]; rfl
          · rfl
    simp only [h, required, bind, Except.bind, this]
  · obtain ⟨p, hp⟩ := prefix_exists filename
    obtain ⟨t1, f1, e1⟩ := readEdges_spec he
    simp only [getPrefix_spec hp, f1, e1, h p hp, required, bind, Except.bind]

/-- **C133 (fields).** A line of the matrix with another number of fields than two, and a line of the graph indicator that is not a number, raise an exception. -/
theorem _root_.Aleph.C133_fields (order : List ℕ → List ℕ)
    (h : (∃ text ls b l ts, files filename = some text ∧ Lines text ls b ∧ l ∈ ls ∧ Columns o.separator l ts ∧ ts.length ≠ 2) ∨
      (∃ edges, FileLines files filename (EdgeLine o.separator convert) edges) ∧ ∀ p, Prefix filename p →
        ∃ text ls b l t, files (p ++ "_graph_indicator.txt".toList) = some text ∧ Lines text ls b ∧ l ∈ ls ∧ Content l t ∧ convertId t = none) :
    read o order convert convertId value files filename stored = .error .exception := by
  have key : ∀ {γ δ : Type} (f : γ → Except Failure δ) (ls : List γ) (l : γ), (∀ x e, f x = .error e → e = .exception) → l ∈ ls → f l = .error .exception →
      ls.mapM f = .error .exception := by
    intro γ δ f ls l hf hl he
    induction ls with
    | nil => simp at hl
    | cons a ls ih =>
      rw [List.mapM_cons]
      cases ha : f a with
      | error e => rw [hf a e ha]; rfl
      | ok x =>
        rcases List.mem_cons.1 hl with rfl | hl
        · rw [ha] at he
          cases he
        · rw [ih hl]
          rfl
  rw [read]
  rcases h with ⟨text, ls, b, l, ts, h, hl, hls, hc, hn⟩ | ⟨⟨edges, he⟩, h⟩
  · have : readEdges o.separator convert text = .error .exception := by
      rw [readEdges, getlines_spec text ls b hl]
      refine key _ ls l ?_ hls ?_
      · intro x e hx
        revert hx
        split
        · intro h; cases h
        · intro h; cases h; rfl
      · rw [columns_split hc]
        match ts, hn with
        | [], _ => rfl
        | [_], _ => rfl
        | [_, _], hn => exact absurd rfl hn
        | _ :: _ :: _ :: _, _ => rfl
    simp only [h, required, bind, Except.bind, this]
  · obtain ⟨p, hp⟩ := prefix_exists filename
    obtain ⟨t1, f1, e1⟩ := readEdges_spec he
    obtain ⟨text, ls, b, l, t, h1, h2, h3, h4, h5⟩ := h p hp
    have : readGraphs convertId text = .error .exception := by
      rw [readGraphs, getlines_spec text ls b h2]
      refine key _ ls l ?_ h3 ?_
      · intro x e hx
        revert hx
        split
        · intro h; cases h
        · intro h; cases h; rfl
      · rw [TriangulationReader.trim_content h4, h5]
    simp only [getPrefix_spec hp, f1, e1, h1, this, required, bind, Except.bind]

end

/-! ### Examples -/

/-- Three graphs: an edge that is listed in both directions, another edge, and a single node. -/
def exampleFiles (name : List Char) : Option (List Char) :=
  if name = "D_A.txt".toList then some "1,2\n2,1\n3,4\n".toList
  else if name = "D_graph_indicator.txt".toList then some "1\n1\n2\n2\n3\n".toList
  else if name = "D_graph_labels.txt".toList then some "x\ny\nz\n".toList
  else if name = "D_node_attributes.txt".toList then some "1\n2\n3\n4\n5\n".toList
  else if name = "D_edge_attributes.txt".toList then some "0,7\n0,8\n0,3\n".toList
  else none

/-- Options for the examples. -/
def exampleOptions : Options := { readNodeAttributes := true, readEdgeAttributes := true, nodeAttributeIndex := some 0, edgeAttributeIndex := some 1 }

/-- Numbers, for the examples. -/
def natOf (t : List Char) : ℕ := (MatrixReader.digits t).getD 0

theorem example_prefix (p : List Char) (h : Prefix "D_A.txt".toList p) : p = "D".toList := by
  have h1 := getPrefix_spec h
  rw [← h1]
  decide

theorem lines_flat {text : List Char} {ls : List (List Char)} (ht : text = ls.flatMap fun l => l ++ ['\n']) (h : ∀ l ∈ ls, '\n' ∉ l) : Lines text ls false := by
  subst ht
  induction ls with
  | nil => exact .nil
  | cons l ls ih =>
    rw [List.flatMap_cons, List.append_assoc, List.singleton_append]
    exact .cons l _ ls false (h l List.mem_cons_self) (ih fun l hl => h l (List.mem_cons_of_mem _ hl))

theorem example_content (c : Char) (h : c = '1' ∨ c = '2' ∨ c = '3' ∨ c = '4' ∨ c = '5' ∨ c = 'x' ∨ c = 'y' ∨ c = 'z') : Content [c] [c] := by
  refine ⟨[], [], rfl, by simp, by simp, ?_, ?_⟩
  all_goals
    intro d hd
    obtain rfl : d = c := by simpa using hd.symm
    rcases h with rfl | rfl | rfl | rfl | rfl | rfl | rfl | rfl <;> simp [Triangulation.Blank]

theorem example_content3 (a b : Char) (h : b = '7' ∨ b = '8' ∨ b = '3') (ha : a = '0') : Content [a, ',', b] [a, ',', b] := by
  refine ⟨[], [], rfl, by simp, by simp, ?_, ?_⟩
  · intro d hd
    obtain rfl : d = a := by simpa using hd.symm
    rw [ha]; simp [Triangulation.Blank]
  · intro d hd
    obtain rfl : d = b := by simpa using hd.symm
    rcases h with rfl | rfl | rfl <;> simp [Triangulation.Blank]

theorem example_columns (a b : Char) (ha : a ≠ ',') (hb : b ≠ ',') : Columns ',' [a, ',', b] [[a], [b]] := by
  refine ⟨by simp [List.intercalate], by simp, ?_, Or.inr (by simp)⟩
  simp [ha.symm, hb.symm]

theorem example_column (a : Char) (ha : a ≠ ',') : Columns ',' [a] [[a]] :=
  ⟨by simp [List.intercalate], by simp, by simp [ha.symm], Or.inl rfl⟩

/-- Hypotheses of C133: the dataset. -/
theorem example_dataset : Dataset exampleOptions natOf MatrixReader.digits natOf exampleFiles "D_A.txt".toList [(1, 2), (2, 1), (3, 4)] [1, 1, 2, 2, 3]
    ["x".toList, "y".toList, "z".toList] [[1], [2], [3], [4], [5]] [[0, 7], [0, 8], [0, 3]] where
  matrix := by
    refine ⟨_, ["1,2".toList, "2,1".toList, "3,4".toList], false, rfl, lines_flat (by decide) (by decide), ?_⟩
    exact .cons ⟨['1'], ['2'], example_columns _ _ (by decide) (by decide), by decide⟩ (.cons ⟨['2'], ['1'], example_columns _ _ (by decide) (by decide), by decide⟩
      (.cons ⟨['3'], ['4'], example_columns _ _ (by decide) (by decide), by decide⟩ .nil))
  indicator := by
    intro p hp
    rw [example_prefix p hp]
    refine ⟨_, [['1'], ['1'], ['2'], ['2'], ['3']], false, rfl, lines_flat (by decide) (by decide), ?_⟩
    exact .cons ⟨['1'], example_content _ (by simp), by decide⟩ (.cons ⟨['1'], example_content _ (by simp), by decide⟩ (.cons ⟨['2'], example_content _ (by simp), by decide⟩
      (.cons ⟨['2'], example_content _ (by simp), by decide⟩ (.cons ⟨['3'], example_content _ (by simp), by decide⟩ .nil))))
  labels := by
    intro p hp
    rw [example_prefix p hp]
    refine ⟨_, [['x'], ['y'], ['z']], false, rfl, lines_flat (by decide) (by decide), ?_⟩
    exact .cons (Or.inl ⟨rfl, example_content _ (by simp)⟩) (.cons (Or.inl ⟨rfl, example_content _ (by simp)⟩) (.cons (Or.inl ⟨rfl, example_content _ (by simp)⟩) .nil))
  nodeRows := by
    intro _ p hp
    rw [example_prefix p hp]
    refine ⟨_, [['1'], ['2'], ['3'], ['4'], ['5']], false, rfl, lines_flat (by decide) (by decide), ?_⟩
    exact .cons ⟨_, _, Or.inl ⟨rfl, example_content _ (by simp)⟩, example_column _ (by decide), by decide⟩
      (.cons ⟨_, _, Or.inl ⟨rfl, example_content _ (by simp)⟩, example_column _ (by decide), by decide⟩
      (.cons ⟨_, _, Or.inl ⟨rfl, example_content _ (by simp)⟩, example_column _ (by decide), by decide⟩
      (.cons ⟨_, _, Or.inl ⟨rfl, example_content _ (by simp)⟩, example_column _ (by decide), by decide⟩
      (.cons ⟨_, _, Or.inl ⟨rfl, example_content _ (by simp)⟩, example_column _ (by decide), by decide⟩ .nil))))
  edgeRows := by
    intro _ p hp
    rw [example_prefix p hp]
    refine ⟨_, [['0', ',', '7'], ['0', ',', '8'], ['0', ',', '3']], false, rfl, lines_flat (by decide) (by decide), ?_⟩
    exact .cons ⟨_, _, Or.inl ⟨rfl, example_content3 _ _ (by simp) rfl⟩, example_columns _ _ (by decide) (by decide), by decide⟩
      (.cons ⟨_, _, Or.inl ⟨rfl, example_content3 _ _ (by simp) rfl⟩, example_columns _ _ (by decide) (by decide), by decide⟩
      (.cons ⟨_, _, Or.inl ⟨rfl, example_content3 _ _ (by simp) rfl⟩, example_columns _ _ (by decide) (by decide), by decide⟩ .nil))

/-- Hypotheses of C133: the dataset is consistent. -/
theorem example_consistent : Consistent exampleOptions [(1, 2), (2, 1), (3, 4)] [1, 1, 2, 2, 3] [[1], [2], [3], [4], [5]] [[0, 7], [0, 8], [0, 3]] where
  graph := by
    intro e he
    simp only [List.mem_cons, List.not_mem_nil, or_false] at he
    rcases he with rfl | rfl | rfl
    · exact ⟨1, ⟨by decide, rfl⟩, by decide, rfl⟩
    · exact ⟨1, ⟨by decide, rfl⟩, by decide, rfl⟩
    · exact ⟨2, ⟨by decide, rfl⟩, by decide, rfl⟩
  node := by
    rintro v ⟨e, he, hv⟩
    refine ⟨v, Or.inl ⟨0, [v], rfl, rfl, ?_, rfl⟩⟩
    simp only [List.mem_cons, List.not_mem_nil, or_false] at he
    rcases he with rfl | rfl | rfl <;> rcases hv with rfl | rfl <;> rfl
  edge := by
    intro i hi
    have hi' : i = 0 ∨ i = 1 ∨ i = 2 := by simp at hi; omega
    rcases hi' with rfl | rfl | rfl
    · exact ⟨7, Or.inl ⟨1, _, rfl, rfl, rfl, rfl⟩⟩
    · exact ⟨8, Or.inl ⟨1, _, rfl, rfl, rfl, rfl⟩⟩
    · exact ⟨3, Or.inl ⟨1, _, rfl, rfl, rfl, rfl⟩⟩

example : ∃ C L, read exampleOptions id natOf MatrixReader.digits natOf exampleFiles "D_A.txt".toList ⟨[], []⟩ = .ok (C, L) ∧ C.length = 3 ∧ L.graph = ["x".toList, "y".toList, "z".toList] := by
  obtain ⟨C, L, h1, h2, _, h3, _⟩ := C133_graphs_partial exampleOptions natOf MatrixReader.digits natOf exampleFiles "D_A.txt".toList ⟨[], []⟩ id (fun _ _ => Iff.rfl) _ _ [1, 2, 3] _ _ _
    example_dataset rfl (by decide) (by simp) example_consistent (by decide)
  exact ⟨C, L, h1, h2, h3 rfl⟩

/-- What is read: the second edge, with data 8, is ignored, and so is node 5. -/
example : (match read exampleOptions id natOf MatrixReader.digits natOf exampleFiles "D_A.txt".toList ⟨[], []⟩ with
      | .ok (C, L) => some (C.map (·.map fun s => (s.vertices, s.data)), L.graph)
      | .error _ => none) =
    some ([[([1], 1), ([2], 2), ([2, 1], 7)], [([3], 3), ([4, 3], 3), ([4], 4)], []], ["x".toList, "y".toList, "z".toList]) := by decide

/-- A node that the indicator does not contain. -/
def missingFiles (name : List Char) : Option (List Char) :=
  if name = "D_A.txt".toList then some "3,4\n7,8\n".toList
  else if name = "D_graph_indicator.txt".toList then some "1\n1\n2\n2\n".toList
  else if name = "D_graph_labels.txt".toList then some "x\ny\n".toList
  else none

/-- **C133 (unknown nodes).** The code violates the property: nodes that do not occur in the graph indicator are added to the first graph, without any error. -/
theorem _root_.Aleph.C133_unknown : ∃ (edges : List (ℕ × ℕ)) (graphs : List ℕ) (C : List (Complex ℕ)) (L : Labels) (K : Complex ℕ),
    FileLines missingFiles "D_A.txt".toList (EdgeLine ',' natOf) edges ∧ FileLines missingFiles "D_graph_indicator.txt".toList (GraphLine MatrixReader.digits) graphs ∧
    (7, 8) ∈ edges ∧ (∀ g, ¬ NodeOf graphs 7 g ∧ ¬ NodeOf graphs 8 g) ∧
    read {} id natOf MatrixReader.digits natOf missingFiles "D_A.txt".toList ⟨[], []⟩ = .ok (C, L) ∧ C[0]? = some K ∧ HasData K {7, 8} 0 := by
  refine ⟨[(3, 4), (7, 8)], [1, 1, 2, 2], [[⟨[7], 0⟩, ⟨[8], 0⟩, ⟨[8, 7], 0⟩], [⟨[3], 0⟩, ⟨[4], 0⟩, ⟨[4, 3], 0⟩]], ⟨["x".toList, "y".toList], []⟩, [⟨[7], 0⟩, ⟨[8], 0⟩, ⟨[8, 7], 0⟩],
    ?_, ?_, by decide, ?_, by rfl, rfl, ⟨[8, 7], 0⟩, by simp, by decide, rfl⟩
  · refine ⟨_, ["3,4".toList, "7,8".toList], false, rfl, lines_flat (by decide) (by decide), ?_⟩
    exact .cons ⟨['3'], ['4'], example_columns _ _ (by decide) (by decide), by decide⟩ (.cons ⟨['7'], ['8'], example_columns _ _ (by decide) (by decide), by decide⟩ .nil)
  · refine ⟨_, [['1'], ['1'], ['2'], ['2']], false, rfl, lines_flat (by decide) (by decide), ?_⟩
    exact .cons ⟨['1'], example_content _ (by simp), by decide⟩ (.cons ⟨['1'], example_content _ (by simp), by decide⟩ (.cons ⟨['2'], example_content _ (by simp), by decide⟩
      (.cons ⟨['2'], example_content _ (by simp), by decide⟩ .nil)))
  · intro g
    constructor <;> rintro ⟨_, h⟩ <;> simp at h

/-- A line with three fields. -/
example : ∃ text ls b l ts, (fun _ => some "1,2\n1,2,3\n".toList : List Char → Option (List Char)) [] = some text ∧ Lines text ls b ∧ l ∈ ls ∧ Columns ',' l ts ∧ ts.length ≠ 2 := by
  refine ⟨_, ["1,2".toList, "1,2,3".toList], false, "1,2,3".toList, [['1'], ['2'], ['3']], rfl, lines_flat (by decide) (by decide), by simp, ?_, by decide⟩
  exact ⟨by decide, by decide, by decide, by decide⟩

end SparseReader

end Aleph
