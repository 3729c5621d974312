import Verif.Lemmas.MeshFaces
import Mathlib.Data.List.Forall2

/-!
# Half-edge meshes: the loops of `addFace`
-/

namespace Aleph.Mesh

variable {P D : Type}

/-- The state of the first loop of `addFace` after the pairs `ps`. -/
structure LoopSpec (m0 : Mesh P D) (φ : ℕ) (m : Mesh P D) (ps : List (ℕ × ℕ)) (es : List ℕ) : Prop where
  core : Core m.vertex m.halfEdges
  same : Same m0.halfEdges m.halfEdges
  edges : List.Forall₂ (fun p e => sourceOf m.halfEdges e = some p.1 ∧ targetOf m.halfEdges e = some p.2) ps es
  nodup : es.Nodup
  unfaced : ∀ e ∈ es, faceOf m0.halfEdges e = none
  face : ∀ e, faceOf m.halfEdges e = if e ∈ es then some φ else faceOf m0.halfEdges e
  covered : ∀ j, m0.halfEdges.length ≤ j → j < m.halfEdges.length → j ∈ es ∨ ∃ e ∈ es, pairOf m.halfEdges j = some e
  others : ∀ j < m0.halfEdges.length, j ∉ es → m.halfEdges[j]? = m0.halfEdges[j]?
  ids : m.ids = m0.ids
  largest : m.largest = m0.largest
  lists : m.faces = m0.faces.modify φ fun x => x.or es.head?
  keeps : Keeps m0.vertex m.vertex
  verts : ∀ p ∈ ps, (m0.vertex p.1).isSome ∧ (m0.vertex p.2).isSome

theorem LoopSpec.refl {m : Mesh P D} {φ : ℕ} (hC : Core m.vertex m.halfEdges) : LoopSpec m φ m [] [] where
  core := hC
  same := Same.refl _
  edges := .nil
  nodup := List.nodup_nil
  unfaced := by simp
  face := by simp
  covered := by intro j h1 h2; omega
  others := by intros; rfl
  ids := rfl
  largest := rfl
  lists := by
    apply List.ext_getElem?
    intro j
    rw [List.getElem?_modify]
    cases m.faces[j]? with
    | none => rfl
    | some a => by_cases h : φ = j <;> simp [h]
  keeps := Keeps.refl _
  verts := by simp

theorem LoopSpec.step {m0 m m' : Mesh P D} {φ c n e : ℕ} {ps : List (ℕ × ℕ)} {es : List ℕ} (h : LoopSpec m0 φ m ps es) (hs : StepSpec m φ c n m' e)
    (hc : (m.vertex c).isSome) (hn : (m.vertex n).isSome) : LoopSpec m0 φ m' (ps ++ [(c, n)]) (es ++ [e]) := by
  have hne : e ∉ es := by
    intro he
    have := h.face e
    rw [hs.old, if_pos he] at this
    cases this
  have hface : ∀ j, faceOf m'.halfEdges j = if j = e then some φ else faceOf m.halfEdges j := by
    intro j
    split
    · rename_i hj; subst hj; exact hs.new
    · rename_i hj; exact hs.faces j hj
  have hun : faceOf m0.halfEdges e = none := by
    have := h.face e
    rw [hs.old, if_neg hne] at this
    exact this.symm
  refine ⟨hs.core, h.same.trans hs.same, ?_, ?_, ?_, ?_, ?_, ?_, hs.ids.trans h.ids, hs.largest.trans h.largest, ?_, h.keeps.trans hs.keeps, ?_⟩
  · refine List.rel_append (R := fun (p : ℕ × ℕ) (e : ℕ) => sourceOf m'.halfEdges e = some p.1 ∧ targetOf m'.halfEdges e = some p.2) ?_
      (.cons ⟨hs.source, hs.target⟩ .nil)
    refine h.edges.imp ?_
    intro p e' hp
    have hl := sourceOf_lt hp.1
    exact ⟨by rw [hs.same.source h.core hl]; exact hp.1, by rw [hs.same.target e' hl]; exact hp.2⟩
  · rw [List.nodup_append]
    refine ⟨h.nodup, List.nodup_singleton e, ?_⟩
    intro a ha b hb
    cases List.mem_singleton.1 hb
    rintro rfl
    exact hne ha
  · intro e' he'
    rcases List.mem_append.1 he' with he' | he'
    · exact h.unfaced e' he'
    · cases List.mem_singleton.1 he'; exact hun
  · intro j
    rw [hface, h.face]
    by_cases h1 : j = e
    · simp [h1]
    · simp [h1]
  · intro j h1 h2
    by_cases hj : j < m.halfEdges.length
    · rcases h.covered j h1 hj with h3 | ⟨e', h3, h4⟩
      · exact .inl (List.mem_append_left _ h3)
      · exact .inr ⟨e', List.mem_append_left _ h3, by rw [hs.same.pair j hj]; exact h4⟩
    · rcases hs.covered j (by omega) h2 with h3 | h3
      · exact .inl (by simp [h3])
      · exact .inr ⟨e, by simp, h3⟩
  · intro j hj hm
    rw [hs.other j (hj.trans_le h.same.len) (by rintro rfl; simp at hm), h.others j hj (fun hc => hm (List.mem_append_left _ hc))]
  · rw [hs.lists, h.lists]
    apply List.ext_getElem?
    intro j
    rw [List.getElem?_modify, List.getElem?_modify, List.getElem?_modify]
    cases m0.faces[j]? with
    | none => rfl
    | some a => by_cases hj : φ = j <;> cases a <;> cases es <;> simp [hj]
  · intro p hp
    rcases List.mem_append.1 hp with hp | hp
    · exact h.verts p hp
    · cases List.mem_singleton.1 hp
      exact ⟨by rw [← h.keeps.isSome]; exact hc, by rw [← h.keeps.isSome]; exact hn⟩

theorem faceLoop_spec (fuel φ first : ℕ) (m0 : Mesh P D) : ∀ (vs : List ℕ) (m : Mesh P D) (ps : List (ℕ × ℕ)) (es : List ℕ) (m' : Mesh P D) (es' : List ℕ),
    LoopSpec m0 φ m ps es → faceLoop fuel φ first m vs es = .ok (m', es') → LoopSpec m0 φ m' (ps ++ vs.zip (vs.tail ++ [first])) es' := by
  intro vs
  induction vs with
  | nil =>
    intro m ps es m' es' h he
    cases he
    simpa using h
  | cons c vs ih =>
    intro m ps es m' es' h he
    cases vs with
    | nil =>
      simp only [faceLoop] at he
      split at he
      · rename_i m1 e1 hs
        cases he
        obtain ⟨h1, h2, h3⟩ := faceStep_spec h.core hs
        exact h.step h1 h2 h3
      · cases he
      · cases he
    | cons n vs =>
      simp only [faceLoop] at he
      split at he
      · rename_i m1 e1 hs
        obtain ⟨h1, h2, h3⟩ := faceStep_spec h.core hs
        have := ih m1 _ _ m' es' (h.step h1 h2 h3) he
        simpa using this
      · cases he
      · cases he

/-! ### Pointers within a face -/

theorem rotate_get {β : Type} (l : List β) (i : ℕ) (hi : i < l.length) : (l.tail ++ l.head?.toList)[i]? = l[(i + 1) % l.length]? := by
  cases l with
  | nil => simp at hi
  | cons a l =>
    simp only [List.tail_cons, List.head?_cons, Option.toList_some, List.length_cons] at hi ⊢
    rcases Nat.lt_or_ge i l.length with h | h
    · rw [List.getElem?_append_left h, Nat.mod_eq_of_lt (by omega), List.getElem?_cons_succ]
    · have : i = l.length := by omega
      subst this
      simp

theorem back_get {β : Type} (l : List β) (i : ℕ) (hi : i < l.length) :
    (l.getLast?.toList ++ l.dropLast)[i]? = l[(i + l.length - 1) % l.length]? := by
  have hne : l ≠ [] := by rintro rfl; simp at hi
  rw [List.getLast?_eq_some_getLast hne]
  cases i with
  | zero =>
    simp only [Option.toList_some, List.cons_append, List.nil_append, List.getElem?_cons_zero, Nat.zero_add]
    rw [Nat.mod_eq_of_lt (by omega), List.getElem?_eq_getElem (by omega), List.getLast_eq_getElem]
  | succ i =>
    simp only [Option.toList_some, List.cons_append, List.nil_append, List.getElem?_cons_succ]
    have : i + 1 + l.length - 1 = i + l.length := by omega
    rw [this, Nat.add_mod_right, Nat.mod_eq_of_lt (by omega), List.getElem?_dropLast, if_pos (by omega)]

/-- The loop that sets the pointers, for any list of triples. -/
theorem link_fold (ts : List (ℕ × ℕ × ℕ)) : ∀ (H : List HalfEdge), (ts.map (·.1)).Nodup →
    let H' := ts.foldl (fun H t => H.modify t.1 fun h => { h with next := some t.2.1, prev := some t.2.2 }) H
    H'.length = H.length ∧ (∀ j, pairOf H' j = pairOf H j) ∧ (∀ j, targetOf H' j = targetOf H j) ∧ (∀ j, faceOf H' j = faceOf H j) ∧
    (∀ j, j ∉ ts.map (·.1) → H'[j]? = H[j]?) ∧
    ∀ t ∈ ts, t.1 < H.length → nextOf H' t.1 = some t.2.1 ∧ prevOf H' t.1 = some t.2.2 := by
  induction ts with
  | nil => intro H _; simp
  | cons t ts ih =>
    intro H hnd
    simp only [List.map_cons, List.nodup_cons] at hnd
    obtain ⟨h1, h2, h3, h4, h5, h6⟩ := ih (H.modify t.1 fun h => { h with next := some t.2.1, prev := some t.2.2 }) hnd.2
    simp only [List.foldl_cons]
    refine ⟨by rw [h1]; simp, ?_, ?_, ?_, ?_, ?_⟩
    · intro j; rw [h2, pairOf_modify]; intro _; rfl
    · intro j; rw [h3, targetOf_modify]; intro _; rfl
    · intro j; rw [h4, faceOf_modify]; intro _; rfl
    · intro j hj
      simp only [List.map_cons, List.mem_cons, not_or] at hj
      rw [h5 j hj.2, getElem?_mod, if_neg (Ne.symm hj.1)]
    · intro t' ht' hl
      rcases List.mem_cons.1 ht' with rfl | ht'
      · rw [nextOf, prevOf, h5 t'.1 hnd.1, getElem?_mod, if_pos rfl, List.getElem?_eq_getElem hl]
        exact ⟨rfl, rfl⟩
      · exact h6 t' ht' (by simpa using hl)

theorem linkFace_spec (H : List HalfEdge) (es : List ℕ) (hnd : es.Nodup) (hl : ∀ e ∈ es, e < H.length) :
    (linkFace H es).length = H.length ∧ (∀ j, pairOf (linkFace H es) j = pairOf H j) ∧ (∀ j, targetOf (linkFace H es) j = targetOf H j) ∧
    (∀ j, faceOf (linkFace H es) j = faceOf H j) ∧ (∀ j, j ∉ es → (linkFace H es)[j]? = H[j]?) ∧
    ∀ i e, es[i]? = some e → nextOf (linkFace H es) e = es[(i + 1) % es.length]? ∧ prevOf (linkFace H es) e = es[(i + es.length - 1) % es.length]? := by
  have hlen : (es.tail ++ es.head?.toList).length = es.length := by cases es <;> simp
  have hlen2 : (es.getLast?.toList ++ es.dropLast).length = es.length := by
    cases es with
    | nil => simp
    | cons a l => simp [List.getLast?_eq_some_getLast]
  have hmap : (es.zip ((es.tail ++ es.head?.toList).zip (es.getLast?.toList ++ es.dropLast))).map (·.1) = es := by
    apply List.map_fst_zip
    rw [List.length_zip, hlen, hlen2]; simp
  have hf := link_fold (es.zip ((es.tail ++ es.head?.toList).zip (es.getLast?.toList ++ es.dropLast))) H (by rw [hmap]; exact hnd)
  rw [hmap] at hf
  obtain ⟨h1, h2, h3, h4, h5, h6⟩ := hf
  refine ⟨h1, h2, h3, h4, h5, ?_⟩
  intro i e hi
  have hil : i < es.length := (List.getElem?_eq_some_iff.1 hi).1
  have hil2 : (i + 1) % es.length < es.length := Nat.mod_lt _ (by omega)
  have hil3 : (i + es.length - 1) % es.length < es.length := Nat.mod_lt _ (by omega)
  have hn := rotate_get es i hil
  have hp := back_get es i hil
  rw [List.getElem?_eq_getElem hil2] at hn ⊢
  rw [List.getElem?_eq_getElem hil3] at hp ⊢
  refine h6 (e, es[(i + 1) % es.length], es[(i + es.length - 1) % es.length]) ?_ (hl e (List.mem_of_getElem? hi))
  apply List.mem_of_getElem? (i := i)
  rw [List.getElem?_zip_eq_some, List.getElem?_zip_eq_some]
  exact ⟨hi, hn, hp⟩

/-! ### The invariant of histories -/

/-- The half-edges `es` run along the face `φ` with the vertices `vs`. -/
structure Cycle (H : List HalfEdge) (φ : ℕ) (vs es : List ℕ) : Prop where
  len : es.length = vs.length
  nodup : es.Nodup
  face : ∀ e ∈ es, faceOf H e = some φ
  source : ∀ (i e : ℕ), es[i]? = some e → sourceOf H e = vs[i]?
  target : ∀ (i e : ℕ), es[i]? = some e → targetOf H e = vs[(i + 1) % vs.length]?
  next : ∀ (i e : ℕ), es[i]? = some e → nextOf H e = es[(i + 1) % es.length]?

/-- The invariant; `hist` lists the faces that were added. -/
structure Inv (m : Mesh P D) (hist : List (List ℕ)) : Prop where
  core : Core m.vertex m.halfEdges
  keys : ∀ v, v ∈ m.ids ↔ (m.vertex v).isSome
  nodup : m.ids.Nodup
  largest : ∀ v ∈ m.ids, v ≤ m.largest
  attained : m.ids ≠ [] → m.largest ∈ m.ids
  empty : m.ids = [] → m.largest = 0
  size : m.faces.length = hist.length
  cycles : ∀ (φ : ℕ) (vs : List ℕ), hist[φ]? = some vs → ∃ (es : List ℕ), Cycle m.halfEdges φ vs es ∧ m.faces[φ]? = some es.head?
  faced : ∀ (e φ : ℕ), faceOf m.halfEdges e = some φ → ∃ (vs : List ℕ), hist[φ]? = some vs ∧ ∃ i < vs.length, sourceOf m.halfEdges e = vs[i]? ∧
    targetOf m.halfEdges e = vs[(i + 1) % vs.length]?
  covered : ∀ e < m.halfEdges.length, (faceOf m.halfEdges e).isSome ∨ ∃ p, pairOf m.halfEdges e = some p ∧ (faceOf m.halfEdges p).isSome
  members : ∀ vs ∈ hist, ∀ v ∈ vs, v ∈ m.ids ∧ ∃ e, sourceOf m.halfEdges e = some v

theorem Inv.empty_mesh : Inv ({} : Mesh P D) [] where
  core := ⟨by simp, by simp, by intro e e' h; simp [nextOf] at h, by intro e e' h; simp [prevOf] at h, by simp, by simp⟩
  keys := by simp
  nodup := List.nodup_nil
  largest := by simp
  attained := by simp
  empty := by simp
  size := rfl
  cycles := by simp
  faced := by intro e φ h; simp [faceOf] at h
  covered := by simp
  members := by simp

theorem Inv.addVertex {m m' : Mesh P D} {hist : List (List ℕ)} (h : Inv m hist) {x y z : P} {data : D} {id : Option ℕ}
    (he : addVertex m x y z data id = .ok m') : Inv m' hist := by
  simp only [Mesh.addVertex] at he
  generalize id.getD (max m.ids.length m.largest) = i at he
  cases hv : m.vertex i with
  | some x => rw [hv] at he; cases he
  | none =>
    rw [hv] at he
    cases he
    have hnot : i ∉ m.ids := by rw [h.keys, hv]; simp
    have hup : ∀ v, (m.vertex v).isSome → (Function.update m.vertex i (some { x := x, y := y, z := z, data := data }) v).isSome := by
      intro v hs
      rw [Function.update_apply]
      split
      · rfl
      · exact hs
    refine ⟨⟨h.core.pair, ?_, h.core.next, h.core.prev, ?_, ?_⟩, ?_, ?_, ?_, ?_, ?_, h.size, h.cycles, h.faced, h.covered, ?_⟩
    · intro e hl
      obtain ⟨v, h1, h2⟩ := h.core.target e hl
      exact ⟨v, h1, hup v h2⟩
    · intro v x' e hx hxe
      simp only [Function.update_apply] at hx
      split at hx
      · cases hx; cases hxe
      · exact h.core.edge v x' e hx hxe
    · intro v x' e hs hx
      simp only [Function.update_apply] at hx
      split at hx
      · rename_i hvi
        subst hvi
        obtain ⟨w, h1, h2⟩ := h.core.source (sourceOf_lt hs)
        rw [hs] at h1
        cases h1
        rw [hv] at h2
        cases h2
      · exact h.core.start v x' e hs hx
    · intro v
      simp only [List.mem_append, List.mem_singleton, Function.update_apply]
      split
      · simp_all
      · rename_i hne
        rw [h.keys]
        simp [hne]
    · simp only [List.nodup_append, h.nodup, List.nodup_singleton, true_and]
      intro a ha b hb
      cases List.mem_singleton.1 hb
      rintro rfl
      exact hnot ha
    · intro v hv'
      simp only [List.mem_append, List.mem_singleton] at hv'
      rcases hv' with hv' | rfl
      · exact (h.largest v hv').trans (le_max_left _ _)
      · exact le_max_right _ _
    · intro _
      simp only [List.mem_append, List.mem_singleton]
      rcases le_total m.largest i with hle | hle
      · rw [max_eq_right hle]; exact .inr rfl
      · rw [max_eq_left hle]
        by_cases hne : m.ids = []
        · have := h.empty hne
          right; omega
        · exact .inl (h.attained hne)
    · intro hc; simp at hc
    · intro vs hvs v hv'
      obtain ⟨h1, h2⟩ := h.members vs hvs v hv'
      exact ⟨List.mem_append_left _ h1, h2⟩

theorem Cycle.mono {H H' : List HalfEdge} {V : ℕ → Option (Vertex P D)} {φ : ℕ} {vs es : List ℕ} (h : Cycle H φ vs es) (hC : Core V H) (hs : Same H H')
    (hk : KeepsFaces H H') : Cycle H' φ vs es := by
  have hget : ∀ e ∈ es, H'[e]? = H[e]? := fun e he => hk e (by rw [h.face e he]; rfl)
  refine ⟨h.len, h.nodup, ?_, ?_, ?_, ?_⟩
  · intro e he; rw [faceOf, hget e he]; exact h.face e he
  · intro i e hi
    rw [hs.source hC (faceOf_lt (h.face e (List.mem_of_getElem? hi)))]
    exact h.source i e hi
  · intro i e hi; rw [targetOf, hget e (List.mem_of_getElem? hi)]; exact h.target i e hi
  · intro i e hi; rw [nextOf, hget e (List.mem_of_getElem? hi)]; exact h.next i e hi

/-- The new face is a cycle after the second loop. -/
theorem link_cycle {m0 m : Mesh P D} {φ : ℕ} {vs es : List ℕ} (h : LoopSpec m0 φ m (vs.zip (vs.tail ++ [vs.headD 0])) es) :
    Core m.vertex (linkFace m.halfEdges es) ∧ Cycle (linkFace m.halfEdges es) φ vs es ∧ Same m0.halfEdges (linkFace m.halfEdges es) ∧
    KeepsFaces m0.halfEdges (linkFace m.halfEdges es) ∧ (linkFace m.halfEdges es).length = m.halfEdges.length ∧
    (∀ j, pairOf (linkFace m.halfEdges es) j = pairOf m.halfEdges j) ∧ (∀ j, targetOf (linkFace m.halfEdges es) j = targetOf m.halfEdges j) ∧
    ∀ j, faceOf (linkFace m.halfEdges es) j = faceOf m.halfEdges j := by
  have hvs : vs.tail ++ [vs.headD 0] = vs.tail ++ vs.head?.toList ∨ vs = [] := by cases vs <;> simp
  have hl : es.length = vs.length := by
    rw [← h.edges.length_eq, List.length_zip]
    cases vs <;> simp
  have hget : ∀ i e, es[i]? = some e → sourceOf m.halfEdges e = vs[i]? ∧ targetOf m.halfEdges e = vs[(i + 1) % vs.length]? := by
    intro i e hi
    have hil : i < es.length := (List.getElem?_eq_some_iff.1 hi).1
    rcases hvs with hvs | rfl
    · have hz : i < (vs.zip (vs.tail ++ [vs.headD 0])).length := by rw [h.edges.length_eq]; exact hil
      have h2 := h.edges.get hz hil
      have he : es.get ⟨i, hil⟩ = e := (List.getElem?_eq_some_iff.1 hi).2
      rw [he] at h2
      have hz' : (vs.zip (vs.tail ++ [vs.headD 0]))[i]? = some ((vs.zip (vs.tail ++ [vs.headD 0])).get ⟨i, hz⟩) := List.getElem?_eq_getElem hz
      rw [List.getElem?_zip_eq_some] at hz'
      refine ⟨h2.1.trans hz'.1.symm, h2.2.trans ?_⟩
      rw [← hz'.2, hvs, rotate_get vs i (by omega)]
    · rw [List.length_nil] at hl; omega
  have hel : ∀ e ∈ es, e < m.halfEdges.length := by
    intro e he
    obtain ⟨i, hi⟩ := List.getElem?_of_mem he
    exact faceOf_lt (by rw [h.face, if_pos he])
  obtain ⟨l1, l2, l3, l4, l5, l6⟩ := linkFace_spec m.halfEdges es h.nodup hel
  have lS : ∀ j, sourceOf (linkFace m.halfEdges es) j = sourceOf m.halfEdges j := by
    intro j
    rw [sourceOf, sourceOf, l2]
    cases pairOf m.halfEdges j with
    | none => rfl
    | some q => exact l3 q
  have hSame : Same m.halfEdges (linkFace m.halfEdges es) := ⟨l1.ge, fun j _ => l2 j, fun j _ => l3 j⟩
  refine ⟨⟨?_, ?_, ?_, ?_, ?_, ?_⟩, ⟨hl, h.nodup, ?_, ?_, ?_, ?_⟩, h.same.trans hSame, ?_, l1, l2, l3, l4⟩
  · intro j hj; simpa only [l2] using h.core.pair j (by omega)
  · intro j hj; simpa only [l3] using h.core.target j (by omega)
  · intro j e' hn
    rw [l1, lS, l3]
    by_cases hj : j ∈ es
    · obtain ⟨i, hi⟩ := List.getElem?_of_mem hj
      rw [(l6 i j hi).1] at hn
      have g1 := hget _ _ hn
      have g2 := hget _ _ hi
      refine ⟨hel e' (List.mem_of_getElem? hn), ?_⟩
      rw [g1.1, g2.2, hl]
    · rw [nextOf, l5 j hj] at hn
      exact h.core.next j e' hn
  · intro j e' hn
    rw [l1, lS, l3]
    by_cases hj : j ∈ es
    · obtain ⟨i, hi⟩ := List.getElem?_of_mem hj
      rw [(l6 i j hi).2] at hn
      have g1 := hget _ _ hn
      have g2 := hget _ _ hi
      have hil : i < es.length := (List.getElem?_eq_some_iff.1 hi).1
      refine ⟨hel e' (List.mem_of_getElem? hn), ?_⟩
      rw [g1.2, g2.1, ← hl]
      congr 1
      rcases Nat.eq_zero_or_pos i with rfl | hpos
      · rw [Nat.zero_add, Nat.mod_eq_of_lt (show es.length - 1 < es.length by omega), Nat.sub_add_cancel (by omega), Nat.mod_self]
      · have : i + es.length - 1 = (i - 1) + es.length := by omega
        rw [this, Nat.add_mod_right, Nat.mod_eq_of_lt (show i - 1 < es.length by omega), Nat.sub_add_cancel hpos, Nat.mod_eq_of_lt hil]
    · rw [prevOf, l5 j hj] at hn
      exact h.core.prev j e' hn
  · intro v x e hx hxe; rw [l1, lS]; exact h.core.edge v x e hx hxe
  · intro v x e hs hx; rw [lS] at hs; exact h.core.start v x e hs hx
  · intro e he; rw [l4, h.face, if_pos he]
  · intro i e hi; rw [lS]; exact (hget i e hi).1
  · intro i e hi; rw [l3]; exact (hget i e hi).2
  · intro i e hi; exact (l6 i e hi).1
  · intro e he
    have hne : e ∉ es := by intro hc; rw [h.unfaced e hc] at he; cases he
    obtain ⟨φ', hφ'⟩ := Option.isSome_iff_exists.1 he
    rw [l5 e hne, h.others e (faceOf_lt hφ') hne]

/-- What `addFace` does to a mesh. -/
theorem addFace_spec {iter : List ℕ → List ℕ} {fuel : ℕ} {m m' : Mesh P D} {hist : List (List ℕ)} {vs : List ℕ} (h : Inv m hist)
    (he : addFace iter fuel m vs = .ok m') : Inv m' (hist ++ [vs]) ∧ m'.ids = m.ids ∧ m'.largest = m.largest ∧ Keeps m.vertex m'.vertex ∧
      Same m.halfEdges m'.halfEdges ∧ KeepsFaces m.halfEdges m'.halfEdges ∧
      ∃ m1 es, faceLoop fuel m.faces.length (vs.headD 0) { m with faces := m.faces ++ [none] } vs [] = .ok (m1, es) ∧ m'.vertex = m1.vertex ∧
        Same m1.halfEdges m'.halfEdges ∧ ∀ e, faceOf m'.halfEdges e = faceOf m1.halfEdges e := by
  simp only [addFace] at he
  cases hl : faceLoop fuel m.faces.length (vs.headD 0) { m with faces := m.faces ++ [none] } vs [] with
  | thrown m1 => rw [hl] at he; cases he
  | undefined => rw [hl] at he; cases he
  | ok r =>
    obtain ⟨m1, es⟩ := r
    rw [hl] at he
    simp only at he
    cases hx : (iter m1.ids).foldlM (extendVertex fuel m1.vertex) (linkFace m1.halfEdges es) with
    | none => rw [hx] at he; cases he
    | some H =>
      rw [hx] at he
      cases he
      have hls := faceLoop_spec fuel m.faces.length (vs.headD 0) { m with faces := m.faces ++ [none] } vs _ [] [] m1 es (LoopSpec.refl h.core) hl
      rw [List.nil_append] at hls
      obtain ⟨c1, c2, c3, c4, c5, c6, c7, c8⟩ := link_cycle hls
      have hext := extend_spec fuel _ _ _ c1 hx
      have hsame : Same m.halfEdges H := c3.trans hext.same
      have hkeep : KeepsFaces m.halfEdges H := KeepsFaces.trans c4 hext.keeps
      have hcyc := c2.mono c1 hext.same hext.keeps
      have hfaceH : ∀ e, faceOf H e = if e ∈ es then some m.faces.length else faceOf m.halfEdges e := by
        intro e; rw [hext.face, c8, hls.face]
      refine ⟨⟨hext.core, ?_, ?_, ?_, ?_, ?_, ?_, ?_, ?_, ?_, ?_⟩, hls.ids, hls.largest, hls.keeps, hsame, hkeep, m1, es, rfl, rfl,
        Same.trans ⟨c5.ge, fun j _ => c6 j, fun j _ => c7 j⟩ hext.same, fun e => (hext.face e).trans (c8 e)⟩
      · intro v
        show v ∈ m1.ids ↔ _
        rw [hls.ids, hls.keeps.isSome]
        exact h.keys v
      · show m1.ids.Nodup
        rw [hls.ids]; exact h.nodup
      · show ∀ v ∈ m1.ids, v ≤ m1.largest
        rw [hls.ids, hls.largest]; exact h.largest
      · show m1.ids ≠ [] → m1.largest ∈ m1.ids
        rw [hls.ids, hls.largest]; exact h.attained
      · show m1.ids = [] → m1.largest = 0
        rw [hls.ids, hls.largest]; exact h.empty
      · show m1.faces.length = _
        rw [hls.lists]; simp [h.size]
      · intro φ us hφ
        show ∃ es, Cycle H φ us es ∧ m1.faces[φ]? = some es.head?
        rw [hls.lists]
        rcases Nat.lt_or_ge φ hist.length with hlt | hge
        · rw [List.getElem?_append_left hlt] at hφ
          obtain ⟨es', h1, h2⟩ := h.cycles φ us hφ
          refine ⟨es', h1.mono h.core hsame hkeep, ?_⟩
          rw [List.getElem?_modify, List.getElem?_append_left (by rw [h.size]; exact hlt), h2]
          have : ¬ m.faces.length = φ := by rw [h.size]; omega
          simp [this]
        · have : φ = hist.length := by
            have := (List.getElem?_eq_some_iff.1 hφ).1
            simp at this
            omega
          subst this
          simp at hφ
          subst hφ
          rw [← h.size]
          refine ⟨es, hcyc, ?_⟩
          rw [List.getElem?_modify]
          simp
      · intro e φ hf
        rw [show ({ m1 with halfEdges := H } : Mesh P D).halfEdges = H from rfl] at hf ⊢
        rw [hfaceH] at hf
        split at hf
        · rename_i hes
          cases hf
          refine ⟨vs, by rw [h.size]; simp, ?_⟩
          obtain ⟨i, hi⟩ := List.getElem?_of_mem hes
          refine ⟨i, ?_, hcyc.source i e hi, hcyc.target i e hi⟩
          rw [← hcyc.len]
          exact (List.getElem?_eq_some_iff.1 hi).1
        · obtain ⟨us, h1, i, h2, h3, h4⟩ := h.faced e φ hf
          refine ⟨us, ?_, i, h2, ?_, ?_⟩
          · rw [List.getElem?_append_left (List.getElem?_eq_some_iff.1 h1).1, h1]
          · rw [hsame.source h.core (faceOf_lt hf), h3]
          · rw [hsame.target e (faceOf_lt hf), h4]
      · intro e hel
        show (faceOf H e).isSome ∨ ∃ p, pairOf H e = some p ∧ (faceOf H p).isSome
        have hel : e < H.length := hel
        rw [hext.len, c5] at hel
        have hmono : ∀ e, (faceOf m.halfEdges e).isSome → (faceOf H e).isSome := by
          intro e he
          rw [hfaceH]
          split
          · rfl
          · exact he
        rcases Nat.lt_or_ge e m.halfEdges.length with hlt | hge
        · rcases h.covered e hlt with h1 | ⟨p, h1, h2⟩
          · exact .inl (hmono e h1)
          · exact .inr ⟨p, by rw [hsame.pair e hlt, h1], hmono p h2⟩
        · rcases hls.covered e hge hel with h1 | ⟨e', h1, h2⟩
          · left; rw [hfaceH, if_pos h1]; rfl
          · right
            refine ⟨e', ?_, by rw [hfaceH, if_pos h1]; rfl⟩
            rw [hext.same.pair e (by rw [c5]; exact hel), c6, h2]
      · intro us hus v hv
        show v ∈ m1.ids ∧ ∃ e, sourceOf H e = some v
        rw [hls.ids]
        rcases List.mem_append.1 hus with hus | hus
        · obtain ⟨h1, e, h2⟩ := h.members us hus v hv
          exact ⟨h1, e, by rw [hsame.source h.core (sourceOf_lt h2), h2]⟩
        · cases List.mem_singleton.1 hus
          obtain ⟨i, hi⟩ := List.getElem?_of_mem hv
          have hil : i < es.length := by rw [hcyc.len]; exact (List.getElem?_eq_some_iff.1 hi).1
          have hs := hcyc.source i _ (List.getElem?_eq_getElem hil)
          rw [hi] at hs
          refine ⟨?_, _, hs⟩
          obtain ⟨w, h1, h2⟩ := hext.core.source (sourceOf_lt hs)
          rw [hs] at h1
          cases h1
          rw [hls.keeps.isSome] at h2
          exact (h.keys v).2 h2

end Aleph.Mesh
