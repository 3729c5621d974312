import Verif.Lemmas.MeshBounds
import Verif.Lemmas.MeshComponents

/-!
# Properties of half-edge meshes

C116 (vertices), C117 (faces), C118 (neighbours), C119 (connected components), C120 (star) and C121 (segments of the link) for meshes that are built by an
arbitrary history of calls.
-/

namespace Aleph.Mesh

open Aleph.Spec Aleph.Spec.Mesh ParentMap

variable {P D : Type}

/-- The calls that create vertices with the default IDs `0`, `1`, …; their data are their IDs. -/
def defaultVertices (n : ℕ) : List (Op ℕ ℕ) := (List.range n).map fun i => .vertex 0 0 0 i none

/-- A mesh with `n` vertices and the given faces. -/
def build (n : ℕ) (fs : List (List ℕ)) : Option (Mesh ℕ ℕ) := run id 40 (defaultVertices n ++ fs.map .face)

theorem isOrder_id : IsOrder id := fun _ => .refl _

theorem build_eq {n : ℕ} {fs : List (List ℕ)} {m : Mesh ℕ ℕ} (h : build n fs = some m) : run id 40 (defaultVertices n ++ fs.map .face) = some m := h

/-! ### C116: vertices -/

/-- The coordinates and the data of a vertex. -/
def attributes (m : Mesh P D) (v : ℕ) : Option (P × P × P × D) := (m.vertex v).map fun x => (x.x, x.y, x.z, x.data)

/-- C116. A vertex with an explicit ID is added if and only if the ID is new; then all other vertices keep their data.  Otherwise an exception is thrown and
the mesh is unchanged. -/
theorem _root_.Aleph.C116_vertex {iter : List ℕ → List ℕ} (hiter : IsOrder iter) {fuel : ℕ} {ops : List (Op P D)} {m : Mesh P D}
    (h : run iter fuel ops = some m) (x y z : P) (d : D) (i : ℕ) :
    (i ∉ vertices iter m → ∃ m', addVertex m x y z d (some i) = .ok m' ∧ (vertices iter m').Perm (i :: vertices iter m) ∧
      numVertices m' = numVertices m + 1 ∧ attributes m' i = some (x, y, z, d) ∧ dataAt m' i = some d ∧
      ∀ j, j ≠ i → attributes m' j = attributes m j ∧ dataAt m' j = dataAt m j) ∧
    (i ∈ vertices iter m → addVertex m x y z d (some i) = .thrown m) := by
  have hI := run_inv h
  have hmem : i ∈ vertices iter m ↔ (m.vertex i).isSome := by rw [← hI.keys]; exact (hiter m.ids).mem_iff
  simp only [addVertex, Option.getD_some]
  constructor
  · intro hn
    have hv : m.vertex i = none := by rw [hmem] at hn; simpa using hn
    rw [hv]
    refine ⟨_, rfl, ?_, ?_, ?_, ?_, ?_⟩
    · refine (hiter _).trans (List.perm_append_singleton i m.ids |>.trans ?_)
      exact List.Perm.cons i (hiter m.ids).symm
    · simp [numVertices]
    · simp [attributes]
    · simp [dataAt]
    · intro j hj
      simp [attributes, dataAt, hj]
  · intro hi
    obtain ⟨v, hv⟩ := Option.isSome_iff_exists.1 (hmem.1 hi)
    rw [hv]

/-- C116. A vertex with the default ID receives the number of vertices as its ID if all IDs are smaller than this number.  Otherwise, i.e. after an explicit ID
that is not smaller, an exception is thrown, although there are unused IDs. -/
theorem _root_.Aleph.C116_default_partial {iter : List ℕ → List ℕ} (hiter : IsOrder iter) {fuel : ℕ} {ops : List (Op P D)} {m : Mesh P D}
    (h : run iter fuel ops = some m) (x y z : P) (d : D) :
    ((∀ v ∈ vertices iter m, v < numVertices m) → ∃ m', addVertex m x y z d none = .ok m' ∧
      (vertices iter m').Perm (numVertices m :: vertices iter m) ∧ attributes m' (numVertices m) = some (x, y, z, d) ∧ dataAt m' (numVertices m) = some d ∧
      ∀ j, j ≠ numVertices m → attributes m' j = attributes m j ∧ dataAt m' j = dataAt m j) ∧
    ((∃ v ∈ vertices iter m, numVertices m ≤ v) → addVertex m x y z d none = .thrown m) := by
  have hI := run_inv h
  have hmem : ∀ v, v ∈ vertices iter m ↔ v ∈ m.ids := fun v => (hiter m.ids).mem_iff
  constructor
  · intro hall
    have hle : m.largest ≤ m.ids.length := by
      by_cases hne : m.ids = []
      · rw [hI.empty hne]; omega
      · exact (hall _ ((hmem _).2 (hI.attained hne))).le
    have hnot : numVertices m ∉ vertices iter m := fun hc => absurd (hall _ hc) (lt_irrefl _)
    have he : addVertex m x y z d none = addVertex m x y z d (some (numVertices m)) := by
      simp only [addVertex, Option.getD_none, Option.getD_some, numVertices, max_eq_left hle]
    rw [he]
    obtain ⟨m', h1, h2, _, h4, h5, h6⟩ := (C116_vertex hiter h x y z d (numVertices m)).1 hnot
    exact ⟨m', h1, h2, h4, h5, h6⟩
  · rintro ⟨v, hv, hle⟩
    have hne : m.ids ≠ [] := by intro hc; rw [hmem, hc] at hv; simp at hv
    have hlarge : m.ids.length ≤ m.largest := by
      have := hI.largest v ((hmem v).1 hv)
      simp only [numVertices] at hle
      omega
    have he : addVertex m x y z d none = addVertex m x y z d (some m.largest) := by
      simp only [addVertex, Option.getD_none, Option.getD_some, max_eq_right hlarge]
    rw [he]
    exact (C116_vertex hiter h x y z d m.largest).2 ((hmem _).2 (hI.attained hne))

/-- C116. `vertices` lists every vertex once, and exactly these vertices have data. -/
theorem _root_.Aleph.C116_vertices {iter : List ℕ → List ℕ} (hiter : IsOrder iter) {fuel : ℕ} {ops : List (Op P D)} {m : Mesh P D}
    (h : run iter fuel ops = some m) :
    (vertices iter m).Nodup ∧ numVertices m = (vertices iter m).length ∧ (∀ v, v ∈ vertices iter m ↔ (dataAt m v).isSome) ∧
    ∀ f ∈ addedFaces ops, ∀ v ∈ f, v ∈ vertices iter m := by
  have hI := run_inv h
  have hmem : ∀ v, v ∈ vertices iter m ↔ v ∈ m.ids := fun v => (hiter m.ids).mem_iff
  refine ⟨(hiter m.ids).nodup_iff.2 hI.nodup, (hiter m.ids).length_eq.symm, ?_, ?_⟩
  · intro v
    rw [hmem, hI.keys, dataAt, Option.isSome_map]
  · intro f hf v hv
    exact (hmem v).2 (hI.members f hf v hv).1

/-- C116. The insertion of a face does not change vertices and their data.  An exception is thrown only if a vertex is unknown, and leaves the vertices
unchanged, too. -/
theorem _root_.Aleph.C116_face {iter : List ℕ → List ℕ} (hiter : IsOrder iter) {fuel : ℕ} {ops : List (Op P D)} {m m' : Mesh P D}
    (h : run iter fuel ops = some m) (fuel' : ℕ) (vs : List ℕ) :
    (addFace iter fuel' m vs = .ok m' → vertices iter m' = vertices iter m ∧ (∀ v, attributes m' v = attributes m v ∧ dataAt m' v = dataAt m v) ∧ ∀ v ∈ vs, v ∈ vertices iter m) ∧
    (addFace iter fuel' m vs = .thrown m' → vertices iter m' = vertices iter m ∧ (∀ v, attributes m' v = attributes m v ∧ dataAt m' v = dataAt m v) ∧ ∃ v ∈ vs, v ∉ vertices iter m) := by
  have hI := run_inv h
  have hmem : ∀ v, v ∈ vertices iter m ↔ v ∈ m.ids := fun v => (hiter m.ids).mem_iff
  have hdata : ∀ {V' : ℕ → Option (Vertex P D)}, Keeps m.vertex V' → ∀ v, (V' v).map (fun x => (x.x, x.y, x.z, x.data)) = (m.vertex v).map (fun x => (x.x, x.y, x.z, x.data)) ∧
      (V' v).map (·.data) = (m.vertex v).map (·.data) := by
    intro V' hk v
    cases hv : m.vertex v with
    | none => rw [hk.none v hv]; exact ⟨rfl, rfl⟩
    | some x =>
      obtain ⟨x', h1, h2, h3, h4, h5, _⟩ := hk.some v x hv
      rw [h1]
      simp only [Option.map_some, h2, h3, h4, h5, and_self]
  constructor
  · intro he
    obtain ⟨h1, h2, h3, h4, _⟩ := addFace_spec hI he
    refine ⟨by simp only [vertices, h2], hdata h4, ?_⟩
    intro v hv
    rw [hmem, ← h2]
    exact (h1.members vs (by simp) v hv).1
  · intro he
    simp only [addFace] at he
    cases hl : faceLoop fuel' m.faces.length (vs.headD 0) { m with faces := m.faces ++ [none] } vs [] with
    | undefined => rw [hl] at he; cases he
    | ok r => rw [hl] at he; simp only at he; split at he <;> cases he
    | thrown m1 =>
      rw [hl] at he
      cases he
      obtain ⟨⟨ps, es, g1⟩, v, g2, g3⟩ := faceLoop_thrown fuel' m.faces.length (vs.headD 0) { m with faces := m.faces ++ [none] } vs _ [] [] m'
        (LoopSpec.refl hI.core) hl
      refine ⟨by simp only [vertices, g1.ids], hdata g1.keeps, v, ?_, ?_⟩
      · rcases g2 with g2 | g2
        · exact g2
        · cases vs with
          | nil => simp only [faceLoop] at hl; cases hl
          | cons a vs => rw [g2]; simp
      · rw [hmem, hI.keys]
        have g3 : m.vertex v = none := g3
        rw [g3]; simp

/-- C116. The bound of the loops does not influence the mesh. -/
theorem _root_.Aleph.C116_bound {iter : List ℕ → List ℕ} {fuel fuel' : ℕ} {ops : List (Op P D)} {m : Mesh P D} (hf : fuel ≤ fuel')
    (h : run iter fuel ops = some m) : run iter fuel' ops = some m := run_mono hf h

/-- Hypotheses of C116: a mesh with two triangles. -/
example : (build 4 [[0, 1, 2], [2, 1, 3]]).isSome := by decide

/-- Hypotheses of `C116_face`, second part: the vertex 9 is unknown. -/
example : ∃ m m' : Mesh ℕ ℕ, build 3 [] = some m ∧ addFace id 40 m [0, 1, 9] = .thrown m' := ⟨_, _, rfl, rfl⟩

/-- Hypotheses of `C116_default_partial`: after a vertex with ID 5, a vertex with a default ID is refused. -/
example : ∃ m : Mesh ℕ ℕ, run id 40 [.vertex 0 0 0 7 (some 5)] = some m ∧ vertices id m = [5] ∧ addVertex m 0 0 0 8 none = .thrown m :=
  ⟨_, rfl, rfl, rfl⟩

/-- C116. An exception of `addFace` leaves a mesh behind whose queries are not defined any more: after the failing insertion of a face with an unknown vertex,
the neighbours of the vertex 0 are found by dereferencing a null pointer, for every bound. -/
theorem _root_.Aleph.C116_exception_debris :
    ∃ m m' : Mesh ℕ ℕ, build 3 [] = some m ∧ addFace id 40 m [0, 1, 9] = .thrown m' ∧ link 40 m 0 = some [] ∧ ∀ fuel, link fuel m' 0 = none := by
  refine ⟨_, _, rfl, rfl, rfl, ?_⟩
  intro fuel
  cases fuel <;> rfl

/-- One triangle and two further vertices. -/
def hangBase : Mesh ℕ ℕ := (run id 20 (defaultVertices 5 ++ [.face [0, 1, 2]])).getD {}

/-- The mesh after the first loop of `addFace`. -/
def hangLoop : Mesh ℕ ℕ × List ℕ :=
  match faceLoop 20 1 3 { hangBase with faces := hangBase.faces ++ [none] } [3, 4, 2] [] with
  | .ok r => r
  | _ => ({}, [])

/-- The half-edges when the loop along the boundary starts at the vertex 3. -/
def hangStart : List HalfEdge := ([0, 1, 2].foldlM (extendVertex 20 hangLoop.1.vertex) (linkFace hangLoop.1.halfEdges hangLoop.2)).getD []

/-- Two consecutive half-edges of the boundary. -/
def joinEdges (H : List HalfEdge) (p e : ℕ) : List HalfEdge := (H.modify p fun h => { h with next := some e }).modify e fun h => { h with prev := some p }

/-- The half-edges after the first round of the loop. -/
def hangCycle : List HalfEdge := joinEdges (joinEdges (joinEdges (joinEdges (joinEdges hangStart 9 7) 5 9) 1 5) 3 1) 5 3

theorem hangCycle_none (F : ℕ) (f : ℕ) : boundaryLoop (F + 20) hangLoop.1.vertex 3 f hangCycle 5 0 = none := by
  induction f using Nat.strong_induction_on with
  | _ f ih =>
    rcases f with _ | _ | _ | f
    · rfl
    · rfl
    · rfl
    · have h : boundaryLoop (F + 20) hangLoop.1.vertex 3 (f + 3) hangCycle 5 0 = boundaryLoop (F + 20) hangLoop.1.vertex 3 f hangCycle 5 0 := rfl
      rw [h]
      exact ih f (by omega)

theorem hangStart_none (F : ℕ) (f : ℕ) : boundaryLoop (F + 20) hangLoop.1.vertex 3 f hangStart 7 4 = none := by
  rcases f with _ | _ | _ | _ | _ | f
  · rfl
  · rfl
  · rfl
  · rfl
  · rfl
  · exact hangCycle_none F f

/-- C116. The insertion of a face may never end: after the triangle `0 1 2`, the triangle `3 4 2`, which shares one vertex with it, makes the loop along the
boundary run around the first triangle forever. -/
theorem _root_.Aleph.C116_hang (fuel : ℕ) : run id fuel (defaultVertices 5 ++ [.face [0, 1, 2], .face [3, 4, 2]]) = none := by
  cases hr : run id fuel (defaultVertices 5 ++ [.face [0, 1, 2], .face [3, 4, 2]]) with
  | none => rfl
  | some m =>
    exfalso
    have h1 := run_mono (F' := fuel + 20) (by omega) hr
    have h2 : run id (fuel + 20) (defaultVertices 5 ++ [.face [0, 1, 2]]) = some hangBase := run_mono (F := 20) (by omega) rfl
    have h3 : faceLoop (fuel + 20) 1 3 { hangBase with faces := hangBase.faces ++ [none] } [3, 4, 2] [] = .ok hangLoop := by
      rw [faceLoop_mono (f := 20) (by omega)]
      · rfl
      · intro h; cases h
    have h4 : [0, 1, 2].foldlM (extendVertex (fuel + 20) hangLoop.1.vertex) (linkFace hangLoop.1.halfEdges hangLoop.2) = some hangStart :=
      extend_mono (F := 20) (by omega) _ _ _ rfl
    have h5 : extendVertex (fuel + 20) hangLoop.1.vertex hangStart 3 = none := by
      have h6 : extendVertex (fuel + 20) hangLoop.1.vertex hangStart 3 = match boundaryLoop (fuel + 20) hangLoop.1.vertex 3 (fuel + 20) hangStart 7 4 with
        | none => none
        | some (H', edge) => some (joinEdges H' 7 edge) := rfl
      rw [h6, hangStart_none]
    have h7 : addFace id (fuel + 20) hangBase [3, 4, 2] = .undefined := by
      simp only [addFace]
      have h8 : hangBase.faces.length = 1 := rfl
      rw [h8, List.headD_cons, h3]
      have h9 : id hangLoop.1.ids = [0, 1, 2] ++ [3, 4] := rfl
      simp only
      rw [h9, List.foldlM_append, h4]
      simp only [Option.bind_eq_bind, Option.bind_some, List.foldlM_cons, h5, Option.bind_none]
    have h10 : run id (fuel + 20) ((defaultVertices 5 ++ [.face [0, 1, 2]]) ++ [.face [3, 4, 2]]) = none := by
      simp only [run, List.foldlM_append (l' := [Op.face [3, 4, 2]])]
      simp only [run] at h2
      rw [h2]
      simp only [Option.bind_eq_bind, Option.bind_some, List.foldlM_cons, exec, h7, Option.bind_none]
    rw [List.append_assoc] at h10
    have h11 := h1.symm.trans h10
    cases h11

/-! ### C117: faces -/

/-- The faces that are collected, and those that are listed. -/
theorem listFaces_spec {iter iterFace : List ℕ → List ℕ} (hf : IsOrder iterFace) {fuel : ℕ} {m : Mesh P D} {hist : List (List ℕ)} (hI : Inv m hist)
    {fs : List (List ℕ)} (h : listFaces iter iterFace fuel m = some fs) :
    ∃ L, collectFaces m (iter m.ids) [] = some L ∧ fs = (iterFace L).map (fun φ => hist.getD φ []) ∧ L.Nodup ∧ (∀ φ ∈ L, φ < hist.length) ∧
      fs.length = L.length ∧ L.length ≤ (iter m.ids).length ∧
      ∀ φ, φ ∈ L ↔ ∃ v ∈ iter m.ids, ∃ e, (m.vertex v).bind (·.edge) = some e ∧ faceOf m.halfEdges e = some φ := by
  simp only [listFaces] at h
  cases hc : collectFaces m (iter m.ids) [] with
  | none => rw [hc] at h; cases h
  | some L =>
    rw [hc] at h
    simp only at h
    obtain ⟨h1, h2, h3⟩ := collectFaces_spec _ _ _ List.nodup_nil hc
    have h2' : ∀ φ, φ ∈ L ↔ ∃ v ∈ iter m.ids, ∃ e, (m.vertex v).bind (·.edge) = some e ∧ faceOf m.halfEdges e = some φ := by
      intro φ; rw [h2]; simp
    have hlt : ∀ φ ∈ L, φ < hist.length := by
      intro φ hφ
      obtain ⟨v, _, e, _, he⟩ := (h2' φ).1 hφ
      obtain ⟨vs, h4, _⟩ := hI.faced e φ he
      exact (List.getElem?_eq_some_iff.1 h4).1
    have hfs := mapM_some _ _ _ h
    have heq : fs = (iterFace L).map fun φ => hist.getD φ [] := by
      have : ∀ (l : List ℕ) (r : List (List ℕ)), (∀ φ ∈ l, φ < hist.length) → List.Forall₂ (fun a b => faceVertices fuel m a = some b) l r →
          r = l.map fun φ => hist.getD φ [] := by
        intro l r hl hr
        induction hr with
        | nil => rfl
        | cons ha _ ih =>
          rename_i a b l r _
          rw [List.map_cons, ← ih fun φ hφ => hl φ (by simp [hφ])]
          congr 1
          have hal := hl a (by simp)
          rw [hI.faceVertices (List.getElem?_eq_getElem hal) ha]
          simp [hal]
      exact this _ _ (fun φ hφ => hlt φ ((hf L).mem_iff.1 hφ)) hfs
    refine ⟨L, rfl, heq, h1, hlt, ?_, by simpa using h3, h2'⟩
    rw [heq, List.length_map, (hf L).length_eq]

/-- C117. Every list of vertices that is reported by `faces` is a face that was added to the mesh, with its vertices in the original order, and no face is
reported more often than it was added.  `numFaces` is the number of reported faces.  It is at most the number of *vertices*, so that faces are missing whenever
there are more faces than vertices. -/
theorem _root_.Aleph.C117_faces_partial {iter iterFace : List ℕ → List ℕ} (hiter : IsOrder iter) (hf : IsOrder iterFace) {fuel fuel' : ℕ}
    {ops : List (Op P D)} {m : Mesh P D} (h : run iter fuel ops = some m) {fs : List (List ℕ)} (hfs : listFaces iter iterFace fuel' m = some fs) :
    fs.Subperm (addedFaces ops) ∧ numFaces iter m = some fs.length ∧ fs.length ≤ numVertices m := by
  obtain ⟨L, h1, h2, h3, h4, h5, h6, _⟩ := listFaces_spec hf (run_inv h) hfs
  refine ⟨?_, ?_, ?_⟩
  · rw [h2]
    exact map_subperm [] _ _ ((hf L).nodup_iff.2 h3) fun φ hφ => h4 φ ((hf L).mem_iff.1 hφ)
  · simp only [numFaces, h1, h5]
  · rw [h5, numVertices, ← (hiter m.ids).length_eq]
    exact h6

/-- C117. `faces` returns a value, for every sufficiently large bound, if and only if every vertex belongs to a face; for other meshes a null pointer is
dereferenced. -/
theorem _root_.Aleph.C117_returns {iter iterFace : List ℕ → List ℕ} (hiter : IsOrder iter) (hf : IsOrder iterFace) {fuel : ℕ}
    {ops : List (Op P D)} {m : Mesh P D} (h : run iter fuel ops = some m) :
    ((∀ v ∈ vertices iter m, Used (addedFaces ops) v) → ∃ n, ∀ fuel' ≥ n, (listFaces iter iterFace fuel' m).isSome) ∧
    ((∃ v ∈ vertices iter m, ¬ Used (addedFaces ops) v) → (∀ fuel', listFaces iter iterFace fuel' m = none) ∧ numFaces iter m = none) := by
  have hI := run_inv h
  have hmem : ∀ v, v ∈ iter m.ids ↔ v ∈ m.ids := fun v => (hiter m.ids).mem_iff
  have hedge : ∀ v ∈ iter m.ids, ((m.vertex v).bind (·.edge)).isSome ↔ Used (addedFaces ops) v := by
    intro v hv
    obtain ⟨x, hx⟩ := Option.isSome_iff_exists.1 ((hI.keys v).1 ((hmem v).1 hv))
    rw [hx, Option.bind_some]
    exact hI.hasEdge_iff hx
  constructor
  · intro hall
    obtain ⟨L, hL⟩ := Option.isSome_iff_exists.1 ((collectFaces_isSome (m := m) (iter m.ids) []).2 fun v hv => (hedge v hv).2 (hall v hv))
    obtain ⟨_, h2, _⟩ := collectFaces_spec _ _ _ List.nodup_nil hL
    refine ⟨((addedFaces ops).map List.length).foldr max 0, fun fuel' hn => ?_⟩
    have hbound : ∀ vs ∈ addedFaces ops, vs.length ≤ fuel' := by
      intro vs hvs
      refine le_trans ?_ hn
      have : ∀ (l : List ℕ), ∀ a ∈ l, a ≤ l.foldr max 0 := by
        intro l
        induction l with
        | nil => simp
        | cons b l ih =>
          intro a ha
          rcases List.mem_cons.1 ha with rfl | ha
          · exact le_max_left _ _
          · exact (ih a ha).trans (le_max_right _ _)
      exact this _ _ (List.mem_map_of_mem hvs)
    simp only [listFaces, hL]
    rw [mapM_of_forall _ (fun φ => (addedFaces ops).getD φ [])]
    · rfl
    · intro φ hφ
      rcases (h2 φ).1 ((hf L).mem_iff.1 hφ) with h' | ⟨v, _, e, _, he⟩
      · simp at h'
      · obtain ⟨vs, h4, i, h5, _⟩ := hI.faced e φ he
        have hlt := (List.getElem?_eq_some_iff.1 h4).1
        have hne : vs ≠ [] := by rintro rfl; simp at h5
        rw [hI.faceVertices_some h4 hne (hbound vs (List.mem_of_getElem? h4))]
        simp [List.getD, h4]
  · rintro ⟨v, hv, hu⟩
    have hc : collectFaces m (iter m.ids) [] = none := by
      rw [← Option.not_isSome_iff_eq_none, collectFaces_isSome]
      exact fun hall => hu ((hedge v hv).1 (hall v hv))
    exact ⟨fun fuel' => by simp only [listFaces, hc], by simp only [numFaces, hc]⟩

/-- The edge of a vertex and the face of a half-edge are kept by later calls. -/
theorem foldlM_keeps {iter : List ℕ → List ℕ} {fuel : ℕ} : ∀ (ops : List (Op P D)) (m m' : Mesh P D) (hist : List (List ℕ)), Inv m hist →
    ops.foldlM (exec iter fuel) m = some m' → ∀ v x e φ, m.vertex v = some x → x.edge = some e → faceOf m.halfEdges e = some φ →
      ∃ x', m'.vertex v = some x' ∧ x'.edge = some e ∧ faceOf m'.halfEdges e = some φ := by
  intro ops
  induction ops with
  | nil => intro m m' hist _ he v x e φ h1 h2 h3; cases he; exact ⟨x, h1, h2, h3⟩
  | cons op ops ih =>
    intro m m' hist hI he v x e φ h1 h2 h3
    rw [List.foldlM_cons] at he
    obtain ⟨m1, g1, g2⟩ := Option.bind_eq_some_iff.1 he
    have hI1 := exec_inv hI g1
    have : ∃ x', m1.vertex v = some x' ∧ x'.edge = some e ∧ faceOf m1.halfEdges e = some φ := by
      cases op with
      | vertex x1 y1 z1 data id =>
        simp only [exec, addVertex] at g1
        cases hv : m.vertex (id.getD (max m.ids.length m.largest)) with
        | some w => rw [hv] at g1; cases g1; exact ⟨x, h1, h2, h3⟩
        | none =>
          rw [hv] at g1
          cases g1
          refine ⟨x, ?_, h2, h3⟩
          show Function.update m.vertex _ _ v = _
          rw [Function.update_apply, if_neg, h1]
          rintro rfl
          rw [h1] at hv
          cases hv
      | face vs =>
        simp only [exec] at g1
        split at g1
        · rename_i m2 hm2
          cases g1
          obtain ⟨_, _, _, k1, _, k3, _⟩ := addFace_spec hI hm2
          obtain ⟨x', k4, _, _, _, _, k5⟩ := k1.some v x h1
          refine ⟨x', k4, by rw [k5 (by rw [h2]; rfl), h2], ?_⟩
          rw [faceOf, k3 e (by rw [h3]; rfl)]
          exact h3
        · cases g1
    obtain ⟨x', h4, h5, h6⟩ := this
    exact ih m1 m' _ hI1 g2 v x' e φ h4 h5 h6

/-- C117. A face is reported if its first vertex does not belong to an earlier face. -/
theorem _root_.Aleph.C117_reported {iter iterFace : List ℕ → List ℕ} (hiter : IsOrder iter) (hf : IsOrder iterFace) {fuel fuel' : ℕ}
    {before after : List (Op P D)} {v : ℕ} {vs : List ℕ} {m : Mesh P D} (h : run iter fuel (before ++ .face (v :: vs) :: after) = some m)
    (hv : ¬ Used (addedFaces before) v) {fs : List (List ℕ)} (hfs : listFaces iter iterFace fuel' m = some fs) : v :: vs ∈ fs := by
  have hI := run_inv h
  simp only [run, List.foldlM_append, List.foldlM_cons] at h
  obtain ⟨m0, h0, h1⟩ := Option.bind_eq_some_iff.1 h
  obtain ⟨m1, h1, h2⟩ := Option.bind_eq_some_iff.1 h1
  have hI0 : Inv m0 (addedFaces before) := run_inv h0
  have hI1 := exec_inv hI0 h1
  simp only [exec] at h1
  split at h1
  · rename_i m1' hm1
    cases h1
    obtain ⟨a1, a2, a3, a4, _, _, m2, es, a5, a6, a7, a8⟩ := addFace_spec hI0 hm1
    have hvids : v ∈ m0.ids := by rw [← a2]; exact (a1.members (v :: vs) (by simp) v (by simp)).1
    obtain ⟨x, hx⟩ := Option.isSome_iff_exists.1 ((hI0.keys v).1 hvids)
    have hxe : x.edge = none := by
      rw [← Option.not_isSome_iff_eq_none, hI0.hasEdge_iff hx]
      exact hv
    have key : ∃ x' e, m1.vertex v = some x' ∧ x'.edge = some e ∧ faceOf m1.halfEdges e = some m0.faces.length := by
      rw [a6]
      cases vs with
      | nil =>
        simp only [List.headD_cons, faceLoop] at a5
        split at a5
        · rename_i m3 e3 hs
          cases a5
          obtain ⟨s1, _, _⟩ := faceStep_spec (m := { m0 with faces := m0.faces ++ [none] }) hI0.core hs
          obtain ⟨x', b1, b2⟩ := s1.srcEdge x hx hxe
          exact ⟨x', e3, b1, b2, by rw [a8]; exact s1.new⟩
        · cases a5
        · cases a5
      | cons n vs =>
        simp only [List.headD_cons, faceLoop] at a5
        split at a5
        · rename_i m3 e3 hs
          obtain ⟨s1, s2, s3⟩ := faceStep_spec (m := { m0 with faces := m0.faces ++ [none] }) hI0.core hs
          obtain ⟨x', b1, b2⟩ := s1.srcEdge x hx hxe
          have hls := (LoopSpec.refl (m := { m0 with faces := m0.faces ++ [none] }) (φ := m0.faces.length) hI0.core).step s1 s2 s3
          have hls' := faceLoop_spec fuel m0.faces.length v m3 (n :: vs) m3 [] [] m2
          have hend := faceLoop_spec fuel m0.faces.length v { m0 with faces := m0.faces ++ [none] } (n :: vs) m3 _ _ m2 es hls a5
          -- the edge of the first vertex and its face are kept by the remaining rounds
          have hkeep : ∀ (ws : List ℕ) (ma mb : Mesh P D) (pa : List (ℕ × ℕ)) (ea eb : List ℕ),
              LoopSpec { m0 with faces := m0.faces ++ [none] } m0.faces.length ma pa ea → faceLoop fuel m0.faces.length v ma ws ea = .ok (mb, eb) →
              Keeps ma.vertex mb.vertex ∧ ∀ e, faceOf ma.halfEdges e = some m0.faces.length → faceOf mb.halfEdges e = some m0.faces.length := by
            intro ws
            induction ws with
            | nil => intro ma mb pa ea eb _ he; cases he; exact ⟨Keeps.refl _, fun _ h => h⟩
            | cons w ws ih =>
              intro ma mb pa ea eb hla he
              cases ws with
              | nil =>
                simp only [faceLoop] at he
                split at he
                · rename_i mc ec hs
                  cases he
                  obtain ⟨t1, _, _⟩ := faceStep_spec hla.core hs
                  refine ⟨t1.keeps, fun e he => ?_⟩
                  by_cases hee : e = ec
                  · rw [hee]; exact t1.new
                  · rw [t1.faces e hee]; exact he
                · cases he
                · cases he
              | cons w' ws =>
                simp only [faceLoop] at he
                split at he
                · rename_i mc ec hs
                  obtain ⟨t1, t2, t3⟩ := faceStep_spec hla.core hs
                  obtain ⟨i1, i2⟩ := ih mc mb _ _ eb (hla.step t1 t2 t3) he
                  refine ⟨t1.keeps.trans i1, fun e he => i2 e ?_⟩
                  by_cases hee : e = ec
                  · rw [hee]; exact t1.new
                  · rw [t1.faces e hee]; exact he
                · cases he
                · cases he
          obtain ⟨k1, k2⟩ := hkeep (n :: vs) m3 m2 _ _ es hls a5
          obtain ⟨x'', c1, _, _, _, _, c5⟩ := k1.some v x' b1
          exact ⟨x'', e3, c1, by rw [c5 (by rw [b2]; rfl), b2], by rw [a8]; exact k2 e3 s1.new⟩
        · cases a5
        · cases a5
    obtain ⟨x', e, k1, k2, k3⟩ := key
    obtain ⟨x'', l1, l2, l3⟩ := foldlM_keeps after m1 m _ hI1 h2 v x' e _ k1 k2 k3
    obtain ⟨L, _, f2, _, _, _, _, f7⟩ := listFaces_spec hf hI hfs
    have hmemL : m0.faces.length ∈ L := by
      rw [f7]
      refine ⟨v, (hiter m.ids).mem_iff.2 ((hI.keys v).2 (by rw [l1]; rfl)), e, ?_, l3⟩
      rw [l1, Option.bind_some, l2]
    rw [f2, List.mem_map]
    refine ⟨m0.faces.length, (hf L).mem_iff.2 hmemL, ?_⟩
    rw [addedFaces_append, hI0.size]
    simp [addedFaces]
  · cases h1

/-- Hypotheses of C117: two triangles; both are reported. -/
example : ∃ m : Mesh ℕ ℕ, build 4 [[0, 1, 2], [2, 1, 3]] = some m ∧ listFaces id id 40 m = some [[0, 1, 2], [2, 1, 3]] := ⟨_, rfl, by decide⟩

/-- C117. Faces are missing: of the two triangles `0 1 2` and `0 2 3`, only the first one is reported. -/
theorem _root_.Aleph.C117_missing :
    ∃ m : Mesh ℕ ℕ, run id 40 (defaultVertices 4 ++ [.face [0, 1, 2], .face [0, 2, 3]]) = some m ∧ (vertices id m).length = 4 ∧
      listFaces id id 40 m = some [[0, 1, 2]] ∧ numFaces id m = some 1 := ⟨_, rfl, by decide, by decide, by decide⟩

/-- Meshes with more faces than vertices exist: the octahedron. -/
example : (build 6 [[0, 1, 2], [0, 2, 3], [0, 3, 4], [0, 4, 1], [5, 2, 1], [5, 3, 2], [5, 4, 3], [5, 1, 4]]).isSome := by decide

/-! ### C118: neighbours -/

/-- C118. All vertices that are reported as neighbours of a vertex (its link) are joined to it by an edge of a face, and `hasEdge` reports only such edges.  The
converse does not hold. -/
theorem _root_.Aleph.C118_neighbours_partial {iter : List ℕ → List ℕ} {fuel fuel' : ℕ} {ops : List (Op P D)} {m : Mesh P D}
    (h : run iter fuel ops = some m) (u : ℕ) :
    (∀ ns, link fuel' m u = some ns → ∀ w ∈ ns, IsEdge (addedFaces ops) u w) ∧
    ∀ v, hasEdge fuel' m u v = some true → IsEdge (addedFaces ops) u v := by
  have hI := run_inv h
  refine ⟨fun ns hn => link_sound hI hn, ?_⟩
  intro v he
  simp only [hasEdge] at he
  split at he
  · cases hl : link fuel' m u with
    | none => rw [hl] at he; cases he
    | some ns =>
      rw [hl] at he
      simp only [Option.some.injEq, decide_eq_true_eq] at he
      exact link_sound hI hl v he
  · cases he

/-- C118. `hasEdge` and `link` agree, and a vertex without faces has no neighbours. -/
theorem _root_.Aleph.C118_link {iter : List ℕ → List ℕ} (hiter : IsOrder iter) {fuel fuel' : ℕ} {ops : List (Op P D)} {m : Mesh P D}
    (h : run iter fuel ops = some m) {u : ℕ} (hu : u ∈ vertices iter m) :
    (∀ v ∈ vertices iter m, ∀ ns, link fuel' m u = some ns → hasEdge fuel' m u v = some (decide (v ∈ ns))) ∧
    (¬ Used (addedFaces ops) u → 0 < fuel' → link fuel' m u = some []) := by
  have hI := run_inv h
  have hmem : ∀ v, v ∈ vertices iter m ↔ (m.vertex v).isSome := fun v => by rw [← hI.keys]; exact (hiter m.ids).mem_iff
  obtain ⟨x, hx⟩ := Option.isSome_iff_exists.1 ((hmem u).1 hu)
  constructor
  · intro v hv ns hn
    obtain ⟨y, hy⟩ := Option.isSome_iff_exists.1 ((hmem v).1 hv)
    simp only [hasEdge]
    rw [hx, hy, hn]
  · intro hn hpos
    have hxe : x.edge = none := by
      rw [← Option.not_isSome_iff_eq_none, hI.hasEdge_iff hx]
      exact hn
    obtain ⟨f, rfl⟩ : ∃ f, fuel' = f + 1 := ⟨fuel' - 1, by omega⟩
    simp only [link, hx]
    rw [hxe]
    rfl

/-- C118. The lower (higher) neighbours are those neighbours whose data are smaller (larger) than the data of the vertex, in the order of the link. -/
theorem _root_.Aleph.C118_lower_higher [LinearOrder D] {iter : List ℕ → List ℕ} {fuel fuel' : ℕ} {ops : List (Op P D)} {m : Mesh P D}
    (h : run iter fuel ops = some m) {u : ℕ} {ns : List ℕ} (hn : link fuel' m u = some ns) :
    ∃ lower higher, lowerNeighbours fuel' m u = some lower ∧ higherNeighbours fuel' m u = some higher ∧
      lower.Sublist ns ∧ higher.Sublist ns ∧
      (∀ w, w ∈ lower ↔ w ∈ ns ∧ ∃ a b, dataAt m w = some a ∧ dataAt m u = some b ∧ a < b) ∧
      ∀ w, w ∈ higher ↔ w ∈ ns ∧ ∃ a b, dataAt m w = some a ∧ dataAt m u = some b ∧ b < a := by
  have hI := run_inv h
  cases hx : m.vertex u with
  | none => simp only [link, hx] at hn; cases hn
  | some x =>
    refine ⟨_, _, by simp only [lowerNeighbours, hx, hn]; rfl, by simp only [higherNeighbours, hx, hn]; rfl, List.filter_sublist, List.filter_sublist, ?_, ?_⟩
    · intro w
      rw [List.mem_filter]
      refine and_congr_right fun hw => ?_
      obtain ⟨y, hy⟩ := Option.isSome_iff_exists.1 ((hI.keys w).1 (hI.isEdge_mem (link_sound hI hn w hw)).2)
      simp [dataAt, hx, hy]
    · intro w
      rw [List.mem_filter]
      refine and_congr_right fun hw => ?_
      obtain ⟨y, hy⟩ := Option.isSome_iff_exists.1 ((hI.keys w).1 (hI.isEdge_mem (link_sound hI hn w hw)).2)
      simp [dataAt, hx, hy]

/-- Hypotheses of C118: the links of two triangles. -/
example : ∃ m : Mesh ℕ ℕ, build 4 [[0, 1, 2], [2, 1, 3]] = some m ∧ link 40 m 1 = some [0, 3, 2] ∧ lowerNeighbours 40 m 1 = some [0] ∧
    higherNeighbours 40 m 1 = some [3, 2] ∧ hasEdge 40 m 0 3 = some false := ⟨_, rfl, by decide, by decide, by decide, by decide⟩

/-- C118. Neighbours are missing: for the triangles `0 1 2` and `1 0 3`, the edge between the vertices 0 and 3 is not found, and the search for the neighbours of
the vertices 1 and 3 dereferences a null pointer, for every bound. -/
theorem _root_.Aleph.C118_missing :
    ∃ m : Mesh ℕ ℕ, run id 40 (defaultVertices 4 ++ [.face [0, 1, 2], .face [1, 0, 3]]) = some m ∧ IsEdge [[0, 1, 2], [1, 0, 3]] 0 3 ∧
      hasEdge 40 m 0 3 = some false ∧ link 40 m 0 = some [1, 2] ∧ (∀ fuel, link fuel m 1 = none) ∧ ∀ fuel, link fuel m 3 = none := by
  refine ⟨_, rfl, ⟨[1, 0, 3], by simp, .inl ⟨1, by simp, by simp, by simp⟩⟩, by decide, by decide, ?_, ?_⟩
  · intro fuel
    rcases fuel with _ | _ | _ | fuel <;> rfl
  · intro fuel
    rcases fuel with _ | fuel <;> rfl

/-! ### C119: connected components -/

/-- C119. The number of connected components is never underestimated: there are as many vertices as the result says such that every vertex is connected to
one of them by edges of faces.  The function returns a value if every vertex belongs to a face, otherwise it dereferences a null pointer. -/
theorem _root_.Aleph.C119_components_partial {iter : List ℕ → List ℕ} (hiter : IsOrder iter) {fuel : ℕ} {ops : List (Op P D)} {m : Mesh P D}
    (h : run iter fuel ops = some m) (lf : Bool) :
    (∀ k, numConnectedComponents iter lf m = some k → ∃ rs : List ℕ, rs.length = k ∧ rs.Nodup ∧ (∀ r ∈ rs, r ∈ vertices iter m) ∧
      ∀ v ∈ vertices iter m, ∃ r ∈ rs, Linked (addedFaces ops) v r) ∧
    ((∀ v ∈ vertices iter m, Used (addedFaces ops) v) ↔ (numConnectedComponents iter lf m).isSome) := by
  have hI := run_inv h
  have hmem : ∀ v, v ∈ vertices iter m ↔ v ∈ m.ids := fun v => (hiter m.ids).mem_iff
  refine ⟨?_, ?_, ?_⟩
  · intro k hk
    obtain ⟨rs, h1, h2, h3, h4⟩ := components_spec hiter hI hk
    refine ⟨rs, h1, h2, fun r hr => (hmem r).2 (h3 r hr), ?_⟩
    intro v hv
    obtain ⟨r, ⟨h5, h6⟩, _⟩ := h4 v ((hmem v).1 hv)
    exact ⟨r, h5, Relation.EqvGen.mono (fun a b hab => First.isEdge hI hab) _ _ h6⟩
  · intro hU
    obtain ⟨p, hp⟩ := components_some hI lf hmem (fun v hv => hU v ((hmem v).2 hv)) (iter m.ids) _ _ (fun _ h => h) (Represents.ofRange (iter m.ids))
    obtain ⟨ms, h1, _⟩ := components_fold hI lf hmem (iter m.ids) _ [] p (fun _ h => h) (Represents.ofRange (iter m.ids)) hp
    obtain ⟨p', rs, h3, _⟩ := h1.roots
    simp only [numConnectedComponents, hp, h3]
    rfl
  · intro hs v hv
    obtain ⟨k, hk⟩ := Option.isSome_iff_exists.1 hs
    simp only [numConnectedComponents] at hk
    cases hf : (iter m.ids).foldlM (componentsStep lf m) (ofRange (iter m.ids)) with
    | none => rw [hf] at hk; cases hk
    | some p =>
      have : ∀ (L : List ℕ) (q q' : ParentMap), L.foldlM (componentsStep lf m) q = some q' → ∀ v ∈ L, ∃ x, m.vertex v = some x ∧ x.edge.isSome := by
        intro L
        induction L with
        | nil => intro q q' _ v hv; simp at hv
        | cons w L ih =>
          intro q q' he v hv
          rw [List.foldlM_cons] at he
          obtain ⟨q1, g1, g2⟩ := Option.bind_eq_some_iff.1 he
          rcases List.mem_cons.1 hv with rfl | hv
          · simp only [componentsStep] at g1
            cases hx : m.vertex v with
            | none => rw [hx] at g1; cases g1
            | some x =>
              refine ⟨x, rfl, ?_⟩
              rw [hx, Option.bind_some] at g1
              cases hxe : x.edge with
              | none => rw [hxe] at g1; cases g1
              | some e => rfl
          · exact ih q1 q' g2 v hv
      obtain ⟨x, hx, hxe⟩ := this _ _ _ hf v hv
      exact (hI.hasEdge_iff hx).1 hxe

theorem growing_prefix {fs : List (List ℕ)} {f : List ℕ} (h : Growing (fs ++ [f])) : Growing fs := by
  intro pre g post he
  exact h pre g (post ++ [f]) (by rw [he]; simp)

theorem isEdge_append {fs gs : List (List ℕ)} {u v : ℕ} : IsEdge (fs ++ gs) u v ↔ IsEdge fs u v ∨ IsEdge gs u v := by
  simp only [IsEdge, List.mem_append, or_and_right, exists_or]

/-- For growing histories the stored edges connect all components. -/
theorem foldlM_growing {iter : List ℕ → List ℕ} {fuel : ℕ} : ∀ (ops : List (Op P D)) (m m' : Mesh P D) (hist : List (List ℕ)), Inv m hist →
    Growing (hist ++ addedFaces ops) → (∀ u v, Linked hist u v → Relation.EqvGen (First m) u v) → ops.foldlM (exec iter fuel) m = some m' →
    ∀ u v, Linked (hist ++ addedFaces ops) u v → Relation.EqvGen (First m') u v := by
  intro ops
  induction ops with
  | nil => intro m m' hist hI _ hl he; cases he; simpa [addedFaces] using hl
  | cons op ops ih =>
    intro m m' hist hI hg hl he
    rw [List.foldlM_cons] at he
    obtain ⟨m1, h1, h2⟩ := Option.bind_eq_some_iff.1 he
    have hI1 := exec_inv hI h1
    have happ : hist ++ addedFaces (op :: ops) = (hist ++ addedFaces [op]) ++ addedFaces ops := by
      rw [List.append_assoc, ← addedFaces_append]; rfl
    rw [happ] at hg ⊢
    refine ih m1 m' _ hI1 hg ?_ h2
    cases op with
    | vertex x y z data id =>
      simp only [addedFaces, List.append_nil]
      intro u v huv
      refine Relation.EqvGen.mono ?_ u v (hl u v huv)
      rintro a b ⟨x', e, g1, g2, g3⟩
      simp only [exec, addVertex] at h1
      cases hv : m.vertex (id.getD (max m.ids.length m.largest)) with
      | some w => rw [hv] at h1; cases h1; exact ⟨x', e, g1, g2, g3⟩
      | none =>
        rw [hv] at h1
        cases h1
        refine ⟨x', e, ?_, g2, g3⟩
        show Function.update m.vertex _ _ a = _
        rw [Function.update_apply, if_neg, g1]
        rintro rfl
        rw [g1] at hv
        cases hv
    | face vs =>
      simp only [exec] at h1
      split at h1
      · rename_i m2 hm2
        cases h1
        obtain ⟨_, _, _, k1, k2, _⟩ := addFace_spec hI hm2
        have hcond := hg hist vs (addedFaces ops) (by simp [addedFaces])
        have hnew := addFace_connected hI hl hcond.1 hcond.2 hm2
        simp only [addedFaces]
        intro u v huv
        induction huv with
        | rel a b hab =>
          rcases isEdge_append.1 hab with hab | ⟨f, hf, hab⟩
          · exact Relation.EqvGen.mono (fun _ _ h' => First.mono k1 k2 h') _ _ (hl a b (.rel _ _ hab))
          · cases List.mem_singleton.1 hf
            rcases hab with hab | hab
            · exact hnew a (mem_of_follows hab).1 b (mem_of_follows hab).2
            · exact hnew a (mem_of_follows hab).2 b (mem_of_follows hab).1
        | refl => exact .refl _
        | symm _ _ _ ih => exact .symm _ _ ih
        | trans _ _ _ _ _ ih1 ih2 => exact .trans _ _ _ ih1 ih2
      · cases h1

/-- C119. The number of connected components is correct if every face touches at most one component of the faces before it, and if it does, then with its first
or second vertex. -/
theorem _root_.Aleph.C119_growing {iter : List ℕ → List ℕ} (hiter : IsOrder iter) {fuel : ℕ} {ops : List (Op P D)} {m : Mesh P D}
    (h : run iter fuel ops = some m) (hg : Growing (addedFaces ops)) {lf : Bool} {k : ℕ} (hk : numConnectedComponents iter lf m = some k) :
    HasClasses (IsEdge (addedFaces ops)) (vertices iter m) k := by
  have hI := run_inv h
  have hmem : ∀ v, v ∈ vertices iter m ↔ v ∈ m.ids := fun v => (hiter m.ids).mem_iff
  have hl := foldlM_growing ops {} m [] Inv.empty_mesh (by simpa using hg) (by
    intro u v huv
    refine Relation.EqvGen.mono ?_ u v huv
    rintro a b ⟨f, hf, _⟩
    simp at hf) h
  rw [List.nil_append] at hl
  have hiff : ∀ u v, Relation.EqvGen (First m) u v ↔ Relation.EqvGen (IsEdge (addedFaces ops)) u v := fun u v =>
    ⟨fun h => Relation.EqvGen.mono (fun a b hab => First.isEdge hI hab) _ _ h, hl u v⟩
  obtain ⟨rs, h1, h2, h3, h4⟩ := components_spec hiter hI hk
  refine ⟨rs, h1, h2, fun r hr => (hmem r).2 (h3 r hr), ?_⟩
  intro v hv
  obtain ⟨r, ⟨h5, h6⟩, h7⟩ := h4 v ((hmem v).1 hv)
  exact ⟨r, ⟨h5, (hiff _ _).1 h6⟩, fun r' hr' => h7 r' ⟨hr'.1, (hiff _ _).2 hr'.2⟩⟩

/-- Hypotheses of C119: two triangles with a common edge and a separate triangle. -/
example : ∃ m : Mesh ℕ ℕ, build 7 [[0, 1, 2], [2, 1, 3], [4, 5, 6]] = some m ∧ numConnectedComponents id true m = some 2 ∧
    Growing [[0, 1, 2], [2, 1, 3], [4, 5, 6]] := by
  refine ⟨_, rfl, by decide, ?_⟩
  intro pre f post he
  rcases pre with _ | ⟨a, _ | ⟨b, _ | ⟨c, pre⟩⟩⟩
  · simp [Used]
  · simp only [List.cons_append, List.nil_append, List.cons.injEq] at he
    obtain ⟨rfl, rfl, _⟩ := he
    have h01 : IsEdge [[0, 1, 2]] 1 2 := ⟨[0, 1, 2], by simp, .inl ⟨1, by simp, by simp, by simp⟩⟩
    refine ⟨?_, fun _ => ⟨2, by simp, [0, 1, 2], by simp, by simp⟩⟩
    intro u hu v hv hu' hv'
    simp only [Used, List.mem_cons, List.not_mem_nil, or_false, exists_eq_left] at hu hv hu' hv'
    have hu'' : u = 1 ∨ u = 2 := by omega
    have hv'' : v = 1 ∨ v = 2 := by omega
    rcases hu'' with rfl | rfl <;> rcases hv'' with rfl | rfl
    · exact .refl _
    · exact .rel _ _ h01
    · exact .symm _ _ (.rel _ _ h01)
    · exact .refl _
  · simp only [List.cons_append, List.nil_append, List.cons.injEq] at he
    obtain ⟨rfl, rfl, rfl, _⟩ := he
    constructor
    · intro u hu v hv hu' hv'
      simp [Used] at hu hu'
      omega
    · rintro ⟨v, hv, hv'⟩
      simp [Used] at hv hv'
      omega
  · simp at he

/-- C119. The number of connected components may be too large: a quadrilateral is glued to a
triangle with its last two vertices, or it joins two triangles;
all vertices are connected, but two components are reported. -/
theorem _root_.Aleph.C119_overestimated :
    (∃ m : Mesh ℕ ℕ, run id 40 (defaultVertices 5 ++ [.face [0, 1, 2], .face [3, 4, 2, 1]]) = some m ∧
      (∀ u ∈ vertices id m, Linked [[0, 1, 2], [3, 4, 2, 1]] 2 u) ∧ numConnectedComponents id true m = some 2) ∧
    ∃ m : Mesh ℕ ℕ, run id 40 (defaultVertices 6 ++ [.face [0, 1, 2], .face [3, 4, 5], .face [2, 1, 4, 3]]) = some m ∧
      (∀ u ∈ vertices id m, Linked [[0, 1, 2], [3, 4, 5], [2, 1, 4, 3]] 2 u) ∧ numConnectedComponents id true m = some 2 := by
  constructor
  · refine ⟨_, rfl, ?_, by decide⟩
    have h20 : IsEdge [[0, 1, 2], [3, 4, 2, 1]] 2 0 := ⟨[0, 1, 2], by simp, .inl ⟨2, by simp, by simp, by simp⟩⟩
    have h21 : IsEdge [[0, 1, 2], [3, 4, 2, 1]] 2 1 := ⟨[0, 1, 2], by simp, .inr ⟨1, by simp, by simp, by simp⟩⟩
    have h43 : IsEdge [[0, 1, 2], [3, 4, 2, 1]] 4 3 := ⟨[3, 4, 2, 1], by simp, .inr ⟨0, by simp, by simp, by simp⟩⟩
    have h24 : IsEdge [[0, 1, 2], [3, 4, 2, 1]] 2 4 := ⟨[3, 4, 2, 1], by simp, .inr ⟨1, by simp, by simp, by simp⟩⟩
    intro u hu
    have hu : u ∈ [0, 1, 2, 3, 4] := hu
    simp only [List.mem_cons, List.not_mem_nil, or_false] at hu
    rcases hu with rfl | rfl | rfl | rfl | rfl
    · exact .rel _ _ h20
    · exact .rel _ _ h21
    · exact .refl _
    · exact .trans _ _ _ (.rel _ _ h24) (.rel _ _ h43)
    · exact .rel _ _ h24
  · refine ⟨_, rfl, ?_, by decide⟩
    have h20 : IsEdge [[0, 1, 2], [3, 4, 5], [2, 1, 4, 3]] 2 0 := ⟨[0, 1, 2], by simp, .inl ⟨2, by simp, by simp, by simp⟩⟩
    have h21 : IsEdge [[0, 1, 2], [3, 4, 5], [2, 1, 4, 3]] 2 1 := ⟨[0, 1, 2], by simp, .inr ⟨1, by simp, by simp, by simp⟩⟩
    have h23 : IsEdge [[0, 1, 2], [3, 4, 5], [2, 1, 4, 3]] 2 3 := ⟨[2, 1, 4, 3], by simp, .inr ⟨3, by simp, by simp, by simp⟩⟩
    have h34 : IsEdge [[0, 1, 2], [3, 4, 5], [2, 1, 4, 3]] 3 4 := ⟨[3, 4, 5], by simp, .inl ⟨0, by simp, by simp, by simp⟩⟩
    have h35 : IsEdge [[0, 1, 2], [3, 4, 5], [2, 1, 4, 3]] 3 5 := ⟨[3, 4, 5], by simp, .inr ⟨2, by simp, by simp, by simp⟩⟩
    intro u hu
    have hu : u ∈ [0, 1, 2, 3, 4, 5] := hu
    simp only [List.mem_cons, List.not_mem_nil, or_false] at hu
    rcases hu with rfl | rfl | rfl | rfl | rfl | rfl
    · exact .rel _ _ h20
    · exact .rel _ _ h21
    · exact .refl _
    · exact .rel _ _ h23
    · exact .trans _ _ _ (.rel _ _ h23) (.rel _ _ h34)
    · exact .trans _ _ _ (.rel _ _ h23) (.rel _ _ h35)

/-! ### C120: star -/

theorem starVertices_spec {iter : List ℕ → List ℕ} {fuel : ℕ} {m : Mesh P D} : ∀ (vs : List ℕ) (ops : List (Op P D)) (M M' : Mesh P D),
    run iter fuel ops = some M → addedFaces ops = [] → (∀ v, v ∈ M.ids → attributes M v = attributes m v) → starVertices m M vs = some M' →
    ∃ ops', run iter fuel ops' = some M' ∧ addedFaces ops' = [] ∧ M'.ids = M.ids ++ vs ∧ ∀ v, v ∈ M'.ids → attributes M' v = attributes m v := by
  intro vs
  induction vs with
  | nil => intro ops M M' h1 h2 h3 he; cases he; exact ⟨ops, h1, h2, by simp, h3⟩
  | cons v vs ih =>
    intro ops M M' h1 h2 h3 he
    simp only [starVertices] at he
    cases hx : m.vertex v with
    | none => rw [hx] at he; cases he
    | some x =>
      rw [hx] at he
      simp only at he
      cases ha : addVertex M x.x x.y x.z x.data (some v) with
      | undefined => rw [ha] at he; cases he
      | thrown M1 => rw [ha] at he; cases he
      | ok M1 =>
        rw [ha] at he
        simp only at he
        have hids : M1.ids = M.ids ++ [v] ∧ ∀ w, w ∈ M1.ids → attributes M1 w = attributes m w := by
          simp only [addVertex, Option.getD_some] at ha
          cases hv : M.vertex v with
          | some y => rw [hv] at ha; cases ha
          | none =>
            rw [hv] at ha
            cases ha
            refine ⟨rfl, ?_⟩
            intro w hw
            by_cases hwv : w = v
            · subst hwv
              simp [attributes, hx]
            · rw [← h3 w (by simpa [hwv] using hw)]
              simp [attributes, hwv]
        obtain ⟨ops', g1, g2, g3, g4⟩ := ih (ops ++ [.vertex x.x x.y x.z x.data (some v)]) M1 M' (by
          simp only [run, List.foldlM_append, List.foldlM_cons, List.foldlM_nil]
          simp only [run] at h1
          rw [h1]
          simp only [Option.bind_eq_bind, Option.bind_some, exec, ha]
          rfl) (by rw [addedFaces_append, h2]; rfl) hids.2 he
        exact ⟨ops', g1, g2, by rw [g3, hids.1]; simp, g4⟩

theorem starFaces_spec {iter : List ℕ → List ℕ} {fuel : ℕ} {m : Mesh P D} : ∀ (fs : List (List ℕ)) (ops : List (Op P D)) (M M' : Mesh P D),
    run iter fuel ops = some M → (∀ v, v ∈ M.ids → attributes M v = attributes m v) → starFaces iter fuel M fs = some M' →
    ∃ ops', run iter fuel ops' = some M' ∧ addedFaces ops' = addedFaces ops ++ fs ∧ M'.ids = M.ids ∧ ∀ v, v ∈ M'.ids → attributes M' v = attributes m v := by
  intro fs
  induction fs with
  | nil => intro ops M M' h1 h3 he; cases he; exact ⟨ops, h1, by simp, rfl, h3⟩
  | cons vs fs ih =>
    intro ops M M' h1 h3 he
    simp only [starFaces] at he
    cases ha : addFace iter fuel M vs with
    | undefined => rw [ha] at he; cases he
    | thrown M1 => rw [ha] at he; cases he
    | ok M1 =>
      rw [ha] at he
      simp only at he
      obtain ⟨_, a2, _, a4, _⟩ := addFace_spec (run_inv h1) ha
      obtain ⟨ops', g1, g2, g3, g4⟩ := ih (ops ++ [.face vs]) M1 M' (by
          simp only [run, List.foldlM_append, List.foldlM_cons, List.foldlM_nil]
          simp only [run] at h1
          rw [h1]
          simp only [Option.bind_eq_bind, Option.bind_some, exec, ha]
          rfl) (by
            intro v hv
            rw [a2] at hv
            rw [← h3 v hv]
            obtain ⟨x, hx⟩ := Option.isSome_iff_exists.1 (((run_inv h1).keys v).1 hv)
            obtain ⟨x', k1, k2, k3, k4, k5, _⟩ := a4.some v x hx
            simp only [attributes, hx, k1, Option.map_some, k2, k3, k4, k5]) he
      refine ⟨ops', g1, ?_, by rw [g3, a2], g4⟩
      rw [g2, addedFaces_append]
      simp [addedFaces]

theorem insertAll_spec : ∀ (l acc : List ℕ), acc.Nodup →
    (l.foldl (fun l v => if v ∈ l then l else l ++ [v]) acc).Nodup ∧
    ∀ v, v ∈ l.foldl (fun l v => if v ∈ l then l else l ++ [v]) acc ↔ v ∈ acc ∨ v ∈ l := by
  intro l
  induction l with
  | nil => intro acc h; exact ⟨h, by simp⟩
  | cons a l ih =>
    intro acc h
    rw [List.foldl_cons]
    by_cases ha : a ∈ acc
    · rw [if_pos ha]
      refine ⟨(ih acc h).1, fun v => ?_⟩
      rw [(ih acc h).2 v, List.mem_cons]
      constructor
      · rintro (h | h)
        · exact .inl h
        · exact .inr (.inr h)
      · rintro (h | rfl | h)
        · exact .inl h
        · exact .inl ha
        · exact .inr h
    · rw [if_neg ha]
      have hn : (acc ++ [a]).Nodup := by
        rw [List.nodup_append]
        refine ⟨h, by simp, ?_⟩
        intro x hx y hy
        rw [List.mem_singleton.1 hy]
        rintro rfl
        exact ha hx
      refine ⟨(ih _ hn).1, fun v => ?_⟩
      rw [(ih _ hn).2 v, List.mem_cons, List.mem_append, List.mem_singleton, or_assoc]

/-- C120. The star of a vertex is a mesh that is built by some history.  Its faces are faces of the original mesh that contain the vertex, its vertices are the
vertices of these faces, with the coordinates and the data of the original mesh.  Not all faces around a vertex on the boundary are found. -/
theorem _root_.Aleph.C120_star_partial {iter iterSet : List ℕ → List ℕ} (hiter : IsOrder iter) (hset : IsOrder iterSet) {fuel fuel' : ℕ}
    {ops : List (Op P D)} {m M : Mesh P D} (h : run iter fuel ops = some m) {v : ℕ} (hs : star iter iterSet fuel' m v = some M) :
    ∃ ops', run iter fuel' ops' = some M ∧ (∀ f ∈ addedFaces ops', f ∈ addedFaces ops ∧ v ∈ f) ∧
      (∀ u, u ∈ vertices iter M ↔ Used (addedFaces ops') u) ∧ ∀ u ∈ vertices iter M, attributes M u = attributes m u := by
  have hI := run_inv h
  simp only [star] at hs
  cases hx : m.vertex v with
  | none => rw [hx] at hs; cases hs
  | some x =>
    rw [hx] at hs
    simp only at hs
    cases hl : facesLoop m.halfEdges x.edge fuel' x.edge [] with
    | none => rw [hl] at hs; cases hs
    | some L =>
      rw [hl] at hs
      simp only at hs
      have hL := facesLoop_sound hI x.edge v fuel' x.edge [] L (fun e he => (hI.core.edge v x e hx he).2) (by simp) hl
      cases hm : L.mapM (Mesh.faceVertices fuel' m) with
      | none => rw [hm] at hs; cases hs
      | some fs =>
        rw [hm] at hs
        simp only at hs
        have hfs : ∀ f ∈ fs, f ∈ addedFaces ops ∧ v ∈ f := by
          have hF := mapM_some _ _ _ hm
          intro f hf
          obtain ⟨i, hi, rfl⟩ := List.getElem_of_mem hf
          have hlen := hF.length_eq
          have h1 := List.Forall₂.get hF (by omega : i < L.length) hi
          obtain ⟨us, h2, h3⟩ := hL L[i] (List.getElem_mem _)
          have h4 := hI.faceVertices h2 h1
          have h5 : fs[i] = us := h4
          rw [h5]
          exact ⟨List.mem_of_getElem? h2, h3⟩
        obtain ⟨q1, q2⟩ := insertAll_spec fs.flatten [] List.nodup_nil
        cases hv : starVertices m {} (iterSet (fs.flatten.foldl (fun l v => if v ∈ l then l else l ++ [v]) [])) with
        | none => rw [hv] at hs; cases hs
        | some M1 =>
          rw [hv] at hs
          simp only at hs
          obtain ⟨ops1, a1, a2, a3, a4⟩ := starVertices_spec (iter := iter) (fuel := fuel') _ [] {} M1 rfl rfl (fun w hw => absurd hw (by simp)) hv
          obtain ⟨ops2, b1, b2, b3, b4⟩ := starFaces_spec fs ops1 M1 M a1 a4 hs
          rw [a2, List.nil_append] at b2
          refine ⟨ops2, b1, by rw [b2]; exact hfs, ?_, ?_⟩
          · intro u
            rw [b2]
            show u ∈ iter M.ids ↔ _
            rw [(hiter _).mem_iff, b3, a3]
            show u ∈ [] ++ iterSet _ ↔ _
            rw [List.nil_append, (hset _).mem_iff, q2]
            simp [Used]
          · intro u hu
            exact b4 u ((hiter _).mem_iff.1 hu)

/-- Hypotheses of C120: the star of the apex of a closed fan. -/
example : ∃ m M : Mesh ℕ ℕ, build 5 [[0, 1, 2], [0, 2, 3], [0, 3, 1], [1, 4, 2]] = some m ∧ star id id 40 m 0 = some M ∧ vertices id M = [0, 1, 2, 3] :=
  ⟨_, _, rfl, rfl, by decide⟩

/-- C120. The star may miss faces: in a mesh that consists of one triangle, the star of the vertex 0 is the triangle, but the stars of the vertices 1 and 2 have neither
vertices nor faces. -/
theorem _root_.Aleph.C120_missing :
    ∃ m S0 S1 S2 : Mesh ℕ ℕ, run id 40 (defaultVertices 3 ++ [.face [0, 1, 2]]) = some m ∧ star id id 40 m 0 = some S0 ∧ star id id 40 m 1 = some S1 ∧
      star id id 40 m 2 = some S2 ∧ listFaces id id 40 S0 = some [[0, 1, 2]] ∧ vertices id S1 = [] ∧ vertices id S2 = [] :=
  ⟨_, _, _, _, rfl, rfl, rfl, rfl, by decide, by decide, by decide⟩

/-! ### C121: segments of the link -/

theorem segmentsLoop_spec (lf : Bool) (hasEdge : ℕ → ℕ → Option Bool) (id : ℕ) (l : List ℕ) (first : ℕ) (hfirst : first ∈ l) :
    ∀ (vs : List ℕ) (p : ParentMap) (ms : List (ℕ × ℕ)) (p' : ParentMap), (∀ v ∈ vs, v ∈ l) → Represents (· ∈ l) p (repOf ms) →
    segmentsLoop lf hasEdge id first p vs = some p' →
    ∃ ms', Represents (· ∈ l) p' (repOf ms') ∧
      ∀ a b, (a, b) ∈ ms' ↔ (a, b) ∈ ms ∨ ∃ i : ℕ, vs[i]? = some a ∧ b = (vs[i + 1]?).getD first ∧ hasEdge a b = some true := by
  intro vs
  induction vs with
  | nil => intro p ms p' _ h he; cases he; exact ⟨ms, h, by simp⟩
  | cons v vs ih =>
    intro p ms p' hvs h he
    simp only [segmentsLoop] at he
    have hv : v ∈ l := hvs v (by simp)
    have hn : vs.headD first ∈ l := by
      cases vs with
      | nil => exact hfirst
      | cons w vs => exact hvs w (by simp)
    have hnext : (vs[0]?).getD first = vs.headD first := by cases vs <;> rfl
    have hsplit : ∀ a b, (∃ i : ℕ, (v :: vs)[i]? = some a ∧ b = ((v :: vs)[i + 1]?).getD first ∧ hasEdge a b = some true) ↔
        (v = a ∧ b = vs.headD first ∧ hasEdge a b = some true) ∨ ∃ i : ℕ, vs[i]? = some a ∧ b = (vs[i + 1]?).getD first ∧ hasEdge a b = some true := by
      intro a b
      constructor
      · rintro ⟨i, h1, h2, h3⟩
        cases i with
        | zero => exact .inl ⟨by simpa using h1, by rw [h2, ← hnext]; rfl, h3⟩
        | succ i => exact .inr ⟨i, by simpa using h1, by simpa using h2, h3⟩
      · rintro (⟨rfl, h2, h3⟩ | ⟨i, h1, h2, h3⟩)
        · exact ⟨0, by simp, by rw [h2, ← hnext]; rfl, h3⟩
        · exact ⟨i + 1, by simpa using h1, by simpa using h2, h3⟩
    cases h1 : hasEdge id v with
    | none => rw [h1] at he; cases he
    | some b =>
      rw [h1] at he
      cases b with
      | false => cases he
      | true =>
        simp only at he
        cases h2 : hasEdge v (vs.headD first) with
        | none => rw [h2] at he; cases he
        | some b =>
          rw [h2] at he
          cases b with
          | false =>
            simp only at he
            obtain ⟨ms', h3, h4⟩ := ih p ms p' (fun u hu => hvs u (by simp [hu])) h he
            refine ⟨ms', h3, fun a b => ?_⟩
            rw [h4, hsplit]
            refine or_congr_right (or_iff_right ?_).symm
            rintro ⟨rfl, rfl, h5⟩
            rw [h2] at h5
            cases h5
          | true =>
            simp only at he
            obtain ⟨p1, h3, h4⟩ := h.merge lf hv hn
            rw [h3] at he
            simp only at he
            obtain ⟨ms', h5, h6⟩ := ih p1 ((v, vs.headD first) :: ms) p' (fun u hu => hvs u (by simp [hu])) h4 he
            refine ⟨ms', h5, fun a b => ?_⟩
            rw [h6, hsplit, List.mem_cons, Prod.mk.injEq]
            constructor
            · rintro ((⟨rfl, rfl⟩ | h') | h')
              · exact .inr (.inl ⟨rfl, rfl, h2⟩)
              · exact .inl h'
              · exact .inr (.inr h')
            · rintro (h' | ⟨rfl, rfl, _⟩ | h')
              · exact .inl (.inr h')
              · exact .inl (.inl ⟨rfl, rfl⟩)
              · exact .inr h'

theorem segmentsLoop_isSome (lf : Bool) (hasEdge : ℕ → ℕ → Option Bool) (id : ℕ) (l : List ℕ) (first : ℕ) (hfirst : first ∈ l) :
    ∀ (vs : List ℕ) (p : ParentMap) (ms : List (ℕ × ℕ)), (∀ v ∈ vs, v ∈ l) → Represents (· ∈ l) p (repOf ms) →
    ((segmentsLoop lf hasEdge id first p vs).isSome ↔
      (∀ v ∈ vs, hasEdge id v = some true) ∧ ∀ (i v : ℕ), vs[i]? = some v → (hasEdge v ((vs[i + 1]?).getD first)).isSome) := by
  intro vs
  induction vs with
  | nil => intro p ms _ _; simp [segmentsLoop]
  | cons v vs ih =>
    intro p ms hvs h
    simp only [segmentsLoop]
    have hv : v ∈ l := hvs v (by simp)
    have hn : vs.headD first ∈ l := by
      cases vs with
      | nil => exact hfirst
      | cons w vs => exact hvs w (by simp)
    have hnext : (vs[0]?).getD first = vs.headD first := by cases vs <;> rfl
    have hsplit : (∀ (i u : ℕ), (v :: vs)[i]? = some u → (hasEdge u (((v :: vs)[i + 1]?).getD first)).isSome) ↔
        (hasEdge v (vs.headD first)).isSome ∧ ∀ (i u : ℕ), vs[i]? = some u → (hasEdge u ((vs[i + 1]?).getD first)).isSome := by
      constructor
      · intro h
        refine ⟨?_, fun i u hi => by simpa using h (i + 1) u (by simpa using hi)⟩
        have := h 0 v (by simp)
        rw [← hnext]
        simpa using this
      · rintro ⟨h1, h2⟩ i u hi
        cases i with
        | zero =>
          have : v = u := by simpa using hi
          subst this
          rw [← hnext] at h1
          simpa using h1
        | succ i => simpa using h2 i u (by simpa using hi)
    rw [hsplit, List.forall_mem_cons]
    cases h1 : hasEdge id v with
    | none => simp
    | some b =>
      cases b with
      | false => simp
      | true =>
        simp only
        cases h2 : hasEdge v (vs.headD first) with
        | none => simp
        | some b =>
          cases b with
          | false =>
            simp only
            rw [ih p ms (fun u hu => hvs u (by simp [hu])) h]
            simp
          | true =>
            simp only
            obtain ⟨p1, h3, h4⟩ := h.merge lf hv hn
            rw [h3]
            simp only
            rw [ih p1 ((v, vs.headD first) :: ms) (fun u hu => hvs u (by simp [hu])) h4]
            simp

theorem follows_iff {l : List ℕ} {first : ℕ} {rest : List ℕ} (hl : l = first :: rest) {a b : ℕ} :
    Follows l a b ↔ ∃ i : ℕ, l[i]? = some a ∧ b = (l[i + 1]?).getD first := by
  have hfirst : l[0]? = some first := by rw [hl]; rfl
  constructor
  · rintro ⟨i, hi, h1, h2⟩
    refine ⟨i, h1, ?_⟩
    by_cases hlt : i + 1 < l.length
    · rw [Nat.mod_eq_of_lt hlt] at h2
      rw [h2]; rfl
    · have : i + 1 = l.length := by omega
      rw [this, Nat.mod_self, hfirst] at h2
      rw [List.getElem?_eq_none (by omega)]
      exact (Option.some.inj h2).symm
  · rintro ⟨i, h1, rfl⟩
    have hi := (List.getElem?_eq_some_iff.1 h1).1
    refine ⟨i, hi, h1, ?_⟩
    by_cases hlt : i + 1 < l.length
    · rw [Nat.mod_eq_of_lt hlt, List.getElem?_eq_getElem hlt]; rfl
    · have : i + 1 = l.length := by omega
      rw [this, Nat.mod_self, hfirst, List.getElem?_eq_none (le_refl _)]; rfl

theorem segments_spec {lf : Bool} {hasEdge : ℕ → ℕ → Option Bool} {id : ℕ} {l : List ℕ} :
    (∀ k, segments lf hasEdge id l = some k → HasClasses (fun v w => Follows l v w ∧ hasEdge v w = some true) l k) ∧
    ((segments lf hasEdge id l).isSome ↔
      l ≠ [] ∧ (∀ v ∈ l, hasEdge id v = some true) ∧ ∀ v w, Follows l v w → (hasEdge v w).isSome) := by
  cases hl : l with
  | nil => simp [segments]
  | cons first rest =>
    rw [← hl]
    have hfirst : first ∈ l := by rw [hl]; simp
    have hseg : segments lf hasEdge id l = match segmentsLoop lf hasEdge id first (ofRange l) l with
        | none => none
        | some uf => match uf.roots with
          | none => none
          | some (_, roots) => some roots.length := by rw [hl]; rfl
    have hR : Represents (· ∈ l) (ofRange l) (repOf []) := Represents.ofRange l
    have hsome := segmentsLoop_isSome lf hasEdge id l first hfirst l (ofRange l) [] (fun _ h => h) hR
    constructor
    · intro k hk
      rw [hseg] at hk
      cases hp : segmentsLoop lf hasEdge id first (ofRange l) l with
      | none => rw [hp] at hk; cases hk
      | some p =>
        rw [hp] at hk
        simp only at hk
        obtain ⟨ms, h1, h2⟩ := segmentsLoop_spec lf hasEdge id l first hfirst l (ofRange l) [] p (fun _ h => h) hR hp
        obtain ⟨p', rs, h3, _, h4, h5⟩ := h1.roots
        rw [h3] at hk
        cases hk
        have hrel : ∀ a b, (a, b) ∈ ms ↔ Follows l a b ∧ hasEdge a b = some true := by
          intro a b
          rw [h2, follows_iff hl]
          simp only [List.not_mem_nil, false_or]
          constructor
          · rintro ⟨i, h6, h7, h8⟩; exact ⟨⟨i, h6, h7⟩, h8⟩
          · rintro ⟨⟨i, h6, h7⟩, h8⟩; exact ⟨i, h6, h7, h8⟩
        have hconn : ∀ a b, Connected ms a b ↔ Relation.EqvGen (fun v w => Follows l v w ∧ hasEdge v w = some true) a b := fun a b =>
          ⟨fun h => Relation.EqvGen.mono (fun a b h => (hrel a b).1 h) _ _ h, fun h => Relation.EqvGen.mono (fun a b h => (hrel a b).2 h) _ _ h⟩
        refine ⟨rs, rfl, h4, fun r hr => ((h5 r).1 hr).1, ?_⟩
        intro v hv
        refine ⟨repOf ms v, ⟨(h5 _).2 ⟨h1.rep_mem hv, h1.rep_rep hv⟩, (hconn _ _).1 (repOf_connected _ _)⟩, ?_⟩
        rintro r ⟨h6, h7⟩
        have := (repOf_eq_iff ms v r).2 ((hconn v r).2 h7)
        rw [((h5 r).1 h6).2] at this
        exact this.symm
    · have hf : (∀ v w, Follows l v w → (hasEdge v w).isSome) ↔ ∀ (i v : ℕ), l[i]? = some v → (hasEdge v ((l[i + 1]?).getD first)).isSome := by
        constructor
        · intro h i v hi
          exact h v _ ((follows_iff hl).2 ⟨i, hi, rfl⟩)
        · intro h v w hvw
          obtain ⟨i, hi, rfl⟩ := (follows_iff hl).1 hvw
          exact h i v hi
      rw [hf, ← hsome]
      have hne : l ≠ [] := by rw [hl]; simp
      rw [hseg]
      cases hp : segmentsLoop lf hasEdge id first (ofRange l) l with
      | none => simp
      | some p =>
        obtain ⟨ms, h1, _⟩ := segmentsLoop_spec lf hasEdge id l first hfirst l (ofRange l) [] p (fun _ h => h) hR hp
        obtain ⟨p', rs, h3, _⟩ := h1.roots
        simp [h3, hne]

/-- C121. The numbers of segments of the link of a vertex: the lower part of the link consists of the neighbours whose data are not larger, the upper part of those
whose data are not smaller than the data of the vertex.  The segments of a part are the classes of neighbours that follow each other in the part and are joined by
an edge.  The function returns a value if and only if both parts are not empty, i.e. never for an extremum, and no query for an edge fails. -/
theorem _root_.Aleph.C121_segments [LinearOrder D] {iter : List ℕ → List ℕ} {fuel fuel' : ℕ} {ops : List (Op P D)} {m : Mesh P D}
    (h : run iter fuel ops = some m) {u : ℕ} {ns : List ℕ} (hn : link fuel' m u = some ns) (lf : Bool) :
    ∃ lower upper : List ℕ, lower.Sublist ns ∧ upper.Sublist ns ∧
      (∀ w, w ∈ lower ↔ w ∈ ns ∧ ∃ a b, dataAt m w = some a ∧ dataAt m u = some b ∧ a ≤ b) ∧
      (∀ w, w ∈ upper ↔ w ∈ ns ∧ ∃ a b, dataAt m w = some a ∧ dataAt m u = some b ∧ b ≤ a) ∧
      (∀ nl nu, contiguousSegments lf fuel' m u = some (nl, nu) →
        HasClasses (fun v w => Follows lower v w ∧ hasEdge fuel' m v w = some true) lower nl ∧
        HasClasses (fun v w => Follows upper v w ∧ hasEdge fuel' m v w = some true) upper nu) ∧
      ((contiguousSegments lf fuel' m u).isSome ↔ lower ≠ [] ∧ upper ≠ [] ∧
        (∀ v w, Follows lower v w → (hasEdge fuel' m v w).isSome) ∧ ∀ v w, Follows upper v w → (hasEdge fuel' m v w).isSome) := by
  have hI := run_inv h
  cases hx : m.vertex u with
  | none => simp only [link, hx] at hn; cases hn
  | some x =>
    have hmemb : ∀ w ∈ ns, ∃ y, m.vertex w = some y := fun w hw =>
      Option.isSome_iff_exists.1 ((hI.keys w).1 (hI.isEdge_mem (link_sound hI hn w hw)).2)
    have hedge : ∀ w ∈ ns, hasEdge fuel' m u w = some true := by
      intro w hw
      obtain ⟨y, hy⟩ := hmemb w hw
      simp only [hasEdge]
      rw [hx, hy, hn]
      simp [hw]
    refine ⟨ns.filter fun u => (m.vertex u).any fun y => decide (y.data ≤ x.data), ns.filter fun u => (m.vertex u).any fun y => decide (x.data ≤ y.data),
      List.filter_sublist, List.filter_sublist, ?_, ?_, ?_, ?_⟩
    · intro w
      rw [List.mem_filter]
      refine and_congr_right fun hw => ?_
      obtain ⟨y, hy⟩ := hmemb w hw
      simp [dataAt, hx, hy]
    · intro w
      rw [List.mem_filter]
      refine and_congr_right fun hw => ?_
      obtain ⟨y, hy⟩ := hmemb w hw
      simp [dataAt, hx, hy]
    · intro nl nu he
      simp only [contiguousSegments] at he
      rw [hx, hn] at he
      simp only at he
      split at he
      · rename_i nl' nu' h1 h2
        cases he
        exact ⟨segments_spec.1 _ h1, segments_spec.1 _ h2⟩
      · cases he
    · have h1 := (segments_spec (lf := lf) (hasEdge := hasEdge fuel' m) (id := u) (l := ns.filter fun u => (m.vertex u).any fun y => decide (y.data ≤ x.data))).2
      have h2 := (segments_spec (lf := lf) (hasEdge := hasEdge fuel' m) (id := u) (l := ns.filter fun u => (m.vertex u).any fun y => decide (x.data ≤ y.data))).2
      have h1' : ∀ v ∈ ns.filter fun u => (m.vertex u).any fun y => decide (y.data ≤ x.data), hasEdge fuel' m u v = some true :=
        fun v hv => hedge v (List.mem_of_mem_filter hv)
      have h2' : ∀ v ∈ ns.filter fun u => (m.vertex u).any fun y => decide (x.data ≤ y.data), hasEdge fuel' m u v = some true :=
        fun v hv => hedge v (List.mem_of_mem_filter hv)
      rw [and_iff_right h1'] at h1
      rw [and_iff_right h2'] at h2
      have : (contiguousSegments lf fuel' m u).isSome ↔
          (segments lf (hasEdge fuel' m) u (ns.filter fun u => (m.vertex u).any fun y => decide (y.data ≤ x.data))).isSome ∧
          (segments lf (hasEdge fuel' m) u (ns.filter fun u => (m.vertex u).any fun y => decide (x.data ≤ y.data))).isSome := by
        simp only [contiguousSegments]
        rw [hx, hn]
        simp only
        split
        · rename_i h1 h2; simp [h1, h2]
        · rename_i hno
          constructor
          · intro h; cases h
          · rintro ⟨h1, h2⟩
            obtain ⟨a, ha⟩ := Option.isSome_iff_exists.1 h1
            obtain ⟨b, hb⟩ := Option.isSome_iff_exists.1 h2
            exact absurd ha (fun ha => hno a b ha hb)
      rw [this, h1, h2]
      tauto

/-- Hypotheses of C121: a vertex of two triangles. -/
example : ∃ m : Mesh ℕ ℕ, build 4 [[0, 1, 2], [2, 1, 3]] = some m ∧ link 40 m 1 = some [0, 3, 2] ∧ contiguousSegments true 40 m 1 = some (1, 1) :=
  ⟨_, rfl, by decide, by decide⟩

/-- C121. The function does not return for extrema: in a mesh of one triangle, the first element of an empty range is accessed for the vertex 0. -/
theorem _root_.Aleph.C121_extremum :
    ∃ m : Mesh ℕ ℕ, run id 40 (defaultVertices 3 ++ [.face [0, 1, 2]]) = some m ∧ link 40 m 0 = some [1, 2] ∧ contiguousSegments true 40 m 0 = none :=
  ⟨_, rfl, by decide, by decide⟩

end Aleph.Mesh
