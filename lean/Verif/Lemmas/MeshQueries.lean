import Verif.Lemmas.MeshLoop
import Verif.Spec.Mesh
import Mathlib.Data.List.Perm.Subperm
import Mathlib.Data.List.Nodup

/-!
# Half-edge meshes: queries
-/

namespace Aleph.Mesh

open Aleph.Spec.Mesh

variable {P D : Type}

/-! ### Histories -/

theorem addedFaces_append (ops ops' : List (Op P D)) : addedFaces (ops ++ ops') = addedFaces ops ++ addedFaces ops' := by
  induction ops with
  | nil => rfl
  | cons op ops ih => cases op <;> simp [addedFaces, ih]

theorem exec_inv {iter : List ℕ → List ℕ} {fuel : ℕ} {m m' : Mesh P D} {hist : List (List ℕ)} {op : Op P D} (h : Inv m hist)
    (he : exec iter fuel m op = some m') : Inv m' (hist ++ addedFaces [op]) := by
  cases op with
  | vertex x y z data id =>
    simp only [exec] at he
    simp only [addedFaces, List.append_nil]
    split at he
    · rename_i m1 h1; cases he; exact h.addVertex h1
    · rename_i m1 h1
      cases he
      simp only [addVertex] at h1
      split at h1
      · cases h1; exact h
      · cases h1
    · cases he
  | face vs =>
    simp only [exec] at he
    split at he
    · rename_i m1 h1; cases he; exact (addFace_spec h h1).1
    · cases he

theorem foldlM_inv {iter : List ℕ → List ℕ} {fuel : ℕ} : ∀ (ops : List (Op P D)) (m m' : Mesh P D) (hist : List (List ℕ)), Inv m hist →
    ops.foldlM (exec iter fuel) m = some m' → Inv m' (hist ++ addedFaces ops) := by
  intro ops
  induction ops with
  | nil => intro m m' hist h he; cases he; simpa [addedFaces] using h
  | cons op ops ih =>
    intro m m' hist h he
    rw [List.foldlM_cons] at he
    obtain ⟨m1, h1, h2⟩ := Option.bind_eq_some_iff.1 he
    have := ih m1 m' _ (exec_inv h h1) h2
    rw [List.append_assoc, ← addedFaces_append] at this
    exact this

theorem run_inv {iter : List ℕ → List ℕ} {fuel : ℕ} {ops : List (Op P D)} {m : Mesh P D} (h : run iter fuel ops = some m) : Inv m (addedFaces ops) := by
  have := foldlM_inv ops {} m [] Inv.empty_mesh h
  simpa using this

/-! ### The edges of a vertex -/

theorem mem_of_follows {f : List ℕ} {u v : ℕ} (h : Follows f u v) : u ∈ f ∧ v ∈ f := by
  obtain ⟨i, _, h1, h2⟩ := h
  exact ⟨List.mem_of_getElem? h1, List.mem_of_getElem? h2⟩

/-- Every half-edge is an edge of a face. -/
theorem Inv.isEdge {m : Mesh P D} {hist : List (List ℕ)} (h : Inv m hist) {e u v : ℕ} (hs : sourceOf m.halfEdges e = some u)
    (ht : targetOf m.halfEdges e = some v) : IsEdge hist u v := by
  rcases h.covered e (targetOf_lt ht) with hf | ⟨p, hp, hf⟩
  · obtain ⟨φ, hφ⟩ := Option.isSome_iff_exists.1 hf
    obtain ⟨vs, h1, i, h2, h3, h4⟩ := h.faced e φ hφ
    exact ⟨vs, List.mem_of_getElem? h1, .inl ⟨i, h2, by rw [← h3, hs], by rw [← h4, ht]⟩⟩
  · obtain ⟨φ, hφ⟩ := Option.isSome_iff_exists.1 hf
    obtain ⟨vs, h1, i, h2, h3, h4⟩ := h.faced p φ hφ
    rw [h.core.source_pair hp, ht] at h3
    rw [h.core.target_pair hp, hs] at h4
    exact ⟨vs, List.mem_of_getElem? h1, .inr ⟨i, h2, h3.symm, h4.symm⟩⟩

/-- A vertex has an edge if and only if it belongs to a face. -/
theorem Inv.hasEdge_iff {m : Mesh P D} {hist : List (List ℕ)} (h : Inv m hist) {v : ℕ} {x : Vertex P D} (hx : m.vertex v = some x) :
    x.edge.isSome ↔ Used hist v := by
  constructor
  · intro hs
    obtain ⟨e, he⟩ := Option.isSome_iff_exists.1 hs
    obtain ⟨h1, h2⟩ := h.core.edge v x e hx he
    obtain ⟨w, h3, _⟩ := h.core.target e h1
    obtain ⟨f, h4, h5⟩ := h.isEdge h2 h3
    refine ⟨f, h4, ?_⟩
    rcases h5 with h5 | h5
    · exact (mem_of_follows h5).1
    · exact (mem_of_follows h5).2
  · rintro ⟨f, hf, hv⟩
    obtain ⟨_, e, he⟩ := h.members f hf v hv
    exact h.core.start v x e he hx

/-! ### Vertices of a face -/

theorem faceVerticesLoop_mono {H : List HalfEdge} {start : ℕ} : ∀ (f f' e : ℕ) (acc vs : List ℕ), f ≤ f' →
    faceVerticesLoop H start f e acc = some vs → faceVerticesLoop H start f' e acc = some vs := by
  intro f
  induction f with
  | zero => intro f' e acc vs _ h; cases h
  | succ f ih =>
    intro f' e acc vs hf h
    obtain ⟨f', rfl⟩ : ∃ g, f' = g + 1 := ⟨f' - 1, by omega⟩
    simp only [faceVerticesLoop] at h ⊢
    split at h
    · rename_i s e' hs hn
      split at h
      · rename_i hc; rw [if_pos hc]; exact h
      · rename_i hc; rw [if_neg hc]; exact ih f' e' _ vs (by omega) h
    · cases h

theorem Cycle.loop {H : List HalfEdge} {φ : ℕ} {vs es : List ℕ} (h : Cycle H φ vs es) {start : ℕ} (hstart : es[0]? = some start) :
    ∀ (k i e : ℕ), i + k + 1 = es.length → es[i]? = some e → faceVerticesLoop H start (k + 1) e (vs.take i) = some vs := by
  intro k
  induction k with
  | zero =>
    intro i e hi he
    have hsl : i < vs.length := by rw [← h.len]; omega
    simp only [faceVerticesLoop]
    rw [h.source i e he, h.next i e he, List.getElem?_eq_getElem hsl]
    have : (i + 1) % es.length = 0 := by rw [← hi]; exact Nat.mod_self _
    rw [this, hstart]
    simp only [if_true]
    rw [List.take_append_getElem hsl]
    congr 1
    exact List.take_of_length_le (by rw [← h.len]; omega)
  | succ k ih =>
    intro i e hi he
    have hsl : i < vs.length := by rw [← h.len]; omega
    have hnl : i + 1 < es.length := by omega
    rw [faceVerticesLoop]
    rw [h.source i e he, h.next i e he, List.getElem?_eq_getElem hsl, Nat.mod_eq_of_lt hnl, List.getElem?_eq_getElem hnl]
    simp only
    rw [if_neg, List.take_append_getElem hsl]
    · exact ih (i + 1) _ (by omega) (List.getElem?_eq_getElem hnl)
    · intro hc
      have h0 : es[0] = start := (List.getElem?_eq_some_iff.1 hstart).2
      have := h.nodup.getElem_inj_iff.1 (hc.trans h0.symm)
      omega

/-- `Face::vertices` returns the vertices of the face in the order in which they were given. -/
theorem Inv.faceVertices {m : Mesh P D} {hist : List (List ℕ)} (h : Inv m hist) {φ fuel : ℕ} {vs us : List ℕ} (hφ : hist[φ]? = some vs)
    (he : faceVertices fuel m φ = some us) : us = vs := by
  obtain ⟨es, hc, hf⟩ := h.cycles φ vs hφ
  simp only [Mesh.faceVertices] at he
  rw [hf] at he
  cases hh : es.head? with
  | none => rw [hh] at he; cases he
  | some start =>
    rw [hh] at he
    simp only at he
    have h0 : es[0]? = some start := by rw [← hh, List.head?_eq_getElem?]
    have hpos : 0 < es.length := (List.getElem?_eq_some_iff.1 h0).1
    have h1 := hc.loop h0 (es.length - 1) 0 start (by omega) h0
    have h2 := faceVerticesLoop_mono _ (fuel + es.length) _ _ _ (by omega) he
    have h3 := faceVerticesLoop_mono _ (fuel + es.length) _ _ _ (by omega) h1
    rw [List.take_zero, h2] at h3
    exact Option.some.inj h3

theorem Inv.faceVertices_some {m : Mesh P D} {hist : List (List ℕ)} (h : Inv m hist) {φ fuel : ℕ} {vs : List ℕ} (hφ : hist[φ]? = some vs)
    (hne : vs ≠ []) (hfuel : vs.length ≤ fuel) : Mesh.faceVertices fuel m φ = some vs := by
  obtain ⟨es, hc, hf⟩ := h.cycles φ vs hφ
  have hlen := hc.len
  have hvl : 0 < vs.length := List.length_pos_of_ne_nil hne
  simp only [Mesh.faceVertices]
  rw [hf]
  have hpos : 0 < es.length := by omega
  have h0 : es[0]? = some es[0] := List.getElem?_eq_getElem hpos
  rw [List.head?_eq_getElem?, h0]
  simp only
  have h1 := hc.loop h0 (es.length - 1) 0 _ (by omega) h0
  exact faceVerticesLoop_mono _ fuel _ _ _ (by omega) h1

/-! ### The set of faces -/

theorem collectFaces_spec {m : Mesh P D} : ∀ (vs acc fs : List ℕ), acc.Nodup → collectFaces m vs acc = some fs → fs.Nodup ∧
    (∀ φ, φ ∈ fs ↔ φ ∈ acc ∨ ∃ v ∈ vs, ∃ e, (m.vertex v).bind (·.edge) = some e ∧ faceOf m.halfEdges e = some φ) ∧
    fs.length ≤ acc.length + vs.length := by
  intro vs
  induction vs with
  | nil => intro acc fs hnd h; cases h; simpa using hnd
  | cons v vs ih =>
    intro acc fs hnd h
    simp only [collectFaces] at h
    cases he : (m.vertex v).bind (·.edge) with
    | none => rw [he] at h; cases h
    | some e =>
      rw [he] at h
      simp only at h
      cases hf : faceOf m.halfEdges e with
      | none =>
        rw [hf] at h
        obtain ⟨h1, h2, h3⟩ := ih acc fs hnd h
        refine ⟨h1, ?_, by simp only [List.length_cons]; omega⟩
        intro φ
        rw [h2]
        simp only [List.mem_cons, exists_eq_or_imp]
        constructor
        · rintro (h | h)
          · exact .inl h
          · exact .inr (.inr h)
        · rintro (h | ⟨e', h, h'⟩ | h)
          · exact .inl h
          · rw [he] at h; cases h; rw [hf] at h'; cases h'
          · exact .inr h
      | some ψ =>
        rw [hf] at h
        simp only at h
        have hnd' : (if ψ ∈ acc then acc else acc ++ [ψ]).Nodup := by
          split
          · exact hnd
          · rename_i hn
            rw [List.nodup_append]
            refine ⟨hnd, List.nodup_singleton _, ?_⟩
            intro a ha b hb
            cases List.mem_singleton.1 hb
            rintro rfl
            exact hn ha
        obtain ⟨h1, h2, h3⟩ := ih _ fs hnd' h
        have hmem : ∀ φ, φ ∈ (if ψ ∈ acc then acc else acc ++ [ψ]) ↔ φ ∈ acc ∨ φ = ψ := by
          intro φ
          split
          · rename_i hi
            constructor
            · exact .inl
            · rintro (h | rfl)
              · exact h
              · exact hi
          · simp
        refine ⟨h1, ?_, ?_⟩
        · intro φ
          rw [h2, hmem]
          simp only [List.mem_cons, exists_eq_or_imp]
          constructor
          · rintro ((h | rfl) | h)
            · exact .inl h
            · exact .inr (.inl ⟨e, he, hf⟩)
            · exact .inr (.inr h)
          · rintro (h | ⟨e', h, h'⟩ | h)
            · exact .inl (.inl h)
            · rw [he] at h; cases h; rw [hf] at h'; cases h'; exact .inl (.inr rfl)
            · exact .inr h
        · have : (if ψ ∈ acc then acc else acc ++ [ψ]).length ≤ acc.length + 1 := by split <;> simp
          simp only [List.length_cons]
          omega

theorem collectFaces_isSome {m : Mesh P D} : ∀ (vs acc : List ℕ), (collectFaces m vs acc).isSome ↔ ∀ v ∈ vs, ((m.vertex v).bind (·.edge)).isSome := by
  intro vs
  induction vs with
  | nil => intro acc; simp [collectFaces]
  | cons v vs ih =>
    intro acc
    simp only [collectFaces, List.mem_cons, forall_eq_or_imp]
    cases he : (m.vertex v).bind (·.edge) with
    | none => simp
    | some e =>
      cases hf : faceOf m.halfEdges e with
      | none => simpa [hf] using ih acc
      | some ψ => simpa [hf] using ih (if ψ ∈ acc then acc else acc ++ [ψ])

theorem mapM_some {β γ : Type} (f : β → Option γ) : ∀ (l : List β) (r : List γ), l.mapM f = some r → List.Forall₂ (fun a b => f a = some b) l r := by
  intro l
  induction l with
  | nil => intro r h; cases h; exact .nil
  | cons a l ih =>
    intro r h
    rw [List.mapM_cons] at h
    obtain ⟨b, h1, h2⟩ := Option.bind_eq_some_iff.1 h
    obtain ⟨bs, h3, h4⟩ := Option.bind_eq_some_iff.1 h2
    cases h4
    exact .cons h1 (ih bs h3)

theorem mapM_of_forall {β γ : Type} (f : β → Option γ) (g : β → γ) : ∀ (l : List β), (∀ a ∈ l, f a = some (g a)) → l.mapM f = some (l.map g) := by
  intro l
  induction l with
  | nil => intro _; rfl
  | cons a l ih =>
    intro h
    rw [List.mapM_cons, h a (by simp), ih (fun b hb => h b (by simp [hb]))]
    rfl

theorem map_subperm {β : Type} (d : β) (hist : List β) (L : List ℕ) (hnd : L.Nodup) (hlt : ∀ φ ∈ L, φ < hist.length) :
    (L.map fun φ => hist.getD φ d).Subperm hist := by
  have h1 : L.Subperm (List.range hist.length) := List.subperm_of_subset hnd (fun φ hφ => List.mem_range.2 (hlt φ hφ))
  have h2 : (L.map fun φ => hist.getD φ d).Subperm ((List.range hist.length).map fun φ => hist.getD φ d) := by
    obtain ⟨l, hp, hs⟩ := h1
    exact ⟨l.map _, hp.map _, hs.map _⟩
  have h3 : (List.range hist.length).map (fun φ => hist.getD φ d) = hist := by
    apply List.ext_getElem?
    intro i
    rw [List.getElem?_map]
    rcases Nat.lt_or_ge i hist.length with h | h
    · rw [List.getElem?_range h]; simp [h]
    · rw [List.getElem?_eq_none (by simpa using h), List.getElem?_eq_none h]; rfl
  rwa [h3] at h2

/-! ### Neighbours -/

theorem neighboursLoop_sound {m : Mesh P D} {hist : List (List ℕ)} (h : Inv m hist) (start : Option ℕ) (v : ℕ) : ∀ (f : ℕ) (c : Option ℕ) (acc ns : List ℕ),
    (∀ e, c = some e → sourceOf m.halfEdges e = some v) → (∀ w ∈ acc, IsEdge hist v w) → neighboursLoop m.halfEdges v start f c acc = some ns →
    ∀ w ∈ ns, IsEdge hist v w := by
  intro f
  induction f with
  | zero => intro c acc es _ _ he; cases he
  | succ f ih =>
    intro c acc ns hc hacc he
    cases c with
    | none => simp only [neighboursLoop, Option.some.injEq] at he; exact he ▸ hacc
    | some e =>
      have hce := hc e rfl
      simp only [neighboursLoop] at he
      split at he
      · rename_i t e' ht hp
        have hacc' : ∀ w ∈ acc ++ [t], IsEdge hist v w := by
          intro w hw
          rcases List.mem_append.1 hw with hw | hw
          · exact hacc w hw
          · cases List.mem_singleton.1 hw; exact h.isEdge hce ht
        split at he
        · cases he; exact hacc'
        · split at he
          · cases he
          · rename_i s hs
            split at he
            · rename_i hsv
              refine ih _ _ _ ?_ hacc' he
              rintro e'' ⟨⟩
              rw [hs, hsv]
            · cases he; exact hacc'
      · cases he

theorem link_sound {m : Mesh P D} {hist : List (List ℕ)} (h : Inv m hist) {fuel v : ℕ} {ns : List ℕ} (he : link fuel m v = some ns) :
    ∀ w ∈ ns, IsEdge hist v w := by
  simp only [link] at he
  cases hx : m.vertex v with
  | none => rw [hx] at he; cases he
  | some x =>
    rw [hx] at he
    exact neighboursLoop_sound h x.edge v fuel x.edge [] ns (fun e hxe => (h.core.edge v x e hx hxe).2) (by simp) he

/-- The vertices of edges are vertices of the mesh. -/
theorem Inv.isEdge_mem {m : Mesh P D} {hist : List (List ℕ)} (h : Inv m hist) {u v : ℕ} (he : IsEdge hist u v) : u ∈ m.ids ∧ v ∈ m.ids := by
  obtain ⟨f, hf, h1 | h1⟩ := he
  · exact ⟨(h.members f hf u (mem_of_follows h1).1).1, (h.members f hf v (mem_of_follows h1).2).1⟩
  · exact ⟨(h.members f hf u (mem_of_follows h1).2).1, (h.members f hf v (mem_of_follows h1).1).1⟩

/-! ### Faces around a vertex -/

theorem facesLoop_sound {m : Mesh P D} {hist : List (List ℕ)} (h : Inv m hist) (start : Option ℕ) (v : ℕ) : ∀ (f : ℕ) (c : Option ℕ) (acc fs : List ℕ),
    (∀ e, c = some e → sourceOf m.halfEdges e = some v) → (∀ φ ∈ acc, ∃ vs, hist[φ]? = some vs ∧ v ∈ vs) →
    facesLoop m.halfEdges start f c acc = some fs → ∀ φ ∈ fs, ∃ vs, hist[φ]? = some vs ∧ v ∈ vs := by
  intro f
  induction f with
  | zero => intro c acc es _ _ he; cases he
  | succ f ih =>
    intro c acc fs hc hacc he
    cases c with
    | none => simp only [facesLoop, Option.some.injEq] at he; exact he ▸ hacc
    | some e =>
      have hce := hc e rfl
      simp only [facesLoop] at he
      cases hf : faceOf m.halfEdges e with
      | none => rw [hf] at he; cases he; exact hacc
      | some φ =>
        rw [hf] at he
        simp only at he
        have hacc' : ∀ ψ ∈ acc ++ [φ], ∃ vs, hist[ψ]? = some vs ∧ v ∈ vs := by
          intro ψ hψ
          rcases List.mem_append.1 hψ with hψ | hψ
          · exact hacc ψ hψ
          · cases List.mem_singleton.1 hψ
            obtain ⟨vs, h1, i, h2, h3, h4⟩ := h.faced e φ hf
            rw [hce] at h3
            exact ⟨vs, h1, List.mem_of_getElem? h3.symm⟩
        split at he
        · cases he
        · rename_i p hp
          split at he
          · cases he; exact hacc'
          · exact ih _ _ _ (fun e' he' => (h.core.around hce hp he').2) hacc' he

end Aleph.Mesh
