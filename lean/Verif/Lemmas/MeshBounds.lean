import Verif.Lemmas.MeshQueries

/-!
# Half-edge meshes: larger bounds do not change results
-/

namespace Aleph.Mesh

variable {P D : Type}

theorem edgesLoop_mono {H : List HalfEdge} {start : Option ℕ} : ∀ (f f' : ℕ) (c : Option ℕ) (acc es : List ℕ), f ≤ f' →
    edgesLoop H start f c acc = some es → edgesLoop H start f' c acc = some es := by
  intro f
  induction f with
  | zero => intro f' c acc es _ h; cases h
  | succ f ih =>
    intro f' c acc es hf h
    obtain ⟨f', rfl⟩ : ∃ g, f' = g + 1 := ⟨f' - 1, by omega⟩
    cases c with
    | none => exact h
    | some e =>
      simp only [edgesLoop] at h ⊢
      split at h
      · cases h
      · rename_i p hp
        split at h
        · rename_i hc; rw [if_pos hc]; exact h
        · rename_i hc; rw [if_neg hc]; exact ih f' _ _ es (by omega) h

theorem getEdges_mono {H : List HalfEdge} {start : Option ℕ} {f f' : ℕ} {es : List ℕ} (hf : f ≤ f') (h : getEdges f H start = some es) :
    getEdges f' H start = some es := edgesLoop_mono f f' _ _ es hf h

theorem getEdge_mono {m : Mesh P D} {f f' u v : ℕ} {r : Option ℕ} (hf : f ≤ f') (h : getEdge f m u v = some r) : getEdge f' m u v = some r := by
  simp only [getEdge] at h ⊢
  split at h
  · rename_i x y hx hy
    cases hg : getEdges f m.halfEdges x.edge with
    | none => rw [hg] at h; cases h
    | some es => rw [hg] at h; rw [getEdges_mono hf hg]; exact h
  · cases h

theorem faceStep_mono {m : Mesh P D} {f f' φ c n : ℕ} (hf : f ≤ f') (h : faceStep f m φ c n ≠ .undefined) :
    faceStep f' m φ c n = faceStep f m φ c n := by
  simp only [faceStep] at h ⊢
  cases hc : m.vertex c with
  | none => rfl
  | some x =>
    cases hn : m.vertex n with
    | none => rfl
    | some y =>
      rw [hc, hn] at h
      simp only at h ⊢
      cases hg : getEdge f m c n with
      | none => rw [hg] at h; exact absurd rfl h
      | some r => rw [getEdge_mono hf hg]

theorem faceLoop_mono {f f' φ first : ℕ} (hf : f ≤ f') : ∀ (vs : List ℕ) (m : Mesh P D) (es : List ℕ), faceLoop f φ first m vs es ≠ .undefined →
    faceLoop f' φ first m vs es = faceLoop f φ first m vs es := by
  intro vs
  induction vs with
  | nil => intro m es _; rfl
  | cons c vs ih =>
    intro m es h
    cases vs with
    | nil =>
      simp only [faceLoop] at h ⊢
      have : faceStep f m φ c first ≠ .undefined := by intro hc; rw [hc] at h; exact absurd rfl h
      rw [faceStep_mono hf this]
    | cons n vs =>
      simp only [faceLoop] at h ⊢
      have : faceStep f m φ c n ≠ .undefined := by intro hc; rw [hc] at h; exact absurd rfl h
      rw [faceStep_mono hf this]
      cases hs : faceStep f m φ c n with
      | ok r => rw [hs] at h; exact ih r.1 _ h
      | thrown => rfl
      | undefined => rfl

theorem boundaryLoop_mono {V : ℕ → Option (Vertex P D)} {F F' v : ℕ} (hF : F ≤ F') : ∀ (f f' : ℕ) (H : List HalfEdge) (e c : ℕ) (r : List HalfEdge × ℕ),
    f ≤ f' → boundaryLoop F V v f H e c = some r → boundaryLoop F' V v f' H e c = some r := by
  intro f
  induction f with
  | zero => intro f' H e c r _ h; cases h
  | succ f ih =>
    intro f' H e c r hf h
    obtain ⟨f', rfl⟩ : ∃ g, f' = g + 1 := ⟨f' - 1, by omega⟩
    simp only [boundaryLoop] at h ⊢
    split at h
    · rename_i x hfx hx
      cases hg : getEdges F H x.edge with
      | none => rw [hg] at h; cases h
      | some es =>
        rw [hg] at h
        rw [getEdges_mono hF hg]
        simp only at h ⊢
        split at h
        · split at h
          · rename_i hc; rw [if_pos hc]; exact h
          · rename_i hc; rw [if_neg hc]; exact ih f' _ _ _ r (by omega) h
        · split at h
          · cases h
          · split at h
            · cases h
            · split at h
              · rename_i hc; rw [if_pos hc]; exact h
              · rename_i hc; rw [if_neg hc]; exact ih f' _ _ _ r (by omega) h
    · cases h

theorem extendVertex_mono {V : ℕ → Option (Vertex P D)} {F F' v : ℕ} (hF : F ≤ F') {H H' : List HalfEdge} (h : extendVertex F V H v = some H') :
    extendVertex F' V H v = some H' := by
  simp only [extendVertex] at h ⊢
  split at h
  · cases h
  · split at h
    · exact h
    · split at h
      · cases h
      · split at h
        · exact h
        · split at h
          · cases h
          · rename_i p hp _ _ _ curr ht
            cases hb : boundaryLoop F V v F H p curr with
            | none => rw [hb] at h; cases h
            | some r =>
              rw [hb] at h
              rw [boundaryLoop_mono hF F F' H p curr r hF hb]
              exact h

theorem extend_mono {V : ℕ → Option (Vertex P D)} {F F' : ℕ} (hF : F ≤ F') : ∀ (vs : List ℕ) (H H' : List HalfEdge),
    vs.foldlM (extendVertex F V) H = some H' → vs.foldlM (extendVertex F' V) H = some H' := by
  intro vs
  induction vs with
  | nil => intro H H' h; exact h
  | cons v vs ih =>
    intro H H' h
    rw [List.foldlM_cons] at h ⊢
    obtain ⟨H1, h1, h2⟩ := Option.bind_eq_some_iff.1 h
    rw [extendVertex_mono hF h1]
    exact ih H1 H' h2

theorem addFace_mono {iter : List ℕ → List ℕ} {F F' : ℕ} {m : Mesh P D} {vs : List ℕ} (hF : F ≤ F') (h : addFace iter F m vs ≠ .undefined) :
    addFace iter F' m vs = addFace iter F m vs := by
  simp only [addFace] at h ⊢
  have : faceLoop F m.faces.length (vs.headD 0) { m with faces := m.faces ++ [none] } vs [] ≠ .undefined := by
    intro hc; rw [hc] at h; exact absurd rfl h
  rw [faceLoop_mono hF _ _ _ this]
  split
  · rfl
  · rfl
  · rename_i m1 es hl
    rw [hl] at h
    simp only at h
    cases hx : (iter m1.ids).foldlM (extendVertex F m1.vertex) (linkFace m1.halfEdges es) with
    | none => rw [hx] at h; exact absurd rfl h
    | some H => rw [extend_mono hF _ _ _ hx]

theorem exec_mono {iter : List ℕ → List ℕ} {F F' : ℕ} {m m' : Mesh P D} {op : Op P D} (hF : F ≤ F') (h : exec iter F m op = some m') :
    exec iter F' m op = some m' := by
  cases op with
  | vertex => exact h
  | face vs =>
    simp only [exec] at h ⊢
    have : addFace iter F m vs ≠ .undefined := by intro hc; rw [hc] at h; cases h
    rw [addFace_mono hF this]
    exact h

theorem run_mono {iter : List ℕ → List ℕ} {F F' : ℕ} {ops : List (Op P D)} {m : Mesh P D} (hF : F ≤ F') (h : run iter F ops = some m) :
    run iter F' ops = some m := by
  have : ∀ (ops : List (Op P D)) (m0 : Mesh P D), ops.foldlM (exec iter F) m0 = some m → ops.foldlM (exec iter F') m0 = some m := by
    intro ops
    induction ops with
    | nil => intro m0 h; exact h
    | cons op ops ih =>
      intro m0 h
      rw [List.foldlM_cons] at h ⊢
      obtain ⟨m1, h1, h2⟩ := Option.bind_eq_some_iff.1 h
      rw [exec_mono hF h1]
      exact ih m1 h2
  exact this ops {} h

theorem neighboursLoop_mono {H : List HalfEdge} {v : ℕ} {start : Option ℕ} : ∀ (f f' : ℕ) (c : Option ℕ) (acc es : List ℕ), f ≤ f' →
    neighboursLoop H v start f c acc = some es → neighboursLoop H v start f' c acc = some es := by
  intro f
  induction f with
  | zero => intro f' c acc es _ h; cases h
  | succ f ih =>
    intro f' c acc es hf h
    obtain ⟨f', rfl⟩ : ∃ g, f' = g + 1 := ⟨f' - 1, by omega⟩
    cases c with
    | none => exact h
    | some e =>
      simp only [neighboursLoop] at h ⊢
      split at h
      · split at h
        · rename_i hc; rw [if_pos hc]; exact h
        · rename_i hc
          rw [if_neg hc]
          split at h
          · cases h
          · split at h
            · rename_i hc'; rw [if_pos hc']; exact ih f' _ _ es (by omega) h
            · rename_i hc'; rw [if_neg hc']; exact h
      · cases h

theorem link_mono {m : Mesh P D} {f f' v : ℕ} {ns : List ℕ} (hf : f ≤ f') (h : link f m v = some ns) : link f' m v = some ns := by
  simp only [link] at h ⊢
  split at h
  · cases h
  · exact neighboursLoop_mono f f' _ _ ns hf h

/-! ### Exceptions of `addFace` -/

theorem faceLoop_thrown (fuel φ first : ℕ) (m0 : Mesh P D) : ∀ (vs : List ℕ) (m : Mesh P D) (ps : List (ℕ × ℕ)) (es : List ℕ) (m' : Mesh P D),
    LoopSpec m0 φ m ps es → faceLoop fuel φ first m vs es = .thrown m' →
    (∃ ps' es', LoopSpec m0 φ m' ps' es') ∧ ∃ v, (v ∈ vs ∨ v = first) ∧ m0.vertex v = none := by
  intro vs
  have key : ∀ (m m' : Mesh P D) (c n : ℕ), faceStep fuel m φ c n = .thrown m' → m' = m ∧ (m.vertex c = none ∨ m.vertex n = none) := by
    intro m m' c n h
    simp only [faceStep] at h
    split at h
    · split at h
      · cases h
      · split at h <;> cases h
    · rename_i hno
      cases h
      refine ⟨rfl, ?_⟩
      cases hc : m.vertex c with
      | none => exact .inl rfl
      | some x =>
        cases hn : m.vertex n with
        | none => exact .inr rfl
        | some y => exact absurd hn (hno x y hc)
  have back : ∀ (m : Mesh P D) (ps : List (ℕ × ℕ)) (es : List ℕ) (v : ℕ), LoopSpec m0 φ m ps es → m.vertex v = none → m0.vertex v = none := by
    intro m ps es v h hv
    have := h.keeps.isSome v
    rw [hv] at this
    simpa using this.symm
  induction vs with
  | nil => intro m ps es m' h he; cases he
  | cons c vs ih =>
    intro m ps es m' h he
    cases vs with
    | nil =>
      simp only [faceLoop] at he
      split at he
      · cases he
      · rename_i m1 hs
        cases he
        obtain ⟨rfl, hv⟩ := key _ _ _ _ hs
        refine ⟨⟨ps, es, h⟩, ?_⟩
        rcases hv with hv | hv
        · exact ⟨c, .inl (by simp), back _ _ _ _ h hv⟩
        · exact ⟨first, .inr rfl, back _ _ _ _ h hv⟩
      · cases he
    | cons n vs =>
      simp only [faceLoop] at he
      split at he
      · rename_i m1 e1 hs
        obtain ⟨h1, h2, h3⟩ := faceStep_spec h.core hs
        obtain ⟨g1, v, g2, g3⟩ := ih m1 _ _ m' (h.step h1 h2 h3) he
        refine ⟨g1, v, ?_, g3⟩
        rcases g2 with g2 | g2
        · exact .inl (List.mem_cons_of_mem _ g2)
        · exact .inr g2
      · rename_i m1 hs
        cases he
        obtain ⟨rfl, hv⟩ := key _ _ _ _ hs
        refine ⟨⟨ps, es, h⟩, ?_⟩
        rcases hv with hv | hv
        · exact ⟨c, .inl (by simp), back _ _ _ _ h hv⟩
        · exact ⟨n, .inl (by simp), back _ _ _ _ h hv⟩
      · cases he

end Aleph.Mesh
