import Verif.Lemmas.MeshQueries
import Verif.Lemmas.UnionFind
import Verif.Spec.UnionFind
import Mathlib.Tactic.Tauto

/-!
# Half-edge meshes: connected components
-/

namespace Aleph.Mesh

open Aleph.Spec Aleph.Spec.Mesh ParentMap

variable {P D : Type}

/-- `w` is the target of the edge that is stored for the vertex `v`. -/
def First (m : Mesh P D) (v w : ℕ) : Prop := ∃ x e, m.vertex v = some x ∧ x.edge = some e ∧ targetOf m.halfEdges e = some w

theorem First.isEdge {m : Mesh P D} {hist : List (List ℕ)} (h : Inv m hist) {v w : ℕ} (hf : First m v w) : IsEdge hist v w := by
  obtain ⟨x, e, h1, h2, h3⟩ := hf
  exact h.isEdge (h.core.edge v x e h1 h2).2 h3

theorem First.mono {m m' : Mesh P D} (hk : Keeps m.vertex m'.vertex) (hs : Same m.halfEdges m'.halfEdges) {v w : ℕ} (h : First m v w) : First m' v w := by
  obtain ⟨x, e, h1, h2, h3⟩ := h
  obtain ⟨x', h4, _, _, _, _, h5⟩ := hk.some v x h1
  exact ⟨x', e, h4, by rw [h5 (by rw [h2]; rfl), h2], by rw [hs.target e (targetOf_lt h3), h3]⟩

/-! ### The loop of `numConnectedComponents` -/

theorem components_fold {m : Mesh P D} {hist : List (List ℕ)} (hI : Inv m hist) (lf : Bool) {S : ℕ → Prop} (hS : ∀ v, S v ↔ v ∈ m.ids) :
    ∀ (L : List ℕ) (p : ParentMap) (ms : List (ℕ × ℕ)) (p' : ParentMap), (∀ v ∈ L, S v) → Represents S p (repOf ms) →
    L.foldlM (componentsStep lf m) p = some p' → ∃ ms', Represents S p' (repOf ms') ∧
      ∀ a b, (a, b) ∈ ms' ↔ (a, b) ∈ ms ∨ (b ∈ L ∧ First m b a) := by
  intro L
  induction L with
  | nil => intro p ms p' _ h he; cases he; exact ⟨ms, h, by simp⟩
  | cons v L ih =>
    intro p ms p' hL h he
    rw [List.foldlM_cons] at he
    obtain ⟨p1, h1, h2⟩ := Option.bind_eq_some_iff.1 he
    simp only [componentsStep] at h1
    cases hx : m.vertex v with
    | none => rw [hx] at h1; cases h1
    | some x =>
      rw [hx] at h1
      cases hxe : x.edge with
      | none => rw [Option.bind_some, hxe] at h1; cases h1
      | some e =>
        rw [Option.bind_some, hxe] at h1
        simp only at h1
        obtain ⟨hel, hes⟩ := hI.core.edge v x e hx hxe
        obtain ⟨w, hw, hws⟩ := hI.core.target e hel
        rw [hes, hw] at h1
        simp only at h1
        have hSw : S w := (hS w).2 ((hI.keys w).2 hws)
        have hSv : S v := hL v (by simp)
        obtain ⟨p2, h3, h4⟩ := h.merge lf hSw hSv
        rw [h1] at h3
        cases h3
        obtain ⟨ms', h5, h6⟩ := ih p1 ((w, v) :: ms) p' (fun u hu => hL u (by simp [hu])) h4 h2
        refine ⟨ms', h5, ?_⟩
        intro a b
        rw [h6, List.mem_cons, List.mem_cons]
        constructor
        · rintro ((h | h) | h)
          · cases h
            exact .inr ⟨.inl rfl, x, e, hx, hxe, hw⟩
          · exact .inl h
          · exact .inr ⟨.inr h.1, h.2⟩
        · rintro (h | ⟨rfl | h, h'⟩)
          · exact .inl (.inr h)
          · obtain ⟨x', e', h7, h8, h9⟩ := h'
            rw [hx] at h7
            cases h7
            rw [hxe] at h8
            cases h8
            rw [hw] at h9
            cases h9
            exact .inl (.inl rfl)
          · exact .inr ⟨h, h'⟩

theorem components_some {m : Mesh P D} {hist : List (List ℕ)} (hI : Inv m hist) (lf : Bool) {S : ℕ → Prop} (hS : ∀ v, S v ↔ v ∈ m.ids)
    (hU : ∀ v ∈ m.ids, Used hist v) : ∀ (L : List ℕ) (p : ParentMap) (rep : ℕ → ℕ), (∀ v ∈ L, S v) → Represents S p rep →
    ∃ p', L.foldlM (componentsStep lf m) p = some p' := by
  intro L
  induction L with
  | nil => intro p rep _ _; exact ⟨p, rfl⟩
  | cons v L ih =>
    intro p rep hL h
    have hv := (hS v).1 (hL v (by simp))
    obtain ⟨x, hx⟩ := Option.isSome_iff_exists.1 ((hI.keys v).1 hv)
    obtain ⟨e, hxe⟩ := Option.isSome_iff_exists.1 ((hI.hasEdge_iff hx).2 (hU v hv))
    obtain ⟨hel, hes⟩ := hI.core.edge v x e hx hxe
    obtain ⟨w, hw, hws⟩ := hI.core.target e hel
    obtain ⟨p2, h3, h4⟩ := h.merge lf ((hS w).2 ((hI.keys w).2 hws)) (hL v (by simp))
    obtain ⟨p', h5⟩ := ih p2 _ (fun u hu => hL u (by simp [hu])) h4
    refine ⟨p', ?_⟩
    rw [List.foldlM_cons]
    have : componentsStep lf m p v = some p2 := by
      simp only [componentsStep]
      rw [hx, Option.bind_some, hxe]
      simp only
      rw [hes, hw]
      exact h3
    rw [this]
    exact h5

/-- The number of classes of the edges that are stored for the vertices. -/
theorem components_spec {iter : List ℕ → List ℕ} (hiter : IsOrder iter) {m : Mesh P D} {hist : List (List ℕ)} (hI : Inv m hist) {lf : Bool} {k : ℕ}
    (he : numConnectedComponents iter lf m = some k) :
    ∃ rs : List ℕ, rs.length = k ∧ rs.Nodup ∧ (∀ r ∈ rs, r ∈ m.ids) ∧ ∀ v ∈ m.ids, ∃! r, r ∈ rs ∧ Relation.EqvGen (First m) v r := by
  simp only [numConnectedComponents] at he
  cases hf : (iter m.ids).foldlM (componentsStep lf m) (ofRange (iter m.ids)) with
  | none => rw [hf] at he; cases he
  | some p =>
    rw [hf] at he
    simp only at he
    have hS : ∀ v, v ∈ iter m.ids ↔ v ∈ m.ids := fun v => (hiter m.ids).mem_iff
    obtain ⟨ms, h1, h2⟩ := components_fold hI lf hS (iter m.ids) _ [] p (fun _ h => h) (Represents.ofRange (iter m.ids)) hf
    obtain ⟨p', rs, h3, _, h4, h5⟩ := h1.roots
    rw [h3] at he
    cases he
    have hconn : ∀ a b, Connected ms a b ↔ Relation.EqvGen (First m) a b := by
      intro a b
      constructor
      · intro h
        induction h with
        | rel x y h =>
          rcases (h2 x y).1 h with h | h
          · simp at h
          · exact .symm _ _ (.rel _ _ h.2)
        | refl => exact .refl _
        | symm _ _ _ ih => exact .symm _ _ ih
        | trans _ _ _ _ _ ih1 ih2 => exact .trans _ _ _ ih1 ih2
      · intro h
        induction h with
        | rel x y h =>
          refine .symm _ _ (.rel _ _ ((h2 y x).2 (.inr ⟨?_, h⟩)))
          obtain ⟨z, _, hz, _⟩ := h
          rw [hS, hI.keys, hz]; rfl
        | refl => exact .refl _
        | symm _ _ _ ih => exact .symm _ _ ih
        | trans _ _ _ _ _ ih1 ih2 => exact .trans _ _ _ ih1 ih2
    refine ⟨rs, rfl, h4, fun r hr => (hS r).1 ((h5 r).1 hr).1, ?_⟩
    intro v hv
    have hv' := (hS v).2 hv
    refine ⟨repOf ms v, ⟨(h5 _).2 ⟨h1.rep_mem hv', h1.rep_rep hv'⟩, (hconn _ _).1 (repOf_connected _ _)⟩, ?_⟩
    rintro r ⟨h6, h7⟩
    have := (repOf_eq_iff ms v r).2 ((hconn v r).2 h7)
    rw [((h5 r).1 h6).2] at this
    exact this.symm

/-! ### When all edges of faces are found -/

theorem LoopSpec.first {m0 m : Mesh P D} {φ : ℕ} {ps : List (ℕ × ℕ)} {es : List ℕ} (h : LoopSpec m0 φ m ps es) {u v : ℕ}
    (he : Relation.EqvGen (First m0) u v) : Relation.EqvGen (First m) u v :=
  Relation.EqvGen.mono (fun _ _ h' => First.mono h.keeps h.same h') _ _ he

/-- The vertices that are visited by the first loop of `addFace` are connected by the edges stored for vertices. -/
theorem loop_connected (fuel φ first : ℕ) (m0 : Mesh P D) (all : List ℕ) (hold : ∀ u v x y, m0.vertex u = some x → x.edge.isSome → m0.vertex v = some y → y.edge.isSome →
      u ∈ all → v ∈ all → Relation.EqvGen (First m0) u v) :
    ∀ (vs : List ℕ) (c : ℕ) (m : Mesh P D) (ps : List (ℕ × ℕ)) (es W : List ℕ) (m' : Mesh P D) (es' : List ℕ),
    LoopSpec m0 φ m ps es → c ∈ W → (∀ w ∈ W, w ∈ all) → (∀ w ∈ vs, w ∈ all) → first ∈ W →
    (∀ u ∈ W, ∀ v ∈ W, Relation.EqvGen (First m) u v) →
    (∀ v x, m.vertex v = some x → x.edge.isSome → v ∈ W ∨ ∃ y, m0.vertex v = some y ∧ y.edge.isSome) →
    ((∃ v ∈ all, ∃ y, m0.vertex v = some y ∧ y.edge.isSome) → ∃ v ∈ W, ∃ y, m0.vertex v = some y ∧ y.edge.isSome) →
    faceLoop fuel φ first m (c :: vs) es = .ok (m', es') →
    ∀ u ∈ W ++ vs, ∀ v ∈ W ++ vs, Relation.EqvGen (First m') u v := by
  intro vs
  induction vs with
  | nil =>
    intro c m ps es W m' es' h hc hW hvs hfirst hconn hfresh hcond he
    simp only [faceLoop] at he
    split at he
    · rename_i m1 e1 hs
      cases he
      obtain ⟨h1, h2, h3⟩ := faceStep_spec h.core hs
      intro u hu v hv
      rw [List.append_nil] at hu hv
      exact Relation.EqvGen.mono (fun _ _ h' => First.mono h1.keeps h1.same h') _ _ (hconn u hu v hv)
    · cases he
    · cases he
  | cons n vs ih =>
    intro c m ps es W m' es' h hc hW hvs hfirst hconn hfresh hcond he
    simp only [faceLoop] at he
    split at he
    · rename_i m1 e1 hs
      obtain ⟨h1, h2, h3⟩ := faceStep_spec h.core hs
      have hls := h.step h1 h2 h3
      have hmono : ∀ {u v}, Relation.EqvGen (First m) u v → Relation.EqvGen (First m1) u v := fun {u v} he =>
        Relation.EqvGen.mono (fun _ _ h' => First.mono h1.keeps h1.same h') u v he
      have hnall : n ∈ all := hvs n (by simp)
      obtain ⟨x, hx⟩ := Option.isSome_iff_exists.1 h3
      have hcn : Relation.EqvGen (First m1) c n := by
        cases hxe : x.edge with
        | none =>
          obtain ⟨x', e', g1, g2, g3⟩ := h1.tgtEdge x hx hxe
          exact .symm _ _ (.rel _ _ ⟨x', e', g1, g2, g3⟩)
        | some e =>
          have hsome : x.edge.isSome := by rw [hxe]; rfl
          rcases hfresh n x hx hsome with hnW | ⟨y, hy, hye⟩
          · exact hmono (hconn c hc n hnW)
          · obtain ⟨w, hw, z, hz, hze⟩ := hcond ⟨n, hnall, y, hy, hye⟩
            exact hmono (.trans _ _ _ (hconn c hc w hw) (h.first (hold w n z y hz hze hy hye (hW w hw) hnall)))
      have := ih n m1 _ _ (W ++ [n]) m' es' hls (by simp) ?_ (fun w hw => hvs w (by simp [hw])) (by simp [hfirst]) ?_ ?_ ?_ he
      · rw [List.append_assoc, List.singleton_append] at this
        exact this
      · intro w hw
        rcases List.mem_append.1 hw with hw | hw
        · exact hW w hw
        · cases List.mem_singleton.1 hw; exact hnall
      · have key : ∀ u ∈ W ++ [n], Relation.EqvGen (First m1) c u := by
          intro u hu
          rcases List.mem_append.1 hu with hu | hu
          · exact hmono (hconn c hc u hu)
          · cases List.mem_singleton.1 hu; exact hcn
        intro u hu v hv
        exact .trans _ _ _ (.symm _ _ (key u hu)) (key v hv)
      · intro v x' hx' hs'
        rcases h1.fresh v x' hx' hs' with rfl | rfl | ⟨y, hy, hye⟩
        · exact .inl (by simp [hc])
        · exact .inl (by simp)
        · rcases hfresh v y hy hye with h | h
          · exact .inl (by simp [h])
          · exact .inr h
      · intro hex
        obtain ⟨w, hw, h⟩ := hcond hex
        exact ⟨w, by simp [hw], h⟩
    · cases he
    · cases he

/-- All vertices of a new face are connected, if it touches earlier faces in at most one component, with its first or second vertex. -/
theorem addFace_connected {iter : List ℕ → List ℕ} {fuel : ℕ} {m m' : Mesh P D} {hist : List (List ℕ)} {vs : List ℕ} (h : Inv m hist)
    (hlink : ∀ u v, Linked hist u v → Relation.EqvGen (First m) u v)
    (h1 : ∀ u ∈ vs, ∀ v ∈ vs, Used hist u → Used hist v → Linked hist u v) (h2 : (∃ v ∈ vs, Used hist v) → ∃ v ∈ vs.take 2, Used hist v)
    (he : addFace iter fuel m vs = .ok m') : ∀ u ∈ vs, ∀ v ∈ vs, Relation.EqvGen (First m') u v := by
  obtain ⟨_, _, _, _, _, _, m1, es, hl, hv, hsame, _⟩ := addFace_spec h he
  have hm1 : ∀ u v, Relation.EqvGen (First m1) u v → Relation.EqvGen (First m') u v := by
    intro u v hc
    refine Relation.EqvGen.mono (fun a b hab => First.mono ?_ hsame hab) u v hc
    rw [hv]; exact Keeps.refl _
  set m0 : Mesh P D := { m with faces := m.faces ++ [none] } with hm0
  have hold : ∀ u v x y, m0.vertex u = some x → x.edge.isSome → m0.vertex v = some y → y.edge.isSome → u ∈ vs → v ∈ vs →
      Relation.EqvGen (First m0) u v := by
    intro u v x y hx hxe hy hye hu hv
    exact hlink u v (h1 u hu v hv ((h.hasEdge_iff hx).1 hxe) ((h.hasEdge_iff hy).1 hye))
  have hused : ∀ v, Used hist v → ∃ y, m0.vertex v = some y ∧ y.edge.isSome := by
    intro v hu
    obtain ⟨f, hf, hvf⟩ := hu
    obtain ⟨y, hy⟩ := Option.isSome_iff_exists.1 ((h.keys v).1 (h.members f hf v hvf).1)
    exact ⟨y, hy, (h.hasEdge_iff hy).2 ⟨f, hf, hvf⟩⟩
  intro u hu v hv'
  apply hm1
  cases vs with
  | nil => simp at hu
  | cons a vs =>
    cases vs with
    | nil =>
      rw [List.mem_singleton] at hu hv'
      subst hu
      subst hv'
      exact .refl _
    | cons b vs =>
      simp only [List.headD_cons, faceLoop] at hl
      split at hl
      · rename_i m2 e2 hs
        obtain ⟨s1, s2, s3⟩ := faceStep_spec (m := m0) h.core hs
        have hls := (LoopSpec.refl (m := m0) (φ := m.faces.length) h.core).step s1 s2 s3
        have hab : Relation.EqvGen (First m2) a b := by
          obtain ⟨x, hx⟩ := Option.isSome_iff_exists.1 s2
          obtain ⟨y, hy⟩ := Option.isSome_iff_exists.1 s3
          cases hxe : x.edge with
          | none =>
            obtain ⟨x', g1, g2⟩ := s1.srcEdge x hx hxe
            exact .rel _ _ ⟨x', e2, g1, g2, s1.target⟩
          | some ex =>
            cases hye : y.edge with
            | none =>
              obtain ⟨y', e', g1, g2, g3⟩ := s1.tgtEdge y hy hye
              exact .symm _ _ (.rel _ _ ⟨y', e', g1, g2, g3⟩)
            | some ey =>
              exact hls.first (hold a b x y hx (by rw [hxe]; rfl) hy (by rw [hye]; rfl) (by simp) (by simp))
        have := loop_connected fuel m.faces.length a m0 _ hold vs b m2 _ _ [a, b] m1 es hls (by simp) (by intro w hw; simp at hw ⊢; tauto)
          (by intro w hw; simp [hw]) (by simp) ?_ ?_ ?_ hl
        · exact this u (by simpa using hu) v (by simpa using hv')
        · intro p hp q hq
          simp only [List.mem_cons, List.not_mem_nil, or_false] at hp hq
          rcases hp with rfl | rfl <;> rcases hq with rfl | rfl
          · exact .refl _
          · exact hab
          · exact .symm _ _ hab
          · exact .refl _
        · intro w x' hx' hs'
          rcases s1.fresh w x' hx' hs' with rfl | rfl | h
          · exact .inl (by simp)
          · exact .inl (by simp)
          · exact .inr h
        · rintro ⟨w, hw, y, hy, hye⟩
          obtain ⟨z, hz, hzu⟩ := h2 ⟨w, hw, (h.hasEdge_iff hy).1 hye⟩
          exact ⟨z, by simpa using hz, hused z hzu⟩
      · cases hl
      · cases hl

end Aleph.Mesh
