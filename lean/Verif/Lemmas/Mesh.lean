import Verif.Model.Mesh

/-!
# Half-edge meshes: invariants of the data structure
-/

namespace Aleph.Mesh

variable {P D : Type}

/-! ### Access to half-edges -/

theorem getElem?_mod (H : List HalfEdge) (e : ℕ) (f : HalfEdge → HalfEdge) (j : ℕ) :
    (H.modify e f)[j]? = if e = j then H[j]?.map f else H[j]? := by
  rw [List.getElem?_modify]
  by_cases h : e = j <;> simp [h]

theorem pairOf_lt {H : List HalfEdge} {e p : ℕ} (h : pairOf H e = some p) : e < H.length := by
  by_contra hc
  rw [pairOf, List.getElem?_eq_none (by omega)] at h
  cases h

theorem targetOf_lt {H : List HalfEdge} {e p : ℕ} (h : targetOf H e = some p) : e < H.length := by
  by_contra hc
  rw [targetOf, List.getElem?_eq_none (by omega)] at h
  cases h

theorem faceOf_lt {H : List HalfEdge} {e p : ℕ} (h : faceOf H e = some p) : e < H.length := by
  by_contra hc
  rw [faceOf, List.getElem?_eq_none (by omega)] at h
  cases h

theorem nextOf_lt {H : List HalfEdge} {e p : ℕ} (h : nextOf H e = some p) : e < H.length := by
  by_contra hc
  rw [nextOf, List.getElem?_eq_none (by omega)] at h
  cases h

theorem prevOf_lt {H : List HalfEdge} {e p : ℕ} (h : prevOf H e = some p) : e < H.length := by
  by_contra hc
  rw [prevOf, List.getElem?_eq_none (by omega)] at h
  cases h

theorem sourceOf_lt {H : List HalfEdge} {e p : ℕ} (h : sourceOf H e = some p) : e < H.length := by
  rw [sourceOf] at h
  cases hp : pairOf H e with
  | none => rw [hp] at h; cases h
  | some q => exact pairOf_lt hp

/-- Half-edges keep their opposite half-edges and vertices. -/
structure Same (H H' : List HalfEdge) : Prop where
  len : H.length ≤ H'.length
  pair : ∀ e < H.length, pairOf H' e = pairOf H e
  target : ∀ e < H.length, targetOf H' e = targetOf H e

/-- Half-edges that belong to a face are not modified. -/
def KeepsFaces (H H' : List HalfEdge) : Prop := ∀ e, (faceOf H e).isSome → H'[e]? = H[e]?

theorem Same.refl (H : List HalfEdge) : Same H H := ⟨le_rfl, fun _ _ => rfl, fun _ _ => rfl⟩

theorem Same.trans {H H' H'' : List HalfEdge} (h : Same H H') (h' : Same H' H'') : Same H H'' :=
  ⟨h.len.trans h'.len, fun e he => (h'.pair e (he.trans_le h.len)).trans (h.pair e he),
   fun e he => (h'.target e (he.trans_le h.len)).trans (h.target e he)⟩

theorem KeepsFaces.refl (H : List HalfEdge) : KeepsFaces H H := fun _ _ => rfl

theorem KeepsFaces.trans {H H' H'' : List HalfEdge} (h : KeepsFaces H H') (h' : KeepsFaces H' H'') : KeepsFaces H H'' := by
  intro e he
  have h1 := h e he
  rw [h' e (by rwa [faceOf, h1]), h1]

/-- The invariant of pointers. -/
structure Core (V : ℕ → Option (Vertex P D)) (H : List HalfEdge) : Prop where
  pair : ∀ e < H.length, ∃ p, pairOf H e = some p ∧ pairOf H p = some e
  target : ∀ e < H.length, ∃ v, targetOf H e = some v ∧ (V v).isSome
  next : ∀ e e', nextOf H e = some e' → e' < H.length ∧ sourceOf H e' = targetOf H e
  prev : ∀ e e', prevOf H e = some e' → e' < H.length ∧ targetOf H e' = sourceOf H e
  edge : ∀ v x e, V v = some x → x.edge = some e → e < H.length ∧ sourceOf H e = some v
  start : ∀ v x e, sourceOf H e = some v → V v = some x → x.edge.isSome

variable {V : ℕ → Option (Vertex P D)} {H : List HalfEdge}

theorem Core.source (h : Core V H) {e : ℕ} (he : e < H.length) : ∃ v, sourceOf H e = some v ∧ (V v).isSome := by
  obtain ⟨p, h1, h2⟩ := h.pair e he
  obtain ⟨v, h3, h4⟩ := h.target p (pairOf_lt h2)
  exact ⟨v, by rw [sourceOf, h1]; exact h3, h4⟩

theorem Core.target_pair (_ : Core V H) {e p : ℕ} (hp : pairOf H e = some p) : targetOf H p = sourceOf H e := by
  rw [sourceOf, hp]; rfl

theorem Core.source_pair (h : Core V H) {e p : ℕ} (hp : pairOf H e = some p) : sourceOf H p = targetOf H e := by
  obtain ⟨q, h1, h2⟩ := h.pair e (pairOf_lt hp)
  rw [hp] at h1
  cases h1
  rw [sourceOf, h2]; rfl

theorem Same.source {H H' : List HalfEdge} (h : Same H H') (hc : Core V H) {e : ℕ} (he : e < H.length) : sourceOf H' e = sourceOf H e := by
  obtain ⟨p, h1, h2⟩ := hc.pair e he
  rw [sourceOf, sourceOf, h.pair e he, h1]
  exact h.target p (pairOf_lt h2)

/-! ### Edges around a vertex -/

theorem Core.around (h : Core V H) {e p e' v : ℕ} (hs : sourceOf H e = some v) (hp : pairOf H e = some p) (hn : nextOf H p = some e') :
    e' < H.length ∧ sourceOf H e' = some v := by
  obtain ⟨h1, h2⟩ := h.next p e' hn
  exact ⟨h1, by rw [h2, h.target_pair hp, hs]⟩

theorem edgesLoop_sound (h : Core V H) (start : Option ℕ) (v : ℕ) : ∀ (f : ℕ) (c : Option ℕ) (acc es : List ℕ),
    (∀ e, c = some e → e < H.length ∧ sourceOf H e = some v) → (∀ e ∈ acc, e < H.length ∧ sourceOf H e = some v) →
    edgesLoop H start f c acc = some es → ∀ e ∈ es, e < H.length ∧ sourceOf H e = some v := by
  intro f
  induction f with
  | zero => intro c acc es _ _ he; cases he
  | succ f ih =>
    intro c acc es hc hacc he
    cases c with
    | none => simp only [edgesLoop, Option.some.injEq] at he; exact he ▸ hacc
    | some e =>
      have hce := hc e rfl
      have hacc' : ∀ e' ∈ acc ++ [e], e' < H.length ∧ sourceOf H e' = some v := by
        intro e' he'
        rcases List.mem_append.1 he' with he' | he'
        · exact hacc e' he'
        · cases List.mem_singleton.1 he'; exact hce
      simp only [edgesLoop] at he
      cases hp : pairOf H e with
      | none => rw [hp] at he; cases he
      | some p =>
        rw [hp] at he
        simp only at he
        split at he
        · cases he; exact hacc'
        · exact ih _ _ _ (fun e' he' => h.around hce.2 hp he') hacc' he

theorem getEdges_sound (h : Core V H) {fuel v : ℕ} {x : Vertex P D} (hx : V v = some x) {es : List ℕ} (he : getEdges fuel H x.edge = some es) :
    ∀ e ∈ es, e < H.length ∧ sourceOf H e = some v :=
  edgesLoop_sound h x.edge v fuel x.edge [] es (fun e hxe => h.edge v x e hx hxe) (by simp) he

/-! ### Modification of boundary pointers -/

theorem pairOf_modify (H : List HalfEdge) (e : ℕ) (f : HalfEdge → HalfEdge) (hf : ∀ h, (f h).pair = h.pair) (j : ℕ) :
    pairOf (H.modify e f) j = pairOf H j := by
  rw [pairOf, pairOf, getElem?_mod]
  split
  · cases H[j]? <;> simp [hf]
  · rfl

theorem targetOf_modify (H : List HalfEdge) (e : ℕ) (f : HalfEdge → HalfEdge) (hf : ∀ h, (f h).vertex = h.vertex) (j : ℕ) :
    targetOf (H.modify e f) j = targetOf H j := by
  rw [targetOf, targetOf, getElem?_mod]
  split
  · cases H[j]? <;> simp [hf]
  · rfl

theorem faceOf_modify (H : List HalfEdge) (e : ℕ) (f : HalfEdge → HalfEdge) (hf : ∀ h, (f h).face = h.face) (j : ℕ) :
    faceOf (H.modify e f) j = faceOf H j := by
  rw [faceOf, faceOf, getElem?_mod]
  split
  · cases H[j]? <;> simp [hf]
  · rfl

theorem nextOf_modify (H : List HalfEdge) (e : ℕ) (f : HalfEdge → HalfEdge) (hf : ∀ h, (f h).next = h.next) (j : ℕ) :
    nextOf (H.modify e f) j = nextOf H j := by
  rw [nextOf, nextOf, getElem?_mod]
  split
  · cases H[j]? <;> simp [hf]
  · rfl

theorem prevOf_modify (H : List HalfEdge) (e : ℕ) (f : HalfEdge → HalfEdge) (hf : ∀ h, (f h).prev = h.prev) (j : ℕ) :
    prevOf (H.modify e f) j = prevOf H j := by
  rw [prevOf, prevOf, getElem?_mod]
  split
  · cases H[j]? <;> simp [hf]
  · rfl

/-- `p->next = e; e->prev = p`. -/
def join (H : List HalfEdge) (p e : ℕ) : List HalfEdge :=
  (H.modify p fun h => { h with next := some e }).modify e fun h => { h with prev := some p }

theorem join_length (H : List HalfEdge) (p e : ℕ) : (join H p e).length = H.length := by simp [join]

theorem join_pair (H : List HalfEdge) (p e j : ℕ) : pairOf (join H p e) j = pairOf H j := by
  rw [join, pairOf_modify, pairOf_modify] <;> intro _ <;> rfl

theorem join_target (H : List HalfEdge) (p e j : ℕ) : targetOf (join H p e) j = targetOf H j := by
  rw [join, targetOf_modify, targetOf_modify] <;> intro _ <;> rfl

theorem join_face (H : List HalfEdge) (p e j : ℕ) : faceOf (join H p e) j = faceOf H j := by
  rw [join, faceOf_modify, faceOf_modify] <;> intro _ <;> rfl

theorem join_source (H : List HalfEdge) (p e j : ℕ) : sourceOf (join H p e) j = sourceOf H j := by
  rw [sourceOf, sourceOf, join_pair]
  cases pairOf H j with
  | none => rfl
  | some q => exact join_target H p e q

theorem join_next (H : List HalfEdge) (p e j : ℕ) : nextOf (join H p e) j = if p = j ∧ j < H.length then some e else nextOf H j := by
  rw [join, nextOf_modify _ _ (fun h => { h with prev := some p }) (fun _ => rfl), nextOf, nextOf, getElem?_mod]
  by_cases hj : j < H.length
  · rw [List.getElem?_eq_getElem hj]
    by_cases hp : p = j <;> simp [hp, hj]
  · rw [List.getElem?_eq_none (by omega)]
    simp [hj]

theorem join_prev (H : List HalfEdge) (p e j : ℕ) : prevOf (join H p e) j = if e = j ∧ j < H.length then some p else prevOf H j := by
  have h1 : ∀ j, prevOf (H.modify p fun h => { h with next := some e }) j = prevOf H j := prevOf_modify _ _ _ (fun _ => rfl)
  rw [join, prevOf, getElem?_mod]
  by_cases he : e = j
  · subst he
    simp only [if_true, true_and]
    by_cases hj : e < H.length
    · have : e < (H.modify p fun h => { h with next := some e }).length := by simpa using hj
      rw [List.getElem?_eq_getElem this]
      simp [hj]
    · rw [List.getElem?_eq_none (by simpa using Nat.le_of_not_lt hj)]
      rw [prevOf, List.getElem?_eq_none (by omega)]
      simp [hj]
  · simp only [he, if_false, false_and]
    exact h1 j

theorem join_other {H : List HalfEdge} {p e j : ℕ} (h1 : p ≠ j) (h2 : e ≠ j) : (join H p e)[j]? = H[j]? := by
  rw [join, getElem?_mod, if_neg h2, getElem?_mod, if_neg h1]

theorem join_same (H : List HalfEdge) (p e : ℕ) : Same H (join H p e) :=
  ⟨(join_length H p e).ge, fun j _ => join_pair H p e j, fun j _ => join_target H p e j⟩

theorem join_keeps {H : List HalfEdge} {p e : ℕ} (hp : faceOf H p = none) (he : faceOf H e = none) : KeepsFaces H (join H p e) := by
  intro j hj
  refine join_other ?_ ?_
  · rintro rfl; rw [hp] at hj; cases hj
  · rintro rfl; rw [he] at hj; cases hj

theorem Core.join (h : Core V H) {p e : ℕ} (hp : p < H.length) (he : e < H.length) (hpe : targetOf H p = sourceOf H e) : Core V (join H p e) where
  pair j hj := by simpa only [join_pair] using h.pair j (by simpa [join_length] using hj)
  target j hj := by simpa only [join_target] using h.target j (by simpa [join_length] using hj)
  next j e' hn := by
    rw [join_next] at hn
    rw [join_length, join_source, join_target]
    split at hn
    · rename_i hc
      cases hn
      obtain ⟨rfl, _⟩ := hc
      exact ⟨he, hpe.symm⟩
    · exact h.next j e' hn
  prev j e' hn := by
    rw [join_prev] at hn
    rw [join_length, join_source, join_target]
    split at hn
    · rename_i hc
      cases hn
      obtain ⟨rfl, _⟩ := hc
      exact ⟨hp, hpe⟩
    · exact h.prev j e' hn
  edge v x e' hx hxe := by rw [join_length, join_source]; exact h.edge v x e' hx hxe
  start v x e' hs hx := by rw [join_source] at hs; exact h.start v x e' hs hx

/-! ### The loop along the boundary -/

/-- What the extension of the boundary keeps. -/
structure Extends (V : ℕ → Option (Vertex P D)) (H H' : List HalfEdge) : Prop where
  core : Core V H'
  same : Same H H'
  keeps : KeepsFaces H H'
  len : H'.length = H.length
  face : ∀ e, faceOf H' e = faceOf H e

theorem Extends.refl (h : Core V H) : Extends V H H := ⟨h, Same.refl H, KeepsFaces.refl H, rfl, fun _ => rfl⟩

theorem Extends.trans {H' H'' : List HalfEdge} (h : Extends V H H') (h' : Extends V H' H'') : Extends V H H'' :=
  ⟨h'.core, h.same.trans h'.same, h.keeps.trans h'.keeps, h'.len.trans h.len, fun e => (h'.face e).trans (h.face e)⟩

theorem Extends.join (h : Core V H) {p e : ℕ} (hp : p < H.length) (he : e < H.length) (hpe : targetOf H p = sourceOf H e)
    (fp : faceOf H p = none) (fe : faceOf H e = none) : Extends V H (join H p e) :=
  ⟨h.join hp he hpe, join_same H p e, join_keeps fp fe, join_length H p e, fun j => join_face H p e j⟩

theorem boundaryLoop_spec (fuel v : ℕ) : ∀ (f : ℕ) (H : List HalfEdge) (edge curr : ℕ) (H' : List HalfEdge) (edge' : ℕ),
    Core V H → sourceOf H edge = some curr → boundaryLoop fuel V v f H edge curr = some (H', edge') →
    Extends V H H' ∧ sourceOf H' edge' = some v ∧ faceOf H' edge' = none := by
  intro f
  induction f with
  | zero => intro H edge curr H' edge' _ _ he; cases he
  | succ f ih =>
    intro H edge curr H' edge' hC hs he
    simp only [boundaryLoop] at he
    cases hf : faceOf H edge with
    | some φ => rw [hf] at he; cases he
    | none =>
      rw [hf] at he
      cases hx : V curr with
      | none => rw [hx] at he; cases he
      | some x =>
        rw [hx] at he
        simp only at he
        cases hg : getEdges fuel H x.edge with
        | none => rw [hg] at he; cases he
        | some es =>
          rw [hg] at he
          simp only at he
          have hsound := getEdges_sound hC hx hg
          cases hfind : es.find? fun e => (pairOf H e).any fun p => (faceOf H p).isNone with
          | none =>
            rw [hfind] at he
            simp only at he
            split at he
            · rename_i hcv
              cases he
              exact ⟨Extends.refl hC, hcv ▸ hs, hf⟩
            · exact ih H edge curr H' edge' hC hs he
          | some e =>
            rw [hfind] at he
            simp only at he
            obtain ⟨hel, hes⟩ := hsound e (List.mem_of_find?_eq_some hfind)
            have hany := List.find?_some hfind
            cases hp : pairOf H e with
            | none => rw [hp] at he; cases he
            | some p =>
              rw [hp] at he hany
              simp only [Option.any_some, Option.isNone_iff_eq_none] at hany
              simp only at he
              have hsp : (pairOf H p).bind (targetOf H) = sourceOf H p := rfl
              rw [hsp] at he
              cases hc' : sourceOf H p with
              | none => rw [hc'] at he; cases he
              | some curr' =>
                rw [hc'] at he
                simp only at he
                have htp : targetOf H p = sourceOf H edge := by rw [hC.target_pair hp, hes, hs]
                have hext := Extends.join hC (sourceOf_lt hc') (sourceOf_lt hs) htp hany hf
                have hs' : sourceOf (Mesh.join H p edge) p = some curr' := by rw [join_source, hc']
                split at he
                · rename_i hcv
                  cases he
                  exact ⟨hext, hcv ▸ hs', (hext.face _).trans hany⟩
                · obtain ⟨h1, h2, h3⟩ := ih _ p curr' H' edge' hext.core hs' he
                  exact ⟨hext.trans h1, h2, h3⟩

theorem extendVertex_spec {fuel v : ℕ} {H' : List HalfEdge} (hC : Core V H) (he : extendVertex fuel V H v = some H') : Extends V H H' := by
  simp only [extendVertex] at he
  cases hx : V v with
  | none => rw [hx] at he; cases he
  | some x =>
    rw [hx] at he
    simp only at he
    cases hxe : x.edge with
    | none => rw [hxe] at he; cases he; exact Extends.refl hC
    | some e =>
      rw [hxe] at he
      simp only at he
      obtain ⟨hel, hes⟩ := hC.edge v x e hx hxe
      cases hp : pairOf H e with
      | none => rw [hp] at he; cases he
      | some p =>
        rw [hp] at he
        simp only at he
        cases hf : faceOf H p with
        | some φ => rw [hf] at he; cases he; exact Extends.refl hC
        | none =>
          rw [hf] at he
          simp only at he
          cases ht : targetOf H e with
          | none => rw [ht] at he; cases he
          | some curr =>
            rw [ht] at he
            simp only at he
            cases hb : boundaryLoop fuel V v fuel H p curr with
            | none => rw [hb] at he; cases he
            | some r =>
              obtain ⟨H1, edge⟩ := r
              rw [hb] at he
              simp only [Option.some.injEq] at he
              obtain ⟨h1, h2, h3⟩ := boundaryLoop_spec fuel v fuel H p curr H1 edge hC (by rw [hC.source_pair hp, ht]) hb
              have hpl : p < H.length := by
                obtain ⟨q, hq1, hq2⟩ := hC.pair e hel
                rw [hp] at hq1; cases hq1
                exact pairOf_lt hq2
              have htp : targetOf H1 p = sourceOf H1 edge := by
                rw [h1.same.target p hpl, hC.target_pair hp, hes, h2]
              rw [← he]
              exact h1.trans (Extends.join h1.core (by rw [h1.len]; exact hpl) (sourceOf_lt h2) htp (by rw [h1.face]; exact hf) h3)

theorem extend_spec (fuel : ℕ) : ∀ (vs : List ℕ) (H H' : List HalfEdge), Core V H → vs.foldlM (extendVertex fuel V) H = some H' → Extends V H H' := by
  intro vs
  induction vs with
  | nil => intro H H' hC he; cases he; exact Extends.refl hC
  | cons v vs ih =>
    intro H H' hC he
    rw [List.foldlM_cons] at he
    obtain ⟨H1, h1, h2⟩ := Option.bind_eq_some_iff.1 he
    have e1 := extendVertex_spec hC h1
    exact e1.trans (ih H1 H' e1.core h2)

end Aleph.Mesh
