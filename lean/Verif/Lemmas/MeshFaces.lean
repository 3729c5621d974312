import Verif.Lemmas.Mesh

/-!
# Half-edge meshes: the insertion of a face
-/

namespace Aleph.Mesh

variable {P D : Type}

/-- A vertex keeps its position, its data, and its edge if it has one. -/
def VertexKept (x x' : Vertex P D) : Prop := x'.x = x.x ∧ x'.y = x.y ∧ x'.z = x.z ∧ x'.data = x.data ∧ (x.edge.isSome → x'.edge = x.edge)

/-- All vertices are kept, and no vertices are added. -/
structure Keeps (V V' : ℕ → Option (Vertex P D)) : Prop where
  none : ∀ v, V v = none → V' v = none
  some : ∀ v x, V v = some x → ∃ x', V' v = some x' ∧ VertexKept x x'

theorem Keeps.refl (V : ℕ → Option (Vertex P D)) : Keeps V V := ⟨fun _ h => h, fun _ x h => ⟨x, h, rfl, rfl, rfl, rfl, fun _ => rfl⟩⟩

theorem Keeps.trans {V V' V'' : ℕ → Option (Vertex P D)} (h : Keeps V V') (h' : Keeps V' V'') : Keeps V V'' := by
  refine ⟨fun v hv => h'.none v (h.none v hv), fun v x hx => ?_⟩
  obtain ⟨x', h1, a1, a2, a3, a4, a5⟩ := h.some v x hx
  obtain ⟨x'', h2, b1, b2, b3, b4, b5⟩ := h'.some v x' h1
  exact ⟨x'', h2, b1.trans a1, b2.trans a2, b3.trans a3, b4.trans a4, fun hs => (b5 (by rw [a5 hs]; exact hs)).trans (a5 hs)⟩

theorem Keeps.isSome {V V' : ℕ → Option (Vertex P D)} (h : Keeps V V') (v : ℕ) : (V' v).isSome = (V v).isSome := by
  cases hv : V v with
  | none => rw [h.none v hv]
  | some x => obtain ⟨x', h1, _⟩ := h.some v x hv; rw [h1]; rfl

theorem Keeps.inv {V V' : ℕ → Option (Vertex P D)} (h : Keeps V V') {v : ℕ} {x' : Vertex P D} (hx : V' v = .some x') :
    ∃ x, V v = .some x ∧ VertexKept x x' := by
  cases hv : V v with
  | none => rw [h.none v hv] at hx; cases hx
  | some x =>
    obtain ⟨x'', h1, h2⟩ := h.some v x hv
    rw [hx] at h1
    cases h1
    exact ⟨x, rfl, h2⟩

/-! ### `setEdge` -/

theorem setEdge_vertex (m : Mesh P D) (v e w : ℕ) :
    (setEdge m v e).vertex w = if w = v then (m.vertex v).map fun x => { x with edge := x.edge.or (some e) } else m.vertex w := by
  simp only [setEdge, Function.update_apply]

theorem setEdge_keeps (m : Mesh P D) (v e : ℕ) : Keeps m.vertex (setEdge m v e).vertex := by
  constructor
  · intro w hw
    rw [setEdge_vertex]
    split
    · rename_i h; subst h; rw [hw]; rfl
    · exact hw
  · intro w x hx
    rw [setEdge_vertex]
    split
    · rename_i h
      subst h
      rw [hx]
      refine ⟨_, rfl, rfl, rfl, rfl, rfl, fun hs => ?_⟩
      obtain ⟨e', he'⟩ := Option.isSome_iff_exists.1 hs
      simp [he']
    · exact ⟨x, hx, rfl, rfl, rfl, rfl, fun _ => rfl⟩

theorem setEdge_start (m : Mesh P D) (v e : ℕ) {x : Vertex P D} (hx : (setEdge m v e).vertex v = some x) : x.edge.isSome := by
  rw [setEdge_vertex, if_pos rfl] at hx
  obtain ⟨y, _, rfl⟩ := Option.map_eq_some_iff.1 hx
  cases y.edge <;> simp

theorem setEdge_edge (m : Mesh P D) (v e : ℕ) {w e' : ℕ} {x : Vertex P D} (hx : (setEdge m v e).vertex w = some x) (he : x.edge = some e') :
    (∃ y, m.vertex w = some y ∧ y.edge = some e') ∨ (w = v ∧ e' = e) := by
  rw [setEdge_vertex] at hx
  split at hx
  · rename_i h
    subst h
    obtain ⟨y, hy, rfl⟩ := Option.map_eq_some_iff.1 hx
    cases hye : y.edge with
    | none => simp [hye] at he; exact .inr ⟨rfl, he.symm⟩
    | some e'' => simp [hye] at he; exact .inl ⟨y, hy, he ▸ hye⟩
  · exact .inl ⟨x, hx, he⟩

/-! ### One edge of a face -/

/-- The effect of the first loop for one edge. -/
structure StepSpec (m : Mesh P D) (φ c n : ℕ) (m' : Mesh P D) (e : ℕ) : Prop where
  core : Core m'.vertex m'.halfEdges
  same : Same m.halfEdges m'.halfEdges
  other : ∀ j < m.halfEdges.length, j ≠ e → m'.halfEdges[j]? = m.halfEdges[j]?
  old : faceOf m.halfEdges e = none
  new : faceOf m'.halfEdges e = some φ
  faces : ∀ j, j ≠ e → faceOf m'.halfEdges j = faceOf m.halfEdges j
  source : sourceOf m'.halfEdges e = some c
  target : targetOf m'.halfEdges e = some n
  covered : ∀ j, m.halfEdges.length ≤ j → j < m'.halfEdges.length → j = e ∨ pairOf m'.halfEdges j = some e
  ids : m'.ids = m.ids
  largest : m'.largest = m.largest
  lists : m'.faces = m.faces.modify φ fun x => x.or (some e)
  keeps : Keeps m.vertex m'.vertex
  srcEdge : ∀ x, m.vertex c = some x → x.edge = none → ∃ x', m'.vertex c = some x' ∧ x'.edge = some e
  tgtEdge : ∀ x, m.vertex n = some x → x.edge = none → ∃ x' e', m'.vertex n = some x' ∧ x'.edge = some e' ∧ targetOf m'.halfEdges e' = some c
  fresh : ∀ v x', m'.vertex v = some x' → x'.edge.isSome → v = c ∨ v = n ∨ ∃ x, m.vertex v = some x ∧ x.edge.isSome

theorem getEdge_spec {fuel : ℕ} {m : Mesh P D} {u v : ℕ} {r : Option ℕ} (h : getEdge fuel m u v = some r) :
    ∀ e, r = some e → e < m.halfEdges.length ∧ sourceOf m.halfEdges e = some u ∧ targetOf m.halfEdges e = some v := by
  rintro e rfl
  simp only [getEdge] at h
  cases hu : m.vertex u with
  | none => rw [hu] at h; cases h
  | some x =>
    cases hv : m.vertex v with
    | none => rw [hu, hv] at h; cases h
    | some y =>
      rw [hu, hv] at h
      simp only at h
      cases hg : getEdges fuel m.halfEdges x.edge with
      | none => rw [hg] at h; cases h
      | some es =>
        rw [hg] at h
        simp only [Option.some.injEq] at h
        have := List.find?_some h
        simp only [Bool.and_eq_true, decide_eq_true_eq] at this
        exact ⟨sourceOf_lt this.1, this⟩

theorem existing_spec {m : Mesh P D} {φ c n e : ℕ} (hC : Core m.vertex m.halfEdges) (hs : sourceOf m.halfEdges e = some c)
    (ht : targetOf m.halfEdges e = some n) (hf : faceOf m.halfEdges e = none) :
    StepSpec m φ c n { m with
      faces := m.faces.modify φ fun x => x.or (some e)
      halfEdges := m.halfEdges.modify e fun h => { h with face := some φ, vertex := some n } } e := by
  have hel := targetOf_lt ht
  have hp : ∀ j, pairOf (m.halfEdges.modify e fun h => { h with face := some φ, vertex := some n }) j = pairOf m.halfEdges j :=
    pairOf_modify _ _ _ fun _ => rfl
  have hn : ∀ j, nextOf (m.halfEdges.modify e fun h => { h with face := some φ, vertex := some n }) j = nextOf m.halfEdges j :=
    nextOf_modify _ _ _ fun _ => rfl
  have hpr : ∀ j, prevOf (m.halfEdges.modify e fun h => { h with face := some φ, vertex := some n }) j = prevOf m.halfEdges j :=
    prevOf_modify _ _ _ fun _ => rfl
  have hT : ∀ j, targetOf (m.halfEdges.modify e fun h => { h with face := some φ, vertex := some n }) j = targetOf m.halfEdges j := by
    intro j
    rw [targetOf, getElem?_mod]
    split
    · rename_i he
      subst he
      rw [ht, List.getElem?_eq_getElem hel]
      rfl
    · rfl
  have hS : ∀ j, sourceOf (m.halfEdges.modify e fun h => { h with face := some φ, vertex := some n }) j = sourceOf m.halfEdges j := by
    intro j
    rw [sourceOf, sourceOf, hp]
    cases pairOf m.halfEdges j with
    | none => rfl
    | some q => exact hT q
  have hl : (m.halfEdges.modify e fun h => { h with face := some φ, vertex := some n }).length = m.halfEdges.length := by simp
  refine ⟨⟨?_, ?_, ?_, ?_, ?_, ?_⟩, ⟨hl.ge, fun j _ => hp j, fun j _ => hT j⟩, ?_, hf, ?_, ?_, ?_, ?_, ?_, rfl, rfl, rfl, Keeps.refl _, ?_, ?_, ?_⟩
  · intro j hj; simpa only [hp] using hC.pair j (by simpa using hj)
  · intro j hj; simpa only [hT] using hC.target j (by simpa using hj)
  · intro j e' h; simpa only [hn, hS, hT, hl] using hC.next j e' (by simpa only [hn] using h)
  · intro j e' h; simpa only [hpr, hS, hT, hl] using hC.prev j e' (by simpa only [hpr] using h)
  · intro v x e' hx hxe; simpa only [hS, hl] using hC.edge v x e' hx hxe
  · intro v x e' h hx; exact hC.start v x e' (by simpa only [hS] using h) hx
  · intro j _ hne; exact (getElem?_mod _ _ _ _).trans (if_neg (Ne.symm hne))
  · show faceOf (m.halfEdges.modify e _) e = some φ
    rw [faceOf, getElem?_mod, if_pos rfl, List.getElem?_eq_getElem hel]; rfl
  · intro j hne
    show faceOf (m.halfEdges.modify e _) j = _
    rw [faceOf, getElem?_mod, if_neg (Ne.symm hne)]; rfl
  · exact (hS e).trans hs
  · exact (hT e).trans ht
  · intro j h1 h2
    have h2' : j < (m.halfEdges.modify e fun h => { h with face := some φ, vertex := some n }).length := h2
    omega
  · intro x hx hxe
    have := hC.start c x e hs hx
    rw [hxe] at this
    cases this
  · intro x hx hxe
    obtain ⟨p, h1, h2⟩ := hC.pair e hel
    have := hC.start n x p (by rw [hC.source_pair h1, ht]) hx
    rw [hxe] at this
    cases this
  · intro v x' hx hs
    exact .inr (.inr ⟨x', hx, hs⟩)

theorem getElem?_two {H : List HalfEdge} {a b : HalfEdge} (j : ℕ) :
    (H ++ [a, b])[j]? = if j < H.length then H[j]? else if j = H.length then some a else if j = H.length + 1 then some b else none := by
  rcases Nat.lt_trichotomy j H.length with h | h | h
  · rw [if_pos h, List.getElem?_append_left h]
  · subst h; simp
  · rw [if_neg (by omega), if_neg (by omega), List.getElem?_append_right (by omega)]
    obtain ⟨k, rfl⟩ := Nat.exists_eq_add_of_lt h
    cases k with
    | zero => simp
    | succ k =>
      rw [if_neg (by omega)]
      have : H.length + (k + 1) + 1 - H.length = k + 2 := by omega
      rw [this]; rfl

/-- The half-edges after the creation of a pair. -/
def newEdges (H : List HalfEdge) (φ c n : ℕ) : List HalfEdge :=
  H ++ [{ face := some φ, vertex := some n, pair := some (H.length + 1) }, { vertex := some c, pair := some H.length }]

theorem newEdges_eq (H : List HalfEdge) (φ c n : ℕ) :
    (H ++ [({ pair := some (H.length + 1) } : HalfEdge), { vertex := some c, pair := some H.length }]).modify H.length
      (fun h => { h with face := some φ, vertex := some n }) = newEdges H φ c n := by
  apply List.ext_getElem?
  intro j
  rw [getElem?_mod, newEdges, getElem?_two, getElem?_two]
  rcases Nat.lt_trichotomy j H.length with h | h | h
  · rw [if_neg (by omega), if_pos h, if_pos h]
  · subst h; simp
  · simp only [show ¬ H.length = j by omega, show ¬ j < H.length by omega, show ¬ j = H.length by omega, if_false]

theorem newEdges_old {H : List HalfEdge} {φ c n j : ℕ} (h : j < H.length) : (newEdges H φ c n)[j]? = H[j]? := by
  rw [newEdges, getElem?_two, if_pos h]

theorem newEdges_fst (H : List HalfEdge) (φ c n : ℕ) :
    (newEdges H φ c n)[H.length]? = some { face := some φ, vertex := some n, pair := some (H.length + 1) } := by
  rw [newEdges, getElem?_two, if_neg (by omega), if_pos rfl]

theorem newEdges_snd (H : List HalfEdge) (φ c n : ℕ) : (newEdges H φ c n)[H.length + 1]? = some { vertex := some c, pair := some H.length } := by
  rw [newEdges, getElem?_two, if_neg (by omega), if_neg (by omega), if_pos rfl]

theorem newEdges_length (H : List HalfEdge) (φ c n : ℕ) : (newEdges H φ c n).length = H.length + 2 := by simp [newEdges]

theorem new_core {V V' : ℕ → Option (Vertex P D)} {H : List HalfEdge} {φ c n : ℕ} (hC : Core V H) (hk : Keeps V V')
    (hc : (V c).isSome) (hn : (V n).isSome)
    (hedge : ∀ v x e, V' v = some x → x.edge = some e → (∃ y, V v = some y ∧ y.edge = some e) ∨ (v = c ∧ e = H.length) ∨ (v = n ∧ e = H.length + 1))
    (hstart : ∀ v x, v = c ∨ v = n → V' v = some x → x.edge.isSome) : Core V' (newEdges H φ c n) := by
  have hl := newEdges_length H φ c n
  have pold : ∀ j, j < H.length → pairOf (newEdges H φ c n) j = pairOf H j := fun j hj => by rw [pairOf, newEdges_old hj]; rfl
  have told : ∀ j, j < H.length → targetOf (newEdges H φ c n) j = targetOf H j := fun j hj => by rw [targetOf, newEdges_old hj]; rfl
  have hsame : Same H (newEdges H φ c n) := ⟨by omega, pold, told⟩
  have sold : ∀ j, j < H.length → sourceOf (newEdges H φ c n) j = sourceOf H j := fun j hj => hsame.source hC hj
  have p1 : pairOf (newEdges H φ c n) H.length = some (H.length + 1) := by rw [pairOf, newEdges_fst]; rfl
  have p2 : pairOf (newEdges H φ c n) (H.length + 1) = some H.length := by rw [pairOf, newEdges_snd]; rfl
  have t1 : targetOf (newEdges H φ c n) H.length = some n := by rw [targetOf, newEdges_fst]; rfl
  have t2 : targetOf (newEdges H φ c n) (H.length + 1) = some c := by rw [targetOf, newEdges_snd]; rfl
  have s1 : sourceOf (newEdges H φ c n) H.length = some c := by rw [sourceOf, p1]; exact t2
  have s2 : sourceOf (newEdges H φ c n) (H.length + 1) = some n := by rw [sourceOf, p2]; exact t1
  have cases3 : ∀ j, j < (newEdges H φ c n).length → j < H.length ∨ j = H.length ∨ j = H.length + 1 := by intro j hj; omega
  refine ⟨?_, ?_, ?_, ?_, ?_, ?_⟩
  · intro j hj
    rcases cases3 j hj with h | rfl | rfl
    · obtain ⟨p, h1, h2⟩ := hC.pair j h
      exact ⟨p, by rw [pold j h, h1], by rw [pold p (pairOf_lt h2), h2]⟩
    · exact ⟨_, p1, p2⟩
    · exact ⟨_, p2, p1⟩
  · intro j hj
    rcases cases3 j hj with h | rfl | rfl
    · obtain ⟨v, h1, h2⟩ := hC.target j h
      exact ⟨v, by rw [told j h, h1], by rw [hk.isSome]; exact h2⟩
    · exact ⟨n, t1, by rw [hk.isSome]; exact hn⟩
    · exact ⟨c, t2, by rw [hk.isSome]; exact hc⟩
  · intro j e' h
    have hj := nextOf_lt h
    rcases cases3 j hj with h' | rfl | rfl
    · rw [nextOf, newEdges_old h'] at h
      obtain ⟨h1, h2⟩ := hC.next j e' h
      exact ⟨by omega, by rw [sold e' h1, told j h', h2]⟩
    · rw [nextOf, newEdges_fst] at h; cases h
    · rw [nextOf, newEdges_snd] at h; cases h
  · intro j e' h
    have hj := prevOf_lt h
    rcases cases3 j hj with h' | rfl | rfl
    · rw [prevOf, newEdges_old h'] at h
      obtain ⟨h1, h2⟩ := hC.prev j e' h
      exact ⟨by omega, by rw [told e' h1, sold j h', h2]⟩
    · rw [prevOf, newEdges_fst] at h; cases h
    · rw [prevOf, newEdges_snd] at h; cases h
  · intro v x e hx hxe
    rcases hedge v x e hx hxe with ⟨y, h1, h2⟩ | ⟨rfl, rfl⟩ | ⟨rfl, rfl⟩
    · obtain ⟨h3, h4⟩ := hC.edge v y e h1 h2
      exact ⟨by omega, by rw [sold e h3, h4]⟩
    · exact ⟨by omega, s1⟩
    · exact ⟨by omega, s2⟩
  · intro v x e hs hx
    rcases cases3 e (sourceOf_lt hs) with h' | rfl | rfl
    · rw [sold e h'] at hs
      obtain ⟨y, hy, _, _, _, _, h5⟩ := hk.inv hx
      have := hC.start v y e hs hy
      rw [h5 this]; exact this
    · rw [s1] at hs; cases hs; exact hstart _ x (.inl rfl) hx
    · rw [s2] at hs; cases hs; exact hstart _ x (.inr rfl) hx

theorem new_spec {m : Mesh P D} {φ c n : ℕ} (hC : Core m.vertex m.halfEdges) (hc : (m.vertex c).isSome) (hn : (m.vertex n).isSome) :
    StepSpec m φ c n { (newEdge m c n).1 with
      faces := m.faces.modify φ fun x => x.or (some m.halfEdges.length)
      halfEdges := newEdges m.halfEdges φ c n } m.halfEdges.length := by
  have hk : Keeps m.vertex (newEdge m c n).1.vertex :=
    Keeps.trans (setEdge_keeps _ c m.halfEdges.length) (setEdge_keeps _ n (m.halfEdges.length + 1))
  have hl := newEdges_length m.halfEdges φ c n
  have pold : ∀ j, j < m.halfEdges.length → pairOf (newEdges m.halfEdges φ c n) j = pairOf m.halfEdges j :=
    fun j hj => by rw [pairOf, newEdges_old hj]; rfl
  have told : ∀ j, j < m.halfEdges.length → targetOf (newEdges m.halfEdges φ c n) j = targetOf m.halfEdges j :=
    fun j hj => by rw [targetOf, newEdges_old hj]; rfl
  have hcore : Core (newEdge m c n).1.vertex (newEdges m.halfEdges φ c n) := by
    refine new_core hC hk hc hn ?_ ?_
    · intro v x e hx hxe
      rcases setEdge_edge _ n _ hx hxe with ⟨y, h1, h2⟩ | h
      · rcases setEdge_edge _ c _ h1 h2 with h | h
        · exact .inl h
        · exact .inr (.inl h)
      · exact .inr (.inr h)
    · intro v x hv hx
      rcases hv with rfl | rfl
      · obtain ⟨y, hy, _, _, _, _, h5⟩ := (setEdge_keeps (setEdge { m with halfEdges := _ } v m.halfEdges.length) n (m.halfEdges.length + 1)).inv hx
        have := setEdge_start _ v _ hy
        rw [h5 this]; exact this
      · exact setEdge_start _ v _ hx
  refine ⟨hcore, ⟨by show _ ≤ (newEdges m.halfEdges φ c n).length; omega, pold, told⟩, ?_, ?_, ?_, ?_, ?_, ?_, ?_, rfl, rfl, rfl, hk, ?_, ?_, ?_⟩
  · intro j hj _; exact newEdges_old hj
  · rw [faceOf, List.getElem?_eq_none (le_refl _)]; rfl
  · show faceOf (newEdges m.halfEdges φ c n) m.halfEdges.length = _
    rw [faceOf, newEdges_fst]; rfl
  · intro j hj
    show faceOf (newEdges m.halfEdges φ c n) j = _
    rw [faceOf, newEdges, getElem?_two]
    rcases Nat.lt_trichotomy j m.halfEdges.length with h | h | h
    · rw [if_pos h]; rfl
    · exact absurd h hj
    · rw [if_neg (by omega), if_neg (by omega), faceOf, List.getElem?_eq_none (by omega)]
      split <;> rfl
  · show sourceOf (newEdges m.halfEdges φ c n) m.halfEdges.length = _
    rw [sourceOf, pairOf, newEdges_fst]
    show targetOf (newEdges m.halfEdges φ c n) (m.halfEdges.length + 1) = _
    rw [targetOf, newEdges_snd]; rfl
  · show targetOf (newEdges m.halfEdges φ c n) m.halfEdges.length = _
    rw [targetOf, newEdges_fst]; rfl
  · intro j h1 h2
    have h2' : j < (newEdges m.halfEdges φ c n).length := h2
    rw [hl] at h2'
    have : j = m.halfEdges.length ∨ j = m.halfEdges.length + 1 := by omega
    rcases this with rfl | rfl
    · exact .inl rfl
    · right
      show pairOf (newEdges m.halfEdges φ c n) (m.halfEdges.length + 1) = _
      rw [pairOf, newEdges_snd]; rfl
  · intro x hx hxe
    show ∃ x', (setEdge (setEdge { m with halfEdges := _ } c m.halfEdges.length) n (m.halfEdges.length + 1)).vertex c = some x' ∧ _
    rw [setEdge_vertex, setEdge_vertex, setEdge_vertex]
    by_cases h : c = n
    · subst h; simp [hx, hxe]
    · simp [h, hx, hxe]
  · intro x hx hxe
    show ∃ x' e', (setEdge (setEdge { m with halfEdges := _ } c m.halfEdges.length) n (m.halfEdges.length + 1)).vertex n = some x' ∧ x'.edge = some e' ∧
      targetOf (newEdges m.halfEdges φ c n) e' = some c
    rw [setEdge_vertex, setEdge_vertex]
    by_cases h : n = c
    · subst h
      simp only [if_true, hx, hxe, Option.map_some, Option.none_or, Option.some_or]
      exact ⟨_, m.halfEdges.length, rfl, rfl, by rw [targetOf, newEdges_fst]; rfl⟩
    · simp only [if_true, h, if_false, hx, hxe, Option.map_some, Option.none_or]
      exact ⟨_, m.halfEdges.length + 1, rfl, rfl, by rw [targetOf, newEdges_snd]; rfl⟩
  · intro v x' hx hs
    obtain ⟨e', he'⟩ := Option.isSome_iff_exists.1 hs
    rcases setEdge_edge _ n _ hx he' with ⟨y, h1, h2⟩ | h
    · rcases setEdge_edge _ c _ h1 h2 with ⟨y', h3, h4⟩ | h
      · exact .inr (.inr ⟨y', h3, by rw [h4]; rfl⟩)
      · exact .inl h.1
    · exact .inr (.inl h.1)

theorem faceStep_spec {fuel : ℕ} {m m' : Mesh P D} {φ c n e : ℕ} (hC : Core m.vertex m.halfEdges) (h : faceStep fuel m φ c n = .ok (m', e)) :
    StepSpec m φ c n m' e ∧ (m.vertex c).isSome ∧ (m.vertex n).isSome := by
  simp only [faceStep] at h
  cases hc : m.vertex c with
  | none => rw [hc] at h; cases h
  | some x =>
    cases hn : m.vertex n with
    | none => rw [hc, hn] at h; cases h
    | some y =>
      rw [hc, hn] at h
      simp only at h
      refine ⟨?_, rfl, rfl⟩
      cases hg : getEdge fuel m c n with
      | none => rw [hg] at h; cases h
      | some r =>
        rw [hg] at h
        simp only at h
        cases r with
        | some e0 =>
          simp only at h
          obtain ⟨h1, h2, h3⟩ := getEdge_spec hg e0 rfl
          cases hf : faceOf m.halfEdges e0 with
          | some ψ => rw [hf] at h; cases h
          | none =>
            rw [hf] at h
            cases hp : pairOf m.halfEdges e0 with
            | none => rw [hp] at h; cases h
            | some p =>
              rw [hp] at h
              cases h
              exact existing_spec hC h2 h3 hf
        | none =>
          simp only at h
          split at h
          · have heq : (newEdge m c n).1.halfEdges.modify (newEdge m c n).2 (fun h => { h with face := some φ, vertex := some n })
                = newEdges m.halfEdges φ c n := newEdges_eq m.halfEdges φ c n
            rw [heq] at h
            cases h
            exact new_spec hC (by rw [hc]; rfl) (by rw [hn]; rfl)
          · cases h

end Aleph.Mesh
