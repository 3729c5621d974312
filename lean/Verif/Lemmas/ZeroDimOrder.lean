import Verif.Props.ZeroDim

/-!
# Zero-dimensional persistent homology depends on the order of vertices and on the order of edges only
-/

namespace Aleph

open Finset Spec

variable {α : Type}

/-- The positions of simplices of the same kind are in the same order. -/
theorem order_of_filter_eq {K K' : Complex α} {p : Simplex α → Bool} (h : K'.filter p = K.filter p) {i' j' : ℕ} {s t : Simplex α}
    (hi : K'[i']? = some s) (hj : K'[j']? = some t) (hs : p s = true) (ht : p t = true) (hij : i' < j') :
    ∃ i j : ℕ, i < j ∧ K[i]? = some s ∧ K[j]? = some t := by
  have h0 : K.Pairwise fun x y => ∃ i j : ℕ, i < j ∧ K[i]? = some x ∧ K[j]? = some y := by
    rw [List.pairwise_iff_getElem]
    intro i j hi hj hij
    exact ⟨i, j, hij, List.getElem?_eq_getElem hi, List.getElem?_eq_getElem hj⟩
  have h1 := h0.filter p
  rw [← h, List.pairwise_filter, List.pairwise_iff_getElem] at h1
  obtain ⟨li, ei⟩ := List.getElem?_eq_some_iff.1 hi
  obtain ⟨lj, ej⟩ := List.getElem?_eq_some_iff.1 hj
  have := h1 i' j' li lj hij
  rw [ei, ej] at this
  exact this hs ht

/-- Vertices and edges, as used for zero-dimensional persistent homology. -/
def isVertex (s : Simplex α) : Bool := decide (#s.vset = 1)

/-- Edges. -/
def isEdge (s : Simplex α) : Bool := decide (#s.vset = 2)

theorem card_vset {K : Complex α} (hK : WF K) {s : Simplex α} (hs : s ∈ K) : #s.vset = s.vertices.length :=
  List.toFinset_card_of_nodup ((hK.normal s hs).imp fun h => ne_of_gt h)

theorem vertices_perm {K K' : Complex α} (hK : WF K) (hp : K'.Perm K) : K'.vertices = K.vertices := by
  have hK' := hK.perm hp
  refine List.Perm.eq_of_pairwise (le := (· ≤ ·)) (fun a b _ _ h1 h2 => Nat.le_antisymm h1 h2) ?_ ?_ ?_
  · exact (C22_vertices K' hK').1.imp fun h => le_of_lt h
  · exact (C22_vertices K hK).1.imp fun h => le_of_lt h
  · refine (List.perm_ext_iff_of_nodup ((C22_vertices K' hK').1.imp fun h => ne_of_lt h) ((C22_vertices K hK).1.imp fun h => ne_of_lt h)).2 fun v => ?_
    rw [(C22_vertices K' hK').2, (C22_vertices K hK).2]
    simp only [hp.mem_iff]

theorem index_both {K K' : Complex α} (hK : WF K) (hp : K'.Perm K) (vs : List ℕ) :
    (K.index vs = none ∧ K'.index vs = none) ∨ ∃ s i i', K.index vs = some i ∧ K'.index vs = some i' ∧ K[i]? = some s ∧ K'[i']? = some s ∧
      s.vertices = vs := by
  have hK' := hK.perm hp
  cases h : K.index vs with
  | none =>
    refine Or.inl ⟨rfl, ?_⟩
    unfold Complex.index at h ⊢
    rw [List.findIdx?_eq_none_iff] at h ⊢
    exact fun x hx => h x (hp.mem_iff.1 hx)
  | some i =>
    obtain ⟨s, h1, h2⟩ := (index_eq_some hK).1 h
    obtain ⟨i', hi'⟩ := List.mem_iff_getElem?.1 (hp.mem_iff.2 (List.mem_of_getElem? h1))
    exact Or.inr ⟨s, i, i', rfl, (index_eq_some hK').2 ⟨s, hi', h2⟩, h1, hi', h2⟩

theorem zeroDimStep_order [DecidableEq α] (diag leftFirst : Bool) {K K' : Complex α} (hK : WF K) (hp : K'.Perm K)
    (hv : K'.filter isVertex = K.filter isVertex) (st st' : ZeroDimState α) (h1 : st'.uf = st.uf) (h2 : st'.points = st.points) (s : Simplex α) :
    (zeroDimStep diag leftFirst K' st' s).map (fun x => (x.uf, x.points)) = (zeroDimStep diag leftFirst K st s).map (fun x => (x.uf, x.points)) := by
  have hK' := hK.perm hp
  unfold zeroDimStep
  cases s.dimension with
  | none => rfl
  | some d =>
    simp only
    split
    · simp [h1, h2]
    · rw [h1]
      cases s.vertices[0]? with
      | none => rfl
      | some u =>
      cases s.vertices[1]? with
      | none => rfl
      | some v =>
      simp only
      cases st.uf.find u with
      | none => rfl
      | some p1 =>
      obtain ⟨p1, a⟩ := p1
      simp only
      cases p1.find v with
      | none => rfl
      | some p2 =>
      obtain ⟨p2, b⟩ := p2
      simp only
      split
      · simp [h2]
      · next hab =>
        rcases index_both hK hp [a] with ⟨e1, e2⟩ | ⟨sa, ia, ia', a1, a2, a3, a4, a5⟩
        · simp [e1, e2]
        rcases index_both hK hp [b] with ⟨e1, e2⟩ | ⟨sb, ib, ib', b1, b2, b3, b4, b5⟩
        · simp [e1, e2, a1, a2]
        have ha : isVertex sa = true := by simp [isVertex, Simplex.vset, a5]
        have hb : isVertex sb = true := by simp [isVertex, Simplex.vset, b5]
        have hne : sa ≠ sb := by
          rintro rfl
          rw [a5] at b5
          exact hab (by simpa using b5)
        have hlt : ia' < ib' ↔ ia < ib := by
          constructor
          · intro h
            obtain ⟨i, j, hij, g1, g2⟩ := order_of_filter_eq hv a4 b4 ha hb h
            have := (index_eq_some hK).2 ⟨_, g1, a5⟩
            have := (index_eq_some hK).2 ⟨_, g2, b5⟩
            simp_all
          · intro h
            obtain ⟨i, j, hij, g1, g2⟩ := order_of_filter_eq hv.symm a3 b3 ha hb h
            have := (index_eq_some hK').2 ⟨_, g1, a5⟩
            have := (index_eq_some hK').2 ⟨_, g2, b5⟩
            simp_all
        simp only [a1, a2, b1, b2]
        by_cases hc : ia < ib
        · have hc' := hlt.2 hc
          simp only [hc, hc', if_true, Complex.get, b3, b4]
          cases p2.merge leftFirst b a with
          | none => rfl
          | some p3 =>
            rcases index_both hK hp s.vertices with ⟨e1, e2⟩ | ⟨ss, is, is', s1, s2, -⟩
            · simp [e1, e2]
            · simp only [s1, s2]
              split <;> simp [h2]
        · have hc' := mt hlt.1 hc
          simp only [hc, hc', if_false, Complex.get, a3, a4]
          cases p2.merge leftFirst a b with
          | none => rfl
          | some p3 =>
            rcases index_both hK hp s.vertices with ⟨e1, e2⟩ | ⟨ss, is, is', s1, s2, -⟩
            · simp [e1, e2]
            · simp only [s1, s2]
              split <;> simp [h2]

theorem zeroDimFold_order [DecidableEq α] (diag leftFirst : Bool) {K K' : Complex α} (hK : WF K) (hp : K'.Perm K)
    (hv : K'.filter isVertex = K.filter isVertex) : ∀ (l : List (Simplex α)) (st st' : ZeroDimState α), st'.uf = st.uf → st'.points = st.points →
    (l.foldlM (zeroDimStep diag leftFirst K') st').map (fun x => (x.uf, x.points)) =
      (l.foldlM (zeroDimStep diag leftFirst K) st).map (fun x => (x.uf, x.points)) := by
  intro l
  induction l with
  | nil => intro st st' h1 h2; simp [h1, h2]
  | cons s l ih =>
    intro st st' h1 h2
    have h := zeroDimStep_order diag leftFirst hK hp hv st st' h1 h2 s
    rw [List.foldlM_cons, List.foldlM_cons]
    cases e : zeroDimStep diag leftFirst K st s with
    | none =>
      rw [e] at h
      cases e' : zeroDimStep diag leftFirst K' st' s with
      | none => rfl
      | some _ => rw [e'] at h; simp at h
    | some x =>
      rw [e] at h
      cases e' : zeroDimStep diag leftFirst K' st' s with
      | none => rw [e'] at h; simp at h
      | some x' =>
        rw [e'] at h
        simp only [Option.map_some, Option.some.injEq, Prod.mk.injEq] at h
        exact ih x x' h.1 h.2

theorem zeroDimFold_edges [DecidableEq α] (diag leftFirst : Bool) {K : Complex α} (L : Complex α) : ∀ (l : List (Simplex α)),
    (∀ s ∈ l, s ∈ K) → WF K → ∀ st : ZeroDimState α,
    l.foldlM (zeroDimStep diag leftFirst L) st = (l.filter isEdge).foldlM (zeroDimStep diag leftFirst L) st := by
  intro l
  induction l with
  | nil => intro _ _ st; rfl
  | cons s l ih =>
    intro hl hK st
    have hcard := card_vset hK (hl s (by simp))
    have hne := hK.nonempty s (hl s (by simp))
    by_cases h : isEdge s = true
    · rw [List.filter_cons_of_pos h, List.foldlM_cons, List.foldlM_cons]
      cases zeroDimStep diag leftFirst L st s with
      | none => rfl
      | some x => exact ih (fun t ht => hl t (by simp [ht])) hK x
    · rw [List.filter_cons_of_neg h, List.foldlM_cons]
      have : zeroDimStep diag leftFirst L st s = some st := by
        unfold zeroDimStep Simplex.dimension
        simp only [isEdge, hcard, decide_eq_true_eq] at h
        cases hv : s.vertices with
        | nil => exact absurd hv (by simpa using hne)
        | cons a t =>
          rw [hv] at h
          simp at h
          simp [h]
      rw [this]
      exact ih (fun t ht => hl t (by simp [ht])) hK st

/-- The diagram depends only on the order of vertices among each other, and on the order of edges among each other. -/
theorem zeroDimensional_order [DecidableEq α] (diag leftFirst : Bool) (inf : α) {K K' : Complex α} (hK : WF K) (hp : K'.Perm K)
    (hv : K'.filter isVertex = K.filter isVertex) (he : K'.filter isEdge = K.filter isEdge) :
    (zeroDimensional diag leftFirst inf K').map Prod.fst = (zeroDimensional diag leftFirst inf K).map Prod.fst := by
  have hK' := hK.perm hp
  unfold zeroDimensional
  rw [zeroDimFold_edges diag leftFirst K' K' (fun _ h => h) hK', zeroDimFold_edges diag leftFirst K K (fun _ h => h) hK, he, vertices_perm hK hp]
  have h := zeroDimFold_order diag leftFirst hK hp hv (K.filter isEdge) ⟨ParentMap.ofRange K.vertices, [], []⟩ ⟨ParentMap.ofRange K.vertices, [], []⟩ rfl rfl
  cases e : (K.filter isEdge).foldlM (zeroDimStep diag leftFirst K) ⟨ParentMap.ofRange K.vertices, [], []⟩ with
  | none =>
    rw [e] at h
    cases e' : (K.filter isEdge).foldlM (zeroDimStep diag leftFirst K') ⟨ParentMap.ofRange K.vertices, [], []⟩ with
    | none => rfl
    | some _ => rw [e'] at h; simp at h
  | some x =>
    rw [e] at h
    cases e' : (K.filter isEdge).foldlM (zeroDimStep diag leftFirst K') ⟨ParentMap.ofRange K.vertices, [], []⟩ with
    | none => rw [e'] at h; simp at h
    | some x' =>
      rw [e'] at h
      simp only [Option.map_some, Option.some.injEq, Prod.mk.injEq] at h
      simp only [h.1]
      cases x.uf.roots with
      | none => rfl
      | some y =>
        obtain ⟨_, rs⟩ := y
        simp only
        have key : ∀ (rs : List ℕ) (y y' : List (α × α) × List (ℕ × ℕ)), y'.1 = y.1 →
            (rs.foldlM (zeroDimRoot inf K') y').map Prod.fst = (rs.foldlM (zeroDimRoot inf K) y).map Prod.fst := by
          intro rs
          induction rs with
          | nil => intro y y' hy; simp [hy]
          | cons r rs ih =>
            intro y y' hy
            rw [List.foldlM_cons, List.foldlM_cons]
            rcases index_both hK hp [r] with ⟨e1, e2⟩ | ⟨s, i, i', a1, a2, a3, a4, a5⟩
            · have f1 : zeroDimRoot inf K y r = none := by unfold zeroDimRoot; rw [e1]; cases K.find [r] <;> rfl
              have f2 : zeroDimRoot inf K' y' r = none := by unfold zeroDimRoot; rw [e2]; cases K'.find [r] <;> rfl
              rw [f1, f2]
              rfl
            · have f1 : K.find [r] = some s := by rw [← a5]; exact hK.find_eq (List.mem_of_getElem? a3)
              have f2 : K'.find [r] = some s := by rw [← a5]; exact hK'.find_eq (List.mem_of_getElem? a4)
              have g1 : zeroDimRoot inf K y r = some (y.1 ++ [(s.data, inf)], y.2 ++ [(i, idxMax)]) := by unfold zeroDimRoot; rw [f1, a1]
              have g2 : zeroDimRoot inf K' y' r = some (y'.1 ++ [(s.data, inf)], y'.2 ++ [(i', idxMax)]) := by unfold zeroDimRoot; rw [f2, a2]
              rw [g1, g2]
              exact ih _ _ (by simp [hy])
        exact key rs _ _ h.2

end Aleph
