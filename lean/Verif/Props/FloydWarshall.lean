import Verif.Lemmas.FloydWarshall

/-!
# C31: shortest paths
-/

namespace Aleph

open Finset Spec FloydWarshall SymMatrix

variable {α : Type}

theorem vertexList_eq {K : Complex α} (hK : WF K) {vs : List ℕ} (hvs : IsVertexOrder K vs) :
    vertexList K = vs.map fun v => [v] := by
  unfold IsVertexOrder at hvs
  unfold vertexList
  have h1 : (K : List (Simplex α)).filter (fun s => Complex.dim s == 0) =
      List.filter (fun s => s.vset.card = 1) K := by
    apply List.filter_congr
    intro s hs
    have h2 := (hK.normal s hs).length_eq
    have h3 := List.length_pos_iff.2 (hK.nonempty s hs)
    simp only [Complex.dim, beq_eq_decide, Simplex.vset]
    congr 1
    rw [← h2]
    exact propext ⟨fun h => by omega, fun h => by omega⟩
  rw [h1]
  have h4 : ∀ l : List (Simplex α), (∀ s ∈ l, Normal s.vertices) → ∀ vs : List ℕ,
      l.map Simplex.vset = vs.map (fun v => {v}) → l.map (·.vertices) = vs.map fun v => [v] := by
    intro l
    induction l with
    | nil => intro _ vs h; cases vs with
      | nil => rfl
      | cons => simp at h
    | cons s l ih =>
      intro hn vs h
      cases vs with
      | nil => simp at h
      | cons v vs =>
        simp only [List.map_cons, List.cons.injEq] at h ⊢
        refine ⟨?_, ih (fun t ht => hn t (List.mem_cons_of_mem _ ht)) vs h.2⟩
        refine Normal.ext (hn s List.mem_cons_self) (by simp [Normal]) fun x => ?_
        have := congrArg (x ∈ ·) h.1
        simpa [Simplex.vset] using this
  exact h4 _ (fun s hs => hK.normal s (List.mem_of_mem_filter hs)) vs hvs

theorem vertexOrder_nodup {K : Complex α} (hK : WF K) {vs : List ℕ} (hvs : IsVertexOrder K vs) :
    vs.Nodup := by
  have h1 : (vs.map fun v => [v]).Nodup := by
    rw [← vertexList_eq hK hvs]
    exact hK.distinct.sublist (List.Sublist.map _ List.filter_sublist)
  exact h1.of_map _

theorem vertexOrder_mem {K : Complex α} {vs : List ℕ} (hvs : IsVertexOrder K vs) {v : ℕ} :
    v ∈ vs ↔ Has K {v} := by
  have : ({v} : Finset ℕ) ∈ vs.map (fun v => ({v} : Finset ℕ)) ↔ v ∈ vs := by simp
  rw [← this, ← hvs]
  simp only [List.mem_map, List.mem_filter, decide_eq_true_eq, Has]
  constructor
  · rintro ⟨s, ⟨hs, _⟩, h⟩; exact ⟨s, hs, h⟩
  · rintro ⟨s, hs, h⟩; exact ⟨s, ⟨hs, by rw [h]; simp⟩, h⟩

theorem vertexIndex_eq {K : Complex α} (hK : WF K) {vs : List ℕ} (hvs : IsVertexOrder K vs) {i : ℕ} {v : ℕ}
    (h : vs[i]? = some v) : vertexIndex K v = some i := by
  unfold vertexIndex
  rw [vertexList_eq hK hvs]
  have hnd := vertexOrder_nodup hK hvs
  obtain ⟨hlt, hv⟩ := List.getElem?_eq_some_iff.1 h
  rw [List.idxOf?, List.findIdx?_eq_some_iff_getElem]
  refine ⟨by simpa using hlt, by simp [hv], ?_⟩
  intro j hj
  simp only [List.getElem_map, beq_iff_eq, List.cons.injEq, and_true]
  intro he
  have := (List.Nodup.getElem_inj_iff hnd).1 (he.trans hv.symm)
  omega

/-- The matrix after reading the edges in `pre`. -/
structure EdgeInv [Zero α] [DecidableEq α] (K pre : Complex α) (w : α) (vs : List ℕ) (D : ℕ → ℕ → WithTop α) :
    Prop where
  diag : ∀ i, D i i = 0
  edge : ∀ (i j : ℕ) (u v : ℕ), vs[i]? = some u → vs[j]? = some v → u ≠ v → ∀ x : α,
    D i j = x ↔ ∃ d, HasData pre {u, v} d ∧ x = if d ≠ 0 then d else w
  out : ∀ (i j : ℕ) (x : α), D i j = x → i ≠ j → i < vs.length ∧ j < vs.length

theorem edges_loop [Zero α] [LinearOrder α] {K : Complex α} (hK : WF K) (he : EdgeClosed K) {w : α} {vs : List ℕ}
    (hvs : IsVertexOrder K vs) (post pre : Complex α) (hp : pre ++ post = K) (M : SymMatrix (WithTop α))
    (D : ℕ → ℕ → WithTop α) (h : SymMatrix.Repr M vs.length D) (hI : EdgeInv K pre w vs D) :
    ∃ M' D', post.foldlM (edgeStep K w) M = some M' ∧ SymMatrix.Repr M' vs.length D' ∧ EdgeInv K K w vs D' := by
  induction post generalizing pre M D with
  | nil => simp only [List.append_nil] at hp; subst hp; exact ⟨M, D, rfl, h, hI⟩
  | cons s post ih =>
    have hsK : s ∈ K := by rw [← hp]; simp
    have hn := hK.normal s hsK
    have hadd : ∀ t d, HasData (pre ++ [s]) t d ↔ HasData pre t d ∨ (s.vset = t ∧ s.data = d) := by
      intro t d
      simp only [HasData, List.mem_append, List.mem_singleton]
      constructor
      · rintro ⟨r, hr | rfl, h1, h2⟩
        · exact Or.inl ⟨r, hr, h1, h2⟩
        · exact Or.inr ⟨h1, h2⟩
      · rintro (⟨r, hr, h1, h2⟩ | ⟨h1, h2⟩)
        · exact ⟨r, Or.inl hr, h1, h2⟩
        · exact ⟨s, Or.inr rfl, h1, h2⟩
    by_cases hd : Complex.dim s = 1
    · -- an edge
      obtain ⟨u, v, hs⟩ : ∃ u v, s.vertices = [u, v] := by
        unfold Complex.dim at hd
        match hm : s.vertices, hd with
        | [u, v], _ => exact ⟨u, v, rfl⟩
      have huv : u ≠ v := by
        rw [hs] at hn
        have : u > v := by simpa [Normal] using hn
        omega
      have hset : s.vset = {u, v} := by rw [Simplex.vset, hs]; simp
      have hu : u ∈ vs := (vertexOrder_mem hvs).2 (he u v huv ⟨s, hsK, hset⟩)
      have hv : v ∈ vs := (vertexOrder_mem hvs).2 (he v u huv.symm ⟨s, hsK, by rw [hset, pair_comm]⟩)
      obtain ⟨iu, hiu⟩ := List.mem_iff_getElem?.1 hu
      obtain ⟨iv, hiv⟩ := List.mem_iff_getElem?.1 hv
      have hlu := (List.getElem?_eq_some_iff.1 hiu).1
      have hlv := (List.getElem?_eq_some_iff.1 hiv).1
      have hne : iu ≠ iv := by
        rintro rfl
        rw [hiu] at hiv
        exact huv (by simpa using hiv)
      obtain ⟨M1, hM1, h1⟩ := h.set hlu hlv ((if s.data ≠ 0 then s.data else w : α) : WithTop α)
      have hstep : edgeStep K w M s = some M1 := by
        unfold edgeStep
        rw [if_pos hd, hs]
        simp only [vertexIndex_eq hK hvs hiu, vertexIndex_eq hK hvs hiv]
        exact hM1
      have hpre : ∀ d, ¬ HasData pre {u, v} d := by
        rintro d ⟨r, hr, hr1, -⟩
        have hrK : r ∈ K := by rw [← hp]; simp [hr]
        have := hK.eq_of_vset hrK hsK (hr1.trans hset.symm)
        subst this
        have hnd := hK.nodup
        rw [← hp, List.nodup_append] at hnd
        exact hnd.2.2 _ hr _ (by simp) rfl
      have hnd := vertexOrder_nodup hK hvs
      have hidx : ∀ {i : ℕ} {a : ℕ}, vs[i]? = some a → ∀ {j : ℕ}, vs[j]? = some a → i = j := by
        intro i a hi j hj
        obtain ⟨h1, h2⟩ := List.getElem?_eq_some_iff.1 hi
        obtain ⟨h3, h4⟩ := List.getElem?_eq_some_iff.1 hj
        exact (List.Nodup.getElem_inj_iff hnd).1 (h2.trans h4.symm)
      have hI1 : EdgeInv K (pre ++ [s]) w vs fun a b =>
          if (a = iu ∧ b = iv) ∨ (a = iv ∧ b = iu) then
            ((if s.data ≠ 0 then s.data else w : α) : WithTop α) else D a b := by
        refine ⟨?_, ?_, ?_⟩
        · intro i
          rw [if_neg (by omega), hI.diag]
        · intro i j a b hi hj hab x
          by_cases hc : (i = iu ∧ j = iv) ∨ (i = iv ∧ j = iu)
          · have hst : ({a, b} : Finset ℕ) = {u, v} := by
              rcases hc with ⟨rfl, rfl⟩ | ⟨rfl, rfl⟩
              · rw [hiu] at hi; rw [hiv] at hj
                cases hi; cases hj; rfl
              · rw [hiv] at hi; rw [hiu] at hj
                cases hi; cases hj; exact pair_comm _ _
            rw [if_pos hc, hst]
            constructor
            · intro hx
              refine ⟨s.data, (hadd _ _).2 (Or.inr ⟨hset, rfl⟩), ?_⟩
              exact (WithTop.coe_injective hx).symm
            · rintro ⟨d, hd', rfl⟩
              rcases (hadd _ _).1 hd' with h | ⟨-, rfl⟩
              · exact absurd h (hpre d)
              · rfl
          · rw [if_neg hc, hI.edge i j a b hi hj hab x]
            have hst : s.vset ≠ {a, b} := by
              intro hst
              rw [hset] at hst
              apply hc
              have ha : a = u ∨ a = v := by
                have : a ∈ ({u, v} : Finset ℕ) := by rw [hst]; simp
                simpa using this
              have hb : b = u ∨ b = v := by
                have : b ∈ ({u, v} : Finset ℕ) := by rw [hst]; simp
                simpa using this
              rcases ha with rfl | rfl
              · rcases hb with rfl | rfl
                · exact absurd rfl hab
                · exact Or.inl ⟨hidx hi hiu, hidx hj hiv⟩
              · rcases hb with rfl | rfl
                · exact Or.inr ⟨hidx hi hiv, hidx hj hiu⟩
                · exact absurd rfl hab
            simp only [hadd, hst, false_and, or_false]
        · intro i j x hx hij
          by_cases hc : (i = iu ∧ j = iv) ∨ (i = iv ∧ j = iu)
          · omega
          · rw [if_neg hc] at hx
            exact hI.out i j x hx hij
      obtain ⟨M', D', hM', h', hI'⟩ := ih (pre ++ [s]) (by simpa using hp) M1 _ h1 hI1
      exact ⟨M', D', by rw [List.foldlM_cons, hstep]; exact hM', h', hI'⟩
    · have hstep : edgeStep K w M s = some M := by unfold edgeStep; rw [if_neg hd]
      have hI1 : EdgeInv K (pre ++ [s]) w vs D := by
        refine ⟨hI.diag, ?_, hI.out⟩
        intro i j a b hi hj hab x
        rw [hI.edge i j a b hi hj hab x]
        have hst : s.vset ≠ {a, b} := by
          intro hst
          have := hn.length_eq
          rw [show s.vertices.toFinset = {a, b} from hst, card_pair hab] at this
          exact hd (by unfold Complex.dim; omega)
        simp only [hadd, hst, false_and, or_false]
      obtain ⟨M', D', hM', h', hI'⟩ := ih (pre ++ [s]) (by simpa using hp) M D h hI1
      exact ⟨M', D', by rw [List.foldlM_cons, hstep]; exact hM', h', hI'⟩

section

variable [AddCommMonoid α] [LinearOrder α]

theorem Spec.PathLength.has {K : Complex α} {w : α} (he : EdgeClosed K) {u v : ℕ} {l : α} (h : PathLength K w u v l) :
    Has K {u} ∧ Has K {v} := by
  induction h with
  | nil v hv => exact ⟨hv, hv⟩
  | cons hne hx _ ih =>
    obtain ⟨s, hs, hs', -⟩ := hx
    exact ⟨he _ _ hne ⟨s, hs, hs'⟩, ih.2⟩

theorem Spec.PathLength.append {K : Complex α} {w : α} {u v t : ℕ} {l l' : α} (h : PathLength K w u v l)
    (h' : PathLength K w v t l') : PathLength K w u t (l + l') := by
  induction h with
  | nil v _ => rwa [zero_add]
  | cons hne hx _ ih => rw [add_assoc]; exact .cons hne hx (ih h')

variable [IsOrderedAddMonoid α]

/-- C31. `floydWarshall(K, w)` succeeds and returns a symmetric matrix with one row per vertex, in the order in which
the vertices are stored.  For non-negative weights the entry of two vertices is the smallest length of a path between
them (an edge of weight zero counts `w`), and infinity exactly if there is no path. -/
theorem C31_floyd_warshall (K : Complex α) (hK : WF K) (he : EdgeClosed K) (w : α) (hw : 0 ≤ w)
    (hpos : ∀ u v x, u ≠ v → HasData K {u, v} x → 0 ≤ x) (vs : List ℕ) (hvs : IsVertexOrder K vs) :
    ∃ M, run K w = some M ∧ M.numRows = vs.length ∧
      ∀ (i j u v : ℕ), vs[i]? = some u → vs[j]? = some v →
        ∃ d, M.get i j = some d ∧ (d = ⊤ ↔ ¬ ∃ l, PathLength K w u v l) ∧
          ∀ l : α, d = l ↔ IsLeast {l | PathLength K w u v l} l := by
  have hlen : (vertexList K).length = vs.length := by rw [vertexList_eq hK hvs, List.length_map]
  obtain ⟨M0, hM0, h0⟩ := initial_spec (α := α) vs.length
  obtain ⟨M1, D, hM1, h1, hI⟩ := edges_loop hK he (w := w) hvs K [] rfl M0 _ h0
    ⟨by simp, by
      intro i j u v hi hj huv x
      have : i ≠ j := by rintro rfl; rw [hi] at hj; exact huv (by simpa using hj)
      rw [if_neg this]
      simp [HasData], by
      intro i j x hx hij
      rw [if_neg hij] at hx
      cases hx⟩
  have hnd := vertexOrder_nodup hK hvs
  have hvw : ∀ x : α, 0 ≤ x → 0 ≤ (if x ≠ 0 then x else w) := by
    intro x hx; split
    · exact hx
    · exact hw
  have hne : ∀ {i j u v : ℕ}, vs[i]? = some u → vs[j]? = some v → i ≠ j → u ≠ v := by
    rintro i j u v hi hj hij rfl
    obtain ⟨h1, h2⟩ := List.getElem?_eq_some_iff.1 hi
    obtain ⟨h3, h4⟩ := List.getElem?_eq_some_iff.1 hj
    exact hij ((List.Nodup.getElem_inj_iff hnd).1 (h2.trans h4.symm))
  have hD0 : ∀ i j, 0 ≤ D i j := by
    intro i j
    by_cases hij : i = j
    · subst hij; rw [hI.diag]
    · cases hd : D i j with
      | top => exact le_top
      | coe x =>
        obtain ⟨hi, hj⟩ := hI.out i j x hd hij
        have hu := List.getElem?_eq_getElem hi
        have hv := List.getElem?_eq_getElem hj
        obtain ⟨d, hd', rfl⟩ := (hI.edge i j _ _ hu hv (hne hu hv hij) x).1 hd
        exact WithTop.coe_le_coe.2 (hvw d (hpos _ _ d (hne hu hv hij) hd'))
  obtain ⟨M, hM, h⟩ := phases h1 hI.diag hD0 vs.length le_rfl
  refine ⟨M, ?_, h.rows, ?_⟩
  · unfold run
    rw [hlen, hM0]
    simp only [hM1]
    exact hM
  -- soundness
  have hsound : ∀ k ≤ vs.length, ∀ (i j u v : ℕ), vs[i]? = some u → vs[j]? = some v → ∀ l : α,
      dist D k i j = l → PathLength K w u v l := by
    intro k
    induction k with
    | zero =>
      intro _ i j u v hi hj l hl
      by_cases hij : i = j
      · subst hij
        rw [hi] at hj
        cases hj
        have : D i i = l := hl
        rw [hI.diag] at this
        have h0 : (0 : α) = l := WithTop.coe_injective this
        rw [← h0]
        exact .nil _ ((vertexOrder_mem hvs).1 (List.mem_iff_getElem?.2 ⟨i, hi⟩))
      · obtain ⟨d, hd, rfl⟩ := (hI.edge i j u v hi hj (hne hi hj hij) l).1 hl
        have := PathLength.cons (w := w) (hne hi hj hij) hd
          (.nil v ((vertexOrder_mem hvs).1 (List.mem_iff_getElem?.2 ⟨j, hj⟩)))
        rwa [add_zero] at this
    | succ k ih =>
      intro hk i j u v hi hj l hl
      change min (dist D k i j) (dist D k i k + dist D k k j) = l at hl
      rcases min_choice (dist D k i j) (dist D k i k + dist D k k j) with hm | hm
      · rw [hm] at hl
        exact ih (by omega) i j u v hi hj l hl
      · rw [hm] at hl
        obtain ⟨a, b, ha, hb, rfl⟩ := WithTop.add_eq_coe.1 hl
        have hk' := List.getElem?_eq_getElem (show k < vs.length by omega)
        exact (ih (by omega) i k u _ hi hk' a ha.symm).append (ih (by omega) k j _ v hk' hj b hb.symm)
  -- completeness
  have hcompl : ∀ (u v : ℕ) (l : α), PathLength K w u v l → ∀ i j : ℕ, vs[i]? = some u → vs[j]? = some v →
      dist D vs.length i j ≤ l := by
    have hwalk : ∀ (u v : ℕ) (l : α), PathLength K w u v l → ∀ i j : ℕ, vs[i]? = some u → vs[j]? = some v →
        Walk D vs.length i j l := by
      intro u v l hp
      induction hp with
      | nil v hv =>
        intro i j hi hj
        have : i = j := by
          by_contra hij
          exact hne hi hj hij rfl
        subst this
        have := Walk.one (D := D) (k := vs.length) i i
        rwa [hI.diag] at this
      | @cons u m v x l hum hx hp ih =>
        intro i j hi hj
        have hm : m ∈ vs := (vertexOrder_mem hvs).2 (hp.has he).1
        obtain ⟨k, hk⟩ := List.mem_iff_getElem?.1 hm
        have hd : D i k = ((if x ≠ 0 then x else w : α) : WithTop α) :=
          (hI.edge i k u m hi hk hum _).2 ⟨x, hx, rfl⟩
        rw [WithTop.coe_add, ← hd]
        exact Walk.cons (List.getElem?_eq_some_iff.1 hk).1 (ih k j hk hj)
    intro u v l hp i j hi hj
    exact dist_le hD0 _ (hwalk u v l hp i j hi hj)
  intro i j u v hi hj
  have hli := (List.getElem?_eq_some_iff.1 hi).1
  have hlj := (List.getElem?_eq_some_iff.1 hj).1
  refine ⟨dist D vs.length i j, h.get hli hlj, ?_, ?_⟩
  · constructor
    · rintro ht ⟨l, hl⟩
      have := hcompl u v l hl i j hi hj
      rw [ht] at this
      exact absurd this (by simp)
    · intro hno
      cases hd : dist D vs.length i j with
      | top => rfl
      | coe x => exact absurd ⟨x, hsound _ le_rfl i j u v hi hj x hd⟩ hno
  · intro l
    have hfwd : ∀ l : α, dist D vs.length i j = l → IsLeast {l | PathLength K w u v l} l := by
      intro l hd
      refine ⟨hsound _ le_rfl i j u v hi hj l hd, fun l' hl' => ?_⟩
      have := hcompl u v l' hl' i j hi hj
      rw [hd] at this
      exact WithTop.coe_le_coe.1 this
    refine ⟨hfwd l, fun hl => ?_⟩
    cases hd : dist D vs.length i j with
    | top =>
      have := hcompl u v l hl.1 i j hi hj
      rw [hd] at this
      exact absurd this (by simp)
    | coe x => rw [(hfwd x hd).unique hl]

end

/-- A path with four vertices, a zero-weight edge, and an isolated vertex. -/
def pathExample : Complex ℕ :=
  [⟨[4], 0⟩, ⟨[0], 0⟩, ⟨[2], 0⟩, ⟨[1], 0⟩, ⟨[3], 0⟩, ⟨[1, 0], 5⟩, ⟨[2, 1], 0⟩, ⟨[3, 2], 2⟩, ⟨[3, 0], 9⟩]

example : (run pathExample 1).map (fun M => (M.get 1 4, M.get 1 2, M.get 0 1, M.get 3 3)) =
    some (some 8, some 6, some ⊤, some 0) := by decide

/-- The hypotheses of `C31_floyd_warshall` are met by this complex. -/
example : WF pathExample ∧ EdgeClosed pathExample ∧ IsVertexOrder pathExample [4, 0, 2, 1, 3] := by
  refine ⟨⟨by decide, by decide, by decide⟩, ?_, by unfold IsVertexOrder; decide⟩
  rintro u v huv ⟨s, hs, hs'⟩
  have hu : u ∈ s.vset := by rw [hs']; simp
  have : ∀ s ∈ pathExample, ∀ u ∈ s.vset, ∃ t ∈ pathExample, t.vset = {u} := by decide
  exact this s hs u hu

/-- C31. If an end point of an edge is not a vertex of the complex, the look-up of its index throws. -/
theorem C31_missing_vertex_witness : run [⟨[0], 0⟩, ⟨[1, 0], (5 : ℕ)⟩] 1 = none := by decide

end Aleph
