import Verif.Lemmas.Kruskal
import Verif.Lemmas.ZeroDim
import Verif.Props.ZeroDim
import Verif.Spec.SpanningTree
import Verif.Spec.Rips

/-!
# Pairs of dimension zero and spanning trees
-/

namespace Aleph.SpanningTree

open Finset Spec Kruskal

variable {α : Type}

/-- The edge at a position; other simplices become loops. -/
def edgeAt (K : Complex α) (k : ℕ) : ℕ × ℕ :=
  match K[k]? with
  | some s =>
    match s.vertices with
    | [b, a] => (a, b)
    | _ => (0, 0)
  | none => (0, 0)

theorem edgeAt_spec {K : Complex α} (hK : WF K) {k : ℕ} :
    ((edgeAt K k).1 < (edgeAt K k).2 ∧ vsetAt K k = {(edgeAt K k).1, (edgeAt K k).2}) ∨ (edgeAt K k = (0, 0) ∧ #(vsetAt K k) ≠ 2) := by
  unfold edgeAt vsetAt
  cases hk : K[k]? with
  | none => exact Or.inr ⟨rfl, by simp⟩
  | some s =>
    have hs : s ∈ K := List.mem_of_getElem? hk
    have hn := hK.normal s hs
    have hcard : #s.vset = s.vertices.length := List.toFinset_card_of_nodup (hn.imp fun h => ne_of_gt h)
    simp only
    rcases hv : s.vertices with _ | ⟨a, _ | ⟨b, _ | ⟨c, l⟩⟩⟩
    · exact Or.inr ⟨rfl, by rw [hcard, hv]; simp⟩
    · exact Or.inr ⟨rfl, by rw [hcard, hv]; simp⟩
    · refine Or.inl ⟨?_, ?_⟩
      · rw [hv] at hn
        simpa [Normal] using hn
      · simp [Simplex.vset, hv, pair_comm]
    · exact Or.inr ⟨rfl, by rw [hcard, hv]; simp⟩

theorem edgeAt_eq {K : Complex α} (hK : WF K) {k a b : ℕ} (hab : a < b) (h : vsetAt K k = {a, b}) : edgeAt K k = (a, b) := by
  rcases edgeAt_spec hK (k := k) with ⟨h1, h2⟩ | ⟨-, h2⟩
  · generalize edgeAt K k = e at *
    obtain ⟨x, y⟩ := e
    rw [h] at h2
    have hx : x ∈ ({a, b} : Finset ℕ) := by rw [h2]; simp
    have hy : y ∈ ({a, b} : Finset ℕ) := by rw [h2]; simp
    simp only [mem_insert, mem_singleton] at hx hy h1
    have : x = a ∧ y = b := by omega
    rw [this.1, this.2]
  · rw [h, card_pair (by omega)] at h2
    exact absurd rfl h2

theorem eqvGen_congr {r s : ℕ → ℕ → Prop} (h : ∀ a b, r a b → Relation.EqvGen s a b) {a b : ℕ} (hab : Relation.EqvGen r a b) : Relation.EqvGen s a b := by
  induction hab with
  | rel a b hab => exact h a b hab
  | refl a => exact .refl a
  | symm a b _ ih => exact .symm _ _ ih
  | trans a b c _ _ ih1 ih2 => exact .trans _ _ _ ih1 ih2

theorem conn_iff_joined {K : Complex α} (hK : WF K) {t a b : ℕ} : Conn (edgeAt K) {j | j < t} a b ↔ Joined K t a b := by
  constructor
  · refine eqvGen_congr ?_
    rintro a b ⟨k, hk, e⟩
    rcases edgeAt_spec hK (k := k) with ⟨h1, h2⟩ | ⟨h1, -⟩
    · rw [e] at h1 h2
      exact .rel _ _ ⟨ne_of_lt h1, k, hk, h2⟩
    · rw [e] at h1
      cases h1
      exact .refl _
  · refine eqvGen_congr ?_
    rintro a b ⟨hab, k, hk, h⟩
    rcases lt_or_gt_of_ne hab with h1 | h1
    · exact .rel _ _ ⟨k, hk, edgeAt_eq hK h1 h⟩
    · exact .symm _ _ (.rel _ _ ⟨k, hk, edgeAt_eq hK h1 (h.trans (pair_comm _ _))⟩)

theorem oldest_exists {K : Complex α} {t v i : ℕ} (hv : vsetAt K i = {v}) :
    ∃ i' w, vsetAt K i' = {w} ∧ Joined K t v w ∧ OldestAt K t i' ∧ i' ≤ i := by
  classical
  have hex : ∃ i', ∃ w, vsetAt K i' = {w} ∧ Joined K t v w := ⟨i, v, hv, .refl _⟩
  obtain ⟨w, hw, hj⟩ := Nat.find_spec hex
  refine ⟨Nat.find hex, w, hw, hj, ⟨w, hw, fun i' x hx hwx => Nat.find_min' hex ⟨x, hx, .trans _ _ _ hj hwx⟩⟩, Nat.find_min' hex ⟨v, hv, .refl _⟩⟩

/-- An edge is selected if and only if it destroys a component. -/
theorem selected_iff_destroyer {K : Complex α} (hK : IsFiltration K) (hn : K.length ≤ idxMax) {j : ℕ} :
    (j < K.length ∧ Selected (edgeAt K) j) ↔ ∃ i, dimAt K i = 0 ∧ PersPair (facets K) i j := by
  have hw := hK.wf
  have hsel : Selected (edgeAt K) j ↔ ¬ Joined K j (edgeAt K j).1 (edgeAt K j).2 := not_congr (conn_iff_joined hw)
  rw [hsel]
  constructor
  · rintro ⟨hj, hno⟩
    rcases edgeAt_spec hw (k := j) with ⟨h1, h2⟩ | ⟨h1, -⟩
    · generalize edgeAt K j = e at *
      obtain ⟨a, b⟩ := e
      simp only at hno h1 h2
      obtain ⟨ia, ha⟩ := exists_pos hK.closed (k := j) (v := a) (by rw [h2]; simp)
      obtain ⟨ib, hb⟩ := exists_pos hK.closed (k := j) (v := b) (by rw [h2]; simp)
      obtain ⟨i1, w1, g1, g2, g3, -⟩ := oldest_exists (t := j) ha
      obtain ⟨i2, w2, k1, k2, k3, -⟩ := oldest_exists (t := j) hb
      have hne : i1 ≠ i2 := by
        rintro rfl
        rw [g1] at k1
        cases singleton_injective k1
        exact hno (.trans _ _ _ g2 (.symm _ _ k2))
      have hab : Joined K (j + 1) a b := .rel _ _ ⟨ne_of_lt h1, j, Nat.lt_succ_self j, h2⟩
      have h12 : Joined K (j + 1) w1 w2 :=
        .trans _ _ _ (.symm _ _ (Spec.Joined.mono (Nat.le_succ j) g2)) (.trans _ _ _ hab (Spec.Joined.mono (Nat.le_succ j) k2))
      rcases lt_or_gt_of_ne hne with hlt | hlt
      · refine ⟨i2, ((dimAt_zero_iff hw).2 ⟨w2, k1⟩).2, (persPair_vertex_iff hw hK.closed k1).2 ⟨k3, ?_⟩⟩
        rintro ⟨v, hv, ho⟩
        rw [k1] at hv
        cases singleton_injective hv
        have := ho i1 w1 g1 (.symm _ _ h12)
        omega
      · refine ⟨i1, ((dimAt_zero_iff hw).2 ⟨w1, g1⟩).2, (persPair_vertex_iff hw hK.closed g1).2 ⟨g3, ?_⟩⟩
        rintro ⟨v, hv, ho⟩
        rw [g1] at hv
        cases singleton_injective hv
        have := ho i2 w2 k1 h12
        omega
    · rw [h1] at hno
      exact absurd (.refl _) hno
  · rintro ⟨i, hi, hp⟩
    have hlt := (pairFacts hK hn).lt _ _ hp
    refine ⟨hlt.2.1, fun hjoin => ?_⟩
    obtain ⟨v, hv⟩ := (dimAt_zero_iff hw).1 ⟨hlt.1, hi⟩
    obtain ⟨⟨v1, hv1, o1⟩, o2⟩ := (persPair_vertex_iff hw hK.closed hv).1 hp
    rw [hv] at hv1
    cases singleton_injective hv1
    refine o2 ⟨v, hv, fun i' w hw' hvw => o1 i' w hw' ?_⟩
    rw [← conn_iff_joined hw] at hvw ⊢
    refine eqvGen_congr ?_ hvw
    rintro a b ⟨k, hk, e⟩
    rcases Nat.lt_succ_iff_lt_or_eq.1 hk with hk | rfl
    · exact .rel _ _ ⟨k, hk, e⟩
    · have := (conn_iff_joined hw).2 hjoin
      rw [e] at this
      exact this

/-- The pairs of dimension zero whose component is destroyed. -/
def merges (K : Complex α) (p : List (ℕ × ℕ)) : List (ℕ × ℕ) := p.filter fun ij => decide (dimAt K ij.1 = 0) && decide (ij.2 < K.length)

variable {K : Complex α} {n : ℕ} {G : ℕ → ℕ → Prop} {p : List (ℕ × ℕ)}

theorem mem_merges (hK : IsFiltration K) (hn : K.length ≤ idxMax) {inc : Bool} (hp : IsComplexPairing K inc p) {ij : ℕ × ℕ} :
    ij ∈ merges K p ↔ dimAt K ij.1 = 0 ∧ PersPair (facets K) ij.1 ij.2 := by
  obtain ⟨i, j⟩ := ij
  unfold merges
  rw [List.mem_filter, hp.2.2]
  simp only [Bool.and_eq_true, decide_eq_true_eq]
  constructor
  · rintro ⟨h | ⟨rfl, -⟩, h1, h2⟩
    · exact ⟨h1, h⟩
    · omega
  · rintro ⟨h1, h⟩
    exact ⟨Or.inl h, h1, ((pairFacts hK hn).lt _ _ h).2.1⟩

/-- The edges that destroy components, in the order of the pairs. -/
def tree (K : Complex α) (p : List (ℕ × ℕ)) : List (ℕ × ℕ) := (merges K p).map fun ij => edgeAt K ij.2

theorem toFinset_merges (hK : IsFiltration K) (hn : K.length ≤ idxMax) {inc : Bool} (hp : IsComplexPairing K inc p) :
    ((merges K p).map Prod.snd).toFinset = selection (edgeAt K) K.length := by
  ext j
  rw [List.mem_toFinset, List.mem_map, mem_selection, selected_iff_destroyer hK hn]
  constructor
  · rintro ⟨ij, h, rfl⟩
    exact ⟨ij.1, (mem_merges hK hn hp).1 h⟩
  · rintro ⟨i, h⟩
    exact ⟨(i, j), (mem_merges hK hn hp).2 h, rfl⟩

theorem nodup_merges (hK : IsFiltration K) (hn : K.length ≤ idxMax) {inc : Bool} (hp : IsComplexPairing K inc p) :
    ((merges K p).map Prod.snd).Nodup := by
  refine List.Nodup.map_on ?_ (hp.1.filter _)
  rintro ⟨i, j⟩ h1 ⟨i', j'⟩ h2 (rfl : j = j')
  rw [(pairFacts hK hn).fst i i' j ((mem_merges hK hn hp).1 h1).2 ((mem_merges hK hn hp).1 h2).2]

theorem nodup_merges_fst (hK : IsFiltration K) (hn : K.length ≤ idxMax) {inc : Bool} (hp : IsComplexPairing K inc p) :
    ((merges K p).map Prod.fst).Nodup := by
  refine List.Nodup.map_on ?_ (hp.1.filter _)
  rintro ⟨i, j⟩ h1 ⟨i', j'⟩ h2 (rfl : i = i')
  rw [(pairFacts hK hn).snd i j j' ((mem_merges hK hn hp).1 h1).2 ((mem_merges hK hn hp).1 h2).2]

theorem has_iff_at {s : Finset ℕ} (hs : s.Nonempty) : Has K s ↔ ∃ i, vsetAt K i = s := by
  unfold Has
  constructor
  · rintro ⟨t, ht, rfl⟩
    obtain ⟨i, hi, he⟩ := List.getElem_of_mem ht
    exact ⟨i, by simp [vsetAt, List.getElem?_eq_getElem hi, he]⟩
  · rintro ⟨i, rfl⟩
    unfold vsetAt at hs ⊢
    cases h : K[i]? with
    | none => rw [h] at hs; simp at hs
    | some t => exact ⟨t, List.mem_of_getElem? h, rfl⟩

theorem connected_complete : ∀ a < n, ∀ b < n, Relation.EqvGen (complete n) a b := by
  intro a ha b hb
  rcases lt_trichotomy a b with h | rfl | h
  · exact .rel _ _ ⟨h, hb⟩
  · exact .refl _
  · exact .symm _ _ (.rel _ _ ⟨h, ha⟩)

theorem connected_bipartite {a b : ℕ} (ha : 1 ≤ a) (hb : 1 ≤ b) : ∀ x < a + b, ∀ y < a + b, Relation.EqvGen (bipartite a b) x y := by
  have h0 : ∀ x < a + b, Relation.EqvGen (bipartite a b) x a := by
    intro x hx
    by_cases h : x < a
    · exact .rel _ _ ⟨h, le_rfl, by omega⟩
    · exact .trans _ _ _ (.symm _ _ (.rel 0 x ⟨ha, by omega, hx⟩)) (.rel 0 a ⟨ha, le_rfl, by omega⟩)
  exact fun x hx y hy => .trans _ _ _ (h0 x hx) (.symm _ _ (h0 y hy))

/-- In a connected graph, all but one of the components are destroyed. -/
theorem length_tree (hK : IsFiltration K) (hn : K.length ≤ idxMax) {inc : Bool} (hp : IsComplexPairing K inc p) (h1 : 1 ≤ n)
    (hv : ∀ v, Has K {v} ↔ v < n) (he : ∀ u v, u < v → (Has K {u, v} ↔ G u v)) (hG : ∀ u v, G u v → u < v)
    (hc : ∀ a < n, ∀ b < n, Relation.EqvGen G a b) : (tree K p).length + 1 = n := by
  have hw := hK.wf
  have hpos : ∀ v, v < n → ∃ i, vsetAt K i = {v} := fun v h => (has_iff_at (by simp)).1 ((hv v).2 h)
  choose! pos hpos using hpos
  have hjoin : ∀ a < n, ∀ b < n, Joined K K.length a b := by
    intro a ha b hb
    refine eqvGen_congr ?_ (hc a ha b hb)
    intro x y hxy
    obtain ⟨k, hk⟩ := (has_iff_at (by simp)).1 ((he x y (hG x y hxy)).2 hxy)
    exact .rel _ _ ⟨ne_of_lt (hG x y hxy), k, lt_of_vsetAt (by simp) hk, hk⟩
  obtain ⟨i0, w0, g1, -, g3, -⟩ := oldest_exists (t := K.length) (hpos 0 h1)
  have hw0 : w0 < n := (hv w0).1 ((has_iff_at (by simp)).2 ⟨i0, g1⟩)
  have hset : ((merges K p).map Prod.fst).toFinset = ((range n).erase w0).image pos := by
    ext i
    simp only [List.mem_toFinset, List.mem_map, mem_image, mem_erase, mem_range]
    constructor
    · rintro ⟨ij, h, rfl⟩
      obtain ⟨d0, hpp⟩ := (mem_merges hK hn hp).1 h
      obtain ⟨v, hvv⟩ := (dimAt_zero_iff hw).1 ⟨((pairFacts hK hn).lt _ _ hpp).1, d0⟩
      have hvn : v < n := (hv v).1 ((has_iff_at (by simp)).2 ⟨_, hvv⟩)
      refine ⟨v, ⟨?_, hvn⟩, vsetAt_unique hw (by simp) (hpos v hvn) hvv⟩
      rintro rfl
      have e := vsetAt_unique hw (by simp) g1 hvv
      rw [e] at g3
      exact ((unpaired_vertex_iff hK hn hvv).2 g3).2 ij.2 |>.1 hpp
    · rintro ⟨v, ⟨hne, hvn⟩, rfl⟩
      have hnot : ¬ OldestAt K K.length (pos v) := by
        intro ho
        obtain ⟨x, hx, ho⟩ := ho
        rw [hpos v hvn] at hx
        cases singleton_injective hx
        obtain ⟨y, hy, ho'⟩ := g3
        rw [g1] at hy
        cases singleton_injective hy
        have e1 := ho i0 w0 g1 (hjoin v hvn w0 hw0)
        have e2 := ho' (pos v) v (hpos v hvn) (hjoin w0 hw0 v hvn)
        have : i0 = pos v := by omega
        rw [this, hpos v hvn] at g1
        exact hne (singleton_injective g1)
      rw [← unpaired_vertex_iff hK hn (hpos v hvn)] at hnot
      have hlt : pos v < K.length := lt_of_vsetAt (by simp) (hpos v hvn)
      have : ∃ j, PersPair (facets K) (pos v) j ∨ PersPair (facets K) j (pos v) := by
        by_contra hno
        push Not at hno
        exact hnot ⟨hlt, fun j => ⟨(hno j).1, (hno j).2⟩⟩
      obtain ⟨j, hj | hj⟩ := this
      · exact ⟨(pos v, j), (mem_merges hK hn hp).2 ⟨((dimAt_zero_iff hw).2 ⟨v, hpos v hvn⟩).2, hj⟩, rfl⟩
      · have e := ((pairFacts hK hn).lt _ _ hj).2.2
        have := ((dimAt_zero_iff hw).2 ⟨v, hpos v hvn⟩).2
        omega
  have hc := List.toFinset_card_of_nodup (nodup_merges_fst hK hn hp)
  rw [hset, card_image_of_injOn, card_erase_of_mem (mem_range.2 hw0), card_range, List.length_map] at hc
  · unfold tree
    rw [List.length_map]
    omega
  · intro a ha b hb hab
    have ha' : a < n := by simpa using (mem_erase.1 (mem_coe.1 ha)).2
    have hb' : b < n := by simpa using (mem_erase.1 (mem_coe.1 hb)).2
    have := hpos a ha'
    rw [show pos a = pos b from hab, hpos b hb'] at this
    exact (singleton_injective this).symm

/-- The edges that destroy components form a spanning tree. -/
theorem tree_spanning (hK : IsFiltration K) (hn : K.length ≤ idxMax) {inc : Bool} (hp : IsComplexPairing K inc p) (h1 : 1 ≤ n)
    (hv : ∀ v, Has K {v} ↔ v < n) (he : ∀ u v, u < v → (Has K {u, v} ↔ G u v)) (hG : ∀ u v, G u v → u < v)
    (hc : ∀ a < n, ∀ b < n, Relation.EqvGen G a b) : SpanningTree n G (tree K p) := by
  have hw := hK.wf
  have hedge : ∀ ij ∈ merges K p, (edgeAt K ij.2).1 < (edgeAt K ij.2).2 ∧ vsetAt K ij.2 = {(edgeAt K ij.2).1, (edgeAt K ij.2).2} := by
    intro ij h
    obtain ⟨d0, hpp⟩ := (mem_merges hK hn hp).1 h
    have hd := ((pairFacts hK hn).lt _ _ hpp).2.2
    refine (edgeAt_spec hw (k := ij.2)).resolve_right fun hno => hno.2 ?_
    have : dimAt K ij.2 = 1 := by omega
    unfold dimAt at this
    omega
  refine ⟨?_, ?_, length_tree hK hn hp h1 hv he hG hc, ?_⟩
  · intro e hmem
    obtain ⟨ij, h, rfl⟩ := List.mem_map.1 hmem
    obtain ⟨g1, g2⟩ := hedge ij h
    exact (he _ _ g1).1 ((has_iff_at (by simp)).2 ⟨ij.2, g2⟩)
  · have hnd := nodup_merges hK hn hp
    unfold tree
    rw [show (fun ij : ℕ × ℕ => edgeAt K ij.2) = edgeAt K ∘ Prod.snd from rfl, ← List.map_map]
    refine List.Nodup.map_on ?_ hnd
    intro j hj j' hj' hjj
    obtain ⟨ij, h, rfl⟩ := List.mem_map.1 hj
    obtain ⟨ij', h', rfl⟩ := List.mem_map.1 hj'
    have g := (hedge ij h).2
    have g' := (hedge ij' h').2
    rw [hjj, ← g'] at g
    exact vsetAt_unique hw ⟨(edgeAt K ij'.2).1, by rw [g']; simp⟩ g rfl
  · intro a ha b hb
    have hsel : ∀ k < K.length, Relation.EqvGen (fun a b => (a, b) ∈ tree K p) (edgeAt K k).1 (edgeAt K k).2 := by
      intro k hk
      refine eqvGen_congr ?_ (conn_selection (E := edgeAt K) K.length hk)
      rintro x y ⟨j, hj, e⟩
      rw [mem_coe, ← toFinset_merges hK hn hp, List.mem_toFinset, List.mem_map] at hj
      obtain ⟨ij, h, rfl⟩ := hj
      exact .rel _ _ (List.mem_map.2 ⟨ij, h, e⟩)
    refine eqvGen_congr ?_ (hc a ha b hb)
    intro x y hxy
    obtain ⟨k, hk⟩ := (has_iff_at (by simp)).1 ((he x y (hG x y hxy)).2 hxy)
    have := hsel k (lt_of_vsetAt (by simp) hk)
    rw [edgeAt_eq hw (hG x y hxy) hk] at this
    exact this

/-- Any other spanning tree consists of edges of the complex, and is compared with the selection by positions. -/
theorem tree_positions (hK : IsFiltration K) (hn : K.length ≤ idxMax) {inc : Bool} (hp : IsComplexPairing K inc p)
    (he : ∀ u v, u < v → (Has K {u, v} ↔ G u v)) (hG : ∀ u v, G u v → u < v) {T' : List (ℕ × ℕ)} (hv : ∀ v, Has K {v} ↔ v < n)
    (hT' : SpanningTree n G T') :
    ∃ S : List ℕ, S.Nodup ∧ S.map (edgeAt K) = T' ∧ (∀ j ∈ S, j < K.length) ∧
      ∀ t, #{j ∈ ((merges K p).map Prod.snd).toFinset | t ≤ j} ≤ #{j ∈ S.toFinset | t ≤ j} := by
  have hw := hK.wf
  have hpos : ∀ e : ℕ × ℕ, e ∈ T' → ∃ k, vsetAt K k = {e.1, e.2} := fun e h => (has_iff_at (by simp)).1 ((he e.1 e.2 (hG _ _ (hT'.edges e h))).2 (hT'.edges e h))
  choose! pos hpos using hpos
  have hback : ∀ e ∈ T', edgeAt K (pos e) = e := fun e h => edgeAt_eq hw (hG _ _ (hT'.edges e h)) (hpos e h)
  have hmap : (T'.map pos).map (edgeAt K) = T' := by
    rw [List.map_map]
    conv_rhs => rw [← List.map_id T']
    exact List.map_congr_left fun e h => hback e h
  refine ⟨T'.map pos, ?_, hmap, ?_, ?_⟩
  · refine List.Nodup.map_on ?_ hT'.nodup
    intro e h e' h' hee
    rw [← hback e h, ← hback e' h', hee]
  · intro j hj
    obtain ⟨e, h, rfl⟩ := List.mem_map.1 hj
    exact lt_of_vsetAt (by simp) (hpos e h)
  · intro t
    rw [toFinset_merges hK hn hp]
    refine card_selection_le (fun k hk => ?_) t
    rcases edgeAt_spec hw (k := k) with ⟨g1, g2⟩ | ⟨g1, -⟩
    · have hlt : ∀ v ∈ vsetAt K k, v < n := by
        intro v hvk
        obtain ⟨i, hi⟩ := exists_pos hK.closed hvk
        exact (hv v).1 ((has_iff_at (by simp)).2 ⟨i, hi⟩)
      have := hT'.connected _ (hlt (edgeAt K k).1 (by rw [g2]; simp)) _ (hlt (edgeAt K k).2 (by rw [g2]; simp))
      refine eqvGen_congr ?_ this
      intro x y hxy
      refine .rel _ _ ⟨pos (x, y), ?_, hback _ hxy⟩
      rw [mem_coe, List.mem_toFinset]
      exact List.mem_map_of_mem hxy
    · rw [g1]
      exact .refl _

theorem length_filter_eq_card {l : List ℕ} (h : l.Nodup) (q : ℕ → Prop) [DecidablePred q] : (l.filter fun j => q j).length = #{j ∈ l.toFinset | q j} := by
  rw [← List.toFinset_card_of_nodup (h.filter _)]
  congr 1
  ext j
  simp

variable [LinearOrder α]

theorem data_mono {inf : α} (hs : K.Pairwise fun s t => s.data ≤ t.data) {i j : ℕ} (hij : i ≤ j) (hj : j < K.length) : dataD inf K i ≤ dataD inf K j := by
  rcases hij.eq_or_lt with rfl | h
  · exact le_rfl
  · simp only [dataD, List.getElem?_eq_getElem (show i < K.length by omega), List.getElem?_eq_getElem hj]
    exact List.pairwise_iff_getElem.1 hs i j (by omega) hj h

/-- The threshold version of minimality. -/
theorem tree_bottleneck (hK : IsFiltration K) (hn : K.length ≤ idxMax) {f : ℕ → α} (hs : ∀ i j, i ≤ j → j < K.length → f i ≤ f j) {inc : Bool}
    (hp : IsComplexPairing K inc p) (h1 : 1 ≤ n)
    (hv : ∀ v, Has K {v} ↔ v < n) (he : ∀ u v, u < v → (Has K {u, v} ↔ G u v)) (hG : ∀ u v, G u v → u < v)
    (hc : ∀ a < n, ∀ b < n, Relation.EqvGen G a b) {w : ℕ → ℕ → α}
    (hd : ∀ k u v, u < v → vsetAt K k = {u, v} → f k = w u v) : BottleneckSpanningTree n G w (tree K p) := by
  have hw := hK.wf
  have hT := tree_spanning hK hn hp h1 hv he hG hc
  refine ⟨hT, fun T' hT' x => ?_⟩
  obtain ⟨S, g1, g2, g3, g4⟩ := tree_positions hK hn hp he hG hv hT'
  have hdata : ∀ j, (edgeAt K j).1 < (edgeAt K j).2 → w (edgeAt K j).1 (edgeAt K j).2 = f j := by
    intro j hj
    rcases edgeAt_spec hw (k := j) with ⟨k1, k2⟩ | ⟨k1, -⟩
    · exact (hd j _ _ k1 k2).symm
    · rw [k1] at hj
      exact absurd hj (lt_irrefl _)
  have hfil : ∀ (J : List ℕ), J.Nodup → (∀ e ∈ J.map (edgeAt K), e.1 < e.2) →
      ((J.map (edgeAt K)).filter fun e => x < w e.1 e.2).length = #{j ∈ J.toFinset | x < f j} := by
    intro J hJ hlt
    rw [List.filter_map, List.length_map, ← length_filter_eq_card hJ]
    congr 1
    refine List.filter_congr fun j hj => ?_
    simp only [Function.comp]
    rw [hdata j (hlt _ (List.mem_map_of_mem hj))]
  have e1 : (tree K p) = ((merges K p).map Prod.snd).map (edgeAt K) := by
    unfold tree
    rw [List.map_map]
    rfl
  rw [e1, ← g2, hfil _ (nodup_merges hK hn hp) (by rw [← e1]; exact fun e h => hG _ _ (hT.edges e h)),
    hfil S g1 (by rw [g2]; exact fun e h => hG _ _ (hT'.edges e h))]
  have hlt : ∀ j ∈ ((merges K p).map Prod.snd).toFinset, j < K.length := by
    intro j hj
    rw [toFinset_merges hK hn hp] at hj
    exact (mem_selection.1 hj).1
  by_cases hex : ∃ t < K.length, x < f t
  · classical
    have hspec := Nat.find_spec hex
    have hiff : ∀ j < K.length, (x < f j ↔ Nat.find hex ≤ j) := by
      intro j hj
      exact ⟨fun h => Nat.find_min' hex ⟨hj, h⟩, fun h => lt_of_lt_of_le hspec.2 (hs _ _ h hj)⟩
    have := g4 (Nat.find hex)
    rw [filter_congr fun j hj => hiff j (hlt j hj), filter_congr fun j hj => hiff j (g3 j (List.mem_toFinset.1 hj))]
    exact this
  · have : ({j ∈ ((merges K p).map Prod.snd).toFinset | x < f j}) = ∅ := by
      rw [filter_eq_empty_iff]
      exact fun j hj h => hex ⟨j, hlt j hj, h⟩
    rw [this]
    simp

/-- The edges that destroy components form a minimum spanning tree. -/
theorem tree_minimum [AddCommGroup α] [IsOrderedAddMonoid α] (hK : IsFiltration K) (hn : K.length ≤ idxMax)
    {f : ℕ → α} (hs : ∀ i j, i ≤ j → j < K.length → f i ≤ f j) {inc : Bool} (hp : IsComplexPairing K inc p) (h1 : 1 ≤ n)
    (hv : ∀ v, Has K {v} ↔ v < n) (he : ∀ u v, u < v → (Has K {u, v} ↔ G u v)) (hG : ∀ u v, G u v → u < v)
    (hc : ∀ a < n, ∀ b < n, Relation.EqvGen G a b) {w : ℕ → ℕ → α}
    (hd : ∀ k u v, u < v → vsetAt K k = {u, v} → f k = w u v) : MinimumSpanningTree n G w (tree K p) := by
  have hw := hK.wf
  have hT := tree_spanning hK hn hp h1 hv he hG hc
  refine ⟨hT, fun T' hT' => ?_⟩
  obtain ⟨S, g1, g2, g3, g4⟩ := tree_positions hK hn hp he hG hv hT'
  have hdata : ∀ j, (edgeAt K j).1 < (edgeAt K j).2 → w (edgeAt K j).1 (edgeAt K j).2 = f j := by
    intro j hj
    rcases edgeAt_spec hw (k := j) with ⟨k1, k2⟩ | ⟨k1, -⟩
    · exact (hd j _ _ k1 k2).symm
    · rw [k1] at hj
      exact absurd hj (lt_irrefl _)
  have hsum : ∀ (J : List ℕ), J.Nodup → (∀ e ∈ J.map (edgeAt K), e.1 < e.2) →
      ((J.map (edgeAt K)).map fun e => w e.1 e.2).sum = ∑ j ∈ J.toFinset, f j := by
    intro J hJ hlt
    rw [List.map_map, List.sum_toFinset _ hJ]
    congr 1
    exact List.map_congr_left fun j hj => hdata j (hlt _ (List.mem_map_of_mem hj))
  have e1 : (tree K p) = ((merges K p).map Prod.snd).map (edgeAt K) := by
    unfold tree
    rw [List.map_map]
    rfl
  rw [e1, ← g2, hsum _ (nodup_merges hK hn hp) (by rw [← e1]; exact fun e h => hG _ _ (hT.edges e h)),
    hsum S g1 (by rw [g2]; exact fun e h => hG _ _ (hT'.edges e h))]
  refine sum_le_of_count (n := K.length) (fun i j hij hj => hs i j hij hj) ?_ (fun j hj => g3 j (List.mem_toFinset.1 hj)) ?_ g4
  · intro j hj
    rw [toFinset_merges hK hn hp] at hj
    exact (mem_selection.1 hj).1
  · rw [List.toFinset_card_of_nodup (nodup_merges hK hn hp), List.toFinset_card_of_nodup g1]
    have l1 := hT.size
    have l2 := hT'.size
    rw [e1, List.length_map] at l1
    rw [← g2, List.length_map] at l2
    omega

end Aleph.SpanningTree
