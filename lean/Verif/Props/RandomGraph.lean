import Verif.Model.RandomGraph
import Verif.Spec.RandomGraph
import Verif.Lemmas.Filtration
import Verif.Lemmas.Rips
import Mathlib.Tactic.Linarith
import Mathlib.Tactic.Tauto
import Mathlib.Data.Finset.Card
import Mathlib.Data.Real.Basic

/-!
# Properties of random graphs
-/

namespace Aleph.RandomGraph

open Spec

variable {α β : Type}

section Pairs

/-- All pairs in the order of the two loops. -/
def pairList (n : ℕ) : List (ℕ × ℕ) := (List.range n).flatMap fun u => (others n u).map fun v => (u, v)

theorem mem_others {n u v : ℕ} : v ∈ others n u ↔ u < v ∧ v < n := by
  unfold others
  rw [List.mem_range'_1]
  omega

theorem mem_pairList {n : ℕ} {q : ℕ × ℕ} : q ∈ pairList n ↔ q.1 < q.2 ∧ q.2 < n := by
  unfold pairList
  rw [List.mem_flatMap]
  constructor
  · rintro ⟨u, _, h⟩
    obtain ⟨v, hv, rfl⟩ := List.mem_map.1 h
    exact mem_others.1 hv
  · intro h
    exact ⟨q.1, List.mem_range.2 (by omega), List.mem_map.2 ⟨q.2, mem_others.2 h, rfl⟩⟩

/-- The lexicographic order of pairs. -/
def Before (q r : ℕ × ℕ) : Prop := q.1 < r.1 ∨ q.1 = r.1 ∧ q.2 < r.2

instance (q r : ℕ × ℕ) : Decidable (Before q r) := by unfold Before; infer_instance

theorem pairList_sorted (n : ℕ) : (pairList n).Pairwise Before := by
  unfold pairList
  rw [List.pairwise_flatMap]
  constructor
  · intro u _
    rw [List.pairwise_map]
    unfold others
    refine List.Pairwise.imp ?_ (List.pairwise_lt_range' (s := u + 1) (n := n - (u + 1)))
    intro a b h
    exact Or.inr ⟨rfl, h⟩
  · refine List.pairwise_lt_range.imp ?_
    intro a b h x hx y hy
    obtain ⟨_, _, rfl⟩ := List.mem_map.1 hx
    obtain ⟨_, _, rfl⟩ := List.mem_map.1 hy
    exact Or.inl h

theorem Before.irrefl (q : ℕ × ℕ) : ¬Before q q := by
  unfold Before; omega

theorem Before.asymm {q r : ℕ × ℕ} (h : Before q r) : ¬Before r q := by
  unfold Before at *; omega

theorem Before.ne {q r : ℕ × ℕ} (h : Before q r) : q ≠ r := fun e => Before.irrefl q (e ▸ h)

theorem pairList_nodup (n : ℕ) : (pairList n).Nodup :=
  (pairList_sorted n).imp Before.ne

theorem card_below {l : List (ℕ × ℕ)} (h : l.Pairwise Before) {i : ℕ} {x : ℕ × ℕ} (hi : l[i]? = some x) :
    (l.toFinset.filter fun y => Before y x).card = i := by
  obtain ⟨hi', hx⟩ := List.getElem?_eq_some_iff.1 hi
  have hl : l = l.take i ++ x :: l.drop (i + 1) := by
    rw [← hx, ← List.drop_eq_getElem_cons hi', List.take_append_drop]
  rw [hl, List.pairwise_append, List.pairwise_cons] at h
  obtain ⟨h1, ⟨h2, _⟩, h3⟩ := h
  have : (l.toFinset.filter fun y => Before y x) = (l.take i).toFinset := by
    ext y
    rw [Finset.mem_filter, List.mem_toFinset, List.mem_toFinset]
    constructor
    · rintro ⟨hy, hb⟩
      rw [hl, List.mem_append, List.mem_cons] at hy
      rcases hy with hy | hy | hy
      · exact hy
      · exact absurd (hy ▸ hb) (Before.irrefl _)
      · exact absurd hb (h2 y hy).asymm
    · intro hy
      exact ⟨List.mem_of_mem_take hy, h3 y hy x (by simp)⟩
  rw [this, List.toFinset_card_of_nodup (h1.imp Before.ne), List.length_take]
  omega

theorem vertexPairs_eq (n : ℕ) : vertexPairs n = (pairList n).toFinset := by
  ext q
  rw [List.mem_toFinset, mem_pairList]
  unfold vertexPairs
  rw [Finset.mem_filter, Finset.mem_product, Finset.mem_range, Finset.mem_range]
  omega

theorem length_pairList (n : ℕ) : (pairList n).length = (vertexPairs n).card := by
  rw [vertexPairs_eq, List.toFinset_card_of_nodup (pairList_nodup n)]

/-- The pair `(u, v)` is at position `pairRank n u v`. -/
theorem getElem_pairList {n i u v : ℕ} (h : (pairList n)[i]? = some (u, v)) : pairRank n u v = i := by
  unfold pairRank
  rw [vertexPairs_eq]
  exact card_below (pairList_sorted n) h

theorem pairList_rank {n u v : ℕ} (h : u < v) (hv : v < n) : (pairList n)[pairRank n u v]? = some (u, v) := by
  obtain ⟨i, hi⟩ := List.mem_iff_getElem?.1 (mem_pairList.2 ⟨h, hv⟩ : (u, v) ∈ pairList n)
  rw [getElem_pairList hi, hi]

theorem pairRank_lt {n u v : ℕ} (h : u < v) (hv : v < n) : pairRank n u v < (vertexPairs n).card := by
  rw [← length_pairList]
  exact (List.getElem?_eq_some_iff.1 (pairList_rank h hv)).1

theorem pairRank_inj {n u v u' v' : ℕ} (h : u < v) (hv : v < n) (h' : u' < v') (hv' : v' < n) (e : pairRank n u v = pairRank n u' v') :
    u = u' ∧ v = v' := by
  have h1 := pairList_rank h hv
  rw [e, pairList_rank h' hv'] at h1
  have := Option.some.inj h1
  exact ⟨(congrArg Prod.fst this).symm, (congrArg Prod.snd this).symm⟩

end Pairs

section Graph

theorem ofRange_pair {u v : ℕ} (h : u < v) (d : α) : Simplex.ofRange [u, v] d = ⟨[v, u], d⟩ := by
  have : ¬u ≥ v := by omega
  have h2 : v ≠ u := by omega
  simp [Simplex.ofRange, List.insertionSort, List.orderedInsert, this, uniq, h2]

/-- The vertices and the edges with weights `w`. -/
def simplices (n : ℕ) (z : α) (w : ℕ → Option α) : List (Simplex α) :=
  (List.range n).map (fun i => Simplex.ofVertex i z) ++
    (pairList n).zipIdx.filterMap fun e => (w e.2).map fun d => Simplex.ofRange [e.1.1, e.1.2] d

theorem mem_simplices {n : ℕ} {z : α} {w : ℕ → Option α} {s : Simplex α} : s ∈ simplices n z w ↔
    (∃ v, v < n ∧ s = ⟨[v], z⟩) ∨ ∃ u v d, u < v ∧ v < n ∧ w (pairRank n u v) = some d ∧ s = ⟨[v, u], d⟩ := by
  unfold simplices
  rw [List.mem_append, List.mem_map, List.mem_filterMap]
  constructor
  · rintro (⟨v, hv, rfl⟩ | ⟨⟨⟨u, v⟩, i⟩, h1, h2⟩)
    · exact Or.inl ⟨v, List.mem_range.1 hv, rfl⟩
    · rw [List.mem_zipIdx_iff_getElem?] at h1
      simp only at h1 h2
      obtain ⟨d, hd, rfl⟩ := Option.map_eq_some_iff.1 h2
      have hm := mem_pairList.1 (List.mem_of_getElem? h1)
      exact Or.inr ⟨u, v, d, hm.1, hm.2, by rw [getElem_pairList h1]; exact hd, ofRange_pair hm.1 d⟩
  · rintro (⟨v, hv, rfl⟩ | ⟨u, v, d, h, hv, hd, rfl⟩)
    · exact Or.inl ⟨v, List.mem_range.2 hv, rfl⟩
    · refine Or.inr ⟨((u, v), pairRank n u v), ?_, ?_⟩
      · rw [List.mem_zipIdx_iff_getElem?]
        exact pairList_rank h hv
      · simp only [hd, Option.map_some, ofRange_pair h]

theorem simplices_facts (n : ℕ) (z : α) (w : ℕ → Option α) : IsGraphOn n (simplices n z w) ∧
    (∀ v < n, HasData (simplices n z w) {v} z) ∧
    ∀ u v d, u < v → v < n → (HasData (simplices n z w) {u, v} d ↔ w (pairRank n u v) = some d) := by
  have hcase : ∀ s ∈ simplices n z w, (∃ v, v < n ∧ s.vset = {v} ∧ s.data = z) ∨
      ∃ u v d, u < v ∧ v < n ∧ w (pairRank n u v) = some d ∧ s.vset = {u, v} ∧ s.data = d := by
    intro s hs
    rcases mem_simplices.1 hs with ⟨v, hv, rfl⟩ | ⟨u, v, d, h, hv, hd, rfl⟩
    · exact Or.inl ⟨v, hv, by simp [Simplex.vset], rfl⟩
    · exact Or.inr ⟨u, v, d, h, hv, hd, by simp [Simplex.vset, Finset.pair_comm], rfl⟩
  have hvert : ∀ v < n, HasData (simplices n z w) {v} z := fun v hv =>
    ⟨_, mem_simplices.2 (Or.inl ⟨v, hv, rfl⟩), by simp [Simplex.vset], rfl⟩
  refine ⟨⟨⟨?_, ?_, ?_⟩, ?_, ?_, ?_, ?_⟩, hvert, ?_⟩
  · intro s hs
    rcases mem_simplices.1 hs with ⟨v, hv, rfl⟩ | ⟨u, v, d, h, hv, hd, rfl⟩
    · simp [Normal]
    · simpa [Normal] using h
  · intro s hs
    rcases mem_simplices.1 hs with ⟨v, hv, rfl⟩ | ⟨u, v, d, h, hv, hd, rfl⟩ <;> simp
  · unfold simplices
    rw [List.map_append, List.nodup_append]
    refine ⟨?_, ?_, ?_⟩
    · rw [List.map_map]
      refine List.Nodup.map ?_ List.nodup_range
      intro a b h
      simpa [Simplex.ofVertex] using h
    · rw [List.map_filterMap, List.Nodup, List.pairwise_filterMap]
      have hz : (pairList n).zipIdx.Pairwise fun a b => a.1 ≠ b.1 := by
        have := pairList_nodup n
        rw [← List.zipIdx_map_fst 0 (pairList n), List.Nodup, List.pairwise_map] at this
        exact this
      refine hz.imp_of_mem ?_
      intro a b ha hb hab x hx y hy hxy
      simp only [Option.map_map, Option.map_eq_some_iff, Function.comp_apply] at hx hy
      obtain ⟨d, _, rfl⟩ := hx
      obtain ⟨d', _, rfl⟩ := hy
      have h1 := (mem_pairList.1 (List.fst_mem_of_mem_zipIdx ha)).1
      have h2 := (mem_pairList.1 (List.fst_mem_of_mem_zipIdx hb)).1
      rw [ofRange_pair h1, ofRange_pair h2] at hxy
      simp only [List.cons.injEq, and_true] at hxy
      exact hab (Prod.ext hxy.2 hxy.1)
    · intro a ha b hb hab
      obtain ⟨x, hx, rfl⟩ := List.mem_map.1 ha
      obtain ⟨y, hy, rfl⟩ := List.mem_map.1 hb
      obtain ⟨i, _, rfl⟩ := List.mem_map.1 hx
      obtain ⟨e, he, he2⟩ := List.mem_filterMap.1 hy
      obtain ⟨d, _, rfl⟩ := Option.map_eq_some_iff.1 he2
      rw [ofRange_pair (mem_pairList.1 (List.fst_mem_of_mem_zipIdx he)).1] at hab
      simp [Simplex.ofVertex] at hab
  · intro s hs t ht hne
    rcases hcase s hs with ⟨v, hv, h, _⟩ | ⟨u, v, d, huv, hv, hd, h, _⟩
    · rw [h, Finset.subset_singleton_iff] at ht
      rcases ht with rfl | rfl
      · simp at hne
      · exact ⟨s, hs, h⟩
    · by_cases hu' : u ∈ t <;> by_cases hv' : v ∈ t
      · refine ⟨s, hs, h.trans (Finset.Subset.antisymm ?_ (h ▸ ht))⟩
        intro x hx
        rcases Finset.mem_insert.1 hx with rfl | hx
        · exact hu'
        · exact Finset.mem_singleton.1 hx ▸ hv'
      · obtain ⟨x, hx, hx2, _⟩ := hvert u (by omega)
        refine ⟨x, hx, hx2.trans ?_⟩
        ext y
        have := @ht y
        rw [h, Finset.mem_insert, Finset.mem_singleton] at this
        rw [Finset.mem_singleton]
        constructor
        · rintro rfl; exact hu'
        · intro hy
          rcases this hy with rfl | rfl
          · rfl
          · exact absurd hy hv'
      · obtain ⟨x, hx, hx2, _⟩ := hvert v hv
        refine ⟨x, hx, hx2.trans ?_⟩
        ext y
        have := @ht y
        rw [h, Finset.mem_insert, Finset.mem_singleton] at this
        rw [Finset.mem_singleton]
        constructor
        · rintro rfl; exact hv'
        · intro hy
          rcases this hy with rfl | rfl
          · exact absurd hy hu'
          · rfl
      · obtain ⟨y, hy⟩ := hne
        have := ht hy
        rw [h, Finset.mem_insert, Finset.mem_singleton] at this
        rcases this with rfl | rfl
        · exact absurd hy hu'
        · exact absurd hy hv'
  · unfold FacesFirst simplices
    rw [List.pairwise_append]
    have hV : ∀ s ∈ (List.range n).map (fun i => Simplex.ofVertex i z), s.vset.card = 1 := by
      intro s hs
      obtain ⟨i, _, rfl⟩ := List.mem_map.1 hs
      simp [Simplex.vset, Simplex.ofVertex]
    have hE : ∀ s ∈ (pairList n).zipIdx.filterMap fun e => (w e.2).map fun d => Simplex.ofRange [e.1.1, e.1.2] d, s.vset.card = 2 := by
      intro s hs
      obtain ⟨e, he, he2⟩ := List.mem_filterMap.1 hs
      obtain ⟨d, _, rfl⟩ := Option.map_eq_some_iff.1 he2
      have hlt := (mem_pairList.1 (List.fst_mem_of_mem_zipIdx he)).1
      rw [ofRange_pair hlt]
      have : e.1.2 ≠ e.1.1 := by omega
      simp [Simplex.vset, Finset.card_pair this]
    refine ⟨?_, ?_, ?_⟩
    · refine List.pairwise_of_forall_mem_list ?_
      intro s hs t ht h
      have := Finset.card_lt_card h
      rw [hV s hs, hV t ht] at this
      omega
    · refine List.pairwise_of_forall_mem_list ?_
      intro s hs t ht h
      have := Finset.card_lt_card h
      rw [hE s hs, hE t ht] at this
      omega
    · intro s hs t ht h
      have := Finset.card_lt_card h
      rw [hV s hs, hE t ht] at this
      omega
  · intro s hs
    rcases hcase s hs with ⟨v, hv, h, _⟩ | ⟨u, v, d, huv, hv, hd, h, _⟩
    · rw [h]; simp
    · rw [h]; exact Finset.card_le_two
  · intro v
    constructor
    · rintro ⟨s, hs, h⟩
      rcases hcase s hs with ⟨v', hv, h', _⟩ | ⟨u, v', d, huv, hv, hd, h', _⟩
      · rw [h, Finset.singleton_inj] at h'
        omega
      · have h2 : u ∈ s.vset := by rw [h']; simp
        have h3 : v' ∈ s.vset := by rw [h']; simp
        rw [h, Finset.mem_singleton] at h2 h3
        omega
    · intro hv
      obtain ⟨s, hs, h, _⟩ := hvert v hv
      exact ⟨s, hs, h⟩
  · intro u v d huv hv
    constructor
    · rintro ⟨s, hs, h, hd⟩
      rcases hcase s hs with ⟨v', hv', h', _⟩ | ⟨u', v', d', huv', hv', hd', h', hdd⟩
      · have h2 : u ∈ s.vset := by rw [h]; simp
        have h3 : v ∈ s.vset := by rw [h]; simp
        rw [h', Finset.mem_singleton] at h2 h3
        omega
      · have h2 : u ∈ s.vset := by rw [h]; simp
        have h3 : v ∈ s.vset := by rw [h]; simp
        rw [h', Finset.mem_insert, Finset.mem_singleton] at h2 h3
        have e1 : u = u' := by omega
        have e2 : v = v' := by omega
        rw [e1, e2, hd', ← hdd, hd]
    · intro h
      exact ⟨_, mem_simplices.2 (Or.inr ⟨u, v, d, huv, hv, h, rfl⟩), by simp [Simplex.vset, Finset.pair_comm], rfl⟩

theorem IsGraphOn.insertRange {n : ℕ} {K : Complex α} (h : IsGraphOn n K) : Complex.insertRange [] K = (K, false) :=
  insertRange_nodup [] K h.wf.nonempty (by simpa using h.wf.distinct)

end Graph

section ErdosRenyi

variable [LinearOrder β]

theorem rows_eq (draw : ℕ → β) (p : β) (f : ℕ → List ℕ) (us : List ℕ) (st : ℕ × List (Simplex ℤ)) :
    us.foldl (fun st u => rowLoop draw p u st (f u)) st =
      (us.flatMap fun u => (f u).map fun v => (u, v)).foldl (fun st q =>
        if draw st.1 < p then (st.1 + 1, st.2 ++ [Simplex.ofRange [q.1, q.2] 0]) else (st.1 + 1, st.2)) st := by
  induction us generalizing st with
  | nil => rfl
  | cons u us ih =>
    rw [List.foldl_cons, ih, List.flatMap_cons, List.foldl_append, List.foldl_map]
    rfl

theorem pairs_loop (draw : ℕ → β) (p : β) (l : List (ℕ × ℕ)) (t : ℕ) (S : List (Simplex ℤ)) :
    l.foldl (fun st q =>
        if draw st.1 < p then (st.1 + 1, st.2 ++ [Simplex.ofRange [q.1, q.2] 0]) else (st.1 + 1, st.2)) (t, S) =
      (t + l.length, S ++ (l.zipIdx t).filterMap fun e =>
        (if draw e.2 < p then some (0 : ℤ) else none).map fun d => Simplex.ofRange [e.1.1, e.1.2] d) := by
  induction l generalizing t S with
  | nil => simp
  | cons q l ih =>
    rw [List.foldl_cons, List.zipIdx_cons, List.length_cons]
    by_cases h : draw t < p
    · rw [if_pos h, ih, List.filterMap_cons_some (b := Simplex.ofRange [q.1, q.2] 0) (by simp [h]), List.append_assoc,
        List.singleton_append, Nat.add_right_comm, Nat.add_assoc]
    · rw [if_neg h, ih, List.filterMap_cons_none (by simp [h]), Nat.add_right_comm, Nat.add_assoc]

theorem erdosRenyi_eq (draw : ℕ → β) (n : ℕ) (p : β) :
    erdosRenyi draw n p = simplices n 0 fun i => if draw i < p then some 0 else none := by
  unfold erdosRenyi
  simp only
  rw [rows_eq, pairs_loop]
  have := IsGraphOn.insertRange (simplices_facts n (0 : ℤ) fun i => if draw i < p then some 0 else none).1
  unfold simplices pairList at this ⊢
  rw [this]

/-- C88. The graph has all vertices, and an edge if and only if the random number for this pair of vertices is below the probability; the
random numbers for different pairs are different members of the sequence. -/
theorem _root_.Aleph.C88_erdos_renyi (draw : ℕ → β) (n : ℕ) (p : β) :
    IsGraphOn n (erdosRenyi draw n p) ∧
    (∀ u v, u < v → v < n → (Has (erdosRenyi draw n p) {u, v} ↔ draw (pairRank n u v) < p)) ∧
    (∀ s ∈ erdosRenyi draw n p, s.data = 0) ∧
    ∀ u v u' v', u < v → v < n → u' < v' → v' < n → pairRank n u v = pairRank n u' v' → u = u' ∧ v = v' := by
  rw [erdosRenyi_eq]
  obtain ⟨h1, h2, h3⟩ := simplices_facts n (0 : ℤ) fun i => if draw i < p then some 0 else none
  have hd : ∀ s ∈ simplices n (0 : ℤ) (fun i => if draw i < p then some 0 else none), s.data = 0 := by
    intro s hs
    rcases mem_simplices.1 hs with ⟨v, hv, rfl⟩ | ⟨u, v, d, huv, hv, hd, rfl⟩
    · rfl
    · split_ifs at hd
      simpa using hd.symm
  refine ⟨h1, ?_, hd, fun u v u' v' h hv h' hv' => pairRank_inj h hv h' hv'⟩
  intro u v huv hv
  have := h3 u v 0 huv hv
  constructor
  · rintro ⟨s, hs, h⟩
    have h4 := this.1 ⟨s, hs, h, hd s hs⟩
    by_contra hc
    rw [if_neg hc] at h4
    cases h4
  · intro h
    obtain ⟨s, hs, h, _⟩ := this.2 (by rw [if_pos h])
    exact ⟨s, hs, h⟩

/-- C88. Every graph can occur if the probability is attained by the random numbers, and only the graph without edges or the complete graph if
all or none of them are below the probability. -/
theorem _root_.Aleph.C88_all_graphs (n : ℕ) (p lo hi : β) (hlo : lo < p) (hhi : p ≤ hi) (E : ℕ → ℕ → Prop) :
    (∃ draw : ℕ → β, (∀ t, draw t = lo ∨ draw t = hi) ∧ ∀ u v, u < v → v < n → (Has (erdosRenyi draw n p) {u, v} ↔ E u v)) ∧
    (∀ draw : ℕ → β, (∀ t, draw t < p) → ∀ u v, u < v → v < n → Has (erdosRenyi draw n p) {u, v}) ∧
    (∀ draw : ℕ → β, (∀ t, p ≤ draw t) → ∀ u v, u < v → v < n → ¬Has (erdosRenyi draw n p) {u, v}) := by
  classical
  refine ⟨?_, ?_, ?_⟩
  · refine ⟨fun t => if ∃ u v, u < v ∧ v < n ∧ pairRank n u v = t ∧ E u v then lo else hi, ?_, ?_⟩
    · intro t
      by_cases h : ∃ u v, u < v ∧ v < n ∧ pairRank n u v = t ∧ E u v
      · exact Or.inl (if_pos h)
      · exact Or.inr (if_neg h)
    · intro u v huv hv
      rw [(C88_erdos_renyi _ n p).2.1 u v huv hv]
      by_cases h : ∃ u' v', u' < v' ∧ v' < n ∧ pairRank n u' v' = pairRank n u v ∧ E u' v'
      · simp only [if_pos h, hlo, true_iff]
        obtain ⟨u', v', h1, h2, h3, h4⟩ := h
        obtain ⟨rfl, rfl⟩ := pairRank_inj h1 h2 huv hv h3
        exact h4
      · simp only [if_neg h, not_lt.2 hhi, false_iff]
        exact fun hE => h ⟨u, v, huv, hv, rfl, hE⟩
  · intro draw h u v huv hv
    exact ((C88_erdos_renyi draw n p).2.1 u v huv hv).2 (h _)
  · intro draw h u v huv hv hh
    exact absurd (((C88_erdos_renyi draw n p).2.1 u v huv hv).1 hh) (not_lt.2 (h _))

end ErdosRenyi

section Weighted

variable [LinearOrder β]

theorem trials_spec (draw : ℕ → β) (p : β) (k fuel t w : ℕ) (hs : ∀ j < k, draw (t + j) < p) (hf : ¬draw (t + k) < p) (h : k < fuel) :
    trials draw p fuel t w = some (t + k + 1, w + k) := by
  induction k generalizing fuel t w with
  | zero =>
    obtain ⟨fuel, rfl⟩ := Nat.exists_eq_succ_of_ne_zero (show fuel ≠ 0 by omega)
    rw [trials, if_neg (by simpa using hf)]
    rfl
  | succ k ih =>
    obtain ⟨fuel, rfl⟩ := Nat.exists_eq_succ_of_ne_zero (show fuel ≠ 0 by omega)
    rw [trials, if_pos (by simpa using hs 0 (by omega)), ih]
    · rw [show t + 1 + k + 1 = t + (k + 1) + 1 by omega, show w + 1 + k = w + (k + 1) by omega]
    · intro j hj
      rw [show t + 1 + j = t + (j + 1) by omega]
      exact hs _ (by omega)
    · rwa [show t + 1 + k = t + (k + 1) by omega]
    · omega

/-- The number of calls before the failure number `k` is looked for. -/
def start (f : ℕ → ℕ) (k : ℕ) : ℕ := if k = 0 then 0 else f (k - 1) + 1

theorem start_add {draw : ℕ → β} {p : β} {f : ℕ → ℕ} (hf : IsFailureSequence draw p f) (k : ℕ) : start f k + successes f k = f k := by
  unfold start successes
  rcases k with _ | k
  · simp
  · simp only [Nat.add_one_ne_zero, if_false, Nat.add_sub_cancel]
    have := hf.1 (show k < k + 1 by omega)
    omega

theorem trials_failure {draw : ℕ → β} {p : β} {f : ℕ → ℕ} (hf : IsFailureSequence draw p f) (k fuel : ℕ) (h : successes f k < fuel) :
    trials draw p fuel (start f k) 0 = some (start f (k + 1), successes f k) := by
  have hs := start_add hf k
  rw [trials_spec draw p (successes f k) fuel]
  · rw [hs, Nat.zero_add]
    simp [start]
  · intro j hj
    by_contra hc
    obtain ⟨i, hi⟩ := (hf.2 _).2 hc
    have h1 : i < k := by
      apply hf.1.lt_iff_lt.1
      omega
    have h2 : start f k ≤ f i := by omega
    unfold start at h2
    rw [if_neg (by omega)] at h2
    have h3 : f i ≤ f (k - 1) := hf.1.monotone (by omega)
    omega
  · rw [hs]
    exact (hf.2 _).1 ⟨k, rfl⟩
  · exact h

theorem weighted_rows_eq (draw : ℕ → β) (p : β) (fuel : ℕ) (f : ℕ → List ℕ) (us : List ℕ) (st : ℕ × List (Simplex ℕ)) :
    us.foldlM (fun st u => weightedRowLoop draw p fuel u st (f u)) st =
      (us.flatMap fun u => (f u).map fun v => (u, v)).foldlM (fun st q => do
        let (t, w) ← trials draw p fuel st.1 0
        if w ≠ 0 then some (t, st.2 ++ [Simplex.ofRange [q.1, q.2] w]) else some (t, st.2)) st := by
  induction us generalizing st with
  | nil => rfl
  | cons u us ih =>
    rw [List.foldlM_cons, List.flatMap_cons, List.foldlM_append, List.foldlM_map]
    unfold weightedRowLoop at ih ⊢
    congr 1
    funext st
    exact ih st

theorem weighted_loop {draw : ℕ → β} {p : β} {f : ℕ → ℕ} (hf : IsFailureSequence draw p f) (fuel k : ℕ) (l : List (ℕ × ℕ))
    (S : List (Simplex ℕ)) (hfuel : ∀ j, k ≤ j → j < k + l.length → successes f j < fuel) :
    l.foldlM (fun st q => do
        let (t, w) ← trials draw p fuel st.1 0
        if w ≠ 0 then some (t, st.2 ++ [Simplex.ofRange [q.1, q.2] w]) else some (t, st.2)) (start f k, S) =
      some (start f (k + l.length), S ++ (l.zipIdx k).filterMap fun e =>
        (if successes f e.2 ≠ 0 then some (successes f e.2) else none).map fun d => Simplex.ofRange [e.1.1, e.1.2] d) := by
  induction l generalizing k S with
  | nil => simp
  | cons q l ih =>
    rw [List.foldlM_cons]
    simp only
    rw [trials_failure hf k fuel (hfuel k (le_refl _) (by simp))]
    have ih := fun S => ih (k + 1) S fun j h1 h2 => hfuel j (by omega) (by rw [List.length_cons]; omega)
    simp only [Option.bind_eq_bind, Option.bind_some]
    rw [List.zipIdx_cons, List.length_cons]
    by_cases h : successes f k = 0
    · rw [if_neg (by simpa using h), Option.bind_some]
      refine (ih S).trans ?_
      rw [List.filterMap_cons_none (by simp [h]), Nat.add_right_comm, Nat.add_assoc]
    · rw [if_pos h, Option.bind_some]
      refine (ih _).trans ?_
      rw [List.filterMap_cons_some (b := Simplex.ofRange [q.1, q.2] (successes f k)) (by simp [h]), List.append_assoc, List.singleton_append,
        Nat.add_right_comm, Nat.add_assoc]

theorem lt_strictTotal : StrictTotalOn (α := ℕ) Proper (Filtration.data fun a b => decide (a < b)) :=
  data_strictTotal (by simp) (by intro a b c h1 h2; simp at *; omega) (by intro a b h; simp; omega)

/-- C88. The weighted graph: if the sequence of random numbers has infinitely many failures, the weight of each pair of vertices is the number
of successes before its failure, and the pair is joined by an edge if and only if the weight is positive.  The simplices are sorted by weight. -/
theorem _root_.Aleph.C88_weighted (draw : ℕ → β) (n : ℕ) (p : β) (f : ℕ → ℕ) (hf : IsFailureSequence draw p f) :
    ∃ K, (∃ fuel₀, ∀ fuel ≥ fuel₀, weighted draw n p fuel = some K) ∧ IsGraphOn n K ∧
      (∀ v < n, HasData K {v} 0) ∧
      (∀ u v w, u < v → v < n → (HasData K {u, v} w ↔ w = successes f (pairRank n u v) ∧ w ≠ 0)) ∧
      K.Pairwise (fun s t => s.data ≤ t.data) ∧ Spec.Monotone K := by
  set w : ℕ → Option ℕ := fun i => if successes f i ≠ 0 then some (successes f i) else none with hw
  obtain ⟨h1, h2, h3⟩ := simplices_facts n 0 w
  have hprop : ∀ s ∈ simplices n 0 w, Proper s := fun s hs => ⟨h1.wf.normal s hs, h1.wf.nonempty s hs⟩
  have hp := sort_perm (simplices n 0 w) (asLt (Filtration.data fun a b : ℕ => decide (a < b)))
  have hpos : ∀ s ∈ simplices n 0 w, s.vset.card ≠ 1 → s.data ≠ 0 := by
    intro s hs hc
    rcases mem_simplices.1 hs with ⟨v, hv, rfl⟩ | ⟨u, v, d, huv, hv, hd, rfl⟩
    · simp [Simplex.vset] at hc
    · simp only [hw] at hd
      split_ifs at hd with h
      have := Option.some.inj hd
      simpa [← this] using h
  have hzero : ∀ s ∈ simplices n 0 w, s.vset.card = 1 → s.data = 0 := by
    intro s hs hc
    rcases mem_simplices.1 hs with ⟨v, hv, rfl⟩ | ⟨u, v, d, huv, hv, hd, rfl⟩
    · rfl
    · have : v ≠ u := by omega
      simp [Simplex.vset, Finset.card_pair this] at hc
  have hmono : ∀ s ∈ simplices n 0 w, ∀ t ∈ simplices n 0 w, s.vset ⊂ t.vset → s.data < t.data := by
    intro s hs t ht h
    have hc := Finset.card_lt_card h
    have hct := h1.dimension t ht
    have hs1 := (hprop s hs).card_pos
    rw [hzero s hs (by omega)]
    exact Nat.pos_of_ne_zero (hpos t ht (by omega))
  have hHas : ∀ (x : Finset ℕ) (d : ℕ), HasData (Complex.sort (simplices n 0 w) (asLt (Filtration.data fun a b : ℕ => decide (a < b)))) x d ↔
      HasData (simplices n 0 w) x d := by
    intro x d
    unfold HasData
    simp only [hp.mem_iff]
  have hg : IsGraphOn n (Complex.sort (simplices n 0 w) (asLt (Filtration.data fun a b : ℕ => decide (a < b)))) := by
    refine ⟨h1.wf.perm hp, ?_, ?_, ?_, ?_⟩
    · intro s hs t ht hne
      obtain ⟨u, hu, h⟩ := h1.closed s (hp.mem_iff.1 hs) t ht hne
      exact ⟨u, hp.mem_iff.2 hu, h⟩
    · exact sort_facesFirst h1.wf lt_strictTotal hprop fun s hs t ht h =>
        data_face (hprop s hs) (hprop t ht) h (Or.inr (by simpa using hmono s hs t ht h))
    · exact fun s hs => h1.dimension s (hp.mem_iff.1 hs)
    · intro v
      rw [← h1.vertices v]
      unfold Has
      simp only [hp.mem_iff]
  refine ⟨Complex.sort (simplices n 0 w) (asLt (Filtration.data fun a b : ℕ => decide (a < b))), ?_, hg, ?_, ?_, ?_, ?_⟩
  · refine ⟨f (pairList n).length + 1, fun fuel hfuel => ?_⟩
    unfold weighted
    simp only
    rw [weighted_rows_eq]
    have h4 := weighted_loop hf fuel 0 (pairList n) ((List.range n).map fun i => Simplex.ofVertex i 0) (by
      intro j _ hj
      have ha := start_add hf j
      have hb := hf.1.monotone (show j ≤ (pairList n).length by omega)
      omega)
    have h5 : start f 0 = 0 := rfl
    rw [h5] at h4
    unfold pairList at h4
    rw [h4]
    simp only [Option.bind_eq_bind, Option.bind_some]
    have h6 := IsGraphOn.insertRange hg
    unfold simplices pairList at h6 ⊢
    rw [h6]
  · intro v hv
    rw [hHas]
    exact h2 v hv
  · intro u v d huv hv
    rw [hHas, h3 u v d huv hv]
    simp only [hw]
    constructor
    · intro h
      split_ifs at h with h'
      have := Option.some.inj h
      exact ⟨this.symm, this ▸ h'⟩
    · rintro ⟨rfl, h⟩
      rw [if_pos h]
  · refine (sort_pairwise h1.wf lt_strictTotal hprop).imp_of_mem ?_
    intro s t hs ht h
    rw [data_eq (hprop s (hp.mem_iff.1 hs)) (hprop t (hp.mem_iff.1 ht))] at h
    have h := Option.some.inj h
    split_ifs at h with h4 h5
    · exact h4.le
    · exact h4.le
    · exact (of_decide_eq_true h).le
  · intro s hs t ht h
    rw [hp.mem_iff] at hs ht
    rcases h.eq_or_ssubset with h | h
    · rw [h1.wf.eq_of_vset hs ht h]
    · exact (hmono s hs t ht h).le

/-- C88. All weights can occur. -/
theorem _root_.Aleph.C88_all_weights (n : ℕ) (p lo hi : β) (hlo : lo < p) (hhi : p ≤ hi) (W : ℕ → ℕ → ℕ) :
    ∃ draw : ℕ → β, (∀ t, draw t = lo ∨ draw t = hi) ∧ ∃ fuel K, weighted draw n p fuel = some K ∧
      ∀ u v w, u < v → v < n → (HasData K {u, v} w ↔ w = W u v ∧ w ≠ 0) := by
  classical
  let g : ℕ → ℕ := fun k => match (pairList n)[k]? with
    | some q => W q.1 q.2
    | none => 0
  obtain ⟨f, hf0, hfs⟩ : ∃ f : ℕ → ℕ, f 0 = g 0 ∧ ∀ k, f (k + 1) = f k + 1 + g (k + 1) :=
    ⟨@Nat.rec (fun _ => ℕ) (g 0) fun k x => x + 1 + g (k + 1), rfl, fun _ => rfl⟩
  have hmono : StrictMono f := strictMono_nat_of_lt_succ fun k => by rw [hfs]; omega
  let draw : ℕ → β := fun t => if ∃ k : ℕ, f k = t then hi else lo
  have hF : IsFailureSequence draw p f := by
    refine ⟨hmono, fun t => ?_⟩
    by_cases h : ∃ k, f k = t
    · simp only [draw, if_pos h, not_lt, hhi, iff_true]
      exact h
    · simp only [draw, if_neg h, hlo, not_true_eq_false, iff_false]
      exact h
  refine ⟨draw, ?_, ?_⟩
  · intro t
    by_cases h : ∃ k, f k = t
    · exact Or.inr (by simp only [draw, if_pos h])
    · exact Or.inl (by simp only [draw, if_neg h])
  · obtain ⟨K, ⟨fuel, hK⟩, _, _, h, _⟩ := C88_weighted draw n p f hF
    refine ⟨fuel, K, hK fuel (le_refl _), fun u v w huv hv => ?_⟩
    rw [h u v w huv hv]
    have : successes f (pairRank n u v) = g (pairRank n u v) := by
      unfold successes
      rcases pairRank n u v with _ | k
      · simp [hf0]
      · simp only [Nat.add_one_ne_zero, if_false, Nat.add_sub_cancel]
        rw [hfs]
        omega
    rw [this]
    simp only [g, pairList_rank huv hv]

/-- C88. If all random numbers are below the probability, the program does not terminate for graphs with at least two vertices. -/
theorem _root_.Aleph.C88_divergence (draw : ℕ → β) (n : ℕ) (hn : 2 ≤ n) (p : β) (h : ∀ t, draw t < p) (fuel : ℕ) :
    weighted draw n p fuel = none := by
  have ht : ∀ fuel t w, trials draw p fuel t w = none := by
    intro fuel
    induction fuel with
    | zero => intros; rfl
    | succ fuel ih => intro t w; rw [trials, if_pos (h t), ih]
  obtain ⟨n, rfl⟩ := Nat.exists_eq_add_of_le' hn
  unfold weighted
  simp only
  rw [weighted_rows_eq]
  have : ((List.range (n + 2)).flatMap fun u => (others (n + 2) u).map fun v => (u, v)) ≠ [] :=
    List.ne_nil_of_mem (mem_pairList.2 (show (0, 1).1 < (0, 1).2 ∧ (0, 1).2 < n + 2 by simp) : (0, 1) ∈ pairList (n + 2))
  obtain ⟨q, l, hl⟩ := List.exists_cons_of_ne_nil this
  rw [hl, List.foldlM_cons]
  simp only [ht]
  rfl

end Weighted

/-- A graph with three vertices and two edges. -/
example : (erdosRenyi (fun t => if t = 1 then (1 : ℕ) else 0) 3 1).map (·.vertices) = [[0], [1], [2], [1, 0], [2, 1]] := by decide

/-- A weighted graph with the weights two, zero and one; the sequence of failures is infinite. -/
example : (weighted (fun t => if t = 0 ∨ t = 1 ∨ t = 4 then (0 : ℕ) else 1) 3 1 5).map (·.map fun s => (s.vertices, s.data)) =
      some [([0], 0), ([1], 0), ([2], 0), ([2, 1], 1), ([1, 0], 2)] ∧
    IsFailureSequence (fun t => if t % 2 = 0 then (0 : ℕ) else 1) 1 fun k => 2 * k + 1 := by
  refine ⟨by decide, fun a b h => by simp only; omega, fun t => ?_⟩
  constructor
  · rintro ⟨k, rfl⟩
    simp only
    rw [if_neg (by omega)]
    omega
  · intro h
    simp only at h ⊢
    by_cases ht : t % 2 = 0
    · rw [if_pos ht] at h
      omega
    · exact ⟨t / 2, by omega⟩

end Aleph.RandomGraph
