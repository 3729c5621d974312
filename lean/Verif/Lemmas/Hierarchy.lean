import Verif.Lemmas.HierarchyPaths
import Verif.Lemmas.ZeroDim
import Verif.Lemmas.Rips
import Verif.Model.Hierarchy

/-!
# The extended persistence hierarchy: tags, interlevel sets and paths
-/

namespace Aleph.Hierarchy

open Finset Aleph.Spec Aleph.Spec.Hierarchy ParentMap

variable {α : Type} {S : Complex α}

theorem vertex_at (hS : WF S) {i v : ℕ} (h : vsetAt S i = {v}) : ∃ s, S[i]? = some s ∧ s ∈ S ∧ s.vertices = [v] ∧ S.find [v] = some s ∧ S.index [v] = some i := by
  have hidx := index_vertex hS h
  obtain ⟨s, h1, h2⟩ := (index_eq_some hS).1 hidx
  have hm := List.mem_of_getElem? h1
  refine ⟨s, h1, hm, h2, ?_, hidx⟩
  rw [← h2]
  exact hS.find_eq hm

/-- A position stores an edge, or nothing that the loops react to. -/
theorem edge_cases (hS : IsFiltration S) {t : ℕ} {s : Simplex α} (hs : S[t]? = some s) :
    (∃ u v i j, s.vertices = [u, v] ∧ u ≠ v ∧ vsetAt S t = {u, v} ∧ vsetAt S i = {u} ∧ vsetAt S j = {v} ∧ i < t ∧ j < t) ∨
    (s.vertices ≠ [] ∧ (∀ u v, s.vertices ≠ [u, v]) ∧ ¬ ∃ a b, a ≠ b ∧ vsetAt S t = {a, b}) := by
  have hm := List.mem_of_getElem? hs
  have hn := hS.wf.normal _ hm
  have hv := vsetAt_some hs
  have htl : t < S.length := (List.getElem?_eq_some_iff.1 hs).1
  have hcard : s.vertices.length = #s.vset := hn.length_eq
  by_cases h2 : s.vertices.length = 2
  · left
    obtain ⟨u, v, huv⟩ := List.length_eq_two.1 h2
    have huv' : u ≠ v := by
      have := hn.nodup
      rw [huv] at this
      simpa using this
    have hvs : vsetAt S t = {u, v} := by rw [hv, Simplex.vset, huv]; simp
    obtain ⟨i, hi⟩ := exists_pos hS.closed (k := t) (v := u) (by rw [hvs]; simp)
    obtain ⟨j, hj⟩ := exists_pos hS.closed (k := t) (v := v) (by rw [hvs]; simp)
    have hlt : ∀ {k x : ℕ}, vsetAt S k = {x} → x ∈ ({u, v} : Finset ℕ) → k < t := by
      intro k x hk hx
      have hkl := lt_of_vsetAt (by simp) hk
      by_contra hnot
      rcases Nat.lt_or_eq_of_le (Nat.le_of_not_lt hnot) with hlt | rfl
      · have := List.pairwise_iff_getElem.mp hS.order t k htl hkl hlt
        apply this
        have e1 : S[k].vset = {x} := by rw [← hk, vsetAt_some (List.getElem?_eq_getElem hkl)]
        have e2 : S[t].vset = {u, v} := by rw [← hvs, vsetAt_some (List.getElem?_eq_getElem htl)]
        rw [e1, e2]
        refine ⟨by simpa using hx, fun hsub => ?_⟩
        have h1 := hsub (mem_insert_self u {v})
        have h2 := hsub (mem_insert_of_mem (mem_singleton_self v))
        rw [mem_singleton] at h1 h2
        exact huv' (h1.trans h2.symm)
      · rw [hk] at hvs
        have := congrArg card hvs
        rw [card_singleton, card_pair huv'] at this
        omega
    exact ⟨u, v, i, j, huv, huv', hvs, hi, hj, hlt hi (by simp), hlt hj (by simp)⟩
  · right
    refine ⟨hS.wf.nonempty _ hm, ?_, ?_⟩
    · intro u v h
      rw [h] at h2
      exact h2 rfl
    · rintro ⟨a, b, hab, he⟩
      rw [hv] at he
      rw [he, card_pair hab] at hcard
      exact h2 hcard

/-! ### Regions -/

theorem pair_eq {a b x y : ℕ} (hab : a ≠ b) (h : ({a, b} : Finset ℕ) = {x, y}) : (x = a ∧ y = b) ∨ (x = b ∧ y = a) := by
  have ha : a ∈ ({x, y} : Finset ℕ) := by rw [← h]; simp
  have hb : b ∈ ({x, y} : Finset ℕ) := by rw [← h]; simp
  simp only [mem_insert, mem_singleton] at ha hb
  rcases ha with rfl | rfl <;> rcases hb with rfl | rfl <;> simp_all

theorem Closes.unique (hS : WF S) {k v o o' : ℕ} (h : Closes S k v o) (h' : Closes S k v o') : o = o' := by
  obtain ⟨i, j, h1, h2, h3, h4, _⟩ := h
  obtain ⟨i', j', h1', h2', h3', h4', _⟩ := h'
  have hne : v ≠ o := by
    rintro rfl
    have := vsetAt_unique hS (by simp) h1 h2
    omega
  rw [h4] at h4'
  rcases pair_eq hne h4' with ⟨_, rfl⟩ | ⟨rfl, _⟩
  · rfl
  · exact absurd rfl hne

theorem Region.unique (hS : WF S) {t v c c' : ℕ} (h : Region S t v c) (h' : Region S t v c') : c = c' := by
  induction h generalizing c' with
  | own t v hno =>
    cases h' with
    | own _ _ _ => rfl
    | follow _ k _ o _ hk hc _ _ => exact absurd hc (hno k hk o)
  | follow t k v o c hk hc hl _ ih =>
    cases h' with
    | own _ _ hno => exact absurd hc (hno k hk o)
    | follow _ k' _ o' _ hk' hc' hl' hr' =>
      have : k = k' := by
        rcases Nat.lt_trichotomy k k' with h | h | h
        · exact absurd hc' (hl k' h hk' o')
        · exact h
        · exact absurd hc (hl' k h hk o)
      subst this
      rw [Closes.unique hS hc hc'] at ih
      exact ih hr'

theorem Region.succ {t v c : ℕ} (h : Region S t v c) (hno : ∀ o, ¬ Closes S t v o) : Region S (t + 1) v c := by
  cases h with
  | own _ _ h =>
    refine .own _ _ fun k hk o => ?_
    rcases Nat.lt_succ_iff_lt_or_eq.mp hk with hk | rfl
    · exact h k hk o
    · exact hno o
  | follow _ k _ o _ hk hc hl hr =>
    refine .follow _ k _ o _ (by omega) hc (fun k' h1 h2 o' => ?_) hr
    rcases Nat.lt_succ_iff_lt_or_eq.mp h2 with h2 | rfl
    · exact hl k' h1 h2 o'
    · exact hno o'

theorem Tag.unique (hS : WF S) {a b c c' : ℕ} (h : Tag S a b c) (h' : Tag S a b c') : c = c' := by
  obtain ⟨k, i, j, o, y, h1, h2, h3, h4, h5, h6⟩ := h
  obtain ⟨k', i', j', o', y', h1', h2', h3', h4', h5', h6'⟩ := h'
  have hk : k = k' := vsetAt_unique hS (by simp) h1 h1'
  subst hk
  have hne : o ≠ y := by
    rintro rfl
    have := vsetAt_unique hS (by simp) h3 h4
    omega
  rw [h2] at h2'
  rcases pair_eq hne h2' with ⟨rfl, _⟩ | ⟨rfl, rfl⟩
  · exact Region.unique hS h6 h6'
  · have e1 := vsetAt_unique hS (by simp) h3' h4
    have e2 := vsetAt_unique hS (by simp) h4' h3
    omega

theorem Tag.symm {a b c : ℕ} (h : Tag S a b c) : Tag S b a c := by
  obtain ⟨k, i, j, o, y, h1, h⟩ := h
  exact ⟨k, i, j, o, y, by rw [h1, pair_comm], h⟩

/-! ### Tags of edges -/

variable [LinearOrder α]

/-- Invariant of the loop of `tagEdges`. -/
structure TagInv (S : Complex α) (t : ℕ) (st : (ℕ → ℕ) × List (List ℕ × ℕ)) : Prop where
  region : ∀ v ∈ S.vertices, Region S t v (st.1 v)
  tag : ∀ k < t, ∀ s, S[k]? = some s → ∀ u v, s.vertices = [u, v] → ∃ c, st.2.lookup s.vertices = some c ∧ Tag S u v c
  keys : ∀ e ∈ st.2, ∃ k < t, ∃ s, S[k]? = some s ∧ s.vertices = e.1

theorem tag_step (hS : IsFiltration S) {t : ℕ} {s : Simplex α} (hs : S[t]? = some s) {st : (ℕ → ℕ) × List (List ℕ × ℕ)} (h : TagInv S t st) :
    ∃ st', tagStep S st s = some st' ∧ TagInv S (t + 1) st' := by
  have hw := hS.wf
  rcases edge_cases hS hs with ⟨u, v, i, j, huv, hne, hvs, hi, hj, hit, hjt⟩ | ⟨h0, h1, h2⟩
  · obtain ⟨su, hsu, _, _, hfu, hiu⟩ := vertex_at hw hi
    obtain ⟨sv, hsv, _, _, hfv, hiv⟩ := vertex_at hw hj
    have hij : i ≠ j := by
      rintro rfl
      rw [hi] at hj
      exact hne (singleton_injective hj)
    obtain ⟨y, o, yi, oi, ys, hy, ho, hyv, hov, hlt, hys, hfy, hset⟩ : ∃ y o yi oi ys, y = (if i < j then v else u) ∧ o = (if i < j then u else v) ∧
        vsetAt S yi = {y} ∧ vsetAt S oi = {o} ∧ oi < yi ∧ S[yi]? = some ys ∧ S.find [y] = some ys ∧ vsetAt S t = {y, o} := by
      by_cases hlt : i < j
      · exact ⟨v, u, j, i, sv, by simp [hlt], by simp [hlt], hj, hi, hlt, hsv, hfv, by rw [hvs, pair_comm]⟩
      · exact ⟨u, v, i, j, su, by simp [hlt], by simp [hlt], hi, hj, by omega, hsu, hfu, hvs⟩
    have hyV : y ∈ S.vertices := (mem_vertices_iff hw).2 ⟨_, hyv⟩
    have hoV : o ∈ S.vertices := (mem_vertices_iff hw).2 ⟨_, hov⟩
    have hyo : y ≠ o := by
      rintro rfl
      have := vsetAt_unique hw (by simp) hyv hov
      omega
    have hclose : ∀ x o', Closes S t x o' → x = y ∧ o' = o ∧ ys.data = s.data := by
      rintro x o' ⟨i', j', c1, c2, c3, c4, c5⟩
      rw [hset] at c4
      rcases pair_eq hyo c4 with ⟨rfl, rfl⟩ | ⟨rfl, rfl⟩
      · obtain ⟨s1, t1, e1, e2, e3⟩ := c5
        have := vsetAt_unique hw (by simp) c1 hyv
        subst this
        rw [hys] at e1
        rw [hs] at e2
        cases e1
        cases e2
        exact ⟨rfl, rfl, e3⟩
      · have := vsetAt_unique hw (by simp) c1 hov
        have := vsetAt_unique hw (by simp) c2 hyv
        omega
    let cp := if ys.data = s.data then Function.update st.1 y (st.1 o) else st.1
    refine ⟨(cp, st.2 ++ [(s.vertices, cp o)]), ?_, ?_, ?_, ?_⟩
    · simp only [tagStep, huv, hiu, hiv, ← hy, ← ho, hfy, cp]
    · intro x hx
      by_cases hxy : x = y
      · subst hxy
        simp only [cp]
        split
        · rename_i hd
          rw [Function.update_self]
          exact .follow _ t _ o _ (by omega) ⟨yi, oi, hyv, hov, hlt, hset, ys, s, hys, hs, hd⟩ (fun k' h1 h2 => by omega) (h.region o hoV)
        · rename_i hd
          exact Region.succ (h.region _ hx) fun o' hc => hd (hclose _ _ hc).2.2
      · have : cp x = st.1 x := by
          simp only [cp]
          split
          · rw [Function.update_of_ne hxy]
          · rfl
        show Region S (t + 1) x (cp x)
        rw [this]
        exact Region.succ (h.region _ hx) fun o' hc => hxy (hclose _ _ hc).1
    · have hcpo : cp o = st.1 o := by
        simp only [cp]
        split
        · rw [Function.update_of_ne (Ne.symm hyo)]
        · rfl
      intro k hk s' hs' u' v' huv'
      rw [List.lookup_append]
      rcases Nat.lt_succ_iff_lt_or_eq.mp hk with hk | rfl
      · obtain ⟨c, hc1, hc2⟩ := h.tag k hk s' hs' u' v' huv'
        exact ⟨c, by rw [hc1]; rfl, hc2⟩
      · rw [hs] at hs'
        cases hs'
        have hnone : st.2.lookup s.vertices = none := by
          rw [List.lookup_eq_none_iff]
          intro e he
          obtain ⟨k', hk', s', hs', hv'⟩ := h.keys e he
          rw [bne_iff_ne]
          intro heq
          have e1 := (index_eq_some hw).2 ⟨s', hs', rfl⟩
          have e2 := (index_eq_some hw).2 ⟨s, hs, rfl⟩
          rw [hv', ← heq, e2] at e1
          have := Option.some.inj e1
          omega
        refine ⟨st.1 o, ?_, ?_⟩
        · rw [hnone, hcpo]
          simp
        · rw [huv] at huv'
          simp only [List.cons.injEq, and_true] at huv'
          obtain ⟨rfl, rfl⟩ := huv'
          exact ⟨k, oi, yi, o, y, hvs, by rw [hset, pair_comm], hov, hyv, hlt, h.region o hoV⟩
    · intro e he
      rcases List.mem_append.mp he with he | he
      · obtain ⟨k, hk, rest⟩ := h.keys e he
        exact ⟨k, by omega, rest⟩
      · rw [List.mem_singleton] at he
        subst he
        exact ⟨t, by omega, s, hs, rfl⟩
  · refine ⟨st, ?_, ?_, ?_, ?_⟩
    · rw [tagStep]
      split
      · rename_i he
        exact absurd he h0
      · rename_i u v he
        exact absurd he (h1 u v)
      · rfl
    · intro x hx
      refine Region.succ (h.region x hx) ?_
      rintro o ⟨i, j, c1, c2, c3, c4, _⟩
      refine h2 ⟨x, o, ?_, c4⟩
      rintro rfl
      have := vsetAt_unique hw (by simp) c1 c2
      omega
    · intro k hk s' hs' u v huv
      rcases Nat.lt_succ_iff_lt_or_eq.mp hk with hk | rfl
      · exact h.tag k hk s' hs' u v huv
      · rw [hs] at hs'
        cases hs'
        exact absurd huv (h1 u v)
    · intro e he
      obtain ⟨k, hk, rest⟩ := h.keys e he
      exact ⟨k, by omega, rest⟩

theorem tag_loop (hS : IsFiltration S) (post pre : Complex α) (hpp : S = pre ++ post) {st : (ℕ → ℕ) × List (List ℕ × ℕ)} (h : TagInv S pre.length st) :
    ∃ st', post.foldlM (tagStep S) st = some st' ∧ TagInv S S.length st' := by
  induction post generalizing pre st with
  | nil =>
    rw [List.append_nil] at hpp
    subst hpp
    exact ⟨st, rfl, h⟩
  | cons s post ih =>
    have hs : S[pre.length]? = some s := by rw [hpp]; simp
    obtain ⟨st', e, h'⟩ := tag_step hS hs h
    rw [List.foldlM_cons, e]
    exact ih (pre ++ [s]) (by rw [hpp]; simp) (by simpa using h')

/-- All edges are tagged with the critical point that they belong to. -/
theorem tagEdges_spec (hS : IsFiltration S) :
    ∃ tags, tagEdges S = some tags ∧ ∀ s ∈ S, ∀ u v, s.vertices = [u, v] → ∃ c, tags.lookup s.vertices = some c ∧ Tag S u v c := by
  obtain ⟨st, e, h⟩ := tag_loop hS S [] rfl (st := (id, []))
    ⟨fun v _ => .own _ _ (fun k hk => absurd hk (Nat.not_lt_zero k)), fun k hk => absurd hk (Nat.not_lt_zero k), by simp⟩
  refine ⟨st.2, by rw [tagEdges, e], ?_⟩
  intro s hs u v huv
  obtain ⟨k, hk⟩ := List.mem_iff_getElem?.1 hs
  exact h.tag k (List.getElem?_eq_some_iff.1 hk).1 s hk u v huv

end Aleph.Hierarchy
