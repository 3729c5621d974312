import Verif.Lemmas.Hierarchy

/-!
# The extended persistence hierarchy: interlevel sets and the test for two critical points
-/

namespace Aleph.Hierarchy

open Finset Aleph.Spec Aleph.Spec.Hierarchy ParentMap

variable {α : Type} {S : Complex α}

/-! ### Disjoint sets and relations -/

/-- The representatives describe the equivalence classes of a relation. -/
structure Classes (V : ℕ → Prop) (p : ParentMap) (rep : ℕ → ℕ) (R : ℕ → ℕ → Prop) : Prop where
  repr : Represents V p rep
  sound : ∀ x, V x → Relation.EqvGen R x (rep x)
  complete : ∀ x y, R x y → rep x = rep y

theorem Classes.iff {V : ℕ → Prop} {p : ParentMap} {rep : ℕ → ℕ} {R : ℕ → ℕ → Prop} (h : Classes V p rep R) {x y : ℕ} (hx : V x) (hy : V y) :
    rep x = rep y ↔ Relation.EqvGen R x y := by
  constructor
  · intro he
    have h1 := h.sound x hx
    rw [he] at h1
    exact .trans _ _ _ h1 (.symm _ _ (h.sound y hy))
  · intro he
    induction he with
    | rel x y hxy => exact h.complete x y hxy
    | refl _ => rfl
    | symm _ _ _ ih => exact (ih hy hx).symm
    | trans a b c h1 h2 ih1 ih2 =>
      have aux : ∀ {a b}, Relation.EqvGen R a b → rep a = rep b := by
        intro a b hab
        induction hab with
        | rel x y hxy => exact h.complete x y hxy
        | refl _ => rfl
        | symm _ _ _ ih => exact ih.symm
        | trans _ _ _ _ _ ih1 ih2 => exact ih1.trans ih2
      exact (aux h1).trans (aux h2)

theorem Classes.mono {V : ℕ → Prop} {p p' : ParentMap} {rep : ℕ → ℕ} {R R' : ℕ → ℕ → Prop} (h : Classes V p rep R) (hp : Represents V p' rep)
    (hR : ∀ x y, R x y → R' x y) (hR' : ∀ x y, R' x y → rep x = rep y) : Classes V p' rep R' :=
  ⟨hp, fun x hx => Relation.EqvGen.mono hR _ _ (h.sound x hx), hR'⟩

theorem Classes.merge {V : ℕ → Prop} {p : ParentMap} {rep : ℕ → ℕ} {R R' : ℕ → ℕ → Prop} (h : Classes V p rep R) (lf : Bool) {u v : ℕ} (hu : V u)
    (hv : V v) (hR : ∀ x y, R' x y ↔ R x y ∨ (x = u ∧ y = v) ∨ (x = v ∧ y = u)) :
    ∃ p' rep', p.merge lf (rep u) (rep v) = some p' ∧ Classes V p' rep' R' := by
  obtain ⟨p', e, hp⟩ := h.repr.merge lf (h.repr.rep_mem hu) (h.repr.rep_mem hv)
  rw [h.repr.rep_rep hu, h.repr.rep_rep hv] at hp
  have hold : ∀ x, V x → Relation.EqvGen R' x (rep x) := fun x hx => Relation.EqvGen.mono (fun a b hab => (hR a b).2 (.inl hab)) _ _ (h.sound x hx)
  have huv : Relation.EqvGen R' u v := .rel _ _ ((hR u v).2 (.inr (.inl ⟨rfl, rfl⟩)))
  refine ⟨p', _, e, hp, ?_, ?_⟩
  · intro x hx
    split
    · rename_i he
      have h1 := hold x hx
      rw [he] at h1
      exact .trans _ _ _ h1 (.trans _ _ _ (.symm _ _ (hold u hu)) (.trans _ _ _ huv (hold v hv)))
    · exact hold x hx
  · intro x y hxy
    rcases (hR x y).1 hxy with hxy | ⟨rfl, rfl⟩ | ⟨rfl, rfl⟩
    · simp only [h.complete x y hxy]
    · simp
    · simp

/-! ### Interlevel sets -/

/-- Vertices that are connected by a simplex of the list. -/
def adjOf (L pre : Complex α) (x y : ℕ) : Prop :=
  x ∈ L.vertices ∧ y ∈ L.vertices ∧ ∃ s ∈ pre, s.vertices = [x, y] ∨ s.vertices = [y, x]

theorem adjOf.symm {L pre : Complex α} {x y : ℕ} (h : adjOf L pre x y) : adjOf L pre y x := ⟨h.2.1, h.1, h.2.2.imp fun _ h => ⟨h.1, h.2.symm⟩⟩

theorem normal_single {l : List ℕ} (h : Normal l) {x : ℕ} (hx : l.toFinset = {x}) : l = [x] := by
  have := h.length_eq
  rw [hx, card_singleton] at this
  obtain ⟨y, rfl⟩ := List.length_eq_one_iff.1 this
  simpa using hx

theorem normal_pair {l : List ℕ} (h : Normal l) {x y : ℕ} (hxy : x ≠ y) (hl : l.toFinset = {x, y}) : l = [x, y] ∨ l = [y, x] := by
  have := h.length_eq
  rw [hl, card_pair hxy] at this
  obtain ⟨u, v, rfl⟩ := List.length_eq_two.1 this
  have he : ({x, y} : Finset ℕ) = {u, v} := by rw [← hl]; simp
  rcases pair_eq hxy he with ⟨rfl, rfl⟩ | ⟨rfl, rfl⟩ <;> simp

theorem mem_vertices_vertex {L : Complex α} (hL : WF L) {x : ℕ} : x ∈ L.vertices ↔ ∃ s ∈ L, s.vertices = [x] := by
  rw [(C22_vertices L hL).2]
  constructor
  · rintro ⟨s, hs, h⟩
    exact ⟨s, hs, normal_single (hL.normal s hs) h⟩
  · rintro ⟨s, hs, h⟩
    exact ⟨s, hs, by rw [Simplex.vset, h]; simp⟩

theorem contains_ofRepresents {V : ℕ → Prop} {p : ParentMap} {rep : ℕ → ℕ} (h : Represents V p rep) {x : ℕ} : p.contains x = true ↔ V x := by
  unfold ParentMap.contains
  rw [at?_isSome, h.keys]

variable [LinearOrder α]

omit [LinearOrder α] in
theorem vertex_index (hS : WF S) {L : Complex α} (hL : L.Sublist S) {x : ℕ} (hx : x ∈ L.vertices) : ∃ i, S.index [x] = some i := by
  obtain ⟨s, hs, hv⟩ := (mem_vertices_vertex (hS.sublist hL)).1 hx
  obtain ⟨i, hi⟩ := List.mem_iff_getElem?.1 (hL.subset hs)
  exact ⟨i, (index_eq_some hS).2 ⟨s, hi, hv⟩⟩

omit [LinearOrder α] in
theorem level_step (hS : WF S) {L pre : Complex α} (hL : L.Sublist S) {s : Simplex α} (hs : s ∈ L) (lf : Bool) {p : ParentMap} {rep : ℕ → ℕ}
    (h : Classes (· ∈ L.vertices) p rep (adjOf L pre)) :
    ∃ p' rep', interlevelStep lf S p s = some p' ∧ Classes (· ∈ L.vertices) p' rep' (adjOf L (pre ++ [s])) := by
  have hmono : ∀ x y, adjOf L pre x y → adjOf L (pre ++ [s]) x y := by
    rintro x y ⟨h1, h2, r, hr, h3⟩
    exact ⟨h1, h2, r, List.mem_append_left _ hr, h3⟩
  have hnew : ∀ x y, adjOf L (pre ++ [s]) x y → adjOf L pre x y ∨ (x ∈ L.vertices ∧ y ∈ L.vertices ∧ (s.vertices = [x, y] ∨ s.vertices = [y, x])) := by
    rintro x y ⟨h1, h2, r, hr, h3⟩
    rcases List.mem_append.mp hr with hr | hr
    · exact .inl ⟨h1, h2, r, hr, h3⟩
    · rw [List.mem_singleton] at hr
      subst hr
      exact .inr ⟨h1, h2, h3⟩
  unfold interlevelStep
  split
  · rename_i he
    exact absurd he (hS.nonempty s (hL.subset hs))
  · rename_i u v huv
    by_cases hc : u ∈ L.vertices ∧ v ∈ L.vertices
    · obtain ⟨hu, hv⟩ := hc
      have cu := (contains_ofRepresents h.repr).2 hu
      have cv := (contains_ofRepresents h.repr).2 hv
      have hiff : ∀ x y, adjOf L (pre ++ [s]) x y ↔ adjOf L pre x y ∨ (x = u ∧ y = v) ∨ (x = v ∧ y = u) := by
        intro x y
        constructor
        · intro hxy
          rcases hnew x y hxy with hxy | ⟨_, _, h3⟩
          · exact .inl hxy
          · rw [huv] at h3
            simp only [List.cons.injEq, and_true] at h3
            rcases h3 with ⟨rfl, rfl⟩ | ⟨rfl, rfl⟩ <;> simp
        · rintro (hxy | ⟨rfl, rfl⟩ | ⟨rfl, rfl⟩)
          · exact hmono _ _ hxy
          · exact ⟨hu, hv, s, by simp, .inl huv⟩
          · exact ⟨hv, hu, s, by simp, .inr huv⟩
      obtain ⟨p1, e1, r1⟩ := h.repr.find hu
      obtain ⟨p2, e2, r2⟩ := r1.find hv
      have h2 : Classes (· ∈ L.vertices) p2 rep (adjOf L pre) := ⟨r2, h.sound, h.complete⟩
      simp only [cu, cv, Bool.not_true, Bool.or_self, Bool.false_eq_true, if_false, e1, e2]
      by_cases hab : rep u = rep v
      · rw [if_pos hab]
        refine ⟨p2, rep, rfl, h.mono r2 hmono ?_⟩
        intro x y hxy
        rcases (hiff x y).1 hxy with hxy | ⟨rfl, rfl⟩ | ⟨rfl, rfl⟩
        · exact h.complete x y hxy
        · exact hab
        · exact hab.symm
      · rw [if_neg hab]
        obtain ⟨i, hi⟩ := vertex_index hS hL (h.repr.rep_mem hu)
        obtain ⟨j, hj⟩ := vertex_index hS hL (h.repr.rep_mem hv)
        simp only [hi, hj]
        split
        · exact h2.merge lf hv hu (fun x y => by rw [hiff]; tauto)
        · exact h2.merge lf hu hv hiff
    · have : (!p.contains u || !p.contains v) = true := by
        rw [Bool.or_eq_true, Bool.not_eq_true', Bool.not_eq_true', ← Bool.not_eq_true, ← Bool.not_eq_true, contains_ofRepresents h.repr,
          contains_ofRepresents h.repr]
        tauto
      rw [if_pos this]
      refine ⟨p, rep, rfl, h.mono h.repr hmono ?_⟩
      intro x y hxy
      rcases hnew x y hxy with hxy | ⟨h1, h2, h3⟩
      · exact h.complete x y hxy
      · rw [huv] at h3
        simp only [List.cons.injEq, and_true] at h3
        rcases h3 with ⟨rfl, rfl⟩ | ⟨rfl, rfl⟩
        · exact absurd ⟨h1, h2⟩ hc
        · exact absurd ⟨h2, h1⟩ hc
  · rename_i h0 h1
    refine ⟨p, rep, rfl, h.mono h.repr hmono ?_⟩
    intro x y hxy
    rcases hnew x y hxy with hxy | ⟨_, _, h3 | h3⟩
    · exact h.complete x y hxy
    · exact absurd h3 (h1 x y)
    · exact absurd h3 (h1 y x)

omit [LinearOrder α] in
theorem interlevelSets_spec (hS : WF S) {L : Complex α} (hL : L.Sublist S) (lf : Bool) :
    ∃ p rep, interlevelSets lf S L = some p ∧ Classes (· ∈ L.vertices) p rep (adjOf L L) := by
  have main : ∀ (post pre : Complex α) (p : ParentMap) (rep : ℕ → ℕ), (∀ s ∈ post, s ∈ L) → Classes (· ∈ L.vertices) p rep (adjOf L pre) →
      ∃ p' rep', post.foldlM (interlevelStep lf S) p = some p' ∧ Classes (· ∈ L.vertices) p' rep' (adjOf L (pre ++ post)) := by
    intro post
    induction post with
    | nil => intro pre p rep _ h; exact ⟨p, rep, rfl, by rwa [List.append_nil]⟩
    | cons s post ih =>
      intro pre p rep hm h
      obtain ⟨p1, rep1, e, h1⟩ := level_step hS hL (hm s List.mem_cons_self) lf h
      rw [List.foldlM_cons, e]
      obtain ⟨p2, rep2, e2, h2⟩ := ih (pre ++ [s]) p1 rep1 (fun r hr => hm r (List.mem_cons_of_mem _ hr)) h1
      exact ⟨p2, rep2, e2, by simpa using h2⟩
  exact main L [] _ id (fun s hs => hs) ⟨Represents.ofRange _, fun x _ => .refl x, by rintro x y ⟨_, _, s, hs, _⟩; cases hs⟩

theorem interlevel_eq (hS : WF S) (lower upper : α) :
    interlevel lower upper S = S.filter (fun s => decide (min lower upper ≤ s.data) && decide (s.data ≤ max lower upper) && decide (Complex.dim s ≤ 1)) := by
  have h1 : (if upper < lower then upper else lower) = min lower upper := by
    split
    · rename_i h; exact (min_eq_right h.le).symm
    · rename_i h; exact (min_eq_left (not_lt.1 h)).symm
  have h2 : (if upper < lower then lower else upper) = max lower upper := by
    split
    · rename_i h; exact (max_eq_left h.le).symm
    · rename_i h; exact (max_eq_right (not_lt.1 h)).symm
  unfold interlevel
  simp only [h1, h2]
  have hw := hS.sublist (List.filter_sublist (l := S)
    (p := fun s => decide (min lower upper ≤ s.data) && decide (s.data ≤ max lower upper) && decide (Complex.dim s ≤ 1)))
  rw [insertRange_nodup [] _ hw.nonempty (by simpa using hw.distinct)]
  rfl

theorem levelEdge_iff (hS : WF S) {i t : ℕ} {a b : Simplex α} (hi : S[i]? = some a) (ht : S[t]? = some b) {x y : ℕ} :
    adjOf (interlevel a.data b.data S) (interlevel a.data b.data S) x y ↔ LevelEdge S i t x y := by
  have hmem : ∀ s, s ∈ interlevel a.data b.data S ↔ s ∈ S ∧ (min a.data b.data ≤ s.data ∧ s.data ≤ max a.data b.data) ∧ Complex.dim s ≤ 1 := by
    intro s
    rw [interlevel_eq hS, List.mem_filter]
    simp
  have hL : WF (interlevel a.data b.data S) := by rw [interlevel_eq hS]; exact hS.sublist List.filter_sublist
  have hbt : ∀ k s, S[k]? = some s → (Between S i t k ↔ min a.data b.data ≤ s.data ∧ s.data ≤ max a.data b.data) := by
    intro k s hk
    constructor
    · rintro ⟨a', b', c, h1, h2, h3, h4⟩
      rw [hi] at h1
      rw [ht] at h2
      rw [hk] at h3
      cases h1
      cases h2
      cases h3
      exact h4
    · intro h
      exact ⟨a, b, s, hi, ht, hk, h⟩
  have hvert : ∀ x, x ∈ (interlevel a.data b.data S).vertices ↔ ∃ p, vsetAt S p = {x} ∧ Between S i t p := by
    intro x
    rw [mem_vertices_vertex hL]
    constructor
    · rintro ⟨s, hs, hv⟩
      obtain ⟨h1, h2, _⟩ := (hmem s).1 hs
      obtain ⟨p, hp⟩ := List.mem_iff_getElem?.1 h1
      exact ⟨p, by rw [vsetAt_some hp, Simplex.vset, hv]; simp, (hbt p s hp).2 h2⟩
    · rintro ⟨p, hp, hb⟩
      obtain ⟨s, h1, h2, h3, _⟩ := vertex_at hS hp
      exact ⟨s, (hmem s).2 ⟨h2, (hbt p s h1).1 hb, by simp [Complex.dim, h3]⟩, h3⟩
  constructor
  · rintro ⟨hx, hy, s, hs, hv⟩
    obtain ⟨p, hp, hbp⟩ := (hvert x).1 hx
    obtain ⟨q, hq, hbq⟩ := (hvert y).1 hy
    obtain ⟨h1, h2, _⟩ := (hmem s).1 hs
    obtain ⟨k, hk⟩ := List.mem_iff_getElem?.1 h1
    have hn := (hS.normal s h1).nodup
    have hxy : x ≠ y := by
      rcases hv with hv | hv <;> rw [hv] at hn
      · simpa using hn
      · simpa using Ne.symm (by simpa using hn)
    have hset : vsetAt S k = {x, y} := by
      rw [vsetAt_some hk, Simplex.vset]
      rcases hv with hv | hv <;> rw [hv]
      · simp
      · simp [pair_comm]
    exact ⟨hxy, p, q, k, hp, hq, hset, hbp, hbq, (hbt k s hk).2 h2⟩
  · rintro ⟨hxy, p, q, k, hp, hq, hk, hbp, hbq, hbk⟩
    refine ⟨(hvert x).2 ⟨p, hp, hbp⟩, (hvert y).2 ⟨q, hq, hbq⟩, ?_⟩
    have hkl := lt_of_vsetAt (by simp) hk
    have hks := List.getElem?_eq_getElem hkl
    have hm := List.getElem_mem hkl
    rw [vsetAt_some hks] at hk
    have hnp := normal_pair (hS.normal _ hm) hxy hk
    refine ⟨S[k], (hmem _).2 ⟨hm, (hbt k _ hks).1 hbk, ?_⟩, hnp⟩
    rcases hnp with h | h <;> simp [Complex.dim, h]

/-! ### The graph -/

omit [LinearOrder α] in
theorem graph_vertices {L : Complex α} {x : ℕ} : x ∈ (adjacencyGraph L).1 ↔ x ∈ L.vertices := by
  unfold adjacencyGraph Complex.vertices
  rw [List.mem_insertionSort, List.mem_dedup]

omit [LinearOrder α] in
theorem graph_edges {L : Complex α} (hL : WF L) {x y : ℕ} : ((x, y) ∈ (adjacencyGraph L).2 ∨ (y, x) ∈ (adjacencyGraph L).2) ↔ adjOf L L x y := by
  have key : ∀ x y, (x, y) ∈ (adjacencyGraph L).2 ↔ x ∈ L.vertices ∧ y ∈ L.vertices ∧ ∃ s ∈ L, s.vertices = [x, y] := by
    intro x y
    unfold adjacencyGraph
    simp only [List.mem_filterMap]
    constructor
    · rintro ⟨s, hs, he⟩
      split at he
      · rename_i u v huv
        split at he
        · rename_i hc
          rw [Bool.and_eq_true, contains_iff, contains_iff, ← mem_vertices_vertex hL, ← mem_vertices_vertex hL] at hc
          cases he
          exact ⟨hc.1, hc.2, s, (List.mem_filter.1 hs).1, huv⟩
        · cases he
      · cases he
    · rintro ⟨hx, hy, s, hs, hv⟩
      refine ⟨s, List.mem_filter.2 ⟨hs, by simp [Complex.dim, hv]⟩, ?_⟩
      rw [hv]
      simp only
      rw [if_pos]
      rw [Bool.and_eq_true, contains_iff, contains_iff, ← mem_vertices_vertex hL, ← mem_vertices_vertex hL]
      exact ⟨hx, hy⟩
  rw [key, key]
  constructor
  · rintro (⟨hx, hy, s, hs, h⟩ | ⟨hy, hx, s, hs, h⟩)
    · exact ⟨hx, hy, s, hs, .inl h⟩
    · exact ⟨hx, hy, s, hs, .inr h⟩
  · rintro ⟨hx, hy, s, hs, h | h⟩
    · exact .inl ⟨hx, hy, s, hs, h⟩
    · exact .inr ⟨hy, hx, s, hs, h⟩

/-! ### The walk along the path -/

omit [LinearOrder α] in
theorem find_range (hS : WF S) {s : Simplex α} (hs : s ∈ S) {l : List ℕ} (zero : α) (h : s.vset = l.toFinset) :
    S.find (Simplex.ofRange l zero).vertices = some s := by
  have : (Simplex.ofRange l zero).vertices = s.vertices := by
    refine (ofRange_normal l zero).ext (hS.normal s hs) fun x => ?_
    rw [mem_ofRange, ← List.mem_toFinset, ← h, Simplex.vset, List.mem_toFinset]
  rw [this]
  exact hS.find_eq hs

/-- The tags of the edges of a path. -/
def TagsOf (S : Complex α) (w : List ℕ) (e : ℕ) : Prop := ∃ l a b r, w = l ++ a :: b :: r ∧ Tag S a b e

omit [LinearOrder α] in
theorem tagsOf_single {a e : ℕ} : ¬ TagsOf S [a] e := by
  rintro ⟨l, x, y, r, h, _⟩
  have := congrArg List.length h
  simp at this
  omega

omit [LinearOrder α] in
theorem tagsOf_cons {a b e : ℕ} {w : List ℕ} : TagsOf S (a :: b :: w) e ↔ Tag S a b e ∨ TagsOf S (b :: w) e := by
  constructor
  · rintro ⟨l, x, y, r, h, ht⟩
    cases l with
    | nil =>
      simp only [List.nil_append, List.cons.injEq] at h
      obtain ⟨rfl, rfl, _⟩ := h
      exact .inl ht
    | cons z l =>
      simp only [List.cons_append, List.cons.injEq] at h
      exact .inr ⟨l, x, y, r, h.2, ht⟩
  · rintro (h | ⟨l, x, y, r, h, ht⟩)
    · exact ⟨[], a, b, w, rfl, h⟩
    · exact ⟨a :: l, x, y, r, by rw [h]; rfl, ht⟩

omit [LinearOrder α] in
theorem walk_spec (hS : WF S) {tags : List (List ℕ × ℕ)}
    (htags : ∀ s ∈ S, ∀ u v, s.vertices = [u, v] → ∃ c, tags.lookup s.vertices = some c ∧ Tag S u v c)
    {adj : ℕ → ℕ → Prop} (hadj : ∀ x y, adj x y → ∃ s ∈ S, s.vertices = [x, y] ∨ s.vertices = [y, x])
    {a : ℕ} (ha : ∃ s ∈ S, s.vertices = [a]) {p : ℕ → ℕ} (hp : p a = a)
    (hsearch : ∀ b w, a ≠ b → Path adj a w b → ∃ w', Shortest adj a (b :: p b :: w') b) (zero : α) :
    ∀ (fuel b : ℕ) (w acc : List ℕ), Shortest adj a w b → w.length ≤ fuel → acc.Nodup →
      ∃ w' acc', walk S tags p zero fuel b acc = some acc' ∧ Shortest adj a w' b ∧ acc'.Nodup ∧ ∀ e, e ∈ acc' ↔ e ∈ acc ∨ TagsOf S w' e := by
  intro fuel
  induction fuel with
  | zero =>
    intro b w acc hw hl _
    have := List.length_pos_iff.mpr (Path.ne_nil hw.1)
    omega
  | succ fuel ih =>
    intro b w acc hw hl hacc
    by_cases hab : a = b
    · subst hab
      obtain ⟨s, hs, hv⟩ := ha
      refine ⟨[a], acc, ?_, shortest_start, hacc, fun e => ⟨.inl, fun h => h.resolve_right tagsOf_single⟩⟩
      rw [walk]
      simp only [hp]
      rw [find_range hS hs zero (by rw [Simplex.vset, hv]; simp)]
      simp
    · obtain ⟨w', hw'⟩ := hsearch b w hab hw.1
      obtain ⟨h1, h2⟩ := Shortest.pred hw'
      have hlen : w.length = (b :: p b :: w').length := Nat.le_antisymm (hw.2 _ hw'.1) (hw'.2 _ hw.1)
      obtain ⟨s, hs, hv⟩ := hadj _ _ h2
      have hne : p b ≠ b := by
        have hn := (hS.normal s hs).nodup
        rcases hv with hv | hv <;> rw [hv] at hn
        · simpa using hn
        · exact Ne.symm (by simpa using hn)
      obtain ⟨c, hc, htag⟩ : ∃ c, tags.lookup s.vertices = some c ∧ Tag S b (p b) c := by
        rcases hv with hv | hv
        · obtain ⟨c, h, h'⟩ := htags s hs _ _ hv
          exact ⟨c, h, Tag.symm h'⟩
        · exact htags s hs _ _ hv
      obtain ⟨w1, acc', e, hs1, hn1, hm1⟩ := ih (p b) (p b :: w') (acc.insert c) h1 (by simp only [List.length_cons] at hlen ⊢; omega) hacc.insert
      obtain ⟨r, rfl⟩ := Path.head hs1.1
      refine ⟨b :: p b :: r, acc', ?_, ⟨.step _ _ _ hs1.1 h2, ?_⟩, hn1, ?_⟩
      · rw [walk]
        rw [find_range hS hs zero (by rw [Simplex.vset]; rcases hv with hv | hv <;> simp [hv, pair_comm])]
        simp only [if_neg hne, hc]
        exact e
      · intro w2 hw2
        have l1 := hw'.2 w2 hw2
        have l2 := hs1.2 _ h1.1
        simp only [List.length_cons] at l1 l2 ⊢
        omega
      · intro e
        rw [hm1, tagsOf_cons, List.mem_insert_iff]
        constructor
        · rintro ((rfl | h) | h)
          · exact .inr (.inl htag)
          · exact .inl h
          · exact .inr (.inr h)
        · rintro (h | h | h)
          · exact .inl (.inr h)
          · exact .inl (.inl (Tag.unique hS h htag))
          · exact .inr h

omit [LinearOrder α] in
theorem two_iff {acc w : List ℕ} (hn : acc.Nodup) (hm : ∀ e, e ∈ acc ↔ TagsOf S w e) : acc.length = 2 ↔ TwoTags S w := by
  constructor
  · intro h
    obtain ⟨c, d, rfl⟩ := List.length_eq_two.1 h
    refine ⟨c, d, by simpa using hn, fun e => ?_⟩
    have := hm e
    simp only [List.mem_cons, List.not_mem_nil, or_false] at this
    exact this.symm
  · rintro ⟨c, d, hcd, h⟩
    have : acc.Perm [c, d] := by
      rw [List.perm_ext_iff_of_nodup hn (by simpa using hcd)]
      intro e
      rw [hm]
      simp only [List.mem_cons, List.not_mem_nil, or_false]
      exact h e
    rw [this.length_eq]
    rfl

/-- The test for two critical points. -/
theorem exactlyTwo_spec (hS : WF S) (lf : Bool) {bfs : List ℕ → List (ℕ × ℕ) → ℕ → ℕ → ℕ} (hbfs : IsSearch bfs) {tags : List (List ℕ × ℕ)}
    (htags : ∀ s ∈ S, ∀ u v, s.vertices = [u, v] → ∃ c, tags.lookup s.vertices = some c ∧ Tag S u v c)
    {i t a b : ℕ} {sa s : Simplex α} (hi : S[i]? = some sa) (hai : vsetAt S i = {a}) (ht : S[t]? = some s) (hab : a ≠ b) :
    ∃ two, exactlyTwo lf bfs S tags sa.data s.data a b = some two ∧
      (two = true ∧ (∃ w, Shortest (LevelEdge S i t) a w b ∧ TwoTags S w) ∨
       two = false ∧ ((∃ w, Shortest (LevelEdge S i t) a w b ∧ ¬ TwoTags S w) ∨ ¬ ∃ w, Path (LevelEdge S i t) a w b)) := by
  have hLS : (interlevel sa.data s.data S).Sublist S := by rw [interlevel_eq hS]; exact List.filter_sublist
  have hle := fun x y => levelEdge_iff hS hi ht (x := x) (y := y)
  obtain ⟨s', e1, hmS, hsv, _⟩ := vertex_at hS hai
  rw [hi] at e1
  cases e1
  have haL : a ∈ (interlevel sa.data s.data S).vertices := by
    rw [mem_vertices_vertex (hS.sublist hLS)]
    refine ⟨sa, ?_, hsv⟩
    rw [interlevel_eq hS, List.mem_filter]
    simp [hmS, Complex.dim, hsv]
  unfold exactlyTwo
  simp only
  obtain ⟨p, rep, ep, hcl⟩ := interlevelSets_spec hS hLS lf
  rw [ep]
  simp only
  have hadjS : ∀ x y, adjOf (interlevel sa.data s.data S) (interlevel sa.data s.data S) x y → ∃ s ∈ S, s.vertices = [x, y] ∨ s.vertices = [y, x] := by
    rintro x y ⟨_, _, r, hr, h⟩
    exact ⟨r, hLS.subset hr, h⟩
  have hge := fun x y => graph_edges (hS.sublist hLS) (x := x) (y := y)
  have hgv := fun x => graph_vertices (L := interlevel sa.data s.data S) (x := x)
  generalize interlevel sa.data s.data S = L at *
  have ca := (contains_ofRepresents hcl.repr).2 haL
  by_cases hb : b ∈ L.vertices
  · have cb := (contains_ofRepresents hcl.repr).2 hb
    rw [if_pos (by rw [ca, cb]; rfl)]
    obtain ⟨p1, f1, r1⟩ := hcl.repr.find haL
    obtain ⟨p2, f2, r2⟩ := r1.find hb
    simp only [f1, f2]
    by_cases hr : rep a = rep b
    · rw [if_pos hr]
      have hEq := (hcl.iff haL hb).1 hr
      obtain ⟨w0, hw0⟩ := path_of_eqvGen (fun x y h => adjOf.symm h) hEq
      let adj : ℕ → ℕ → Prop := fun x y => (x, y) ∈ (adjacencyGraph L).2 ∨ (y, x) ∈ (adjacencyGraph L).2
      have hw0' : Path adj a w0 b := Path.mono hw0 fun x y => (hge x y).2
      obtain ⟨w, hw⟩ := exists_shortest ⟨w0, hw0'⟩
      have hlen : w.length ≤ (adjacencyGraph L).1.length + 1 := by
        have hsub : w ⊆ (adjacencyGraph L).1 := by
          intro x hx
          rw [hgv]
          exact Path.mem hw.1 (P := (· ∈ L.vertices)) haL (fun x y h => ((hge x y).1 h).2.1) x hx
        have := (List.subperm_of_subset (Shortest.nodup hw) hsub).length_le
        omega
      obtain ⟨w', acc, e, hs', hn, hm⟩ := walk_spec hS htags (adj := adj) (fun x y h => hadjS x y ((hge x y).1 h)) (a := a) ⟨sa, hmS, hsv⟩
        (p := Function.update (bfs (adjacencyGraph L).1 (adjacencyGraph L).2 a) a a) (Function.update_self ..)
        (by
          intro b w hab hpath
          obtain ⟨w', hw'⟩ := hbfs (adjacencyGraph L).1 (adjacencyGraph L).2 a b w hab hpath
          refine ⟨w', ?_⟩
          rw [Function.update_of_ne (Ne.symm hab)]
          exact hw') s.data _ b w [] hw hlen List.nodup_nil
      rw [e]
      have hsl : Shortest (LevelEdge S i t) a w' b := Shortest.congr hs' fun x y => (hge x y).trans (hle x y)
      have h2 := two_iff (S := S) (w := w') hn (fun e => by simpa using hm e)
      refine ⟨_, rfl, ?_⟩
      by_cases ht2 : TwoTags S w'
      · exact .inl ⟨by rw [decide_eq_true_eq]; exact h2.2 ht2, w', hsl, ht2⟩
      · exact .inr ⟨by rw [decide_eq_false_iff_not]; exact fun h => ht2 (h2.1 h), .inl ⟨w', hsl, ht2⟩⟩
    · rw [if_neg hr]
      refine ⟨false, rfl, .inr ⟨rfl, .inr ?_⟩⟩
      rintro ⟨w, hw⟩
      exact hr ((hcl.iff haL hb).2 (eqvGen_of_path (Path.mono hw fun x y => (hle x y).2)))
  · have cb : p.contains b = false := by
      rw [← Bool.not_eq_true, contains_ofRepresents hcl.repr]
      exact hb
    rw [if_neg (by rw [cb]; simp)]
    refine ⟨false, rfl, .inr ⟨rfl, .inr ?_⟩⟩
    rintro ⟨w, hw⟩
    cases hw with
    | start => exact hab rfl
    | step w c _ _ h => exact hb ((hle _ _).2 h).2.1

end Aleph.Hierarchy
