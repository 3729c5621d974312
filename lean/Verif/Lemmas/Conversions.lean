import Verif.Lemmas.History
import Verif.Lemmas.Columns
import Verif.Model.Conversions
import Verif.Spec.Conversions
import Verif.Props.Reduction

namespace Aleph

open Finset Spec Aleph.Complex

variable {α : Type}

/-- Column computed for position `j`. -/
def bdCol (K : Complex α) (max : ℕ) (sj : Simplex α × ℕ) : List ℕ :=
  if max = 0 ∨ sj.2 < max then (sj.1.faces.map (indexOrZero K)).insertionSort (· ≤ ·) else []

theorem faces_length {s : Simplex α} (h : Normal s.vertices) :
    s.faces.length - 1 = s.vertices.length - 1 := by
  rw [faces_eq h]
  split
  · simp; omega
  · simp

theorem indexOrZero_mem {K : Complex α} (hK : WF K) {i : ℕ} {s : Simplex α} (h : K[i]? = some s) :
    indexOrZero K s.vertices = i := by
  have : K.index s.vertices = some i := (index_eq_some hK).2 ⟨s, h, rfl⟩
  simp [indexOrZero, this]

theorem vsetAt_some {K : Complex α} {i : ℕ} {s : Simplex α} (h : K[i]? = some s) :
    vsetAt K i = s.vset := by simp [vsetAt, h]

theorem vsetAt_inj {K : Complex α} (hK : WF K) {i j : ℕ} (hi : i < K.length) (hj : j < K.length)
    (h : vsetAt K i = vsetAt K j) : i = j := by
  rw [vsetAt_some (List.getElem?_eq_getElem hi), vsetAt_some (List.getElem?_eq_getElem hj)] at h
  have h1 := hK.eq_of_vset (List.getElem_mem hi) (List.getElem_mem hj) h
  exact (List.Nodup.getElem_inj_iff hK.nodup).1 h1

theorem vsetAt_nonempty {K : Complex α} (hK : WF K) {i : ℕ} (hi : i < K.length) :
    (vsetAt K i).Nonempty := by
  rw [vsetAt_some (List.getElem?_eq_getElem hi)]
  exact hK.vset_nonempty (List.getElem_mem hi)

theorem exists_vsetAt {K : Complex α} (hc : FaceClosed K) {j : ℕ} {t : Finset ℕ} (hj : j < K.length)
    (ht : t ⊆ vsetAt K j) (hne : t.Nonempty) : ∃ i < K.length, vsetAt K i = t := by
  rw [vsetAt_some (List.getElem?_eq_getElem hj)] at ht
  obtain ⟨u, hu, he⟩ := hc _ (List.getElem_mem hj) t ht hne
  obtain ⟨i, hi, rfl⟩ := List.getElem_of_mem hu
  exact ⟨i, hi, by rw [vsetAt_some (List.getElem?_eq_getElem hi), he]⟩

theorem boundaryStep_eq (k : Kind) {K : Complex α} (hK : WF K) (hc : FaceClosed K) (max : ℕ)
    {r : Rep} {s : Simplex α} {j : ℕ} (hs : K[j]? = some s) (h1 : j < r.data.length)
    (h2 : j < r.dims.length) (h0 : r.data[j]? = some []) :
    boundaryStep k K max r (s, j) =
      some ⟨r.data.set j (bdCol K max (s, j)), r.dims.set j (s.vertices.length - 1)⟩ := by
  have hm : s ∈ K := List.mem_of_getElem? hs
  have hn := hK.normal s hm
  unfold boundaryStep bdCol
  split
  · unfold Rep.setColumn
    rw [if_pos ⟨h1, h2⟩]
    have hnd : (s.faces.map (indexOrZero K)).Nodup := by
      refine List.Nodup.map_on ?_ (faces_nodup hn)
      intro a ha b hb hab
      obtain ⟨u, hu, rfl⟩ := hc.closed1 hK.normal s hm a ha
      obtain ⟨v, hv, rfl⟩ := hc.closed1 hK.normal s hm b hb
      obtain ⟨i, hi⟩ := List.getElem?_of_mem hu
      obtain ⟨l, hl⟩ := List.getElem?_of_mem hv
      rw [indexOrZero_mem hK hi, indexOrZero_mem hK hl] at hab
      subst hab
      rw [hi] at hl; cases hl; rfl
    have hst : Rep.store k ((s.faces.map (indexOrZero K)).insertionSort (· ≤ ·)) =
        (s.faces.map (indexOrZero K)).insertionSort (· ≤ ·) := by
      have : ((s.faces.map (indexOrZero K)).insertionSort (· ≤ ·)).Nodup :=
        (List.perm_insertionSort _ _).nodup_iff.2 hnd
      cases k <;> simp [Rep.store, this.dedup]
    rw [hst, List.length_map, faces_length hn]
  · have : s.dimension = some (s.vertices.length - 1) := by
      unfold Simplex.dimension
      have := hK.nonempty s hm
      simp [this]
    simp only [this]
    unfold Rep.setDimension
    rw [if_pos h2]
    have : r.data.set j [] = r.data := by
      apply List.ext_getElem?
      intro i
      rw [List.getElem?_set]
      split
      · next h => subst h; rw [h0]
      · rfl
    rw [this]

theorem makeBoundaryMatrix_fold (k : Kind) {K : Complex α} (hK : WF K) (hc : FaceClosed K) (max : ℕ)
    (rest : List (Simplex α)) : ∀ (A : List (List ℕ)) (B : List ℕ), A.length = B.length →
    (∀ i, rest[i]? = K[A.length + i]?) →
    (rest.zipIdx A.length).foldlM (boundaryStep k K max)
      ⟨A ++ List.replicate rest.length [], B ++ List.replicate rest.length 0⟩ =
    some ⟨A ++ (rest.zipIdx A.length).map (bdCol K max), B ++ rest.map fun s => s.vertices.length - 1⟩ := by
  induction rest with
  | nil => intro A B _ _; simp
  | cons s rest ih =>
    intro A B hAB hr
    rw [List.zipIdx_cons, List.foldlM_cons]
    have hs : K[A.length]? = some s := by
      have := hr 0; simpa using this.symm
    have hstep : boundaryStep k K max ⟨A ++ List.replicate (s :: rest).length [],
        B ++ List.replicate (s :: rest).length 0⟩ (s, A.length) =
        some ⟨(A ++ [bdCol K max (s, A.length)]) ++ List.replicate rest.length [],
          (B ++ [s.vertices.length - 1]) ++ List.replicate rest.length 0⟩ := by
      rw [boundaryStep_eq k hK hc max hs (by simp) (by simp [hAB]) (by simp [List.replicate_succ])]
      simp [List.replicate_succ, hAB]
    rw [hstep]
    have := ih (A ++ [bdCol K max (s, A.length)]) (B ++ [s.vertices.length - 1]) (by simp [hAB]) (by
      intro i
      have := hr (i + 1)
      simp only [List.getElem?_cons_succ] at this
      rw [this]; simp only [List.length_append, List.length_singleton]
      congr 1; omega)
    simp only [List.length_append, List.length_singleton] at this
    simp only [Option.bind_eq_bind, Option.bind_some]
    rw [this]
    simp

/-- Closed form of the boundary matrix. -/
theorem makeBoundaryMatrix_eq (k : Kind) {K : Complex α} (hK : WF K) (hc : FaceClosed K) (max : ℕ) :
    makeBoundaryMatrix k K max =
      some ⟨⟨K.zipIdx.map (bdCol K max), K.map fun s => s.vertices.length - 1⟩, false⟩ := by
  have := makeBoundaryMatrix_fold k hK hc max K [] [] rfl (by simp)
  simp only [List.nil_append, List.length_nil] at this
  unfold makeBoundaryMatrix
  have e : Rep.empty.setNumColumns K.length =
      ⟨List.replicate K.length [], List.replicate K.length 0⟩ := by
    simp [Rep.empty, Rep.setNumColumns, Rep.resize]
  rw [e, this]; rfl

theorem mem_bdCol {K : Complex α} (hK : WF K) (hc : FaceClosed K) {max : ℕ} {s : Simplex α} {i j : ℕ}
    (hj : K[j]? = some s) :
    i ∈ bdCol K max (s, j) ↔ (max = 0 ∨ j < max) ∧ i ∈ facets K j := by
  have hm : s ∈ K := List.mem_of_getElem? hj
  have hn := hK.normal s hm
  unfold bdCol
  by_cases hmax : max = 0 ∨ j < max
  · rw [if_pos hmax, List.mem_insertionSort, List.mem_map]
    simp only [hmax, true_and]
    rw [facets, mem_filter, vsetAt_some hj]
    constructor
    · rintro ⟨f, hf, rfl⟩
      obtain ⟨u, hu, rfl⟩ := hc.closed1 hK.normal s hm f hf
      obtain ⟨l, hl⟩ := List.getElem?_of_mem hu
      rw [indexOrZero_mem hK hl, vsetAt_some hl, mem_range]
      obtain ⟨h1, h2, h3, h4⟩ := (mem_faces_iff hn).1 hf
      refine ⟨?_, h3, h4⟩
      exact (List.getElem?_eq_some_iff.1 hl).1
    · rintro ⟨h1, h2, h3⟩
      rw [mem_range] at h1
      have hi := List.getElem?_eq_getElem h1
      rw [vsetAt_some hi] at h2 h3
      exact ⟨_, (mem_faces_iff hn).2 ⟨hK.normal _ (List.getElem_mem h1), hK.nonempty _ (List.getElem_mem h1), h2, h3⟩,
        indexOrZero_mem hK hi⟩
  · rw [if_neg hmax]; simp [hmax]

theorem bdCol_strict {K : Complex α} (hK : WF K) (hc : FaceClosed K) {max : ℕ} {s : Simplex α} {j : ℕ}
    (hj : K[j]? = some s) : (bdCol K max (s, j)).Pairwise (· < ·) := by
  have hm : s ∈ K := List.mem_of_getElem? hj
  have hn := hK.normal s hm
  unfold bdCol
  split
  · have hnd : (s.faces.map (indexOrZero K)).Nodup := by
      refine List.Nodup.map_on ?_ (faces_nodup hn)
      intro a ha b hb hab
      obtain ⟨u, hu, rfl⟩ := hc.closed1 hK.normal s hm a ha
      obtain ⟨v, hv, rfl⟩ := hc.closed1 hK.normal s hm b hb
      obtain ⟨i, hi⟩ := List.getElem?_of_mem hu
      obtain ⟨l, hl⟩ := List.getElem?_of_mem hv
      rw [indexOrZero_mem hK hi, indexOrZero_mem hK hl] at hab
      subst hab
      rw [hi] at hl; cases hl; rfl
    have h1 : ((s.faces.map (indexOrZero K)).insertionSort (· ≤ ·)).Nodup :=
      (List.perm_insertionSort _ _).nodup_iff.2 hnd
    have h2 := List.pairwise_insertionSort (· ≤ ·) (s.faces.map (indexOrZero K))
    exact h2.imp₂ (fun a b hab hne => lt_of_le_of_ne hab hne) h1
  · simp

/-- Two intermediate faces between faces of codimension two. -/
theorem facets_facets_even {K : Complex α} (hK : WF K) (hc : FaceClosed K) {i j : ℕ} (hj : j < K.length) :
    Even #{k ∈ facets K j | i ∈ facets K k} := by
  by_cases h : i < K.length ∧ vsetAt K i ⊆ vsetAt K j ∧ #(vsetAt K i) + 2 = #(vsetAt K j)
  · obtain ⟨hi, hsub, hcard⟩ := h
    have : #{k ∈ facets K j | i ∈ facets K k} = #(vsetAt K j \ vsetAt K i) := by
      have e1 : #{k ∈ facets K j | i ∈ facets K k} =
          #(({k ∈ facets K j | i ∈ facets K k} : Finset ℕ).image (vsetAt K)) := by
        rw [card_image_of_injOn]
        intro a ha b hb hab
        simp only [facets, coe_filter, mem_filter, mem_range, Set.mem_ofPred_eq] at ha hb
        exact vsetAt_inj hK ha.1.1 hb.1.1 hab
      have e2 : #(vsetAt K j \ vsetAt K i) =
          #((vsetAt K j \ vsetAt K i).image fun x => insert x (vsetAt K i)) := by
        rw [card_image_of_injOn]
        intro a ha b hb hab
        have ha' := (mem_sdiff.1 (mem_coe.1 ha)).2
        have : a ∈ insert b (vsetAt K i) := by
          have := mem_insert_self a (vsetAt K i)
          simp only at hab
          rwa [hab] at this
        rcases mem_insert.1 this with h | h
        · exact h
        · exact absurd h ha'
      rw [e1, e2]
      congr 1
      ext t
      simp only [mem_image, mem_filter, mem_sdiff]
      constructor
      · rintro ⟨k, ⟨hk, hik⟩, rfl⟩
        simp only [facets, mem_filter, mem_range] at hk hik
        have hd : #(vsetAt K k \ vsetAt K i) = 1 := by
          rw [card_sdiff_of_subset hik.2.1]; omega
        obtain ⟨x, hx⟩ := card_eq_one.1 hd
        have hxm : x ∈ vsetAt K k \ vsetAt K i := by rw [hx]; simp
        refine ⟨x, ⟨hk.2.1 (mem_sdiff.1 hxm).1, (mem_sdiff.1 hxm).2⟩, ?_⟩
        rw [← singleton_union, ← hx, sdiff_union_of_subset hik.2.1]
      · rintro ⟨x, ⟨hx1, hx2⟩, rfl⟩
        obtain ⟨k, hk, he⟩ := exists_vsetAt hc hj (insert_subset hx1 hsub) (insert_nonempty _ _)
        refine ⟨k, ⟨?_, ?_⟩, he⟩
        · simp only [facets, mem_filter, mem_range]
          rw [he, card_insert_of_notMem hx2]
          exact ⟨hk, insert_subset hx1 hsub, by omega⟩
        · simp only [facets, mem_filter, mem_range]
          rw [he, card_insert_of_notMem hx2]
          exact ⟨hi, subset_insert _ _, rfl⟩
    rw [this, card_sdiff_of_subset hsub]
    exact ⟨1, by omega⟩
  · have : ({k ∈ facets K j | i ∈ facets K k} : Finset ℕ) = ∅ := by
      rw [filter_eq_empty_iff]
      intro k hk hik
      simp only [facets, mem_filter, mem_range] at hk hik
      exact h ⟨hik.1, hik.2.1.trans hk.2.1, by omega⟩
    rw [this]; exact ⟨0, by simp⟩

/-! ### Diagrams -/

/-- The points of dimension `d` contributed by the pairs `p`. -/
def ptsOf (inf : α) (K : Complex α) (d : ℕ) (p : List (ℕ × ℕ)) : List (α × α) :=
  p.filterMap fun ij => match diagramPoint inf K ij with
    | some (e, x) => if e = d then some x else none
    | none => none

theorem ptsOf_append (inf : α) (K : Complex α) (d : ℕ) (p q : List (ℕ × ℕ)) :
    ptsOf inf K d (p ++ q) = ptsOf inf K d p ++ ptsOf inf K d q := by
  simp [ptsOf, List.filterMap_append]

theorem diagramMapAdd_keys (d : ℕ) (x : α × α) {m : List (ℕ × List (α × α))}
    (hm : m.Pairwise fun a b => a.1 < b.1) :
    (diagramMapAdd d x m).Pairwise (fun a b => a.1 < b.1) ∧
    ∀ e ∈ diagramMapAdd d x m, e.1 = d ∨ ∃ f ∈ m, f.1 = e.1 := by
  induction m with
  | nil => simp [diagramMapAdd]
  | cons a m ih =>
    obtain ⟨e, l⟩ := a
    obtain ⟨h1, h2⟩ := List.pairwise_cons.1 hm
    obtain ⟨i1, i2⟩ := ih h2
    unfold diagramMapAdd
    split
    · next hlt =>
      refine ⟨List.pairwise_cons.2 ⟨?_, hm⟩, ?_⟩
      · intro b hb
        rcases List.mem_cons.1 hb with rfl | hb
        · exact hlt
        · exact lt_trans hlt (h1 b hb)
      · intro b hb
        rcases List.mem_cons.1 hb with rfl | hb
        · exact Or.inl rfl
        · exact Or.inr ⟨b, hb, rfl⟩
    · next hlt =>
      split
      · next he =>
        refine ⟨List.pairwise_cons.2 ⟨h1, h2⟩, ?_⟩
        intro b hb
        rcases List.mem_cons.1 hb with rfl | hb
        · exact Or.inl he.symm
        · exact Or.inr ⟨b, List.mem_cons_of_mem _ hb, rfl⟩
      · next hne =>
        refine ⟨List.pairwise_cons.2 ⟨?_, i1⟩, ?_⟩
        · intro b hb
          rcases i2 b hb with h | ⟨f, hf, h⟩
          · simp only; omega
          · rw [← h]; exact h1 f hf
        · intro b hb
          rcases List.mem_cons.1 hb with rfl | hb
          · exact Or.inr ⟨(e, l), List.mem_cons_self, rfl⟩
          · rcases i2 b hb with h | ⟨f, hf, h⟩
            · exact Or.inl h
            · exact Or.inr ⟨f, List.mem_cons_of_mem _ hf, h⟩

theorem diagramMapAdd_mem (F : ℕ → List (α × α)) (d : ℕ) (x : α × α) {m : List (ℕ × List (α × α))}
    (hm : m.Pairwise fun a b => a.1 < b.1)
    (hF : ∀ e l, (e, l) ∈ m → l = F e) (hd : F d ≠ [] → (d, F d) ∈ m) (e : ℕ) (l : List (α × α)) :
    (e, l) ∈ diagramMapAdd d x m ↔ (e ≠ d ∧ (e, l) ∈ m) ∨ (e = d ∧ l = F d ++ [x]) := by
  induction m with
  | nil =>
    have : F d = [] := by by_contra h; simpa using hd h
    simp [diagramMapAdd, this]
  | cons a m ih =>
    obtain ⟨g, k⟩ := a
    obtain ⟨h1, h2⟩ := List.pairwise_cons.1 hm
    unfold diagramMapAdd
    split
    · next hlt =>
      have hnd : ∀ k', (d, k') ∉ (g, k) :: m := by
        intro k' hk
        rcases List.mem_cons.1 hk with h | h
        · cases h; omega
        · have := h1 _ h; simp only at this; omega
      have : F d = [] := by by_contra h; exact hnd _ (hd h)
      rw [this, List.nil_append, List.mem_cons]
      constructor
      · rintro (h | h)
        · cases h; exact Or.inr ⟨rfl, rfl⟩
        · refine Or.inl ⟨?_, h⟩
          rintro rfl; exact hnd _ h
      · rintro (⟨h3, h4⟩ | ⟨rfl, rfl⟩)
        · exact Or.inr h4
        · exact Or.inl rfl
    · next hlt =>
      split
      · next he =>
        subst he
        have hk := hF d k List.mem_cons_self
        have hnd : ∀ k', (d, k') ∉ m := fun k' h => by have := h1 _ h; simp at this
        simp only [List.mem_cons]
        rw [← hk]
        constructor
        · rintro (h | h)
          · cases h; exact Or.inr ⟨rfl, rfl⟩
          · refine Or.inl ⟨?_, Or.inr h⟩
            rintro rfl; exact hnd _ h
        · rintro (⟨h3, h4⟩ | ⟨rfl, rfl⟩)
          · rcases h4 with h4 | h4
            · cases h4; exact absurd rfl h3
            · exact Or.inr h4
          · exact Or.inl rfl
      · next hne =>
        rw [List.mem_cons, List.mem_cons, ih h2 (fun e l h => hF e l (List.mem_cons_of_mem _ h)) ?_]
        · constructor
          · rintro (h | h | h)
            · cases h; exact Or.inl ⟨fun h => hne h.symm, Or.inl rfl⟩
            · exact Or.inl ⟨h.1, Or.inr h.2⟩
            · exact Or.inr h
          · rintro (⟨h3, h4 | h4⟩ | h)
            · exact Or.inl h4
            · exact Or.inr (Or.inl ⟨h3, h4⟩)
            · exact Or.inr (Or.inr h)
        · intro h
          rcases List.mem_cons.1 (hd h) with h | h
          · cases h; exact absurd rfl hne
          · exact h

/-- Loop body of `makePersistenceDiagrams`. -/
def diagStep (inf : α) (K : Complex α) (m : List (ℕ × List (α × α))) (ij : ℕ × ℕ) :
    Option (List (ℕ × List (α × α))) :=
  match diagramPoint inf K ij with
  | none => none
  | some (d, p) => some (diagramMapAdd d p m)

theorem diag_fold (inf : α) (K : Complex α) (q : List (ℕ × ℕ))
    (hq : ∀ ij ∈ q, (diagramPoint inf K ij).isSome) : ∀ (p : List (ℕ × ℕ)) (m : List (ℕ × List (α × α))),
    m.Pairwise (fun a b => a.1 < b.1) →
    (∀ e l, (e, l) ∈ m ↔ l ≠ [] ∧ l = ptsOf inf K e p) →
    ∃ m', q.foldlM (diagStep inf K) m = some m' ∧ m'.Pairwise (fun a b => a.1 < b.1) ∧
      ∀ e l, (e, l) ∈ m' ↔ l ≠ [] ∧ l = ptsOf inf K e (p ++ q) := by
  induction q with
  | nil => intro p m hm h; exact ⟨m, rfl, hm, by simpa using h⟩
  | cons ij q ih =>
    intro p m hm h
    obtain ⟨⟨d, x⟩, hx⟩ := Option.isSome_iff_exists.1 (hq ij List.mem_cons_self)
    have hone : ∀ e, ptsOf inf K e [ij] = if d = e then [x] else [] := by
      intro e
      simp only [ptsOf, List.filterMap_cons, hx, List.filterMap_nil]
      split
      · next he => split at he <;> simp_all
      · next he => split at he <;> simp_all
    obtain ⟨m', h1, h2, h3⟩ := ih (fun ij h => hq ij (List.mem_cons_of_mem _ h)) (p ++ [ij])
      (diagramMapAdd d x m) (diagramMapAdd_keys d x hm).1 (by
        intro e l
        rw [diagramMapAdd_mem (fun e => ptsOf inf K e p) d x hm (fun e l he => ((h e l).1 he).2)
          (fun hne => (h _ _).2 ⟨hne, rfl⟩), ptsOf_append, hone]
        constructor
        · rintro (⟨h3, h4⟩ | ⟨rfl, rfl⟩)
          · rw [if_neg (fun h => h3 h.symm), List.append_nil]; exact (h e l).1 h4
          · simp
        · rintro ⟨h3, h4⟩
          by_cases he : e = d
          · subst he; rw [if_pos rfl] at h4; exact Or.inr ⟨rfl, h4⟩
          · rw [if_neg (fun h => he h.symm), List.append_nil] at h4
            exact Or.inl ⟨he, (h e l).2 ⟨h3, h4⟩⟩)
    refine ⟨m', ?_, h2, ?_⟩
    · rw [List.foldlM_cons]
      simp only [diagStep, hx]
      exact h1
    · intro e l; rw [h3]; simp

theorem diag_fold_none (inf : α) (K : Complex α) (q : List (ℕ × ℕ))
    (hq : ∃ ij ∈ q, diagramPoint inf K ij = none) : ∀ m : List (ℕ × List (α × α)),
    q.foldlM (diagStep inf K) m = none := by
  induction q with
  | nil => simp at hq
  | cons ij q ih =>
    intro m
    rw [List.foldlM_cons]
    cases hx : diagramPoint inf K ij with
    | none => simp [diagStep, hx]
    | some y =>
      obtain ⟨d, x⟩ := y
      simp only [diagStep, hx]
      refine ih ?_ _
      obtain ⟨a, ha, hn⟩ := hq
      rcases List.mem_cons.1 ha with rfl | ha
      · rw [hx] at hn; cases hn
      · exact ⟨a, ha, hn⟩

/-- Data at a position, `inf` beyond the complex. -/
theorem diagramPoint_eq {inf : α} {K : Complex α} (hK : WF K) {ij : ℕ × ℕ} :
    diagramPoint inf K ij = (K[ij.1]?).map fun s =>
      (dimAt K ij.1, (s.data, ((K[ij.2]?).map (·.data)).getD inf)) := by
  unfold diagramPoint Complex.get
  cases h : K[ij.1]? with
  | none => rfl
  | some s =>
    have hm := List.mem_of_getElem? h
    have h1 : s.dimension = some (dimAt K ij.1) := by
      unfold Simplex.dimension dimAt
      rw [vsetAt_some h]
      have h2 := hK.nonempty s hm
      have h3 := (hK.normal s hm).length_eq
      change s.vertices.length = s.vset.card at h3
      simp [h2, h3]
    simp only [h1, Option.map_some]
    cases K[ij.2]? <;> rfl

end Aleph
