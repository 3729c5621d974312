import Verif.Lemmas.History
import Verif.Props.Simplex

/-!
# C22–C25, C46: simplicial complexes
-/

namespace Aleph

open Finset Spec Complex

variable {α : Type}

/-- C22. After every history of calls (with simplices as produced by the constructors) no simplex
is stored twice, none is empty and all are in normal form. -/
theorem C22_history (ops : List (Op α)) (ho : ∀ o ∈ ops, Op.NormalArgs o) (K K' : Complex α)
    (hK : WF K) (h : K.runOps ops = some K') : WF K' := by
  induction ops generalizing K with
  | nil => cases h; exact hK
  | cons o ops ih =>
    rw [runOps] at h
    cases he : K.exec o with
    | none => rw [he] at h; cases h
    | some x =>
      obtain ⟨L, b⟩ := x
      rw [he] at h
      exact ih (fun o' ho' => ho o' (List.mem_cons_of_mem _ ho')) L
        (exec_wf hK (ho o (by simp)) he) h

/-- C22. Starting from the empty complex. -/
theorem C22_history_distinct (ops : List (Op α)) (ho : ∀ o ∈ ops, Op.NormalArgs o) (K : Complex α)
    (h : Complex.runOps [] ops = some K) :
    (K.map Simplex.vset).Nodup ∧ ∀ s ∈ K, s.vset.Nonempty := by
  have hK := C22_history ops ho [] K WF.nil h
  refine ⟨?_, fun s hs => hK.vset_nonempty hs⟩
  exact List.Nodup.map_on (fun s hs t ht e => hK.eq_of_vset hs ht e) hK.nodup

/-- C22. A call on a well-formed complex completes unless its precondition is violated: the position
passed to `replace` is invalid or the view passed to `rearrange` is not a permutation. -/
theorem C22_calls_complete (K : Complex α) (hK : WF K) (o : Op α) (h : K.exec o = none) :
    (∃ i s, o = .replace i s ∧ K.length ≤ i) ∨
      ∃ p, o = .rearrange p ∧ ¬ p.Perm (List.range K.length) := by
  cases o with
  | clear => cases h
  | pushBack s => cases h
  | insertRange l => cases h
  | replace i s =>
    left
    rw [exec] at h
    split at h
    · cases h
    · exact ⟨i, s, rfl, by omega⟩
  | rearrange p =>
    right
    refine ⟨p, rfl, ?_⟩
    intro hp
    rw [exec, rearrange, if_pos hp] at h
    cases h
  | sort lt => cases h
  | remove vs =>
    obtain ⟨L, hL⟩ := remove_total K vs
    rw [exec, hL] at h; cases h
  | removeOnly vs => cases h
  | createMissingFaces =>
    obtain ⟨L, hL, _⟩ := createMissingFaces_spec hK
    rw [exec, hL] at h; cases h

/-- C22. Look-ups on a well-formed complex are consistent: `contains` means stored at some
position, `index` is the unique such position and throws exactly if there is none. -/
theorem C22_lookups (K : Complex α) (hK : WF K) (q : Simplex α) :
    (K.contains q.vertices = true ↔ ∃ i s, K.get i = some s ∧ s.eq q = true) ∧
    (∀ i, K.index q.vertices = some i ↔ ∃ s, K.get i = some s ∧ s.eq q = true) ∧
    (K.index q.vertices = none ↔ K.contains q.vertices = false) ∧
    (∀ i j s t, K.get i = some s → K.get j = some t → s.eq t = true → i = j) := by
  have hq : ∀ s : Simplex α, s.eq q = true ↔ s.vertices = q.vertices := by
    intro s; unfold Simplex.eq; rw [beq_iff_eq]
  refine ⟨?_, ?_, ?_, ?_⟩
  · rw [contains_iff]
    constructor
    · rintro ⟨s, hs, e⟩
      obtain ⟨i, hi⟩ := List.mem_iff_getElem?.1 hs
      exact ⟨i, s, hi, (hq s).2 e⟩
    · rintro ⟨i, s, hi, e⟩
      exact ⟨s, List.mem_iff_getElem?.2 ⟨i, hi⟩, (hq s).1 e⟩
  · intro i
    rw [index_eq_some hK]
    simp only [hq]; rfl
  · rw [index_eq_none, contains_eq_false]
  · intro i j s t hi hj he
    unfold Simplex.eq at he
    rw [beq_iff_eq] at he
    have h1 := (index_eq_some hK).2 ⟨s, hi, he⟩
    have h2 := (index_eq_some hK).2 ⟨t, hj, rfl⟩
    rw [h1] at h2; cases h2; rfl

/-- C22. `dimension()` is the largest dimension of a stored simplex and throws exactly for the empty
complex; `range(d)` returns exactly the simplices of dimension `d`. -/
theorem C22_dimension (K : Complex α) (hK : WF K) :
    (K.dimension = none ↔ K = []) ∧
    (∀ d, K.dimension = some d ↔ (∃ s ∈ K, s.vset.card = d + 1) ∧ ∀ s ∈ K, s.vset.card ≤ d + 1) ∧
    ∀ d s, s ∈ K.range d ↔ s ∈ K ∧ s.vset.card = d + 1 := by
  have hcard : ∀ s ∈ K, s.vset.card = dim s + 1 := by
    intro s hs
    have h1 : s.vset.card = s.vertices.length :=
      List.toFinset_card_of_nodup ((hK.normal s hs).imp fun h => ne_of_gt h)
    have h2 : 0 < s.vertices.length := List.length_pos_iff.2 (hK.nonempty s hs)
    unfold dim; omega
  have hmax : ∀ l : List ℕ, (∀ e ∈ l, e ≤ l.foldr max 0) ∧ (l ≠ [] → l.foldr max 0 ∈ l) := by
    intro l
    induction l with
    | nil => simp
    | cons a l ih =>
      refine ⟨?_, ?_⟩
      · intro e he
        rcases List.mem_cons.1 he with rfl | he
        · exact le_max_left _ _
        · exact le_trans (ih.1 e he) (le_max_right _ _)
      · intro _
        simp only [List.foldr_cons]
        rcases le_total a (l.foldr max 0) with h1 | h1
        · rw [max_eq_right h1]
          by_cases hl : l = []
          · subst hl
            simp at h1 ⊢
            omega
          · exact List.mem_cons_of_mem _ (ih.2 hl)
        · rw [max_eq_left h1]; exact List.mem_cons_self
  refine ⟨?_, ?_, ?_⟩
  · unfold Complex.dimension
    cases K <;> simp
  · intro d
    unfold Complex.dimension
    by_cases hn : K = []
    · subst hn; simp
    · have h1 : (K.map dim) ≠ [] := by simpa using hn
      have h2 := (hmax (K.map dim)).2 h1
      have h3 := (hmax (K.map dim)).1
      obtain ⟨t, ht, he⟩ := List.mem_map.1 h2
      rw [if_neg (by simpa using hn), Option.some.injEq]
      constructor
      · rintro rfl
        refine ⟨⟨t, ht, by rw [hcard t ht, he]⟩, ?_⟩
        intro s hs
        rw [hcard s hs]
        exact Nat.succ_le_succ (h3 _ (List.mem_map_of_mem hs))
      · rintro ⟨⟨s, hs, h4⟩, h5⟩
        have h6 := h3 _ (List.mem_map_of_mem (f := dim) hs)
        have h7 := h5 t ht
        rw [hcard t ht, he] at h7
        rw [hcard s hs] at h4
        omega
  · intro d s
    unfold Complex.range
    rw [List.mem_filter, beq_iff_eq]
    constructor
    · rintro ⟨h1, h2⟩; exact ⟨h1, by rw [hcard s h1, h2]⟩
    · rintro ⟨h1, h2⟩; rw [hcard s h1] at h2; exact ⟨h1, by omega⟩

/-- C22. `vertices()` lists exactly the vertices stored as zero-dimensional simplices, ascending and
without repetition. -/
theorem C22_vertices (K : Complex α) (hK : WF K) :
    K.vertices.Pairwise (· < ·) ∧ ∀ v, v ∈ K.vertices ↔ ∃ s ∈ K, s.vset = {v} := by
  unfold Complex.vertices
  generalize hl : (K.range 0).filterMap (fun s => s.vertices.head?) = l
  have hp := List.perm_insertionSort (· ≤ ·) l.dedup
  refine ⟨?_, ?_⟩
  · have h1 := List.pairwise_insertionSort (· ≤ ·) l.dedup
    have h2 := hp.nodup_iff.2 l.nodup_dedup
    exact (h1.and h2).imp fun h => lt_of_le_of_ne h.1 h.2
  · intro v
    rw [hp.mem_iff, List.mem_dedup, ← hl, List.mem_filterMap]
    constructor
    · rintro ⟨s, hs, hv⟩
      obtain ⟨h1, h2⟩ := ((C22_dimension K hK).2.2 0 s).1 hs
      obtain ⟨w, hw⟩ := Finset.card_eq_one.1 h2
      refine ⟨s, h1, ?_⟩
      have : v ∈ s.vset := List.mem_toFinset.2 (List.mem_of_head? hv)
      rw [hw, Finset.mem_singleton] at this
      rw [hw, this]
    · rintro ⟨s, hs, hv⟩
      refine ⟨s, ((C22_dimension K hK).2.2 0 s).2 ⟨hs, by rw [hv]; rfl⟩, ?_⟩
      obtain ⟨w, l', hl'⟩ := List.exists_cons_of_ne_nil (hK.nonempty s hs)
      have hw : s.vertices.head? = some w := by rw [hl']; rfl
      have : w ∈ s.vset := List.mem_toFinset.2 (List.mem_of_head? hw)
      rw [hv, Finset.mem_singleton] at this
      rw [hw, this]

/-- Non-vacuity: a triangle boundary with a missing vertex. -/
example : WF ([⟨[3], 0⟩, ⟨[2], 0⟩, ⟨[3, 2], 1⟩, ⟨[2, 1], 1⟩] : Complex ℕ) ∧
    Complex.vertices ([⟨[3], 0⟩, ⟨[2], 0⟩, ⟨[3, 2], 1⟩, ⟨[2, 1], 1⟩] : Complex ℕ) = [2, 3] :=
  ⟨⟨by decide, by decide, by decide⟩, by decide⟩

/-- C22. `push_back` appends a new simplex, ignores one that is present (even with different data)
and throws for the empty simplex. -/
theorem C22_push_back (K : Complex α) (s : Simplex α) :
    (s.vertices = [] → K.pushBack s = none) ∧
    (s.vertices ≠ [] → K.contains s.vertices = true → K.pushBack s = some K) ∧
    (s.vertices ≠ [] → K.contains s.vertices = false → K.pushBack s = some (K ++ [s])) := by
  refine ⟨?_, ?_, ?_⟩
  · intro h; simp [pushBack, h]
  · intro h hc; simp [pushBack, h, hc]
  · intro h hc; simp [pushBack, h, hc]

/-- C22. `replace` fails exactly if a different position stores the new vertices. -/
theorem C22_replace (K : Complex α) (hK : WF K) (i : ℕ) (s : Simplex α) (hi : i < K.length)
    (hs : s.vertices ≠ []) :
    ((∃ j t, j ≠ i ∧ K.get j = some t ∧ t.eq s = true) → K.replace i s = some (K, false)) ∧
    ((¬ ∃ j t, j ≠ i ∧ K.get j = some t ∧ t.eq s = true) →
      K.replace i s = some (K.set i s, true)) := by
  have hq : ∀ t : Simplex α, t.eq s = true ↔ t.vertices = s.vertices := by
    intro t; unfold Simplex.eq; rw [beq_iff_eq]
  have hpre : ¬ (s.vertices.isEmpty = true ∨ ¬ i < K.length) := by
    push Not; exact ⟨by simpa using hs, hi⟩
  unfold Complex.replace
  rw [if_neg hpre]
  refine ⟨?_, ?_⟩
  · rintro ⟨j, t, hne, hj, he⟩
    have := (index_eq_some hK).2 ⟨t, hj, (hq t).1 he⟩
    rw [this]
    simp only
    rw [if_neg hne]
  · intro h
    cases hx : K.index s.vertices with
    | none => rfl
    | some j =>
      simp only
      by_cases e : j = i
      · rw [if_pos e]
      · obtain ⟨t, ht, hv⟩ := (index_eq_some hK).1 hx
        exact absurd ⟨j, t, e, ht, (hq t).2 hv⟩ h

example : Complex.runOps [] [.pushBack ⟨[1, 0], 5⟩, .pushBack ⟨[0], 1⟩, .pushBack ⟨[1, 0], 6⟩,
    .createMissingFaces, .sort Simplex.lt, .replace 0 ⟨[0], 9⟩, .remove [0]] =
    some [⟨[1], 5⟩] := by decide

/-- C23. `remove(s)` terminates on every list of simplices, valid or not. -/
theorem C23_remove_terminates (K : Complex α) (vs : List ℕ) : ∃ K', K.remove vs = some K' :=
  remove_total K vs

/-- C23. On a face-closed complex `remove(s)` deletes exactly `s` and its cofaces, keeps order
and data of the others, and leaves a face-closed complex. -/
theorem C23_remove (K : Complex α) (hK : WF K) (hc : FaceClosed K) (q : Simplex α)
    (hq : Normal q.vertices) :
    ∃ K', K.remove q.vertices = some K' ∧ FaceClosed K' ∧
      K' = List.filter (fun s => ¬ q.vset ⊆ s.vset ∨ q.vset = ∅) K := by
  obtain ⟨K', h1, h2, h3, h4⟩ := remove_spec hK hq
  refine ⟨K', h1, h3, ?_⟩
  have hsub : (List.filter (fun s => ¬ q.vset ⊆ s.vset ∨ q.vset = ∅) K).Sublist K :=
    List.filter_sublist
  have hmem : ∀ s, s ∈ K' ↔ s ∈ List.filter (fun s => ¬ q.vset ⊆ s.vset ∨ q.vset = ∅) K := by
    intro s
    rw [h4, List.mem_filter]
    simp only [decide_eq_true_eq]
    refine and_congr_right fun hs => ?_
    constructor
    · intro hS
      by_cases he : q.vset = ∅
      · exact Or.inr he
      · left
        intro hsub
        exact (hS q.vset hsub (Finset.nonempty_iff_ne_empty.2 he)).1 rfl
    · intro hq' t ht htne
      refine ⟨?_, hc s hs t ht htne⟩
      rintro rfl
      rcases hq' with h | h
      · exact h ht
      · exact htne.ne_empty h
  -- two sublists of a duplicate-free list with the same elements are equal
  have key : ∀ (L A B : List (Simplex α)), L.Nodup → A.Sublist L → B.Sublist L →
      (∀ x, x ∈ A ↔ x ∈ B) → A = B := by
    intro L A B hL hA hB hAB
    induction L generalizing A B with
    | nil => rw [List.sublist_nil.1 hA, List.sublist_nil.1 hB]
    | cons x L ih =>
      rw [List.nodup_cons] at hL
      cases hA with
      | cons _ hA =>
        cases hB with
        | cons _ hB => exact ih A B hL.2 hA hB hAB
        | cons_cons _ hB => exact absurd (hA.subset ((hAB x).2 (by simp))) hL.1
      | @cons_cons A' _ _ hA =>
        cases hB with
        | cons _ hB => exact absurd (hB.subset ((hAB x).1 (by simp))) hL.1
        | @cons_cons B' _ _ hB =>
          congr 1
          refine ih A' B' hL.2 hA hB fun y => ?_
          have := hAB y
          by_cases e : y = x
          · subst e
            exact ⟨fun h => absurd (hA.subset h) hL.1, fun h => absurd (hB.subset h) hL.1⟩
          · simpa [e] using this
  exact key K _ _ hK.nodup h2 hsub hmem

/-- C23. On an arbitrary well-formed complex `remove(s)` keeps exactly the simplices all of whose non-empty
faces are stored and different from `s`. -/
theorem C23_remove_general (K : Complex α) (hK : WF K) (q : Simplex α) (hq : Normal q.vertices) :
    ∃ K', K.remove q.vertices = some K' ∧ K'.Sublist K ∧ FaceClosed K' ∧
      ∀ s ∈ K, (s ∈ K' ↔
        ∀ t ⊆ s.vset, t.Nonempty → t ≠ q.vset ∧ ∃ u ∈ K, u.vset = t) := by
  obtain ⟨K', h1, h2, h3, h4⟩ := remove_spec hK hq
  exact ⟨K', h1, h2, h3, fun s hs => by rw [h4]; exact and_iff_right hs⟩

example : path3.remove [0] = some [⟨[1], 0⟩, ⟨[2], 1⟩, ⟨[2, 1], 2⟩] := by decide

/-- C24. `createMissingFaces` terminates; the previous simplices stay at the front with their data;
the resulting vertex sets are exactly the non-empty subsets of the previous ones, each
stored once; every added simplex carries the data of a previous simplex containing it. -/
theorem C24_createMissingFaces (K : Complex α) (hK : WF K) :
    ∃ K', K.createMissingFaces = some K' ∧ K <+: K' ∧ WF K' ∧ FaceClosed K' ∧
      (∀ t : Finset ℕ, (∃ u ∈ K', u.vset = t) ↔ t.Nonempty ∧ ∃ s ∈ K, t ⊆ s.vset) ∧
      ∀ u ∈ K', ∃ s ∈ K, u.vset ⊆ s.vset ∧ u.data = s.data := by
  obtain ⟨K', h1, h2, h3, h4, h5⟩ := createMissingFaces_spec hK
  have hfc := h4.faceClosed h2.normal
  refine ⟨K', h1, h3, h2, hfc, ?_, h5⟩
  intro t
  constructor
  · rintro ⟨u, hu, rfl⟩
    obtain ⟨s, hs, hsub, _⟩ := h5 u hu
    exact ⟨h2.vset_nonempty hu, s, hs, hsub⟩
  · rintro ⟨hne, s, hs, hsub⟩
    exact hfc s (h3.subset hs) t hsub hne

/-- C24. A complex that is already closed is not changed. -/
theorem C24_closed_unchanged (K : Complex α) (hK : WF K) (hc : FaceClosed K) :
    K.createMissingFaces = some K := by
  obtain ⟨K', h1, ⟨new, rfl⟩, h3, h4, h5, _⟩ := C24_createMissingFaces K hK
  cases new with
  | nil => simpa using h1
  | cons u new =>
    exfalso
    obtain ⟨hne, s, hs, hsub⟩ := (h5 u.vset).1 ⟨u, by simp, rfl⟩
    obtain ⟨w, hw, he⟩ := hc s hs u.vset hsub hne
    have : u = w := h3.eq_of_vset (by simp) (List.mem_append_left _ hw) he.symm
    have hd := h3.nodup
    rw [List.nodup_append] at hd
    exact hd.2.2 w hw u (by simp) this.symm

example : Complex.createMissingFaces [⟨[2, 1, 0], 7⟩, ⟨[1], 3⟩] =
    some [⟨[2, 1, 0], 7⟩, ⟨[1], 3⟩, ⟨[1, 0], 7⟩, ⟨[2, 0], 7⟩, ⟨[2, 1], 7⟩, ⟨[0], 7⟩, ⟨[2], 7⟩] := by
  decide

/-- The comment of the code claims that faces created by `createMissingFaces` never exceed their
cofaces in data.  This holds only for the coface that is visited first. -/
theorem C24_shared_face_data :
    ∃ K K' : Complex ℕ, WF K ∧ K.createMissingFaces = some K' ∧ ¬ Spec.Monotone K' := by
  refine ⟨[⟨[1, 0], 5⟩, ⟨[2, 1], 3⟩], [⟨[1, 0], 5⟩, ⟨[2, 1], 3⟩, ⟨[0], 5⟩, ⟨[1], 5⟩, ⟨[2], 3⟩],
    ⟨by decide, by decide, by decide⟩, by decide, ?_⟩
  unfold Spec.Monotone; decide

section
variable [LinearOrder α]

/-- Codimension-one faces of `s` stored in `K`. -/
def FacetsIn (K : Complex α) (s : Simplex α) : Set (Simplex α) :=
  {t | t ∈ K ∧ t.vset ⊆ s.vset ∧ t.vset.card + 1 = s.vset.card}

omit [LinearOrder α] in
theorem facets_iff {K : Complex α} (hK : WF K) {s : Simplex α} (hs : s ∈ K) {P : α → Prop} :
    (∀ f ∈ s.faces, ∀ x, dat K f = some x → P x) ↔ ∀ t ∈ FacetsIn K s, P t.data := by
  constructor
  · rintro h t ⟨h1, h2, h3⟩
    exact h t.vertices ((mem_faces_iff (hK.normal s hs)).2
      ⟨hK.normal t h1, hK.nonempty t h1, h2, h3⟩) t.data (hK.dat_eq h1)
  · intro h f hf x hx
    obtain ⟨t, ht, rfl, rfl⟩ := mem_of_dat hx
    obtain ⟨_, _, h3, h4⟩ := (mem_faces_iff (hK.normal s hs)).1 hf
    exact h t ⟨ht, h3, h4⟩

omit [LinearOrder α] in
theorem elig_iff {K : Complex α} (hK : WF K) {s : Simplex α} (hs : s ∈ K) (skip : Bool) :
    Elig skip s ↔ (if skip then 3 else 2) ≤ s.vset.card := by
  have h1 := (hK.normal s hs).length_eq
  have h2 := List.length_pos_of_ne_nil (hK.nonempty s hs)
  unfold Elig Complex.dim Simplex.vset
  rw [← h1]
  cases skip <;> simp <;> omega

omit [LinearOrder α] in
theorem facets_nonempty {K : Complex α} (hc : FaceClosed K) {s : Simplex α} (hs : s ∈ K)
    (h2 : 2 ≤ s.vset.card) : (FacetsIn K s).Nonempty := by
  obtain ⟨v, hv⟩ := Finset.card_pos.1 (by omega : 0 < s.vset.card)
  have hcard := Finset.card_erase_of_mem hv
  obtain ⟨u, hu, he⟩ := hc s hs (s.vset.erase v) (Finset.erase_subset _ _)
    (Finset.card_pos.1 (by omega))
  exact ⟨u, hu, by rw [he]; exact Finset.erase_subset _ _, by rw [he]; omega⟩

omit [LinearOrder α] in
theorem facet_above {K : Complex α} (hc : FaceClosed K) {s t : Simplex α} (hs : s ∈ K)
    (ht : t.vset.Nonempty) (h : t.vset ⊂ s.vset) :
    ∃ u ∈ FacetsIn K s, t.vset ⊆ u.vset := by
  obtain ⟨v, hv, hvt⟩ := Finset.exists_of_ssubset h
  have hlt := Finset.card_lt_card h
  have := ht.card_pos
  have hcard := Finset.card_erase_of_mem hv
  have hsub : t.vset ⊆ s.vset.erase v := fun x hx =>
    Finset.mem_erase.2 ⟨fun e => hvt (e ▸ hx), h.1 hx⟩
  obtain ⟨u, hu, he⟩ := hc s hs (s.vset.erase v) (Finset.erase_subset _ _) (ht.mono hsub)
  exact ⟨u, ⟨hu, by rw [he]; exact Finset.erase_subset _ _, by rw [he]; omega⟩, by rw [he]; exact hsub⟩

/-- C25. General form, also for complexes with missing faces and for every order in which the
dimension index may list simplices of equal dimension: positions and vertices are
kept; simplices of dimension zero (and one, if requested) keep their data; the data of
every other simplex is the least bound of `lo` and of the new data of its stored
codimension-one faces (respectively the greatest lower bound). -/
theorem C25_recalculateWeights_general (lo hi : α) (useMax skip : Bool) (K ord : Complex α)
    (hK : WF K) (hp : ord.Perm K) (ho : ord.Pairwise fun s t => s.vset.card ≤ t.vset.card) :
    let K' := recalculateWeightsIn lo hi useMax skip ord K
    K'.map (·.vertices) = K.map (·.vertices) ∧
    (∀ s ∈ K, s.vset.card < (if skip then 3 else 2) → s ∈ K') ∧
    ∀ s ∈ K', (if skip then 3 else 2) ≤ s.vset.card → ∀ b,
      (useMax = true → (s.data ≤ b ↔ lo ≤ b ∧ ∀ t ∈ FacetsIn K' s, t.data ≤ b)) ∧
      (useMax = false → (b ≤ s.data ↔ b ≤ hi ∧ ∀ t ∈ FacetsIn K' s, b ≤ t.data)) := by
  intro K'
  have hwo := hK.perm hp
  have ho' : ord.Pairwise fun s t => Complex.dim s ≤ Complex.dim t := by
    refine ho.imp_of_mem ?_
    intro s t hs ht h
    have h1 := (hwo.normal s hs).length_eq
    have h2 := (hwo.normal t ht).length_eq
    unfold Simplex.vset at h
    unfold Complex.dim; omega
  obtain ⟨h1, h2, h3⟩ := recalc_spec lo hi useMax skip hK hp ho'
  refine ⟨recalc_vertices _ _ _ _ _ _, ?_, ?_⟩
  · intro s hs hlt
    refine h2 s hs ?_
    rw [elig_iff hK hs]; omega
  · intro s hs hle b
    have he := h3 s hs ((elig_iff h1 hs skip).2 hle)
    constructor
    · rintro rfl
      rw [he, wgt_le_iff, facets_iff h1 hs]
    · rintro rfl
      rw [he, le_wgt_iff, facets_iff h1 hs]

omit [LinearOrder α] in
theorem byDimension_card (K : Complex α) (hK : WF K) :
    K.byDimension.Pairwise fun s t => s.vset.card ≤ t.vset.card := by
  have hwo := hK.perm (byDimension_perm K)
  refine (byDimension_sorted K).imp_of_mem ?_
  intro s t hs ht h
  have h1 := (hwo.normal s hs).length_eq
  have h2 := (hwo.normal t ht).length_eq
  have h3 := List.length_pos_of_ne_nil (hwo.nonempty s hs)
  have h4 := List.length_pos_of_ne_nil (hwo.nonempty t ht)
  unfold Complex.dim at h
  unfold Simplex.vset; omega

/-- C25. On a face-closed complex the data of every simplex of dimension at least one (two with
`skip`) becomes the maximum of the data of its codimension-one faces; vertices keep
their data; data is monotone afterwards. -/
theorem C25_recalculateWeights_max (lo hi : α) (skip : Bool) (K : Complex α) (hK : WF K)
    (hc : FaceClosed K) (hlo : ∀ s ∈ K, lo ≤ s.data) :
    let K' := recalculateWeights lo hi true skip K
    K'.map (·.vertices) = K.map (·.vertices) ∧
    (∀ s ∈ K, s.vset.card < (if skip then 3 else 2) → s ∈ K') ∧
    (∀ s ∈ K', (if skip then 3 else 2) ≤ s.vset.card →
      IsGreatest ((·.data) '' FacetsIn K' s) s.data) ∧
    ((skip = true → ∀ e ∈ K, e.vset.card = 2 → ∀ v ∈ K, v.vset ⊆ e.vset → v.data ≤ e.data) →
      Spec.Monotone K') := by
  intro K'
  obtain ⟨h1, h2, h3⟩ := C25_recalculateWeights_general lo hi true skip K K.byDimension hK
    (byDimension_perm K) (byDimension_card K hK)
  change K'.map (·.vertices) = _ at h1
  have hwf : WF K' := hK.of_vertices h1
  have hcl : FaceClosed K' := hc.of_vertices h1
  have hlo' : ∀ s ∈ K', lo ≤ s.data := by
    intro s hs
    by_cases hle : (if skip then 3 else 2) ≤ s.vset.card
    · exact (((h3 s hs hle s.data).1 rfl).1 le_rfl).1
    · have : s.vertices ∈ K'.map (·.vertices) := List.mem_map_of_mem hs
      rw [h1] at this
      obtain ⟨t, ht, e⟩ := List.mem_map.1 this
      have htv : t.vset = s.vset := by unfold Simplex.vset; rw [e]
      have htK := h2 t ht (by rw [htv]; omega)
      have := hwf.eq_of_vertices htK hs e
      exact this ▸ hlo t ht
  have hgr : ∀ s ∈ K', (if skip then 3 else 2) ≤ s.vset.card →
      IsGreatest ((·.data) '' FacetsIn K' s) s.data := by
    intro s hs hle
    have hub := (((h3 s hs hle s.data).1 rfl).1 le_rfl).2
    refine ⟨?_, ?_⟩
    · by_contra hcon
      have hne := facets_nonempty hcl hs (by cases skip <;> simp at hle <;> omega)
      -- otherwise the facets are bounded by something smaller
      obtain ⟨m, _, hm, hmax⟩ := exists_max_mem K' (· ∈ FacetsIn K' s) (·.data)
        (by obtain ⟨t, ht⟩ := hne; exact ⟨t, ht.1, ht⟩)
      have hmax' : ∀ t ∈ FacetsIn K' s, t.data ≤ m.data := fun t ht => hmax t ht.1 ht
      have := (((h3 s hs hle m.data).1 rfl).2 ⟨hlo' m hm.1, hmax'⟩)
      exact hcon ⟨m, hm, le_antisymm (hub m hm) this⟩
    · rintro x ⟨t, ht, rfl⟩
      exact hub t ht
  refine ⟨h1, h2, hgr, ?_⟩
  intro hsk
  have hfacet : ∀ s ∈ K', ∀ t ∈ FacetsIn K' s, t.data ≤ s.data := by
    intro s hs t ht
    by_cases hle : (if skip then 3 else 2) ≤ s.vset.card
    · exact (hgr s hs hle).2 ⟨t, ht, rfl⟩
    · have htc := (hwf.vset_nonempty ht.1).card_pos
      have := ht.2.2
      cases skip with
      | false => simp at hle; omega
      | true =>
        simp at hle
        -- `s` is an edge and keeps its data, as do its vertices
        have hold : ∀ u ∈ K', u.vset.card < 3 → u ∈ K := by
          intro u hu hlt
          have : u.vertices ∈ K'.map (·.vertices) := List.mem_map_of_mem hu
          rw [h1] at this
          obtain ⟨w, hw, e⟩ := List.mem_map.1 this
          have hwv : w.vset = u.vset := by unfold Simplex.vset; rw [e]
          have hwK := h2 w hw (by rw [hwv]; simpa using hlt)
          exact hwf.eq_of_vertices hwK hu e ▸ hw
        exact hsk rfl s (hold s hs (by omega)) (by omega) t (hold t ht.1 (by omega)) ht.2.1
  have key : ∀ n, ∀ s ∈ K', ∀ t ∈ K', t.vset ⊆ s.vset → s.vset.card = t.vset.card + n →
      t.data ≤ s.data := by
    intro n
    induction n with
    | zero =>
      intro s hs t ht hsub hcard
      rw [hwf.eq_of_vset ht hs (Finset.eq_of_subset_of_card_le hsub (by omega))]
    | succ n ih =>
      intro s hs t ht hsub hcard
      obtain ⟨u, hu, htu⟩ := facet_above hcl hs (hwf.vset_nonempty ht)
        (Finset.ssubset_iff_subset_ne.2 ⟨hsub, fun e => by rw [e] at hcard; omega⟩)
      exact (ih u hu.1 t ht htu (by have := hu.2.2; omega)).trans (hfacet s hs u hu)
  intro t ht s hs hsub
  exact key (s.vset.card - t.vset.card) s hs t ht hsub
    (by have := Finset.card_le_card hsub; omega)

/-- C25. With `useMaximum = false` the data of every simplex of dimension at least one (two with
`skip`) becomes the minimum of the data of its codimension-one faces. -/
theorem C25_recalculateWeights_min (lo hi : α) (skip : Bool) (K : Complex α) (hK : WF K)
    (hc : FaceClosed K) (hhi : ∀ s ∈ K, s.data ≤ hi) :
    let K' := recalculateWeights lo hi false skip K
    K'.map (·.vertices) = K.map (·.vertices) ∧
    (∀ s ∈ K, s.vset.card < (if skip then 3 else 2) → s ∈ K') ∧
    (∀ s ∈ K', (if skip then 3 else 2) ≤ s.vset.card →
      IsLeast ((·.data) '' FacetsIn K' s) s.data) ∧
    (skip = false → ∀ s ∈ K', ∀ t ∈ K', s.vset ⊆ t.vset → t.data ≤ s.data) := by
  intro K'
  obtain ⟨h1, h2, h3⟩ := C25_recalculateWeights_general lo hi false skip K K.byDimension hK
    (byDimension_perm K) (byDimension_card K hK)
  change K'.map (·.vertices) = _ at h1
  have hwf : WF K' := hK.of_vertices h1
  have hcl : FaceClosed K' := hc.of_vertices h1
  have hhi' : ∀ s ∈ K', s.data ≤ hi := by
    intro s hs
    by_cases hle : (if skip then 3 else 2) ≤ s.vset.card
    · exact (((h3 s hs hle s.data).2 rfl).1 le_rfl).1
    · have : s.vertices ∈ K'.map (·.vertices) := List.mem_map_of_mem hs
      rw [h1] at this
      obtain ⟨t, ht, e⟩ := List.mem_map.1 this
      have htv : t.vset = s.vset := by unfold Simplex.vset; rw [e]
      have htK := h2 t ht (by rw [htv]; omega)
      have := hwf.eq_of_vertices htK hs e
      exact this ▸ hhi t ht
  have hgr : ∀ s ∈ K', (if skip then 3 else 2) ≤ s.vset.card →
      IsLeast ((·.data) '' FacetsIn K' s) s.data := by
    intro s hs hle
    have hub := (((h3 s hs hle s.data).2 rfl).1 le_rfl).2
    refine ⟨?_, ?_⟩
    · by_contra hcon
      have hne := facets_nonempty hcl hs (by cases skip <;> simp at hle <;> omega)
      obtain ⟨m, _, hm, hmin⟩ := exists_min_mem K' (· ∈ FacetsIn K' s) (·.data)
        (by obtain ⟨t, ht⟩ := hne; exact ⟨t, ht.1, ht⟩)
      have hmin' : ∀ t ∈ FacetsIn K' s, m.data ≤ t.data := fun t ht => hmin t ht.1 ht
      have := (((h3 s hs hle m.data).2 rfl).2 ⟨hhi' m hm.1, hmin'⟩)
      exact hcon ⟨m, hm, le_antisymm this (hub m hm)⟩
    · rintro x ⟨t, ht, rfl⟩
      exact hub t ht
  refine ⟨h1, h2, hgr, ?_⟩
  rintro rfl
  have key : ∀ n, ∀ s ∈ K', ∀ t ∈ K', t.vset ⊆ s.vset → s.vset.card = t.vset.card + n →
      s.data ≤ t.data := by
    intro n
    induction n with
    | zero =>
      intro s hs t ht hsub hcard
      rw [hwf.eq_of_vset ht hs (Finset.eq_of_subset_of_card_le hsub (by omega))]
    | succ n ih =>
      intro s hs t ht hsub hcard
      obtain ⟨u, hu, htu⟩ := facet_above hcl hs (hwf.vset_nonempty ht)
        (Finset.ssubset_iff_subset_ne.2 ⟨hsub, fun e => by rw [e] at hcard; omega⟩)
      have htc := (hwf.vset_nonempty ht).card_pos
      exact ((hgr s hs (by simp; omega)).2 ⟨u, hu, rfl⟩).trans
        (ih u hu.1 t ht htu (by have := hu.2.2; omega))
  intro s hs t ht hsub
  exact key (t.vset.card - s.vset.card) t ht s hs hsub
    (by have := Finset.card_le_card hsub; omega)

omit [LinearOrder α] in
theorem mapM_weights (hi : α) (weights : List α) (K : Complex α)
    (hw : ∀ s ∈ K, dim s = 0 → s.vertices.headD 0 < weights.length) :
    ∃ K2 : Complex α, (K.map fun s => { s with data := hi }).mapM (fun s =>
        if dim s = 0 then (weights[s.vertices.headD 0]?).map fun w => { s with data := w }
        else some s) = some K2 ∧ K2.map (·.vertices) = K.map (·.vertices) ∧
      ∀ s ∈ K2, (dim s = 0 → weights[s.vertices.headD 0]? = some s.data) ∧
        (dim s ≠ 0 → s.data = hi) := by
  induction K with
  | nil => exact ⟨[], rfl, rfl, by simp⟩
  | cons s K ih =>
    obtain ⟨K2, h1, h2, h3⟩ := ih fun t ht => hw t (List.mem_cons_of_mem _ ht)
    by_cases hd : dim s = 0
    · have hlt := hw s (by simp) hd
      have hd' : dim ({ s with data := hi } : Simplex α) = 0 := hd
      refine ⟨{ s with data := weights[s.vertices.headD 0] } :: K2, ?_, ?_, ?_⟩
      · rw [List.map_cons, List.mapM_cons, if_pos hd', h1, List.getElem?_eq_getElem hlt]; rfl
      · rw [List.map_cons, List.map_cons, h2]
      · intro t ht
        rcases List.mem_cons.1 ht with rfl | ht
        · exact ⟨fun _ => List.getElem?_eq_getElem hlt, fun h => absurd hd h⟩
        · exact h3 t ht
    · have hd' : ¬ dim ({ s with data := hi } : Simplex α) = 0 := hd
      refine ⟨{ s with data := hi } :: K2, ?_, ?_, ?_⟩
      · rw [List.map_cons, List.mapM_cons, if_neg hd', h1]; rfl
      · rw [List.map_cons, List.map_cons, h2]
      · intro t ht
        rcases List.mem_cons.1 ht with rfl | ht
        · exact ⟨fun h => absurd h hd, fun _ => rfl⟩
        · exact h3 t ht

/-- C25. `recalculateWeights(begin, end)` with weights for all vertices: the data of each simplex of a
face-closed complex becomes the maximum weight of its vertices. -/
theorem C25_vertex_weights (lo hi : α) (weights : List α) (K : Complex α) (hK : WF K)
    (hc : FaceClosed K) (hw : ∀ s ∈ K, ∀ v ∈ s.vset, v < weights.length)
    (hlo : ∀ w ∈ weights, lo ≤ w) :
    ∃ K', recalculateFromVertices lo hi weights K = some K' ∧
      K'.map (·.vertices) = K.map (·.vertices) ∧
      ∀ s ∈ K', IsGreatest {w | ∃ v ∈ s.vset, weights[v]? = some w} s.data := by
  have hhead : ∀ s ∈ K, s.vertices.headD 0 ∈ s.vertices := by
    intro s hs
    cases h : s.vertices with
    | nil => exact absurd h (hK.nonempty s hs)
    | cons a l => simp
  obtain ⟨K2, e1, e2, e3⟩ := mapM_weights hi weights K fun s hs _ =>
    hw s hs _ (List.mem_toFinset.2 (hhead s hs))
  have hK2 : WF K2 := hK.of_vertices e2
  have hc2 : FaceClosed K2 := hc.of_vertices e2
  obtain ⟨h1, h2, h3⟩ := C25_recalculateWeights_general lo hi true false K2 K2.byDimension hK2
    (byDimension_perm K2) (byDimension_card K2 hK2)
  let K' := recalculateWeights lo hi true false K2
  have hwf : WF K' := hK2.of_vertices h1
  have hcl : FaceClosed K' := hc2.of_vertices h1
  refine ⟨K', ?_, (show K'.map (·.vertices) = _ from h1).trans e2, ?_⟩
  · unfold recalculateFromVertices
    simp only
    rw [e1]; rfl
  have hwt : ∀ s ∈ K', ∀ v ∈ s.vset, v < weights.length := by
    intro s hs v hv
    have : s.vertices ∈ K'.map (·.vertices) := List.mem_map_of_mem hs
    rw [show K'.map (·.vertices) = K.map (·.vertices) from Eq.trans h1 e2] at this
    obtain ⟨t, ht, e⟩ := List.mem_map.1 this
    exact hw t ht v (by unfold Simplex.vset at hv ⊢; rw [e]; exact hv)
  -- data of a simplex is bounded exactly by the bounds of its vertex weights
  have key : ∀ n, ∀ s ∈ K', s.vset.card = n + 1 → ∀ b,
      s.data ≤ b ↔ ∀ v ∈ s.vset, ∀ w, weights[v]? = some w → w ≤ b := by
    intro n
    induction n with
    | zero =>
      intro s hs hcard b
      have : s.vertices ∈ K'.map (·.vertices) := List.mem_map_of_mem hs
      rw [show K'.map (·.vertices) = K2.map (·.vertices) from h1] at this
      obtain ⟨t, ht, e⟩ := List.mem_map.1 this
      have htv : t.vset = s.vset := by unfold Simplex.vset; rw [e]
      have htK := h2 t ht (by rw [htv, hcard]; decide)
      have hts : t = s := hwf.eq_of_vertices htK hs e
      subst hts
      have hlen := (hwf.normal t hs).length_eq
      have hd : Complex.dim t = 0 := by
        unfold Complex.dim; rw [hlen]; change t.vset.card - 1 = 0; omega
      have hval := (e3 t ht).1 hd
      have hl1 : t.vertices.length = 1 := by rw [hlen]; exact hcard
      obtain ⟨v, hv⟩ := List.length_eq_one_iff.1 hl1
      have hset : t.vset = {v} := by unfold Simplex.vset; rw [hv]; rfl
      rw [hv] at hval
      simp only [List.headD_cons] at hval
      rw [hset]
      simp only [Finset.mem_singleton, forall_eq]
      rw [hval]
      simp
    | succ n ih =>
      intro s hs hcard b
      rw [(h3 s hs (by rw [hcard]; simp) b).1 rfl]
      constructor
      · rintro ⟨_, hf⟩ v hv w hwv
        -- some facet contains `v`
        obtain ⟨x, hx⟩ : ∃ x ∈ s.vset, x ≠ v := by
          by_contra hcon
          push Not at hcon
          have : s.vset ⊆ {v} := fun x hx => Finset.mem_singleton.2 (hcon x hx)
          have := Finset.card_le_card this
          simp at this; omega
        obtain ⟨u, hu, he⟩ := hcl s hs (s.vset.erase x) (Finset.erase_subset _ _)
          ⟨v, Finset.mem_erase.2 ⟨hx.2.symm, hv⟩⟩
        have hcu : u.vset.card = n + 1 := by rw [he, Finset.card_erase_of_mem hx.1]; omega
        have := hf u ⟨hu, by rw [he]; exact Finset.erase_subset _ _, by omega⟩
        exact (ih u hu hcu b).1 this v (by rw [he]; exact Finset.mem_erase.2 ⟨hx.2.symm, hv⟩) w hwv
      · intro h
        refine ⟨?_, ?_⟩
        · obtain ⟨v, hv⟩ := hwf.vset_nonempty hs
          have hlt := hwt s hs v hv
          have := h v hv weights[v] (List.getElem?_eq_getElem hlt)
          exact (hlo _ (List.getElem_mem hlt)).trans this
        · intro t ht
          have := ht.2.2
          rw [ih t ht.1 (by omega)]
          intro v hv w hwv
          exact h v (ht.2.1 hv) w hwv
  intro s hs
  have hpos := (hwf.vset_nonempty hs).card_pos
  have hk := key (s.vset.card - 1) s hs (by omega)
  refine ⟨?_, ?_⟩
  · by_contra hcon
    have hne : ∃ w ∈ weights, ∃ v ∈ s.vset, weights[v]? = some w := by
      obtain ⟨v, hv⟩ := hwf.vset_nonempty hs
      have hlt := hwt s hs v hv
      exact ⟨weights[v], List.getElem_mem hlt, v, hv, List.getElem?_eq_getElem hlt⟩
    obtain ⟨m, _, hm, hmax⟩ := exists_max_mem weights (fun w => ∃ v ∈ s.vset, weights[v]? = some w)
      (fun w => w) hne
    have hmax' : ∀ v ∈ s.vset, ∀ w, weights[v]? = some w → w ≤ m := fun v hv w hwv =>
      hmax w (List.mem_of_getElem? hwv) ⟨v, hv, hwv⟩
    have h4 := (hk m).2 hmax'
    obtain ⟨v, hv, hwv⟩ := hm
    have h5 := (hk s.data).1 le_rfl v hv m hwv
    exact hcon (le_antisymm h4 h5 ▸ ⟨v, hv, hwv⟩)
  · rintro w ⟨v, hv, hwv⟩
    exact (hk s.data).1 le_rfl v hv w hwv

end

example : recalculateWeights 0 100 true false path3 =
    [⟨[1, 0], 0⟩, ⟨[1], 0⟩, ⟨[2], 1⟩, ⟨[0], 0⟩, ⟨[2, 1], 1⟩] := by decide

example : recalculateFromVertices 0 100 [4, 7, 5] path3 =
    some [⟨[1, 0], 7⟩, ⟨[1], 7⟩, ⟨[2], 5⟩, ⟨[0], 4⟩, ⟨[2, 1], 7⟩] := by decide

example : ∀ s ∈ path3, 0 ≤ s.data := by decide

/-- C46. `Filter` keeps exactly the simplices satisfying the predicate, in order. -/
theorem C46_filter (f : Simplex α → Bool) (K : Complex α) (hK : WF K) :
    filterComplex f K = some (K.filter f) := by
  unfold filterComplex
  rw [filterM_spec f K [] (by simpa using hK)]
  rfl

/-- C46. `Skeleton(k, K)` keeps exactly the simplices of dimension at most `k`, in order, and
is face-closed if `K` is. -/
theorem C46_skeleton (k : ℕ) (K : Complex α) (hK : WF K) :
    ∃ L, skeleton k K = some L ∧ L = K.filter (fun s => s.vset.card ≤ k + 1) ∧
      (FaceClosed K → FaceClosed L) := by
  refine ⟨K.filter (fun s => s.vset.card ≤ k + 1), ?_, rfl, ?_⟩
  · have h1 : skeleton k K =
        K.foldlM (fun L s => if decide (s.vset.card ≤ k + 1) then Complex.pushBack L s else some L) [] := by
      unfold skeleton
      generalize ([] : Complex α) = L
      have hn := hK.normal
      have hne := hK.nonempty
      clear hK
      induction K generalizing L with
      | nil => rfl
      | cons s K ih =>
        have hp : Proper s := ⟨hn s (by simp), hne s (by simp)⟩
        have hpos := hp.card_pos
        rw [List.foldlM_cons, List.foldlM_cons, hp.dimension]
        have e : (s.vset.card - 1 ≤ k) ↔ (decide (s.vset.card ≤ k + 1) = true) := by
          rw [decide_eq_true_eq]; omega
        simp only [e]
        congr 1
        funext L'
        exact ih L' (fun t ht => hn t (List.mem_cons_of_mem _ ht))
          (fun t ht => hne t (List.mem_cons_of_mem _ ht))
    rw [h1, filterM_spec _ K [] (by simpa using hK)]
    rfl
  · intro hc s hs t ht hne
    rw [List.mem_filter] at hs
    obtain ⟨u, hu, he⟩ := hc s hs.1 t ht hne
    refine ⟨u, ?_, he⟩
    rw [List.mem_filter]
    refine ⟨hu, ?_⟩
    simp only [decide_eq_true_eq] at hs ⊢
    rw [he]
    exact (Finset.card_le_card ht).trans hs.2

example : skeleton 0 path3 = some [⟨[1], 0⟩, ⟨[2], 1⟩, ⟨[0], 0⟩] := by decide

end Aleph
