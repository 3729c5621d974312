import Verif.Model.QuotientSpaces
import Verif.Spec.Euler
import Verif.Spec.Rips
import Verif.Lemmas.Rips
import Verif.Props.Euler
import Verif.Props.Complex

/-!
# C32: cones and suspensions
-/

namespace Aleph

open Finset Spec QuotientSpace

variable {α : Type}

theorem join_vset (s : Simplex α) (a : ℕ) (d : α) : (join s a d).vset = insert a s.vset := by
  ext x
  unfold join Simplex.vset
  rw [List.mem_toFinset, mem_ofRange]
  simp
  tauto

theorem insertAll_new {K new : Complex α} (hK : WF K) (h1 : ∀ s ∈ new, Normal s.vertices)
    (h2 : ∀ s ∈ new, s.vset.Nonempty) (h3 : ((K ++ new).map Simplex.vset).Nodup) :
    insertAll K new = some (K ++ new) ∧ WF (K ++ new) := by
  have hne : ∀ s ∈ new, s.vertices ≠ [] := by
    intro s hs he
    have := h2 s hs
    rw [Simplex.vset, he] at this
    simp at this
  have hnd : ((K ++ new).map (·.vertices)).Nodup := by
    refine List.Nodup.of_map List.toFinset ?_
    rw [List.map_map]
    exact h3
  constructor
  · unfold insertAll
    rw [insertRange_nodup K new hne hnd]
  · refine ⟨?_, ?_, hnd⟩
    · intro s hs
      rcases List.mem_append.1 hs with hs | hs
      · exact hK.normal s hs
      · exact h1 s hs
    · intro s hs
      rcases List.mem_append.1 hs with hs | hs
      · exact hK.nonempty s hs
      · exact hne s hs

/-- The largest vertex. -/
theorem last_vertex {K : Complex α} (hK : WF K) (hc : FaceClosed K) (hne : K ≠ []) :
    ∃ v, K.vertices.getLast? = some v ∧ ∀ s ∈ K, ∀ x ∈ s.vset, x ≤ v := by
  obtain ⟨h1, h2⟩ := C22_vertices K hK
  obtain ⟨s, hs⟩ := List.exists_mem_of_ne_nil K hne
  have hin : ∀ s ∈ K, ∀ x ∈ s.vset, x ∈ K.vertices := by
    intro s hs x hx
    rw [h2]
    obtain ⟨u, hu, hu'⟩ := hc s hs {x} (by simpa using hx) (by simp)
    exact ⟨u, hu, hu'⟩
  obtain ⟨x, hx⟩ := hK.vset_nonempty hs
  have hne' : K.vertices ≠ [] := List.ne_nil_of_mem (hin s hs x hx)
  refine ⟨K.vertices.getLast hne', List.getLast?_eq_some_getLast hne', ?_⟩
  intro t ht y hy
  have hy' := hin t ht y hy
  have := List.dropLast_append_getLast hne'
  rw [← this] at h1 hy'
  rw [List.pairwise_append] at h1
  rcases List.mem_append.1 hy' with h | h
  · exact (h1.2.2 y h _ (by simp)).le
  · rw [List.mem_singleton.1 h]

theorem join_sub {K : Complex α} (hc : FaceClosed K) {s : Simplex α} (hs : s ∈ K) {a : ℕ}
    {t : Finset ℕ} (ht : t ⊆ insert a s.vset) (hne : t.Nonempty) :
    (∃ u ∈ K, u.vset = t) ∨ t = {a} ∨ ∃ s' ∈ K, t = insert a s'.vset := by
  by_cases hat : a ∈ t
  · by_cases he : (t.erase a).Nonempty
    · obtain ⟨u, hu, hu'⟩ := hc s hs (t.erase a) (by
        intro x hx
        rw [mem_erase] at hx
        rcases mem_insert.1 (ht hx.2) with h | h
        · exact absurd h hx.1
        · exact h) he
      exact Or.inr (Or.inr ⟨u, hu, by rw [hu', insert_erase hat]⟩)
    · rw [not_nonempty_iff_eq_empty] at he
      right; left
      rw [← insert_erase hat, he]; rfl
  · left
    apply hc s hs t _ hne
    intro x hx
    rcases mem_insert.1 (ht hx) with rfl | h
    · exact absurd hx hat
    · exact h

theorem sum_insert {S : Finset (Finset ℕ)} {a : ℕ} (h1 : ∀ t ∈ S, a ∉ t) (h2 : ∀ t ∈ S, t.Nonempty) :
    ∑ t ∈ S.image (insert a), (-1 : ℤ) ^ (#t - 1) = - ∑ t ∈ S, (-1 : ℤ) ^ (#t - 1) := by
  rw [Finset.sum_image]
  · rw [← Finset.sum_neg_distrib]
    refine Finset.sum_congr rfl fun t ht => ?_
    rw [card_insert_of_notMem (h1 t ht)]
    have := card_pos.2 (h2 t ht)
    obtain ⟨m, hm⟩ : ∃ m, #t = m + 1 := ⟨#t - 1, by omega⟩
    rw [hm]
    simp [pow_succ]
  · intro t ht u hu h
    rw [← erase_insert (h1 t ht), h, erase_insert (h1 u hu)]

theorem insert_inj_of_notMem {a : ℕ} {t u : Finset ℕ} (ht : a ∉ t) (hu : a ∉ u) (h : insert a t = insert a u) :
    t = u := by
  rw [← erase_insert ht, h, erase_insert hu]

/-- C32. The cone over a non-empty complex consists of the complex itself (in its order, with its data), a new vertex,
and the joins of this vertex with the simplices of the complex; the data of the new simplices is given by the functor,
called with the empty simplex for the vertex.  The cone is closed under faces and has Euler characteristic one. -/
theorem C32_cone (d0 : α) (f : Simplex α → α) (K : Complex α) (hK : WF K) (hc : FaceClosed K) (hne : K ≠ []) :
    ∃ a L new, cone d0 f K = some L ∧ (∀ s ∈ K, a ∉ s.vset) ∧ L = K ++ new ∧ WF L ∧ FaceClosed L ∧
      (∀ t x, HasData new t x ↔
        (t = {a} ∧ x = f ⟨[], d0⟩) ∨ ∃ s ∈ K, t = insert a s.vset ∧ x = f s) ∧
      euler L = 1 := by
  obtain ⟨v, hv, hle⟩ := last_vertex hK hc hne
  have ha : ∀ s ∈ K, v + 1 ∉ s.vset := by
    intro s hs h
    have := hle s hs _ h
    omega
  have hsets : ((Simplex.ofVertex (v + 1) (f ⟨[], d0⟩) :: K.map fun s => join s (v + 1) (f s)).map Simplex.vset) =
      {v + 1} :: (K.map Simplex.vset).map (insert (v + 1)) := by
    rw [List.map_cons, List.map_map, List.map_map]
    congr 1
    apply List.map_congr_left
    intro s _
    exact join_vset s _ _
  obtain ⟨h1, h2⟩ := insertAll_new hK
    (new := Simplex.ofVertex (v + 1) (f ⟨[], d0⟩) :: K.map fun s => join s (v + 1) (f s))
    (by
      intro s hs
      rcases List.mem_cons.1 hs with rfl | hs
      · simp [Simplex.ofVertex, Normal]
      · obtain ⟨t, _, rfl⟩ := List.mem_map.1 hs
        exact ofRange_normal _ _)
    (by
      intro s hs
      rcases List.mem_cons.1 hs with rfl | hs
      · simp [Simplex.ofVertex, Simplex.vset]
      · obtain ⟨t, _, rfl⟩ := List.mem_map.1 hs
        rw [join_vset]
        simp)
    (by
      rw [List.map_append, hsets, List.nodup_append]
      refine ⟨sets_nodup hK, ?_, ?_⟩
      · rw [List.nodup_cons]
        constructor
        · intro h
          simp only [List.mem_map] at h
          obtain ⟨_, ⟨s, hs, rfl⟩, he⟩ := h
          obtain ⟨x, hx⟩ := hK.vset_nonempty hs
          have : x ∈ ({v + 1} : Finset ℕ) := by rw [← he]; exact mem_insert_of_mem hx
          rw [mem_singleton] at this
          subst this
          exact ha s hs hx
        · refine List.Nodup.map_on ?_ (sets_nodup hK)
          intro t ht u hu h
          obtain ⟨s, hs, rfl⟩ := List.mem_map.1 ht
          obtain ⟨s', hs', rfl⟩ := List.mem_map.1 hu
          exact insert_inj_of_notMem (ha s hs) (ha s' hs') h
      · rintro t ht _ hu rfl
        obtain ⟨s, hs, rfl⟩ := List.mem_map.1 ht
        apply ha s hs
        rcases List.mem_cons.1 hu with h | h
        · rw [h]; simp
        · obtain ⟨u, _, hu⟩ := List.mem_map.1 h
          rw [← hu]; simp)
  refine ⟨v + 1, _, _, ?_, ha, rfl, h2, ?_, ?_, ?_⟩
  · unfold cone
    have : K.isEmpty = false := by cases K with
      | nil => exact absurd rfl hne
      | cons => rfl
    rw [this, hv]
    exact h1
  · intro s hs t ht hne
    have hin : ∀ u : Finset ℕ, ((∃ r ∈ K, r.vset = u) ∨ u = {v + 1} ∨ ∃ r ∈ K, u = insert (v + 1) r.vset) →
        ∃ r ∈ K ++ Simplex.ofVertex (v + 1) (f ⟨[], d0⟩) :: K.map fun s => join s (v + 1) (f s), r.vset = u := by
      rintro u (⟨r, hr, rfl⟩ | rfl | ⟨r, hr, rfl⟩)
      · exact ⟨r, by simp [hr], rfl⟩
      · exact ⟨Simplex.ofVertex (v + 1) (f ⟨[], d0⟩), by simp, rfl⟩
      · exact ⟨join r (v + 1) (f r), by simp; exact Or.inr (Or.inr ⟨r, hr, rfl⟩), join_vset _ _ _⟩
    apply hin
    rcases List.mem_append.1 hs with hs | hs
    · exact Or.inl (hc s hs t ht hne)
    · rcases List.mem_cons.1 hs with rfl | hs
      · right; left
        have : t ⊆ {v + 1} := ht
        exact (subset_singleton_iff.1 this).resolve_left hne.ne_empty
      · obtain ⟨r, hr, rfl⟩ := List.mem_map.1 hs
        rw [join_vset] at ht
        exact join_sub hc hr ht hne
  · intro t x
    simp only [HasData, List.mem_cons, List.mem_map]
    constructor
    · rintro ⟨r, rfl | ⟨s, hs, rfl⟩, rfl, rfl⟩
      · exact Or.inl ⟨rfl, rfl⟩
      · exact Or.inr ⟨s, hs, join_vset _ _ _, rfl⟩
    · rintro (⟨rfl, rfl⟩ | ⟨s, hs, rfl, rfl⟩)
      · exact ⟨_, Or.inl rfl, rfl, rfl⟩
      · exact ⟨_, Or.inr ⟨s, hs, rfl⟩, join_vset _ _ _, rfl⟩
  · have hS : sets (K ++ Simplex.ofVertex (v + 1) (f ⟨[], d0⟩) :: K.map fun s => join s (v + 1) (f s)) =
        sets K ∪ insert {v + 1} ((sets K).image (insert (v + 1))) := by
      unfold sets
      rw [List.map_append, hsets]
      ext t
      simp
    have hmem : ∀ t ∈ sets K, v + 1 ∉ t ∧ t.Nonempty := by
      intro t ht
      obtain ⟨s, hs, rfl⟩ := mem_sets.1 ht
      exact ⟨ha s hs, hK.vset_nonempty hs⟩
    have hnot : {v + 1} ∉ (sets K).image (insert (v + 1)) := by
      intro h
      obtain ⟨t, ht, he⟩ := mem_image.1 h
      obtain ⟨x, hx⟩ := (hmem t ht).2
      have : x ∈ ({v + 1} : Finset ℕ) := by rw [← he]; exact mem_insert_of_mem hx
      rw [mem_singleton] at this
      subst this
      exact (hmem t ht).1 hx
    unfold euler
    rw [hS, Finset.sum_union, Finset.sum_insert hnot, sum_insert (fun t ht => (hmem t ht).1) fun t ht => (hmem t ht).2]
    · simp
    · rw [disjoint_left]
      intro t ht hu
      apply (hmem t ht).1
      rcases mem_insert.1 hu with rfl | h
      · simp
      · obtain ⟨u, _, rfl⟩ := mem_image.1 h
        simp

/-- C32. The suspension of a non-empty complex consists of the complex itself, two new vertices, and the joins of each
of these with the simplices of the complex.  It is closed under faces, its Euler characteristic is two minus the one of the
complex. -/
theorem C32_suspension (d0 : α) (f : Simplex α → α) (K : Complex α) (hK : WF K) (hc : FaceClosed K) (hne : K ≠ []) :
    ∃ a b L new, suspension d0 f K = some L ∧ a ≠ b ∧ (∀ s ∈ K, a ∉ s.vset ∧ b ∉ s.vset) ∧ L = K ++ new ∧ WF L ∧
      FaceClosed L ∧
      (∀ t x, HasData new t x ↔
        ((t = {a} ∨ t = {b}) ∧ x = f ⟨[], d0⟩) ∨
          ∃ s ∈ K, (t = insert a s.vset ∨ t = insert b s.vset) ∧ x = f s) ∧
      euler L = 2 - euler K := by
  obtain ⟨v, hv, hle⟩ := last_vertex hK hc hne
  have ha : ∀ s ∈ K, v + 1 ∉ s.vset := by
    intro s hs h
    have := hle s hs _ h
    omega
  have hb : ∀ s ∈ K, v + 1 + 1 ∉ s.vset := by
    intro s hs h
    have := hle s hs _ h
    omega
  set new : Complex α := Simplex.ofVertex (v + 1) (f ⟨[], d0⟩) :: Simplex.ofVertex (v + 1 + 1) (f ⟨[], d0⟩) ::
    K.flatMap fun s => [join s (v + 1) (f s), join s (v + 1 + 1) (f s)] with hnew
  have hmemnew : ∀ r, r ∈ new ↔ r = Simplex.ofVertex (v + 1) (f ⟨[], d0⟩) ∨
      r = Simplex.ofVertex (v + 1 + 1) (f ⟨[], d0⟩) ∨
      ∃ s ∈ K, r = join s (v + 1) (f s) ∨ r = join s (v + 1 + 1) (f s) := by
    intro r
    simp [hnew, List.mem_cons, List.mem_flatMap]
  have hsets : new.map Simplex.vset = {v + 1} :: {v + 1 + 1} ::
      (K.map Simplex.vset).flatMap fun t => [insert (v + 1) t, insert (v + 1 + 1) t] := by
    rw [hnew, List.map_cons, List.map_cons, List.map_flatMap, List.flatMap_map]
    congr 2
    apply List.flatMap_congr
    intro s _
    simp [join_vset]
  obtain ⟨h1, h2⟩ := insertAll_new hK (new := new)
    (by
      intro s hs
      rcases (hmemnew s).1 hs with rfl | rfl | ⟨t, _, rfl | rfl⟩
      · simp [Simplex.ofVertex, Normal]
      · simp [Simplex.ofVertex, Normal]
      · exact ofRange_normal _ _
      · exact ofRange_normal _ _)
    (by
      intro s hs
      rcases (hmemnew s).1 hs with rfl | rfl | ⟨t, _, rfl | rfl⟩
      · simp [Simplex.ofVertex, Simplex.vset]
      · simp [Simplex.ofVertex, Simplex.vset]
      · rw [join_vset]; simp
      · rw [join_vset]; simp)
    (by
      rw [List.map_append, hsets, List.nodup_append]
      have hsing : ∀ c, (∀ s ∈ K, c ∉ s.vset) → ∀ e, ∀ s ∈ K, ({c} : Finset ℕ) ≠ insert e s.vset := by
        intro c hc' e s hs he
        obtain ⟨x, hx⟩ := hK.vset_nonempty hs
        have : x ∈ ({c} : Finset ℕ) := by rw [he]; exact mem_insert_of_mem hx
        rw [mem_singleton] at this
        subst this
        exact hc' s hs hx
      refine ⟨sets_nodup hK, ?_, ?_⟩
      · rw [List.nodup_cons, List.nodup_cons]
        refine ⟨?_, ?_, ?_⟩
        · intro h
          rcases List.mem_cons.1 h with h | h
          · have := singleton_injective h; omega
          · simp only [List.mem_flatMap, List.mem_map, List.mem_cons, List.not_mem_nil, or_false] at h
            obtain ⟨_, ⟨s, hs, rfl⟩, h | h⟩ := h
            · exact hsing _ ha _ s hs h
            · exact hsing _ ha _ s hs h
        · intro h
          simp only [List.mem_flatMap, List.mem_map, List.mem_cons, List.not_mem_nil, or_false] at h
          obtain ⟨_, ⟨s, hs, rfl⟩, h | h⟩ := h
          · exact hsing _ hb _ s hs h
          · exact hsing _ hb _ s hs h
        · rw [List.nodup_flatMap]
          constructor
          · intro t ht
            obtain ⟨s, hs, rfl⟩ := List.mem_map.1 ht
            simp only [List.nodup_cons, List.mem_singleton, List.not_mem_nil, not_false_eq_true, List.nodup_nil,
              and_true]
            intro he
            have : v + 1 ∈ insert (v + 1 + 1) s.vset := by rw [← he]; simp
            rcases mem_insert.1 this with h | h
            · omega
            · exact ha s hs h
          · refine List.Pairwise.imp_of_mem (R := (· ≠ ·)) ?_ (sets_nodup hK)
            intro t u ht hu htu
            obtain ⟨s, hs, rfl⟩ := List.mem_map.1 ht
            obtain ⟨s', hs', rfl⟩ := List.mem_map.1 hu
            simp only [Function.onFun, List.disjoint_left, List.mem_cons, List.not_mem_nil, or_false]
            rintro r (rfl | rfl) (h | h)
            · exact htu (insert_inj_of_notMem (ha s hs) (ha s' hs') h)
            · have : v + 1 ∈ insert (v + 1 + 1) s'.vset := by rw [← h]; simp
              rcases mem_insert.1 this with h | h
              · omega
              · exact ha s' hs' h
            · have : v + 1 ∈ insert (v + 1 + 1) s.vset := by rw [h]; simp
              rcases mem_insert.1 this with h | h
              · omega
              · exact ha s hs h
            · exact htu (insert_inj_of_notMem (hb s hs) (hb s' hs') h)
      · rintro t ht _ hu rfl
        obtain ⟨s, hs, rfl⟩ := List.mem_map.1 ht
        simp only [List.mem_flatMap, List.mem_map, List.mem_cons, List.not_mem_nil, or_false] at hu
        rcases hu with h | h | ⟨u, _, h | h⟩
        · apply ha s hs; rw [h]; simp
        · apply hb s hs; rw [h]; simp
        · apply ha s hs; rw [h]; simp
        · apply hb s hs; rw [h]; simp)
  refine ⟨v + 1, v + 1 + 1, K ++ new, new, ?_, by omega, fun s hs => ⟨ha s hs, hb s hs⟩, rfl, h2, ?_, ?_, ?_⟩
  · unfold suspension
    have : K.isEmpty = false := by cases K with
      | nil => exact absurd rfl hne
      | cons => rfl
    rw [this, hv]
    simp only [List.dropLast_concat]
    exact h1
  · intro s hs t ht hne
    have hin : ∀ u : Finset ℕ, ((∃ r ∈ K, r.vset = u) ∨ u = {v + 1} ∨ (∃ r ∈ K, u = insert (v + 1) r.vset) ∨
        u = {v + 1 + 1} ∨ ∃ r ∈ K, u = insert (v + 1 + 1) r.vset) → ∃ r ∈ K ++ new, r.vset = u := by
      rintro u (⟨r, hr, rfl⟩ | rfl | ⟨r, hr, rfl⟩ | rfl | ⟨r, hr, rfl⟩)
      · exact ⟨r, by simp [hr], rfl⟩
      · exact ⟨Simplex.ofVertex (v + 1) (f ⟨[], d0⟩), List.mem_append_right _ ((hmemnew _).2 (Or.inl rfl)), rfl⟩
      · exact ⟨join r (v + 1) (f r),
          List.mem_append_right _ ((hmemnew _).2 (Or.inr (Or.inr ⟨r, hr, Or.inl rfl⟩))), join_vset _ _ _⟩
      · exact ⟨Simplex.ofVertex (v + 1 + 1) (f ⟨[], d0⟩),
          List.mem_append_right _ ((hmemnew _).2 (Or.inr (Or.inl rfl))), rfl⟩
      · exact ⟨join r (v + 1 + 1) (f r),
          List.mem_append_right _ ((hmemnew _).2 (Or.inr (Or.inr ⟨r, hr, Or.inr rfl⟩))), join_vset _ _ _⟩
    apply hin
    rcases List.mem_append.1 hs with hs | hs
    · exact Or.inl (hc s hs t ht hne)
    · rcases (hmemnew s).1 hs with rfl | rfl | ⟨r, hr, rfl | rfl⟩
      · right; left
        have : t ⊆ {v + 1} := ht
        exact (subset_singleton_iff.1 this).resolve_left hne.ne_empty
      · right; right; right; left
        have : t ⊆ {v + 1 + 1} := ht
        exact (subset_singleton_iff.1 this).resolve_left hne.ne_empty
      · rw [join_vset] at ht
        rcases join_sub hc hr ht hne with h | h | h
        · exact Or.inl h
        · exact Or.inr (Or.inl h)
        · exact Or.inr (Or.inr (Or.inl h))
      · rw [join_vset] at ht
        rcases join_sub hc hr ht hne with h | h | h
        · exact Or.inl h
        · exact Or.inr (Or.inr (Or.inr (Or.inl h)))
        · exact Or.inr (Or.inr (Or.inr (Or.inr h)))
  · intro t x
    simp only [HasData, hmemnew]
    constructor
    · rintro ⟨r, rfl | rfl | ⟨s, hs, rfl | rfl⟩, rfl, rfl⟩
      · exact Or.inl ⟨Or.inl rfl, rfl⟩
      · exact Or.inl ⟨Or.inr rfl, rfl⟩
      · exact Or.inr ⟨s, hs, Or.inl (join_vset _ _ _), rfl⟩
      · exact Or.inr ⟨s, hs, Or.inr (join_vset _ _ _), rfl⟩
    · rintro (⟨rfl | rfl, rfl⟩ | ⟨s, hs, rfl | rfl, rfl⟩)
      · exact ⟨_, Or.inl rfl, rfl, rfl⟩
      · exact ⟨_, Or.inr (Or.inl rfl), rfl, rfl⟩
      · exact ⟨_, Or.inr (Or.inr ⟨s, hs, Or.inl rfl⟩), join_vset _ _ _, rfl⟩
      · exact ⟨_, Or.inr (Or.inr ⟨s, hs, Or.inr rfl⟩), join_vset _ _ _, rfl⟩
  · have hS : sets (K ++ new) = sets K ∪ (insert {v + 1} ((sets K).image (insert (v + 1))) ∪
        insert {v + 1 + 1} ((sets K).image (insert (v + 1 + 1)))) := by
      unfold sets
      rw [List.map_append, hsets]
      ext t
      simp only [List.mem_toFinset, List.mem_append, List.mem_cons, List.mem_flatMap, List.not_mem_nil, or_false,
        mem_union, mem_insert, mem_image, eq_comm (a := t)]
      constructor
      · rintro (h | h | h | ⟨u, hu, h | h⟩)
        · exact Or.inl h
        · exact Or.inr (Or.inl (Or.inl h))
        · exact Or.inr (Or.inr (Or.inl h))
        · exact Or.inr (Or.inl (Or.inr ⟨u, hu, h⟩))
        · exact Or.inr (Or.inr (Or.inr ⟨u, hu, h⟩))
      · rintro (h | (h | ⟨u, hu, h⟩) | (h | ⟨u, hu, h⟩))
        · exact Or.inl h
        · exact Or.inr (Or.inl h)
        · exact Or.inr (Or.inr (Or.inr ⟨u, hu, Or.inl h⟩))
        · exact Or.inr (Or.inr (Or.inl h))
        · exact Or.inr (Or.inr (Or.inr ⟨u, hu, Or.inr h⟩))
    have hmem : ∀ t ∈ sets K, v + 1 ∉ t ∧ v + 1 + 1 ∉ t ∧ t.Nonempty := by
      intro t ht
      obtain ⟨s, hs, rfl⟩ := mem_sets.1 ht
      exact ⟨ha s hs, hb s hs, hK.vset_nonempty hs⟩
    have hnot : ∀ c, (∀ t ∈ sets K, c ∉ t) → {c} ∉ (sets K).image (insert c) := by
      intro c hc' h
      obtain ⟨t, ht, he⟩ := mem_image.1 h
      obtain ⟨x, hx⟩ := (hmem t ht).2.2
      have : x ∈ ({c} : Finset ℕ) := by rw [← he]; exact mem_insert_of_mem hx
      rw [mem_singleton] at this
      subst this
      exact hc' t ht hx
    have hd : Disjoint (insert {v + 1} ((sets K).image (insert (v + 1))))
        (insert {v + 1 + 1} ((sets K).image (insert (v + 1 + 1)))) := by
      rw [disjoint_left]
      intro t ht hu
      have h1 : v + 1 ∈ t := by
        rcases mem_insert.1 ht with rfl | h
        · simp
        · obtain ⟨u, _, rfl⟩ := mem_image.1 h; simp
      rcases mem_insert.1 hu with rfl | h
      · simp at h1
      · obtain ⟨u, hu', rfl⟩ := mem_image.1 h
        rcases mem_insert.1 h1 with h | h
        · omega
        · exact (hmem u hu').1 h
    unfold euler
    rw [hS, Finset.sum_union, Finset.sum_union hd, Finset.sum_insert (hnot _ fun t ht => (hmem t ht).1),
      Finset.sum_insert (hnot _ fun t ht => (hmem t ht).2.1),
      sum_insert (fun t ht => (hmem t ht).1) (fun t ht => (hmem t ht).2.2),
      sum_insert (fun t ht => (hmem t ht).2.1) (fun t ht => (hmem t ht).2.2)]
    · simp
      ring
    · rw [disjoint_left]
      intro t ht hu
      rcases mem_union.1 hu with hu | hu
      · apply (hmem t ht).1
        rcases mem_insert.1 hu with rfl | h
        · simp
        · obtain ⟨u, _, rfl⟩ := mem_image.1 h
          simp
      · apply (hmem t ht).2.1
        rcases mem_insert.1 hu with rfl | h
        · simp
        · obtain ⟨u, _, rfl⟩ := mem_image.1 h
          simp

/-- C32. Without a functor, all new simplices have the default data. -/
theorem C32_default_data (d0 : α) (K : Complex α) (hK : WF K) (hc : FaceClosed K) (hne : K ≠ []) :
    (∃ a L new, cone0 d0 K = some L ∧ (∀ s ∈ K, a ∉ s.vset) ∧ L = K ++ new ∧
      ∀ t x, HasData new t x ↔ x = d0 ∧ (t = {a} ∨ ∃ s ∈ K, t = insert a s.vset)) ∧
    ∃ a b L new, suspension0 d0 K = some L ∧ a ≠ b ∧ (∀ s ∈ K, a ∉ s.vset ∧ b ∉ s.vset) ∧ L = K ++ new ∧
      ∀ t x, HasData new t x ↔ x = d0 ∧ (t = {a} ∨ t = {b} ∨ ∃ s ∈ K, t = insert a s.vset ∨ t = insert b s.vset) := by
  constructor
  · obtain ⟨a, L, new, h1, h2, h3, -, -, h4, -⟩ := C32_cone d0 (fun _ => d0) K hK hc hne
    refine ⟨a, L, new, h1, h2, h3, fun t x => ?_⟩
    rw [h4]
    constructor
    · rintro (⟨h, rfl⟩ | ⟨s, hs, h, rfl⟩)
      · exact ⟨rfl, .inl h⟩
      · exact ⟨rfl, .inr ⟨s, hs, h⟩⟩
    · rintro ⟨rfl, h | ⟨s, hs, h⟩⟩
      · exact .inl ⟨h, rfl⟩
      · exact .inr ⟨s, hs, h, rfl⟩
  · obtain ⟨a, b, L, new, h1, h2, h3, h4, -, -, h5, -⟩ := C32_suspension d0 (fun _ => d0) K hK hc hne
    refine ⟨a, b, L, new, h1, h2, h3, h4, fun t x => ?_⟩
    rw [h5]
    constructor
    · rintro (⟨h | h, rfl⟩ | ⟨s, hs, h, rfl⟩)
      · exact ⟨rfl, .inl h⟩
      · exact ⟨rfl, .inr (.inl h)⟩
      · exact ⟨rfl, .inr (.inr ⟨s, hs, h⟩)⟩
    · rintro ⟨rfl, h | h | ⟨s, hs, h⟩⟩
      · exact .inl ⟨.inl h, rfl⟩
      · exact .inl ⟨.inr h, rfl⟩
      · exact .inr ⟨s, hs, h, rfl⟩

/-- C32. Cone and suspension of the empty complex are empty. -/
theorem C32_empty (d0 : α) (f : Simplex α → α) : cone d0 f [] = some [] ∧ suspension d0 f [] = some [] :=
  ⟨rfl, rfl⟩

/-- A concrete case: the suspension of two points is a circle with four vertices. -/
example : suspension 0 (fun s => s.vertices.length) [⟨[3], 0⟩, ⟨[5], 0⟩] =
    some [⟨[3], 0⟩, ⟨[5], 0⟩, ⟨[6], 0⟩, ⟨[7], 0⟩, ⟨[6, 3], 1⟩, ⟨[7, 3], 1⟩, ⟨[6, 5], 1⟩, ⟨[7, 5], 1⟩] := by decide

example : WF ([⟨[3], 0⟩, ⟨[5], 0⟩] : Complex ℕ) ∧ FaceClosed ([⟨[3], 0⟩, ⟨[5], 0⟩] : Complex ℕ) :=
  ⟨⟨by decide, by decide, by decide⟩, Closed1.faceClosed (by decide) (by unfold Closed1; decide)⟩

end Aleph
