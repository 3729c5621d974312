import Verif.Lemmas.Collect
import Verif.Lemmas.Flags
import Verif.Spec.Rips
import Verif.Props.QuotientSpaces
import Verif.Props.PhiPersistence

/-!
# C48: barycentric subdivision
-/

namespace Aleph

open Finset Spec

namespace Barycentric

variable {α : Type}

/-! ### Insertion of simplices with consistent data -/

theorem pushAll_spec {R : Finset ℕ → α → Prop} (hR : ∀ V x y, R V x → R V y → x = y) (l : List (Simplex α))
    (hn : ∀ s ∈ l, Normal s.vertices) (hne : ∀ s ∈ l, s.vertices ≠ []) (hl : ∀ V x, HasData l V x → R V x)
    (L : Complex α) (hL : WF L) (hLR : ∀ V x, HasData L V x → R V x) :
    ∃ L', pushAll L l = some L' ∧ WF L' ∧ ∀ V x, HasData L' V x ↔ HasData L V x ∨ HasData l V x := by
  induction l generalizing L with
  | nil => exact ⟨L, rfl, hL, by simp [HasData]⟩
  | cons s l ih =>
    have hs := hn s List.mem_cons_self
    have hs' := hne s List.mem_cons_self
    have hdata : ∀ V x, HasData (s :: l) V x ↔ (s.vset = V ∧ s.data = x) ∨ HasData l V x := by
      intro V x
      simp [HasData]
    obtain ⟨L1, e1, w1, d1⟩ : ∃ L1, L.pushBack s = some L1 ∧ WF L1 ∧
        ∀ V x, HasData L1 V x ↔ HasData L V x ∨ (s.vset = V ∧ s.data = x) := by
      have hb : s.vertices.isEmpty = false := by simpa using hs'
      by_cases hc : L.contains s.vertices = true
      · refine ⟨L, by simp [Complex.pushBack, hb, hc], hL, ?_⟩
        intro V x
        refine ⟨Or.inl, ?_⟩
        rintro (h | ⟨rfl, rfl⟩)
        · exact h
        · obtain ⟨t, ht, he⟩ := contains_iff.1 hc
          have hv : t.vset = s.vset := by unfold Simplex.vset; rw [he]
          refine ⟨t, ht, hv, ?_⟩
          exact hR s.vset _ _ (hLR _ _ ⟨t, ht, hv, rfl⟩) (hl _ _ ((hdata _ _).2 (Or.inl ⟨rfl, rfl⟩)))
      · rw [Bool.not_eq_true] at hc
        have e : L.pushBack s = some (L ++ [s]) := by simp [Complex.pushBack, hb, hc]
        refine ⟨_, e, pushBack_wf hL hs e, ?_⟩
        intro V x
        unfold HasData
        constructor
        · rintro ⟨t, ht, h⟩
          rcases List.mem_append.1 ht with ht | ht
          · exact Or.inl ⟨t, ht, h⟩
          · rw [List.mem_singleton] at ht
            subst ht
            exact Or.inr h
        · rintro (⟨t, ht, h⟩ | h)
          · exact ⟨t, List.mem_append_left _ ht, h⟩
          · exact ⟨s, by simp, h⟩
    obtain ⟨L', e2, w2, d2⟩ := ih (fun t ht => hn t (List.mem_cons_of_mem _ ht))
      (fun t ht => hne t (List.mem_cons_of_mem _ ht)) (fun V x h => hl V x ((hdata V x).2 (Or.inr h))) L1 w1
      (by
        intro V x h
        rcases (d1 V x).1 h with h | h
        · exact hLR V x h
        · exact hl V x ((hdata V x).2 (Or.inl h)))
    refine ⟨L', ?_, w2, ?_⟩
    · unfold pushAll at e2 ⊢
      rw [List.foldlM_cons, e1]
      exact e2
    · intro V x
      rw [d2, d1, hdata, or_assoc]

theorem vset_ne_nil {s : Simplex α} (h : s.vset.Nonempty) : s.vertices ≠ [] := by
  intro he
  rw [Simplex.vset, he] at h
  simp at h

/-! ### Data of the new simplices -/

/-- The data of the simplex that belongs to a flag with largest element `s`. -/
def dataOf [Mul α] (functor : ℕ → α) (s : Simplex α) (C : Finset (Finset ℕ)) : α :=
  if #C = 1 then (if #s.vset = 1 then s.data else s.data * functor 0) else s.data * functor #C

theorem coneOver_vset [Mul α] (functor : ℕ → α) (b : ℕ) (s : Simplex α) (vs : List ℕ) :
    (coneOver functor b s vs).vset = insert b vs.toFinset := by
  ext x
  unfold coneOver Simplex.vset
  rw [List.mem_toFinset, mem_ofRange]
  simp
  tauto

theorem coneOver_normal [Mul α] (functor : ℕ → α) (b : ℕ) (s : Simplex α) (vs : List ℕ) :
    Normal (coneOver functor b s vs).vertices := ofRange_normal _ _

theorem coneOver_data [Mul α] (functor : ℕ → α) (b : ℕ) (s : Simplex α) (vs : List ℕ) :
    (coneOver functor b s vs).data = s.data * functor (vs.length + 1) := rfl

/-! ### The invariant of the loop -/

/-- A complex, an order of its simplices, and an injective numbering. -/
structure Ctx (K ord : Complex α) (b : Finset ℕ → ℕ) : Prop where
  wf : WF K
  closed : FaceClosed K
  perm : ord.Perm K
  dims : ord.Pairwise fun s t => #s.vset ≤ #t.vset
  inj : Set.InjOn b (sets K : Set (Finset ℕ))

variable {K ord : Complex α} {b : Finset ℕ → ℕ}

theorem Ctx.flag_sub (c : Ctx K ord b) {s : Simplex α} (hs : s ∈ K) {τ : Finset ℕ} (hτ : τ ⊆ s.vset)
    {C : Finset (Finset ℕ)} (hC : FlagTop τ C) : C ⊆ sets K := by
  intro t ht
  obtain ⟨h1, h2⟩ := hC.sub t ht
  exact mem_sets.2 (c.closed s hs t (h2.trans hτ) h1)

theorem Ctx.card_image (c : Ctx K ord b) {C : Finset (Finset ℕ)} (h : C ⊆ sets K) : #(C.image b) = #C :=
  card_image_of_injOn (c.inj.mono (by exact_mod_cast h))

theorem Ctx.image_inj (c : Ctx K ord b) {C D : Finset (Finset ℕ)} (hC : C ⊆ sets K) (hD : D ⊆ sets K)
    (h : C.image b = D.image b) : C = D := by
  have aux : ∀ {C D : Finset (Finset ℕ)}, C ⊆ sets K → D ⊆ sets K → C.image b = D.image b → C ⊆ D := by
    intro C D hC hD h t ht
    have := mem_image_of_mem b ht
    rw [h] at this
    obtain ⟨u, hu, he⟩ := mem_image.1 this
    rw [← c.inj (hD hu) (hC ht) he]
    exact hu
  exact (aux hC hD h).antisymm (aux hD hC h.symm)

/-- The relation between vertex sets and data in the subdivision. -/
def Rel [Mul α] (functor : ℕ → α) (K : Complex α) (b : Finset ℕ → ℕ) (V : Finset ℕ) (x : α) : Prop :=
  ∃ s ∈ K, ∃ C, FlagTop s.vset C ∧ V = C.image b ∧ x = dataOf functor s C

theorem Ctx.rel_unique [Mul α] (c : Ctx K ord b) (functor : ℕ → α) (V : Finset ℕ) (x y : α)
    (h : Rel functor K b V x) (h' : Rel functor K b V y) : x = y := by
  obtain ⟨s, hs, C, hC, rfl, rfl⟩ := h
  obtain ⟨t, ht, D, hD, he, rfl⟩ := h'
  have : C = D := c.image_inj (c.flag_sub hs Subset.rfl hC) (c.flag_sub ht Subset.rfl hD) he
  subst this
  rw [c.wf.eq_of_vset hs ht (hC.unique hD)]

/-- The subdivision of the simplex `s`: its full flags. -/
def Full [Mul α] (functor : ℕ → α) (b : Finset ℕ → ℕ) (s : Simplex α) (ms : List (Simplex α)) : Prop :=
  (∀ t ∈ ms, Normal t.vertices) ∧ ∀ V x, HasData ms V x ↔
    ∃ C, FlagTop s.vset C ∧ #C = #s.vset ∧ V = C.image b ∧ x = dataOf functor s C

/-- The invariant of the loop over all simplices. -/
structure Inv [Mul α] (functor : ℕ → α) (b : Finset ℕ → ℕ) (M : ℕ) (done : Complex α) (st : State α) : Prop where
  next : st.next = M + (done.filter fun s => Complex.dim s ≠ 0).length
  keys : st.subdivision.map Prod.fst = done.map (·.vertices)
  sub : ∀ e ∈ st.subdivision, ∃ s ∈ done, e.1 = s.vertices ∧ Full functor b s e.2
  wf : WF st.L
  L : ∀ V x, HasData st.L V x ↔
    ∃ s ∈ done, ∃ C, FlagTop s.vset C ∧ #C < #s.vset ∧ V = C.image b ∧ x = dataOf functor s C

theorem lookup_of_key {β : Type} {l : List (List ℕ × β)} {k : List ℕ} (h : k ∈ l.map Prod.fst) :
    ∃ v, l.lookup k = some v ∧ (k, v) ∈ l := by
  induction l with
  | nil => simp at h
  | cons e l ih =>
    obtain ⟨k', v⟩ := e
    by_cases hk : k = k'
    · subst hk
      exact ⟨v, by simp [List.lookup], by simp⟩
    · rw [List.map_cons, List.mem_cons] at h
      obtain ⟨w, h1, h2⟩ := ih (h.resolve_left hk)
      refine ⟨w, ?_, List.mem_cons_of_mem _ h2⟩
      have : (k == k') = false := by simpa using hk
      simp [List.lookup, this, h1]

theorem dim_pos {s : Simplex α} (hn : Normal s.vertices) : Complex.dim s ≠ 0 ↔ 1 < #s.vset := by
  have := hn.length_eq
  unfold Complex.dim Simplex.vset
  omega

theorem one_flag {s : Finset ℕ} {C : Finset (Finset ℕ)} (h : FlagTop s C) (hC : #C = 1) : C = {s} := by
  obtain ⟨t, rfl⟩ := card_eq_one.1 hC
  have := h.top
  rw [mem_singleton] at this
  rw [this]

theorem step_vertex [Mul α] (functor : ℕ → α) {M : ℕ} (c : Ctx K ord b)
    (hb : ∀ v, {v} ∈ sets K → b {v} = v) {done rest : Complex α} {s : Simplex α} {st : State α}
    (ho : ord = done ++ s :: rest) (hi : Inv functor b M done st) (hd : ¬ Complex.dim s ≠ 0) :
    ∃ st', step functor K st s = some st' ∧ Inv functor b M (done ++ [s]) st' := by
  have hs : s ∈ K := c.perm.subset (by rw [ho]; simp)
  have hn := c.wf.normal s hs
  have hcard : #s.vset = 1 := by
    have h1 := card_pos.2 (c.wf.vset_nonempty hs)
    rw [dim_pos hn] at hd
    omega
  obtain ⟨v, hv⟩ := card_eq_one.1 hcard
  have hbv : b s.vset = v := by
    rw [hv]; exact hb v (by rw [← hv]; exact mem_sets.2 ⟨s, hs, rfl⟩)
  refine ⟨{ st with subdivision := st.subdivision ++ [(s.vertices, [s])] },
    by unfold step; rw [if_pos (by simpa using hd)], ?_, ?_, ?_, hi.wf, ?_⟩
  · simp only
    rw [hi.next, List.filter_append]
    have : ([s].filter fun s => Complex.dim s ≠ 0) = [] := by
      rw [List.filter_eq_nil_iff]; simpa using hd
    rw [this]; simp
  · simp [hi.keys]
  · intro e he
    simp only at he
    rcases List.mem_append.1 he with he | he
    · obtain ⟨t, ht, h⟩ := hi.sub e he
      exact ⟨t, List.mem_append_left _ ht, h⟩
    · rw [List.mem_singleton] at he
      subst he
      refine ⟨s, by simp, rfl, ?_, ?_⟩
      · intro t ht
        rw [List.mem_singleton] at ht
        subst ht; exact hn
      · intro V x
        unfold HasData
        constructor
        · rintro ⟨t, ht, rfl, rfl⟩
          rw [List.mem_singleton] at ht
          subst ht
          refine ⟨{t.vset}, FlagTop.singleton (c.wf.vset_nonempty hs), by simp [hcard], ?_, by simp [dataOf, hcard]⟩
          rw [image_singleton, hbv, hv]
        · rintro ⟨C, hC, h1, rfl, rfl⟩
          have := one_flag hC (by omega)
          subst this
          refine ⟨s, by simp, ?_, by simp [dataOf, hcard]⟩
          rw [image_singleton, hbv, hv]
  · intro V x
    simp only
    rw [hi.L]
    constructor
    · rintro ⟨t, ht, h⟩
      exact ⟨t, List.mem_append_left _ ht, h⟩
    · rintro ⟨t, ht, C, hC, h1, h2⟩
      rcases List.mem_append.1 ht with ht | ht
      · exact ⟨t, ht, C, hC, h1, h2⟩
      · rw [List.mem_singleton] at ht
        subst ht
        have := card_pos.2 ⟨_, hC.top⟩
        omega

/-- The subdivided boundary of a simplex. -/
theorem boundary_spec [Mul α] (functor : ℕ → α) {M : ℕ} (c : Ctx K ord b)
    {done rest : Complex α} {s : Simplex α} {st : State α}
    (ho : ord = done ++ s :: rest) (hi : Inv functor b M done st) :
    ∃ parts, (s.faces.mapM fun f => (K.find f).bind fun t => st.subdivision.lookup t.vertices) = some parts ∧
      (∀ u ∈ parts.flatten, Normal u.vertices) ∧
      ∀ V, (∃ u ∈ parts.flatten, u.vset = V) ↔
        ∃ τ ⊆ s.vset, #τ + 1 = #s.vset ∧ ∃ C, FlagTop τ C ∧ #C = #τ ∧ V = C.image b := by
  classical
  have hs : s ∈ K := c.perm.subset (by rw [ho]; simp)
  have hn := c.wf.normal s hs
  have key : ∀ f ∈ s.faces, ∃ t ∈ K, ∃ ms, t.vertices = f ∧ #t.vset + 1 = #s.vset ∧ t.vset ⊆ s.vset ∧
      ((K.find f).bind fun t => st.subdivision.lookup t.vertices) = some ms ∧ Full functor b t ms := by
    intro f hf
    obtain ⟨h1, h2, h3, h4⟩ := (mem_faces_iff hn).1 hf
    have hfne : f.toFinset.Nonempty := by
      obtain ⟨x, hx⟩ := List.exists_mem_of_ne_nil f h2
      exact ⟨x, List.mem_toFinset.2 hx⟩
    obtain ⟨t, ht, he⟩ := c.closed s hs f.toFinset h3 hfne
    have htf : t.vertices = f := ((c.wf.normal t ht).eq_iff h1).2 he
    have htd : t ∈ done := by
      have hto : t ∈ ord := c.perm.symm.subset ht
      have hp := c.dims
      rw [ho] at hto hp
      rcases List.mem_append.1 hto with h | h
      · exact h
      · rw [List.pairwise_append] at hp
        have hle : #s.vset ≤ #t.vset := by
          rcases List.mem_cons.1 h with rfl | h
          · exact le_rfl
          · exact (List.pairwise_cons.1 hp.2.1).1 t h
        rw [he] at hle
        omega
    have hk : t.vertices ∈ st.subdivision.map Prod.fst := by
      rw [hi.keys]; exact List.mem_map_of_mem htd
    obtain ⟨ms, hl, hm⟩ := lookup_of_key hk
    obtain ⟨t', ht', hv, hfull⟩ := hi.sub _ hm
    have ht'K : t' ∈ K := c.perm.subset (by rw [ho]; exact List.mem_append_left _ ht')
    have : t = t' := c.wf.eq_of_vertices ht ht'K hv
    subst this
    refine ⟨t, ht, ms, htf, by rw [he]; exact h4, by rw [he]; exact h3, ?_, hfull⟩
    rw [← htf, c.wf.find_eq ht]
    exact hl
  let g : List ℕ → List (Simplex α) := fun f =>
    ((K.find f).bind fun t => st.subdivision.lookup t.vertices).getD []
  have hg : ∀ f ∈ s.faces, ((K.find f).bind fun t => st.subdivision.lookup t.vertices) = some (g f) := by
    intro f hf
    obtain ⟨t, _, ms, _, _, _, h, _⟩ := key f hf
    simp only [g]
    rw [h]; rfl
  refine ⟨s.faces.map g, mapM_all_some _ g _ hg, ?_, ?_⟩
  · intro u hu
    rw [List.mem_flatten] at hu
    obtain ⟨l, hl, hu⟩ := hu
    obtain ⟨f, hf, rfl⟩ := List.mem_map.1 hl
    obtain ⟨t, _, ms, _, _, _, h, hfull⟩ := key f hf
    rw [hg f hf, Option.some.injEq] at h
    rw [h] at hu
    exact hfull.1 u hu
  · intro V
    constructor
    · rintro ⟨u, hu, hV⟩
      rw [List.mem_flatten] at hu
      obtain ⟨l, hl, hu⟩ := hu
      obtain ⟨f, hf, rfl⟩ := List.mem_map.1 hl
      obtain ⟨t, ht, ms, h1, h2, h3, h, hfull⟩ := key f hf
      rw [hg f hf, Option.some.injEq] at h
      rw [h] at hu
      obtain ⟨C, h4, h5, h6, _⟩ := (hfull.2 V u.data).1 ⟨u, hu, hV, rfl⟩
      exact ⟨t.vset, h3, h2, C, h4, h5, h6⟩
    · rintro ⟨τ, hτ, hc, C, hC, hcard, rfl⟩
      have hne := (hC.sub τ hC.top).1
      have hf : vlist τ ∈ s.faces :=
        (mem_faces_iff hn).2 ⟨vlist_normal τ, vlist_ne_nil hne, by rw [vlist_toFinset]; exact hτ,
          by rw [vlist_toFinset]; exact hc⟩
      obtain ⟨t, ht, ms, h1, h2, h3, h, hfull⟩ := key _ hf
      rw [hg _ hf, Option.some.injEq] at h
      have hτt : t.vset = τ := by unfold Simplex.vset; rw [h1, vlist_toFinset]
      obtain ⟨u, hu, hu1, _⟩ := (hfull.2 (C.image b) (dataOf functor t C)).2
        ⟨C, by rw [hτt]; exact hC, by rw [hτt]; exact hcard, rfl, rfl⟩
      refine ⟨u, ?_, hu1⟩
      rw [List.mem_flatten]
      exact ⟨ms, List.mem_map.2 ⟨_, hf, h⟩, hu⟩

theorem not_mem_flag {s τ : Finset ℕ} {C : Finset (Finset ℕ)} (h : FlagTop τ C) (hc : #τ < #s) : s ∉ C := by
  intro hs
  have := card_le_card (h.sub s hs).2
  omega

theorem dataOf_of_two [Mul α] (functor : ℕ → α) (s : Simplex α) {C : Finset (Finset ℕ)} (h : 1 < #C) :
    dataOf functor s C = s.data * functor #C := by
  unfold dataOf
  rw [if_neg (by omega)]

theorem step_simplex [Mul α] (functor : ℕ → α) {M : ℕ} (c : Ctx K ord b)
    {done rest : Complex α} {s : Simplex α} {st : State α}
    (ho : ord = done ++ s :: rest) (hi : Inv functor b M done st) (hd : Complex.dim s ≠ 0)
    (hnext : st.next = b s.vset) :
    ∃ st', step functor K st s = some st' ∧ Inv functor b M (done ++ [s]) st' := by
  classical
  have hs : s ∈ K := c.perm.subset (by rw [ho]; simp)
  have hn := c.wf.normal s hs
  have hcard : 1 < #s.vset := (dim_pos hn).1 hd
  obtain ⟨parts, e1, hBn, hB⟩ := boundary_spec functor c ho hi
  generalize hBB : parts.flatten = B at hBn hB
  have hdone : ∀ t ∈ done, t ∈ K := fun t ht => c.perm.subset (by rw [ho]; exact List.mem_append_left _ ht)
  -- the cone
  have hcone : Full functor b s (B.map fun t => coneOver functor st.next s t.vertices) := by
    constructor
    · intro t ht
      obtain ⟨u, _, rfl⟩ := List.mem_map.1 ht
      exact coneOver_normal _ _ _ _
    · intro V x
      constructor
      · rintro ⟨t, ht, rfl, rfl⟩
        obtain ⟨u, hu, rfl⟩ := List.mem_map.1 ht
        obtain ⟨τ, hτ, hτc, C, hC, hCc, hV⟩ := (hB u.vset).1 ⟨u, hu, rfl⟩
        have hsC : s.vset ∉ C := not_mem_flag hC (by omega)
        have hcC : #(insert s.vset C) = #s.vset := by rw [card_insert_of_notMem hsC]; omega
        refine ⟨insert s.vset C, hC.insert hτ, hcC, ?_, ?_⟩
        · rw [coneOver_vset, hnext, image_insert]
          change insert (b s.vset) u.vset = _
          rw [hV]
        · have hl := (hBn u hu).length_eq
          change u.vertices.length = #u.vset at hl
          rw [coneOver_data, dataOf_of_two functor s (by omega), hcC, hl, hV,
            c.card_image (c.flag_sub hs hτ hC), hCc, hτc]
      · rintro ⟨C, hC, hCc, rfl, rfl⟩
        obtain ⟨τ, hτ, hτs⟩ := hC.erase (by omega)
        have h1 := hτ.card_le
        have h2 := card_lt_card hτs
        have h3 := card_erase_of_mem hC.top
        obtain ⟨u, hu, hV⟩ := (hB ((C.erase s.vset).image b)).2
          ⟨τ, hτs.1, by omega, C.erase s.vset, hτ, by omega, rfl⟩
        refine ⟨_, List.mem_map_of_mem hu, ?_, ?_⟩
        · rw [coneOver_vset, hnext]
          change insert (b s.vset) u.vset = _
          rw [hV, ← image_insert, insert_erase hC.top]
        · have hl := (hBn u hu).length_eq
          change u.vertices.length = #u.vset at hl
          rw [coneOver_data, dataOf_of_two functor s (by omega), hl, hV,
            c.card_image (c.flag_sub hs hτs.1 hτ), h3]
          congr 2
          omega
  -- the boundaries of the cone
  obtain ⟨S, e2, hS⟩ := collect_spec (l := B.map (·.vertices)) (by
    intro vs hvs
    obtain ⟨u, hu, rfl⟩ := List.mem_map.1 hvs
    exact hBn u hu)
  have hbd : ∀ V x, HasData (S.map (coneOver functor st.next s)) V x ↔
      ∃ C, FlagTop s.vset C ∧ (1 < #C ∧ #C < #s.vset) ∧ V = C.image b ∧ x = dataOf functor s C := by
    intro V x
    constructor
    · rintro ⟨t, ht, rfl, rfl⟩
      obtain ⟨f, hf, rfl⟩ := List.mem_map.1 ht
      obtain ⟨vs, hvs, hp⟩ := (hS f).1 hf
      obtain ⟨u, hu, rfl⟩ := List.mem_map.1 hvs
      obtain ⟨τ, hτ, hτc, C, hC, hCc, hV⟩ := (hB u.vset).1 ⟨u, hu, rfl⟩
      have hCs := c.flag_sub hs hτ hC
      obtain ⟨hp1, hp2, hp3⟩ := hp
      change f.toFinset ⊂ u.vset at hp3
      rw [hV] at hp3
      have hD : ((C.filter fun t => b t ∈ f.toFinset).image b) = f.toFinset := by
        ext y
        rw [mem_image]
        constructor
        · rintro ⟨t, ht, rfl⟩
          exact (mem_filter.1 ht).2
        · intro hy
          obtain ⟨t, ht, rfl⟩ := mem_image.1 (hp3.1 hy)
          exact ⟨t, mem_filter.2 ⟨ht, hy⟩, rfl⟩
      have hDs : (C.filter fun t => b t ∈ f.toFinset) ⊆ C := filter_subset _ _
      generalize (C.filter fun t => b t ∈ f.toFinset) = D at hD hDs
      have hDc := c.card_image (hDs.trans hCs)
      have hlt := card_lt_card hp3
      rw [c.card_image hCs, ← hD, hDc] at hlt
      have hDne : D.Nonempty := by
        obtain ⟨y, hy⟩ := List.exists_mem_of_ne_nil f hp2
        have : y ∈ D.image b := by rw [hD]; exact List.mem_toFinset.2 hy
        obtain ⟨t, ht, _⟩ := mem_image.1 this
        exact ⟨t, ht⟩
      obtain ⟨τ', hτ', hτ'C⟩ := hC.mono hDs hDne
      have hsub : τ' ⊆ s.vset := (hC.sub τ' hτ'C).2.trans hτ
      have hsD : s.vset ∉ D := fun h => not_mem_flag hC (by omega) (hDs h)
      have hpos := card_pos.2 hDne
      have hcD : #(insert s.vset D) = #D + 1 := card_insert_of_notMem hsD
      refine ⟨insert s.vset D, hτ'.insert hsub, by omega, ?_, ?_⟩
      · rw [coneOver_vset, hnext, image_insert, hD]
      · rw [coneOver_data, dataOf_of_two functor s (by omega), hcD, hp1.length_eq, ← hD, hDc]
    · rintro ⟨C, hC, ⟨h1, h2⟩, rfl, rfl⟩
      obtain ⟨τ, hτ, hτs⟩ := hC.erase h1
      obtain ⟨y, hy, hy'⟩ := exists_of_ssubset hτs
      have hyc := card_erase_of_mem hy
      obtain ⟨C0, hC0, hC0c, hsub⟩ := extend_flag (s.vset.erase y) (card_pos.1 (by omega)) (C.erase s.vset)
        (fun t ht => ⟨(hτ.sub t ht).1, subset_erase.2 ⟨(hτ.sub t ht).2.trans hτs.1, fun h => hy' ((hτ.sub t ht).2 h)⟩⟩)
        hτ.chain
      have hC0s := c.flag_sub hs (erase_subset _ _) hC0
      obtain ⟨u, hu, hV⟩ := (hB (C0.image b)).2
        ⟨s.vset.erase y, erase_subset _ _, by omega, C0, hC0, hC0c, rfl⟩
      have h3 := card_erase_of_mem hC.top
      have hp : Proper u.vertices (vlist ((C.erase s.vset).image b)) := by
        refine ⟨vlist_normal _, vlist_ne_nil (Nonempty.image ⟨τ, hτ.top⟩ _), ?_⟩
        rw [vlist_toFinset]
        change _ ⊂ u.vset
        rw [hV]
        refine (image_subset_image hsub).ssubset_of_ne ?_
        intro he
        have := congrArg Finset.card he
        rw [c.card_image (hsub.trans hC0s), c.card_image hC0s] at this
        omega
      refine ⟨_, List.mem_map_of_mem ((hS _).2 ⟨_, List.mem_map_of_mem hu, hp⟩), ?_, ?_⟩
      · rw [coneOver_vset, hnext, vlist_toFinset, ← image_insert, insert_erase hC.top]
      · rw [coneOver_data, dataOf_of_two functor s h1, (vlist_normal _).length_eq, vlist_toFinset,
          c.card_image (hsub.trans hC0s), h3]
        congr 2
        omega
  -- insertion into `L`
  have hver : ∀ V x, HasData [Simplex.ofVertex st.next (s.data * functor 0)] V x ↔
      ∃ C, FlagTop s.vset C ∧ #C = 1 ∧ V = C.image b ∧ x = dataOf functor s C := by
    intro V x
    constructor
    · rintro ⟨t, ht, rfl, rfl⟩
      rw [List.mem_singleton] at ht
      subst ht
      refine ⟨{s.vset}, FlagTop.singleton (c.wf.vset_nonempty hs), by simp, ?_, ?_⟩
      · simp [Simplex.ofVertex, Simplex.vset, hnext]
      · unfold dataOf
        rw [if_pos (by simp), if_neg (by omega)]
        rfl
    · rintro ⟨C, hC, h1, rfl, rfl⟩
      have := one_flag hC h1
      subst this
      refine ⟨_, List.mem_singleton.2 rfl, ?_, ?_⟩
      · simp [Simplex.ofVertex, Simplex.vset, hnext]
      · unfold dataOf
        rw [if_pos (by simp), if_neg (by omega)]
        rfl
  have hold : ∀ V x, HasData st.L V x → Rel functor K b V x := by
    intro V x h
    obtain ⟨t, ht, C, hC, _, h2⟩ := (hi.L V x).1 h
    exact ⟨t, hdone t ht, C, hC, h2⟩
  obtain ⟨L1, e3, w1, d1⟩ := pushAll_spec (c.rel_unique functor) [Simplex.ofVertex st.next (s.data * functor 0)]
    (by intro t ht; rw [List.mem_singleton] at ht; subst ht; simp [Simplex.ofVertex, Normal])
    (by intro t ht; rw [List.mem_singleton] at ht; subst ht; simp [Simplex.ofVertex])
    (by
      intro V x h
      obtain ⟨C, hC, _, h2⟩ := (hver V x).1 h
      exact ⟨s, hs, C, hC, h2⟩) st.L hi.wf hold
  obtain ⟨L2, e4, w2, d2⟩ := pushAll_spec (c.rel_unique functor) (S.map (coneOver functor st.next s))
    (by
      intro t ht
      obtain ⟨f, _, rfl⟩ := List.mem_map.1 ht
      exact coneOver_normal _ _ _ _)
    (by
      intro t ht
      obtain ⟨f, _, rfl⟩ := List.mem_map.1 ht
      apply vset_ne_nil
      rw [coneOver_vset]; simp)
    (by
      intro V x h
      obtain ⟨C, hC, _, h2⟩ := (hbd V x).1 h
      exact ⟨s, hs, C, hC, h2⟩) L1 w1 (by
      intro V x h
      rcases (d1 V x).1 h with h | h
      · exact hold V x h
      · obtain ⟨C, hC, _, h2⟩ := (hver V x).1 h
        exact ⟨s, hs, C, hC, h2⟩)
  have e3' : st.L.pushBack (Simplex.ofVertex st.next (s.data * functor 0)) = some L1 := by
    unfold pushAll at e3
    rw [List.foldlM_cons] at e3
    cases h : st.L.pushBack (Simplex.ofVertex st.next (s.data * functor 0)) with
    | none => rw [h] at e3; cases e3
    | some L => rw [h] at e3; exact e3
  refine ⟨⟨st.next + 1, st.subdivision ++ [(s.vertices, B.map fun t => coneOver functor st.next s t.vertices)], L2⟩,
    ?_, ?_, ?_, ?_, w2, ?_⟩
  · unfold step
    rw [if_neg hd, e3', e1]
    simp only [bind, Option.bind, hBB, e2, e4, pure]
  · simp only
    rw [hi.next, List.filter_append]
    have : ([s].filter fun s => Complex.dim s ≠ 0) = [s] := by
      rw [List.filter_eq_self]; simpa using hd
    rw [this]
    simp
    omega
  · simp [hi.keys]
  · intro e he
    simp only at he
    rcases List.mem_append.1 he with he | he
    · obtain ⟨t, ht, h⟩ := hi.sub e he
      exact ⟨t, List.mem_append_left _ ht, h⟩
    · rw [List.mem_singleton] at he
      subst he
      exact ⟨s, by simp, rfl, hcone⟩
  · intro V x
    simp only
    rw [d2, d1, hi.L, hver, hbd]
    constructor
    · rintro ((⟨t, ht, h⟩ | ⟨C, hC, h1, h2⟩) | ⟨C, hC, h1, h2⟩)
      · exact ⟨t, List.mem_append_left _ ht, h⟩
      · exact ⟨s, by simp, C, hC, by omega, h2⟩
      · exact ⟨s, by simp, C, hC, h1.2, h2⟩
    · rintro ⟨t, ht, C, hC, h1, h2⟩
      rcases List.mem_append.1 ht with ht | ht
      · exact Or.inl (Or.inl ⟨t, ht, C, hC, h1, h2⟩)
      · rw [List.mem_singleton] at ht
        subst ht
        by_cases h3 : #C = 1
        · exact Or.inl (Or.inr ⟨C, hC, h3, h2⟩)
        · have := card_pos.2 ⟨_, hC.top⟩
          exact Or.inr ⟨C, hC, by omega, h2⟩

/-- The numbering of the barycentres: vertices keep their number, the other simplices are numbered in their order. -/
def bary (M : ℕ) (ord : Complex α) (t : Finset ℕ) : ℕ :=
  if #t = 1 then t.sup id else M + ((ord.filter fun s => Complex.dim s ≠ 0).map Simplex.vset).idxOf t

theorem loop_inv [Mul α] (functor : ℕ → α) {M : ℕ} (c : Ctx K ord (bary M ord)) (done rest : Complex α)
    (ho : ord = done ++ rest) (st : State α) (hi : Inv functor (bary M ord) M done st) :
    ∃ st', rest.foldlM (step functor K) st = some st' ∧ Inv functor (bary M ord) M ord st' := by
  induction rest generalizing done st with
  | nil => exact ⟨st, rfl, by rw [ho, List.append_nil] at *; exact hi⟩
  | cons s rest ih =>
    have hs : s ∈ K := c.perm.subset (by rw [ho]; simp)
    have hn := c.wf.normal s hs
    have : ∃ st', step functor K st s = some st' ∧ Inv functor (bary M ord) M (done ++ [s]) st' := by
      by_cases hd : Complex.dim s ≠ 0
      · refine step_simplex functor c ho hi hd ?_
        have h1 := (dim_pos hn).1 hd
        rw [hi.next]
        unfold bary
        rw [if_neg (by omega), ho, List.filter_append, List.map_append, List.idxOf_append_of_notMem,
          List.filter_cons_of_pos (by simpa using hd), List.map_cons, List.idxOf_cons_self, List.length_map]
        · simp
        · intro hm
          obtain ⟨t, ht, he⟩ := List.mem_map.1 hm
          have ht' := (List.mem_filter.1 ht).1
          have htK : t ∈ K := c.perm.subset (by rw [ho]; exact List.mem_append_left _ ht')
          have := c.wf.eq_of_vset htK hs he
          subst this
          have hnd := c.perm.nodup_iff.2 c.wf.nodup
          rw [ho, List.nodup_append] at hnd
          exact hnd.2.2 t ht' t (by simp) rfl
      · exact step_vertex functor c (by intro v _; simp [bary]) ho hi hd
    obtain ⟨st1, e1, hi1⟩ := this
    obtain ⟨st', e2, hi2⟩ := ih (done ++ [s]) (by rw [ho]; simp) st1 hi1
    exact ⟨st', by rw [List.foldlM_cons, e1]; exact e2, hi2⟩

theorem pushAlls_spec {R : Finset ℕ → α → Prop} (hR : ∀ V x y, R V x → R V y → x = y)
    (l : List (List ℕ × List (Simplex α))) (hn : ∀ e ∈ l, ∀ s ∈ e.2, Normal s.vertices)
    (hne : ∀ e ∈ l, ∀ s ∈ e.2, s.vertices ≠ []) (hl : ∀ e ∈ l, ∀ V x, HasData e.2 V x → R V x)
    (L : Complex α) (hL : WF L) (hLR : ∀ V x, HasData L V x → R V x) :
    ∃ L', l.foldlM (fun L e => pushAll L e.2) L = some L' ∧ WF L' ∧
      ∀ V x, HasData L' V x ↔ HasData L V x ∨ ∃ e ∈ l, HasData e.2 V x := by
  induction l generalizing L with
  | nil => exact ⟨L, rfl, hL, by simp⟩
  | cons e l ih =>
    obtain ⟨L1, e1, w1, d1⟩ := pushAll_spec hR e.2 (hn e List.mem_cons_self) (hne e List.mem_cons_self)
      (hl e List.mem_cons_self) L hL hLR
    obtain ⟨L', e2, w2, d2⟩ := ih (fun f hf => hn f (List.mem_cons_of_mem _ hf))
      (fun f hf => hne f (List.mem_cons_of_mem _ hf)) (fun f hf => hl f (List.mem_cons_of_mem _ hf)) L1 w1
      (by
        intro V x h
        rcases (d1 V x).1 h with h | h
        · exact hLR V x h
        · exact hl e List.mem_cons_self V x h)
    refine ⟨L', ?_, w2, ?_⟩
    · rw [List.foldlM_cons, e1]; exact e2
    · intro V x
      rw [d2, d1]
      simp [or_assoc]

theorem bary_inj {K ord : Complex α} {M : ℕ} (hK : WF K) (hp : ord.Perm K) (hM : ∀ s ∈ K, ∀ x ∈ s.vset, x < M) :
    Set.InjOn (bary M ord) (sets K : Set (Finset ℕ)) := by
  have hbig : ∀ s ∈ K, 1 < #s.vset → s.vset ∈ (ord.filter fun s => Complex.dim s ≠ 0).map Simplex.vset := by
    intro s hs h
    refine List.mem_map_of_mem (List.mem_filter.2 ⟨hp.symm.subset hs, ?_⟩)
    simpa using (dim_pos (hK.normal s hs)).2 h
  have hsmall : ∀ s ∈ K, #s.vset = 1 → ∃ x < M, s.vset = {x} ∧ bary M ord s.vset = x := by
    intro s hs h
    obtain ⟨x, hx⟩ := card_eq_one.1 h
    refine ⟨x, hM s hs x (by rw [hx]; simp), hx, ?_⟩
    simp [bary, hx]
  intro t ht u hu he
  obtain ⟨s, hs, rfl⟩ := mem_sets.1 (mem_coe.1 ht)
  obtain ⟨r, hr, rfl⟩ := mem_sets.1 (mem_coe.1 hu)
  have p1 := card_pos.2 (hK.vset_nonempty hs)
  have p2 := card_pos.2 (hK.vset_nonempty hr)
  by_cases h1 : #s.vset = 1
  · obtain ⟨x, hx, e1, e2⟩ := hsmall s hs h1
    by_cases h2 : #r.vset = 1
    · obtain ⟨y, hy, e3, e4⟩ := hsmall r hr h2
      rw [e2, e4] at he
      rw [e1, e3, he]
    · rw [e2] at he
      unfold bary at he
      rw [if_neg h2] at he
      omega
  · by_cases h2 : #r.vset = 1
    · obtain ⟨y, hy, e3, e4⟩ := hsmall r hr h2
      rw [e4] at he
      unfold bary at he
      rw [if_neg h1] at he
      omega
    · unfold bary at he
      rw [if_neg h1, if_neg h2] at he
      exact (List.idxOf_inj (hbig s hs (by omega))).1 (by omega)

end Barycentric

open Barycentric

variable {α : Type}

/-- C48. The barycentric subdivision of a complex that contains all faces of its simplices, for every order of iteration over
simplices of the same dimension and over the map of subdivisions.  There is a numbering `b` of the simplices that maps vertices
to themselves and the other simplices to new vertices.  The simplices of the result are the sets of numbers of the flags of
simplices, and each of them occurs once.  Their data is the data of the largest simplex of the flag, multiplied by the value of
the functor for the *number* of vertices (zero for a single new vertex; the original vertices keep their data).  The result
contains all faces of its simplices, and has the Euler characteristic of the original complex. -/
theorem C48_subdivision [Mul α] (functor : ℕ → α) (K ord : Complex α) (hK : WF K) (hc : FaceClosed K)
    (hp : ord.Perm K) (hd : ord.Pairwise fun s t => #s.vset ≤ #t.vset)
    (order : List (List ℕ × List (Simplex α)) → List (List ℕ × List (Simplex α))) (ho : ∀ l, (order l).Perm l) :
    ∃ L b, subdivide functor ord order K = some L ∧ WF L ∧ FaceClosed L ∧ euler L = euler K ∧
      Set.InjOn b (sets K : Set (Finset ℕ)) ∧
      (∀ v, {v} ∈ sets K → b {v} = v) ∧
      (∀ s ∈ sets K, 1 < #s → ∀ v, {v} ∈ sets K → v < b s) ∧
      ∀ V x, HasData L V x ↔ ∃ C, IsFlag (sets K) C ∧ V = C.image b ∧
        ∃ s ∈ K, s.vset ∈ C ∧ (∀ t ∈ C, t ⊆ s.vset) ∧
          x = if #C = 1 then (if #s.vset = 1 then s.data else s.data * functor 0) else s.data * functor #C := by
  by_cases hne : K = []
  · subst hne
    refine ⟨[], fun _ => 0, rfl, WF.nil, ?_, rfl, ?_, ?_, ?_, ?_⟩
    · intro s hs; cases hs
    · intro s hs; simp [sets] at hs
    · intro v hv; simp [sets] at hv
    · intro s hs; simp [sets] at hs
    · intro V x
      constructor
      · rintro ⟨s, hs, _⟩; cases hs
      · rintro ⟨C, _, _, s, hs, _⟩; cases hs
  obtain ⟨v, hv, hle⟩ := last_vertex hK hc hne
  have hM : ∀ s ∈ K, ∀ x ∈ s.vset, x < v + 1 := fun s hs x hx => Nat.lt_succ_of_le (hle s hs x hx)
  have c : Ctx K ord (bary (v + 1) ord) := ⟨hK, hc, hp, hd, bary_inj hK hp hM⟩
  obtain ⟨st, e1, hi⟩ := loop_inv functor c [] ord rfl ⟨v + 1, [], []⟩
    ⟨by simp, by simp, by simp, WF.nil, by simp [HasData]⟩
  have hordK : ∀ s ∈ ord, s ∈ K := fun s hs => hp.subset hs
  obtain ⟨L, e2, w, d⟩ := pushAlls_spec (c.rel_unique functor) (order st.subdivision)
    (by
      intro e he s hs
      obtain ⟨t, ht, _, hf⟩ := hi.sub e ((ho _).subset he)
      exact hf.1 s hs)
    (by
      intro e he s hs
      obtain ⟨t, ht, _, hf⟩ := hi.sub e ((ho _).subset he)
      obtain ⟨C, hC, _, hV, _⟩ := (hf.2 s.vset s.data).1 ⟨s, hs, rfl, rfl⟩
      apply vset_ne_nil
      rw [hV]
      exact Nonempty.image ⟨_, hC.top⟩ _)
    (by
      intro e he V x h
      obtain ⟨t, ht, _, hf⟩ := hi.sub e ((ho _).subset he)
      obtain ⟨C, hC, _, h2⟩ := (hf.2 V x).1 h
      exact ⟨t, hordK t ht, C, hC, h2⟩)
    st.L hi.wf
    (by
      intro V x h
      obtain ⟨t, ht, C, hC, _, h2⟩ := (hi.L V x).1 h
      exact ⟨t, hordK t ht, C, hC, h2⟩)
  have hrel : ∀ V x, HasData L V x ↔ Rel functor K (bary (v + 1) ord) V x := by
    intro V x
    rw [d, hi.L]
    constructor
    · rintro (⟨t, ht, C, hC, _, h2⟩ | ⟨e, he, h⟩)
      · exact ⟨t, hordK t ht, C, hC, h2⟩
      · obtain ⟨t, ht, _, hf⟩ := hi.sub e ((ho _).subset he)
        obtain ⟨C, hC, _, h2⟩ := (hf.2 V x).1 h
        exact ⟨t, hordK t ht, C, hC, h2⟩
    · rintro ⟨t, ht, C, hC, h2⟩
      have hto : t ∈ ord := hp.symm.subset ht
      rcases lt_or_eq_of_le hC.card_le with h | h
      · exact Or.inl ⟨t, hto, C, hC, h, h2⟩
      · right
        have hk : t.vertices ∈ st.subdivision.map Prod.fst := by
          rw [hi.keys]; exact List.mem_map_of_mem hto
        obtain ⟨ms, _, hm⟩ := lookup_of_key hk
        obtain ⟨t', ht', hv', hf⟩ := hi.sub _ hm
        have := hK.eq_of_vertices ht (hordK t' ht') hv'
        subst this
        exact ⟨_, (ho _).symm.subset hm, (hf.2 V x).2 ⟨C, hC, h, h2⟩⟩
  have hsets : ∀ V, V ∈ sets L ↔ ∃ s ∈ K, ∃ C, FlagTop s.vset C ∧ V = C.image (bary (v + 1) ord) := by
    intro V
    rw [mem_sets]
    constructor
    · rintro ⟨t, ht, hV⟩
      obtain ⟨s, hs, C, hC, h, _⟩ := (hrel V t.data).1 ⟨t, ht, hV, rfl⟩
      exact ⟨s, hs, C, hC, h⟩
    · rintro ⟨s, hs, C, hC, h⟩
      obtain ⟨t, ht, hV, _⟩ := (hrel V _).2 ⟨s, hs, C, hC, h, rfl⟩
      exact ⟨t, ht, hV⟩
  refine ⟨L, bary (v + 1) ord, ?_, w, ?_, ?_, c.inj, ?_, ?_, ?_⟩
  · unfold subdivide
    rw [hv]
    simp only [bind, Option.bind, e1]
    exact e2
  · intro t ht V hV hVne
    obtain ⟨s, hs, C, hC, h⟩ := (hsets t.vset).1 (mem_sets.2 ⟨t, ht, rfl⟩)
    rw [h] at hV
    have hD : ((C.filter fun t => bary (v + 1) ord t ∈ V).image (bary (v + 1) ord)) = V := by
      ext y
      rw [mem_image]
      constructor
      · rintro ⟨t, ht, rfl⟩
        exact (mem_filter.1 ht).2
      · intro hy
        obtain ⟨t, ht, rfl⟩ := mem_image.1 (hV hy)
        exact ⟨t, mem_filter.2 ⟨ht, hy⟩, rfl⟩
    have hDne : (C.filter fun t => bary (v + 1) ord t ∈ V).Nonempty := by
      obtain ⟨y, hy⟩ := hVne
      rw [← hD] at hy
      obtain ⟨t, ht, _⟩ := mem_image.1 hy
      exact ⟨t, ht⟩
    obtain ⟨τ, hτ, hτC⟩ := hC.mono (filter_subset _ _) hDne
    obtain ⟨s', hs', e'⟩ := mem_sets.1 (c.flag_sub hs Subset.rfl hC hτC)
    exact mem_sets.1 ((hsets V).2 ⟨s', hs', _, by rw [e']; exact hτ, hD.symm⟩)
  · classical
    have hL : sets L = ((sets K).biUnion flagsTop).image fun C => C.image (bary (v + 1) ord) := by
      ext V
      rw [hsets, mem_image]
      constructor
      · rintro ⟨s, hs, C, hC, rfl⟩
        exact ⟨C, mem_biUnion.2 ⟨s.vset, mem_sets.2 ⟨s, hs, rfl⟩, mem_flagsTop.2 hC⟩, rfl⟩
      · rintro ⟨C, hC, rfl⟩
        obtain ⟨t, ht, hC⟩ := mem_biUnion.1 hC
        obtain ⟨s, hs, rfl⟩ := mem_sets.1 ht
        exact ⟨s, hs, C, mem_flagsTop.1 hC, rfl⟩
    have hin : ∀ C ∈ (sets K).biUnion flagsTop, C ⊆ sets K := by
      intro C hC
      obtain ⟨t, ht, hC⟩ := mem_biUnion.1 hC
      obtain ⟨s, hs, rfl⟩ := mem_sets.1 ht
      exact c.flag_sub hs Subset.rfl (mem_flagsTop.1 hC)
    unfold euler
    rw [hL, sum_image (fun C hC D hD h => c.image_inj (hin C hC) (hin D hD) h), sum_congr rfl
      (fun C hC => by rw [c.card_image (hin C hC)]), sum_biUnion]
    · refine sum_congr rfl fun t ht => ?_
      obtain ⟨s, hs, rfl⟩ := mem_sets.1 ht
      exact sum_flagsTop _ (hK.vset_nonempty hs)
    · intro t _ u _ htu
      rw [Function.onFun, disjoint_left]
      intro C h1 h2
      exact htu ((mem_flagsTop.1 h1).unique (mem_flagsTop.1 h2))
  · intro u _
    simp [bary]
  · intro s _ h1 u hu
    obtain ⟨t, ht, he⟩ := mem_sets.1 hu
    have := hM t ht u (by rw [he]; simp)
    unfold bary
    rw [if_neg (by omega)]
    omega
  · intro V x
    rw [hrel]
    constructor
    · rintro ⟨s, hs, C, hC, h1, h2⟩
      exact ⟨C, ⟨⟨_, hC.top⟩, c.flag_sub hs Subset.rfl hC, hC.chain⟩, h1, s, hs, hC.top, fun t ht => (hC.sub t ht).2, h2⟩
    · rintro ⟨C, ⟨_, h2, h3⟩, h4, s, hs, h5, h6, h7⟩
      refine ⟨s, hs, C, ⟨h5, fun t ht => ⟨?_, h6 t ht⟩, h3⟩, h4, h7⟩
      obtain ⟨u, hu, rfl⟩ := mem_sets.1 (h2 ht)
      exact hK.vset_nonempty hu

/-- C48. If a face of a simplex is missing, an exception is thrown, unless the complex has no vertices at all. -/
theorem C48_missing_face [Mul α] (functor : ℕ → α) (K ord : Complex α) (hK : WF K) (hc : ¬ FaceClosed K)
    (hp : ord.Perm K) (order : List (List ℕ × List (Simplex α)) → List (List ℕ × List (Simplex α))) :
    ((∃ v, {v} ∈ sets K) → subdivide functor ord order K = none) ∧
      ((¬ ∃ v, {v} ∈ sets K) → subdivide functor ord order K = some []) := by
  have hv := (C22_vertices K hK).2
  unfold subdivide
  refine ⟨fun h => ?_, fun h => ?_⟩
  · obtain ⟨v, h⟩ := h
    have hne : K.vertices ≠ [] := List.ne_nil_of_mem ((hv v).2 (mem_sets.1 h))
    rw [List.getLast?_eq_some_getLast hne]
    have hc1 : ¬ Closed1 K := fun h1 => hc (Closed1.faceClosed hK.normal h1)
    unfold Closed1 at hc1
    push Not at hc1
    obtain ⟨s, hs, f, hf, hnf⟩ := hc1
    have hfind : K.find f = none := by
      by_contra hn
      rw [← ne_eq, Option.ne_none_iff_isSome] at hn
      obtain ⟨t, ht, he⟩ := contains_iff.1 (show K.contains f = true from hn)
      exact hnf t ht he
    have hstep : ∀ st : State α, step functor K st s = none := by
      intro st
      have hd : Complex.dim s ≠ 0 := by
        have := ((mem_faces (hK.normal s hs)).1 hf).1
        unfold Complex.dim
        omega
      unfold step
      rw [if_neg hd]
      have hm : (s.faces.mapM fun f => (K.find f).bind fun t => st.subdivision.lookup t.vertices) = none := by
        obtain ⟨l1, l2, e⟩ := List.append_of_mem hf
        rw [e, List.mapM_append, List.mapM_cons, hfind]
        cases l1.mapM fun f => (K.find f).bind fun t => st.subdivision.lookup t.vertices <;> rfl
      rw [hm]
      cases st.L.pushBack (Simplex.ofVertex st.next (s.data * functor 0)) <;> rfl
    obtain ⟨l1, l2, e⟩ := List.append_of_mem (hp.symm.subset hs)
    have : ∀ st, ord.foldlM (step functor K) st = none := by
      intro st
      rw [e, List.foldlM_append]
      cases l1.foldlM (step functor K) st with
      | none => rfl
      | some st' =>
        change (s :: l2).foldlM (step functor K) st' = none
        rw [List.foldlM_cons, hstep]; rfl
    simp only [this]
    rfl
  · have : K.vertices = [] := by
      rw [List.eq_nil_iff_forall_not_mem]
      intro v hm
      exact h ⟨v, mem_sets.2 ((hv v).1 hm)⟩
    rw [this]
    rfl

/-- The hypotheses of `C48_subdivision` hold for a triangle, and the result has seven vertices, twelve edges and six triangles. -/
def solidTriangle : Complex ℤ :=
  [⟨[0], 1⟩, ⟨[1], 2⟩, ⟨[2], 3⟩, ⟨[1, 0], 4⟩, ⟨[2, 0], 5⟩, ⟨[2, 1], 6⟩, ⟨[2, 1, 0], 7⟩]

example : WF solidTriangle ∧ FaceClosed solidTriangle ∧ solidTriangle.Pairwise fun s t => #s.vset ≤ #t.vset := by
  refine ⟨⟨by decide, by decide, by decide⟩, Closed1.faceClosed (by decide) (by unfold Closed1; decide), by decide⟩

example : ((subdivide (fun _ => 1) solidTriangle id solidTriangle).map fun L => L.map (·.vertices.length)).map (fun l =>
    (l.count 1, l.count 2, l.count 3)) = some (7, 12, 6) := by decide +kernel

end Aleph
