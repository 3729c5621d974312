import Verif.Lemmas.Simplex

namespace Aleph

open Finset Spec Complex

variable {α : Type}

/-! ### Look-ups -/

theorem find_some {K : Complex α} {vs : List ℕ} {s : Simplex α} (h : K.find vs = some s) :
    s ∈ K ∧ s.vertices = vs :=
  ⟨List.mem_of_find?_eq_some h, by simpa using List.find?_some h⟩

theorem contains_iff {K : Complex α} {vs : List ℕ} :
    K.contains vs = true ↔ ∃ s ∈ K, s.vertices = vs := by
  unfold Complex.contains Complex.find
  rw [List.find?_isSome]
  simp

theorem contains_eq_false {K : Complex α} {vs : List ℕ} :
    K.contains vs = false ↔ ∀ s ∈ K, s.vertices ≠ vs := by
  rw [← Bool.not_eq_true, contains_iff]
  push Not
  rfl

theorem Spec.WF.nodup {K : Complex α} (h : WF K) : K.Nodup := List.Nodup.of_map _ h.distinct

theorem Spec.WF.eq_of_vertices {K : Complex α} (h : WF K) {s t : Simplex α} (hs : s ∈ K) (ht : t ∈ K)
    (he : s.vertices = t.vertices) : s = t :=
  List.inj_on_of_nodup_map h.distinct hs ht he

theorem Spec.WF.eq_of_vset {K : Complex α} (h : WF K) {s t : Simplex α} (hs : s ∈ K) (ht : t ∈ K)
    (he : s.vset = t.vset) : s = t :=
  h.eq_of_vertices hs ht (((h.normal s hs).eq_iff (h.normal t ht)).2 he)

theorem Spec.WF.find_eq {K : Complex α} (h : WF K) {s : Simplex α} (hs : s ∈ K) :
    K.find s.vertices = some s := by
  have hc : K.contains s.vertices = true := contains_iff.2 ⟨s, hs, rfl⟩
  unfold Complex.contains at hc
  obtain ⟨t, ht⟩ := Option.isSome_iff_exists.1 hc
  obtain ⟨h1, h2⟩ := find_some ht
  rw [ht, h.eq_of_vertices h1 hs h2]

theorem Spec.WF.vset_nonempty {K : Complex α} (h : WF K) {s : Simplex α} (hs : s ∈ K) :
    s.vset.Nonempty := by
  obtain ⟨x, hx⟩ := List.exists_mem_of_ne_nil _ (h.nonempty s hs)
  exact ⟨x, List.mem_toFinset.2 hx⟩

theorem Spec.WF.nil : WF ([] : Complex α) := ⟨by simp, by simp, by simp⟩

theorem Spec.WF.append_singleton {K : Complex α} (h : WF K) {s : Simplex α} (hn : Normal s.vertices)
    (hne : s.vertices ≠ []) (hc : K.contains s.vertices = false) : WF (K ++ [s]) := by
  refine ⟨?_, ?_, ?_⟩
  · intro t ht
    rcases List.mem_append.1 ht with ht | ht
    · exact h.normal t ht
    · rw [List.mem_singleton.1 ht]; exact hn
  · intro t ht
    rcases List.mem_append.1 ht with ht | ht
    · exact h.nonempty t ht
    · rw [List.mem_singleton.1 ht]; exact hne
  · rw [List.map_append, List.nodup_append]
    refine ⟨h.distinct, by simp, ?_⟩
    intro a ha b hb hab
    obtain ⟨t, ht, rfl⟩ := List.mem_map.1 ha
    simp only [List.map_cons, List.map_nil, List.mem_singleton] at hb
    exact contains_eq_false.1 hc t ht (hab.trans hb)

theorem Spec.WF.sublist {K L : Complex α} (h : WF K) (hs : L.Sublist K) : WF L :=
  ⟨fun s hm => h.normal s (hs.subset hm), fun s hm => h.nonempty s (hs.subset hm),
    List.Nodup.sublist (hs.map _) h.distinct⟩

theorem Spec.WF.perm {K L : Complex α} (h : WF K) (hp : L.Perm K) : WF L :=
  ⟨fun s hm => h.normal s (hp.subset hm), fun s hm => h.nonempty s (hp.subset hm),
    (hp.map _).nodup_iff.2 h.distinct⟩

/-! ### Closure under faces -/

/-- Closure under codimension-one faces, as checked by the code. -/
def Closed1 (K : Complex α) : Prop := ∀ s ∈ K, ∀ f ∈ s.faces, ∃ u ∈ K, u.vertices = f

theorem closed1_iff {K : Complex α} :
    Closed1 K ↔ ∀ s ∈ K, K.checkValidity s = true := by
  unfold Closed1 checkValidity
  simp only [List.all_eq_true, contains_iff]

theorem Closed1.faceClosed {K : Complex α} (hn : ∀ s ∈ K, Normal s.vertices) (h : Closed1 K) :
    FaceClosed K := by
  have key : ∀ n, ∀ s ∈ K, ∀ t ⊆ s.vset, t.Nonempty → s.vset.card = t.card + n →
      ∃ u ∈ K, u.vset = t := by
    intro n
    induction n with
    | zero =>
      intro s hs t ht _ hc
      exact ⟨s, hs, (Finset.eq_of_subset_of_card_le ht (by omega)).symm⟩
    | succ n ih =>
      intro s hs t ht htne hc
      obtain ⟨v, hv, hvt⟩ := Finset.exists_of_ssubset
        (Finset.ssubset_iff_subset_ne.2 ⟨ht, fun e => by rw [e] at hc; omega⟩)
      have hpos := htne.card_pos
      have hlen := (hn s hs).length_eq
      obtain ⟨u, hu, huv⟩ := h s hs _ ((mem_faces (hn s hs)).2
        ⟨by rw [hlen]; change 2 ≤ s.vset.card; omega, v, List.mem_toFinset.1 hv, rfl⟩)
      have huset : u.vset = s.vset.erase v := by
        unfold Simplex.vset; rw [huv, toFinset_filter_ne]
      refine ih u hu t ?_ htne ?_
      · rw [huset]
        intro x hx
        rw [Finset.mem_erase]
        exact ⟨fun e => hvt (e ▸ hx), ht hx⟩
      · rw [huset, Finset.card_erase_of_mem hv]; omega
  intro s hs t ht htne
  have := Finset.card_le_card ht
  exact key (s.vset.card - t.card) s hs t ht htne (by omega)

theorem Spec.FaceClosed.closed1 {K : Complex α} (hn : ∀ s ∈ K, Normal s.vertices) (h : FaceClosed K) :
    Closed1 K := by
  intro s hs f hf
  obtain ⟨h1, h2, h3, _⟩ := (mem_faces_iff (hn s hs)).1 hf
  obtain ⟨u, hu, he⟩ := h s hs f.toFinset h3 (by
    obtain ⟨x, hx⟩ := List.exists_mem_of_ne_nil _ h2
    exact ⟨x, List.mem_toFinset.2 hx⟩)
  exact ⟨u, hu, ((hn u hu).eq_iff h1).2 he⟩

/-! ### remove -/

theorem removeSweep_spec (pre post : Complex α) :
    (removeSweep pre post).1.Sublist (pre ++ post) ∧
    ((removeSweep pre post).2 = false →
      (removeSweep pre post).1 = pre ++ post ∧ ∀ s ∈ post, checkValidity (pre ++ post) s = true) ∧
    ((removeSweep pre post).2 = true → (removeSweep pre post).1.length < (pre ++ post).length) := by
  induction post generalizing pre with
  | nil => simp [removeSweep]
  | cons s post ih =>
    rw [removeSweep]
    split
    · next hv =>
      obtain ⟨h1, h2, h3⟩ := ih (pre ++ [s])
      rw [List.append_assoc, List.singleton_append] at h1 h2 h3
      refine ⟨h1, ?_, h3⟩
      intro hf
      obtain ⟨h4, h5⟩ := h2 hf
      refine ⟨h4, ?_⟩
      intro t ht
      rcases List.mem_cons.1 ht with rfl | ht
      · exact hv
      · exact h5 t ht
    · obtain ⟨h1, h2, h3⟩ := ih pre
      refine ⟨h1.trans (List.Sublist.append_left (List.sublist_cons_self _ _) _), by simp, ?_⟩
      intro _
      have := h1.length_le
      simp only [List.length_append, List.length_cons] at this ⊢
      omega

theorem removeSweep_keeps {K : Complex α} {P : Simplex α → Prop}
    (hP : ∀ L : Complex α, (∀ x ∈ K, P x → x ∈ L) → ∀ s ∈ K, P s → checkValidity L s = true)
    (pre post : Complex α) (hsub : ∀ x ∈ pre ++ post, x ∈ K) (h : ∀ x ∈ K, P x → x ∈ pre ++ post) :
    ∀ x ∈ K, P x → x ∈ (removeSweep pre post).1 := by
  induction post generalizing pre with
  | nil => simpa [removeSweep] using h
  | cons s post ih =>
    rw [removeSweep]
    split
    · refine ih (pre ++ [s]) ?_ ?_
      · simpa using hsub
      · simpa using h
    · next hv =>
      refine ih pre (fun x hx => hsub x (by
        rcases List.mem_append.1 hx with hx | hx
        · exact List.mem_append_left _ hx
        · exact List.mem_append_right _ (List.mem_cons_of_mem _ hx))) ?_
      intro x hx hPx
      have hm := h x hx hPx
      rcases List.mem_append.1 hm with hm | hm
      · exact List.mem_append_left _ hm
      · rcases List.mem_cons.1 hm with rfl | hm
        · exact absurd (hP _ h x hx hPx) hv
        · exact List.mem_append_right _ hm

theorem removeLoop_spec {K0 : Complex α} {P : Simplex α → Prop}
    (hP : ∀ L : Complex α, (∀ x ∈ K0, P x → x ∈ L) → ∀ s ∈ K0, P s → checkValidity L s = true)
    (f : ℕ) (K : Complex α) (hf : K.length < f) (hsub : K.Sublist K0)
    (hk : ∀ x ∈ K0, P x → x ∈ K) :
    ∃ K', removeLoop f K = some K' ∧ K'.Sublist K0 ∧ Closed1 K' ∧ ∀ x ∈ K0, P x → x ∈ K' := by
  induction f generalizing K with
  | zero => omega
  | succ f ih =>
    rw [removeLoop]
    obtain ⟨h1, h2, h3⟩ := removeSweep_spec [] K
    have h4 := removeSweep_keeps hP [] K (fun x hx => hsub.subset (by simpa using hx)) (by simpa using hk)
    simp only [List.nil_append] at h1 h2 h3
    generalize removeSweep [] K = r at h1 h2 h3 h4 ⊢
    obtain ⟨K', b⟩ := r
    cases b with
    | true =>
      have := h3 rfl
      exact ih K' (by simp only at this; omega) (h1.trans hsub) h4
    | false =>
      obtain ⟨rfl, h5⟩ := h2 rfl
      exact ⟨_, rfl, hsub, closed1_iff.2 h5, h4⟩

/-- A simplex survives `remove` exactly if none of its non-empty faces is missing in the
complex without the removed simplex. -/
def Survives (K : Complex α) (vs : List ℕ) (s : Simplex α) : Prop :=
  ∀ t ⊆ s.vset, t.Nonempty → t ≠ vs.toFinset ∧ ∃ u ∈ K, u.vset = t

theorem remove_spec {K : Complex α} (h : WF K) {vs : List ℕ} (hv : Normal vs) :
    ∃ K', K.remove vs = some K' ∧ K'.Sublist K ∧ FaceClosed K' ∧
      ∀ s, s ∈ K' ↔ s ∈ K ∧ Survives K vs s := by
  have hwf : WF (K.removeOnly vs) := h.sublist List.filter_sublist
  have hmem : ∀ s, s ∈ K.removeOnly vs ↔ s ∈ K ∧ s.vertices ≠ vs := by
    intro s; unfold removeOnly; rw [List.mem_filter]; simp
  have hP : ∀ L : Complex α, (∀ x ∈ K.removeOnly vs, Survives K vs x → x ∈ L) →
      ∀ s ∈ K.removeOnly vs, Survives K vs s → checkValidity L s = true := by
    intro L hL s hs hS
    unfold checkValidity
    rw [List.all_eq_true]
    intro f hf
    obtain ⟨f1, f2, f3, _⟩ := (mem_faces_iff (hwf.normal s hs)).1 hf
    have fne : f.toFinset.Nonempty := by
      obtain ⟨x, hx⟩ := List.exists_mem_of_ne_nil _ f2
      exact ⟨x, List.mem_toFinset.2 hx⟩
    obtain ⟨g1, u, g2, g3⟩ := hS f.toFinset f3 fne
    have huv : u.vertices = f := ((h.normal u g2).eq_iff f1).2 g3
    refine contains_iff.2 ⟨u, hL u ?_ ?_, huv⟩
    · rw [hmem]
      refine ⟨g2, fun e => g1 ?_⟩
      rw [← huv, e]
    · intro t ht htne
      exact hS t (ht.trans (by rw [g3]; exact f3)) htne
  have hlen : (K.removeOnly vs).length < K.length + 1 := by
    have := (List.filter_sublist (l := K) (p := fun s => s.vertices != vs)).length_le
    unfold removeOnly; omega
  obtain ⟨K', h1, h2, h3, h4⟩ := removeLoop_spec hP _ _ hlen (List.Sublist.refl _)
    (fun x hx _ => hx)
  have hsub : K'.Sublist K := h2.trans List.filter_sublist
  have hfc : FaceClosed K' := h3.faceClosed (h.sublist hsub).normal
  refine ⟨K', h1, hsub, hfc, fun s => ⟨fun hs => ⟨hsub.subset hs, ?_⟩, ?_⟩⟩
  · intro t ht htne
    obtain ⟨u, hu, he⟩ := hfc s hs t ht htne
    refine ⟨fun e => ?_, u, hsub.subset hu, he⟩
    obtain ⟨u1, u2⟩ := (hmem u).1 (h2.subset hu)
    exact u2 (((h.normal u u1).eq_iff hv).2 (he.trans e))
  · rintro ⟨hs, hS⟩
    refine h4 s ((hmem s).2 ⟨hs, fun e => ?_⟩) hS
    exact (hS s.vset (Finset.Subset.refl _) (h.vset_nonempty hs)).1 (by
      unfold Simplex.vset; rw [e])

/-! ### createMissingFaces -/

theorem restoreFold_spec (d : α) (fs : List (List ℕ)) (K : Complex α) (hn : ∀ f ∈ fs, Normal f)
    (hne : ∀ f ∈ fs, f ≠ []) (h : WF K) :
    ∃ new : Complex α,
      fs.foldl (fun K f => if Complex.contains K f then K else K ++ [⟨f, d⟩]) K = K ++ new ∧
      WF (K ++ new) ∧ new.length ≤ fs.length ∧ (∀ s ∈ new, s.vertices ∈ fs ∧ s.data = d) ∧
      ∀ f ∈ fs, ∃ u ∈ K ++ new, u.vertices = f := by
  induction fs generalizing K with
  | nil => exact ⟨[], by simp, by simpa using h, by simp, by simp, by simp⟩
  | cons f fs ih =>
    rw [List.foldl_cons]
    by_cases hc : Complex.contains K f = true
    · rw [if_pos hc]
      obtain ⟨new, h1, h2, h3, h4, h5⟩ := ih K (fun g hg => hn g (List.mem_cons_of_mem _ hg))
        (fun g hg => hne g (List.mem_cons_of_mem _ hg)) h
      refine ⟨new, h1, h2, by rw [List.length_cons]; omega, ?_, ?_⟩
      · intro s hs
        exact ⟨List.mem_cons_of_mem _ (h4 s hs).1, (h4 s hs).2⟩
      · intro g hg
        rcases List.mem_cons.1 hg with rfl | hg
        · obtain ⟨u, hu, he⟩ := contains_iff.1 hc
          exact ⟨u, List.mem_append_left _ hu, he⟩
        · exact h5 g hg
    · rw [if_neg hc]
      have hc' : Complex.contains K f = false := by simpa using hc
      obtain ⟨new, h1, h2, h3, h4, h5⟩ := ih (K ++ [⟨f, d⟩])
        (fun g hg => hn g (List.mem_cons_of_mem _ hg))
        (fun g hg => hne g (List.mem_cons_of_mem _ hg))
        (h.append_singleton (hn f (by simp)) (hne f (by simp)) hc')
      refine ⟨⟨f, d⟩ :: new, ?_, ?_, ?_, ?_, ?_⟩
      · rw [h1]; simp
      · simpa using h2
      · rw [List.length_cons, List.length_cons]; omega
      · intro s hs
        rcases List.mem_cons.1 hs with rfl | hs
        · exact ⟨by simp, rfl⟩
        · exact ⟨List.mem_cons_of_mem _ (h4 s hs).1, (h4 s hs).2⟩
      · intro g hg
        rcases List.mem_cons.1 hg with rfl | hg
        · exact ⟨⟨g, d⟩, by simp, rfl⟩
        · obtain ⟨u, hu, he⟩ := h5 g hg
          exact ⟨u, by simpa using hu, he⟩

/-- Termination measure of `createMissingFaces`. -/
def weight (K : Complex α) : ℕ := (K.map fun s => (s.vertices.length + 1).factorial).sum

theorem weight_new {m : ℕ} {new : Complex α} (h : ∀ s ∈ new, s.vertices.length + 1 = m) :
    weight new = new.length * m.factorial := by
  induction new with
  | nil => simp [weight]
  | cons s new ih =>
    have h1 := h s (by simp)
    have h2 := ih fun t ht => h t (List.mem_cons_of_mem _ ht)
    unfold weight at h2 ⊢
    rw [List.map_cons, List.sum_cons, h2, h1, List.length_cons]
    rw [Nat.add_mul, Nat.one_mul, Nat.add_comm]

theorem cmfLoop_spec {K0 : Complex α} (f i : ℕ) (K : Complex α) (hi : i ≤ K.length)
    (hf : weight (K.drop i) < f) (h : WF K) (hpre : K0 <+: K)
    (hproc : ∀ k < i, ∀ s, K[k]? = some s → ∀ g ∈ s.faces, ∃ u ∈ K, u.vertices = g)
    (hcov : ∀ s ∈ K, ∃ s0 ∈ K0, s.vset ⊆ s0.vset ∧ s.data = s0.data) :
    ∃ K', createMissingFacesLoop f i K = some K' ∧ WF K' ∧ K0 <+: K' ∧ Closed1 K' ∧
      ∀ s ∈ K', ∃ s0 ∈ K0, s.vset ⊆ s0.vset ∧ s.data = s0.data := by
  induction f generalizing i K with
  | zero => omega
  | succ f ih =>
    rw [createMissingFacesLoop]
    cases hk : K[i]? with
    | none =>
      refine ⟨K, rfl, h, hpre, ?_, hcov⟩
      intro s hs
      obtain ⟨k, hkl, rfl⟩ := List.getElem_of_mem hs
      have := List.getElem?_eq_none_iff.1 hk
      exact hproc k (by omega) _ (List.getElem?_eq_getElem hkl)
    | some s =>
      obtain ⟨hil, his⟩ := List.getElem?_eq_some_iff.1 hk
      have hsK : s ∈ K := his ▸ List.getElem_mem hil
      have hsn := h.normal s hsK
      have hface := fun g (hg : g ∈ s.faces) => (mem_faces_iff hsn).1 hg
      obtain ⟨new, h1, h2, h3, h4, h5⟩ := restoreFold_spec s.data s.faces K
        (fun g hg => (hface g hg).1) (fun g hg => (hface g hg).2.1) h
      have hr : K.restoreValidity s = K ++ new := h1
      simp only
      rw [hr]
      refine ih (i + 1) (K ++ new) (by rw [List.length_append]; omega) ?_ h2
        (hpre.trans (List.prefix_append _ _)) ?_ ?_
      · have hd : K.drop i = s :: K.drop (i + 1) := by
          rw [List.drop_eq_getElem_cons hil, his]
        have hw : weight (K.drop i) = (s.vertices.length + 1).factorial + weight (K.drop (i + 1)) := by
          rw [hd]; simp [weight]
        have hd2 : (K ++ new).drop (i + 1) = K.drop (i + 1) ++ new :=
          List.drop_append_of_le_length (by omega)
        have hw2 : weight ((K ++ new).drop (i + 1)) = weight (K.drop (i + 1)) + weight new := by
          rw [hd2]; simp [weight]
        have hnew : weight new = new.length * s.vertices.length.factorial := by
          apply weight_new
          intro t ht
          obtain ⟨g1, _, _, g4⟩ := hface _ (h4 t ht).1
          rw [g1.length_eq, g4, hsn.length_eq]; rfl
        have hfl : s.faces.length ≤ s.vertices.length := by
          rw [faces_eq hsn]; split <;> simp
        have hle : new.length * s.vertices.length.factorial ≤
            s.vertices.length * s.vertices.length.factorial :=
          Nat.mul_le_mul_right _ (h3.trans hfl)
        have hpos := Nat.factorial_pos s.vertices.length
        rw [Nat.factorial_succ, Nat.add_mul, Nat.one_mul] at hw
        omega
      · intro k hki t ht g hg
        have hkl : k < K.length := by omega
        rw [List.getElem?_append_left hkl] at ht
        by_cases hk2 : k < i
        · obtain ⟨u, hu, he⟩ := hproc k hk2 t ht g hg
          exact ⟨u, List.mem_append_left _ hu, he⟩
        · have : k = i := by omega
          subst this
          rw [hk] at ht; cases ht
          exact h5 g hg
      · intro t ht
        rcases List.mem_append.1 ht with ht | ht
        · exact hcov t ht
        · obtain ⟨g1, g2⟩ := h4 t ht
          obtain ⟨s0, hs0, c1, c2⟩ := hcov s hsK
          refine ⟨s0, hs0, (hface _ g1).2.2.1.trans c1, g2.trans c2⟩

theorem createMissingFaces_spec {K : Complex α} (h : WF K) :
    ∃ K', K.createMissingFaces = some K' ∧ WF K' ∧ K <+: K' ∧ Closed1 K' ∧
      ∀ s ∈ K', ∃ s0 ∈ K, s.vset ⊆ s0.vset ∧ s.data = s0.data :=
  cmfLoop_spec _ 0 K (by omega) (by rw [List.drop_zero]; exact Nat.lt_succ_self _) h
    (List.prefix_refl _) (by omega) (fun s hs => ⟨s, hs, Finset.Subset.refl _, rfl⟩)

end Aleph
