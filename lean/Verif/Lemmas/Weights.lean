import Verif.Lemmas.Filtration
import Mathlib.Order.Bounds.Basic

namespace Aleph

open Finset Spec Complex

variable {α : Type}

/-- Data stored for given vertices. -/
def dat (K : Complex α) (f : List ℕ) : Option α := (K.find f).map (·.data)

theorem setData_vertices (K : Complex α) (vs : List ℕ) (d : α) :
    (K.setData vs d).map (·.vertices) = K.map (·.vertices) := by
  unfold setData
  rw [List.map_map]
  apply List.map_congr_left
  intro s _
  simp only [Function.comp]
  split <;> rfl

theorem dat_setData (K : Complex α) (vs : List ℕ) (d : α) (f : List ℕ) :
    dat (K.setData vs d) f = if f = vs then (dat K f).map fun _ => d else dat K f := by
  induction K with
  | nil => simp [dat, Complex.find, setData]
  | cons s K ih =>
    by_cases h : s.vertices = f
    · subst h
      by_cases hv : s.vertices = vs
      · simp [dat, Complex.find, setData, hv]
      · simp [dat, Complex.find, setData, hv]
    · have h1 : dat (Complex.setData (s :: K) vs d) f = dat (Complex.setData K vs d) f := by
        by_cases hv : s.vertices = vs
        · subst hv
          simp [dat, Complex.find, setData, h]
        · simp [dat, Complex.find, setData, hv, h]
      have h2 : dat (s :: K) f = dat K f := by simp [dat, Complex.find, h]
      rw [h1, h2, ih]

theorem mem_of_dat {K : Complex α} {f : List ℕ} {x : α} :
    dat K f = some x → ∃ s ∈ K, s.vertices = f ∧ s.data = x := by
  unfold dat
  intro h
  obtain ⟨s, hs, rfl⟩ := Option.map_eq_some_iff.1 h
  obtain ⟨h1, h2⟩ := find_some hs
  exact ⟨s, h1, h2, rfl⟩

theorem Spec.WF.dat_eq {K : Complex α} (h : WF K) {s : Simplex α} (hs : s ∈ K) :
    dat K s.vertices = some s.data := by
  unfold dat; rw [h.find_eq hs]; rfl

theorem Spec.WF.of_vertices {K L : Complex α} (h : WF K)
    (he : L.map (·.vertices) = K.map (·.vertices)) : WF L := by
  have hm : ∀ s ∈ L, ∃ t ∈ K, t.vertices = s.vertices := by
    intro s hs
    have : s.vertices ∈ L.map (·.vertices) := List.mem_map_of_mem hs
    rw [he] at this
    obtain ⟨t, ht, e⟩ := List.mem_map.1 this
    exact ⟨t, ht, e⟩
  refine ⟨?_, ?_, ?_⟩
  · intro s hs; obtain ⟨t, ht, e⟩ := hm s hs; rw [← e]; exact h.normal t ht
  · intro s hs; obtain ⟨t, ht, e⟩ := hm s hs; rw [← e]; exact h.nonempty t ht
  · rw [he]; exact h.distinct

theorem Spec.FaceClosed.of_vertices {K L : Complex α} (h : FaceClosed K)
    (he : L.map (·.vertices) = K.map (·.vertices)) : FaceClosed L := by
  intro s hs t ht htne
  have : s.vertices ∈ L.map (·.vertices) := List.mem_map_of_mem hs
  rw [he] at this
  obtain ⟨s', hs', e⟩ := List.mem_map.1 this
  obtain ⟨u, hu, hut⟩ := h s' hs' t (by unfold Simplex.vset; rw [e]; exact ht) htne
  have : u.vertices ∈ K.map (·.vertices) := List.mem_map_of_mem hu
  rw [← he] at this
  obtain ⟨u', hu', e'⟩ := List.mem_map.1 this
  exact ⟨u', hu', by unfold Simplex.vset; rw [e']; exact hut⟩

section
variable [LinearOrder α]

/-- The weight computed from the data of the faces. -/
def wgt (lo hi : α) (useMax : Bool) (D : List ℕ → Option α) (fs : List (List ℕ)) : α :=
  fs.foldl (fun w f =>
    match D f with
    | none => w
    | some x => if useMax then max w x else min w x) (if useMax then lo else hi)

theorem wgt_congr {lo hi : α} {useMax : Bool} {D E : List ℕ → Option α} {fs : List (List ℕ)}
    (h : ∀ f ∈ fs, D f = E f) : wgt lo hi useMax D fs = wgt lo hi useMax E fs := by
  unfold wgt
  refine List.foldl_ext _ _ _ ?_
  intro w f hf
  rw [h f hf]

/-- Simplices whose weight is recalculated. -/
def Elig (skip : Bool) (s : Simplex α) : Prop := ¬ (dim s = 0 ∨ (skip = true ∧ dim s = 1))

instance (skip : Bool) (s : Simplex α) : Decidable (Elig skip s) := by unfold Elig; infer_instance

theorem recalcStep_eq (lo hi : α) (useMax skip : Bool) (K : Complex α) (s : Simplex α) :
    recalcStep lo hi useMax skip K s =
      if Elig skip s then K.setData s.vertices (wgt lo hi useMax (dat K) s.faces) else K := by
  unfold recalcStep
  by_cases h : dim s = 0 ∨ (skip = true ∧ dim s = 1)
  · have h' : ¬ Elig skip s := fun hE => hE h
    rw [if_pos h, if_neg h']
  · have h' : Elig skip s := h
    rw [if_neg h, if_pos h']
    congr 1
    unfold wgt dat
    refine List.foldl_ext _ _ _ ?_
    intro w f _
    cases Complex.find K f <;> rfl

theorem recalc_vertices (lo hi : α) (useMax skip : Bool) (ord K : Complex α) :
    (recalculateWeightsIn lo hi useMax skip ord K).map (·.vertices) = K.map (·.vertices) := by
  unfold recalculateWeightsIn
  induction ord generalizing K with
  | nil => rfl
  | cons s ord ih =>
    rw [List.foldl_cons, ih, recalcStep_eq]
    split
    · exact setData_vertices _ _ _
    · rfl

theorem recalc_fold (lo hi : α) (useMax skip : Bool) (ord K : Complex α)
    (hn : ∀ s ∈ ord, Normal s.vertices) (hs : ord.Pairwise fun s t => dim s ≤ dim t)
    (hd : (ord.map (·.vertices)).Nodup) :
    (∀ f, (∀ s ∈ ord, Elig skip s → s.vertices ≠ f) →
      dat (recalculateWeightsIn lo hi useMax skip ord K) f = dat K f) ∧
    ∀ s ∈ ord, Elig skip s → dat (recalculateWeightsIn lo hi useMax skip ord K) s.vertices =
      (dat K s.vertices).map fun _ =>
        wgt lo hi useMax (dat (recalculateWeightsIn lo hi useMax skip ord K)) s.faces := by
  induction ord generalizing K with
  | nil => exact ⟨fun f _ => rfl, by simp⟩
  | cons s ord ih =>
    obtain ⟨hs1, hs2⟩ := List.pairwise_cons.1 hs
    rw [List.map_cons, List.nodup_cons] at hd
    have hK' : recalculateWeightsIn lo hi useMax skip (s :: ord) K =
        recalculateWeightsIn lo hi useMax skip ord (recalcStep lo hi useMax skip K s) := rfl
    obtain ⟨ih1, ih2⟩ := ih (recalcStep lo hi useMax skip K s)
      (fun t ht => hn t (List.mem_cons_of_mem _ ht)) hs2 hd.2
    rw [← hK'] at ih1 ih2
    generalize recalculateWeightsIn lo hi useMax skip (s :: ord) K = K' at ih1 ih2
    have hstep : ∀ f, s.vertices ≠ f ∨ ¬ Elig skip s →
        dat (recalcStep lo hi useMax skip K s) f = dat K f := by
      intro f hf
      rw [recalcStep_eq]
      split
      · next he =>
        rw [dat_setData, if_neg fun e => (hf.resolve_right (not_not.2 he)) e.symm]
      · rfl
    refine ⟨?_, ?_⟩
    · intro f hf
      rw [ih1 f fun t ht => hf t (List.mem_cons_of_mem _ ht)]
      apply hstep
      by_cases he : Elig skip s
      · exact Or.inl (hf s (by simp) he)
      · exact Or.inr he
    · intro t ht hte
      rcases List.mem_cons.1 ht with rfl | ht
      · have hnot : ∀ u ∈ ord, Elig skip u → u.vertices ≠ t.vertices := by
          intro u hu _ e
          exact hd.1 (e ▸ List.mem_map_of_mem hu)
        rw [ih1 _ hnot, recalcStep_eq, if_pos hte, dat_setData, if_pos rfl]
        congr 1
        funext _
        apply wgt_congr
        intro f hf
        obtain ⟨f1, f2, f3, f4⟩ := (mem_faces_iff (hn t (by simp))).1 hf
        have hlen : f.length + 1 = t.vertices.length := by
          rw [f1.length_eq, (hn t (by simp)).length_eq]; exact f4
        rw [ih1 f, recalcStep_eq, if_pos hte, dat_setData, if_neg]
        · intro e; rw [e] at hlen; omega
        · intro u hu _ e
          have := hs1 u hu
          unfold dim at this
          rw [e] at this
          have hp := List.length_pos_of_ne_nil f2
          omega
      · rw [ih2 t ht hte]
        rw [hstep]
        left
        intro e
        exact hd.1 (e ▸ List.mem_map_of_mem ht)

theorem wgt_le_iff {lo hi : α} {D : List ℕ → Option α} {fs : List (List ℕ)} {b : α} :
    wgt lo hi true D fs ≤ b ↔ lo ≤ b ∧ ∀ f ∈ fs, ∀ x, D f = some x → x ≤ b := by
  unfold wgt
  simp only [if_true]
  induction fs generalizing lo with
  | nil => simp
  | cons f fs ih =>
    rw [List.foldl_cons]
    cases hD : D f with
    | none =>
      simp only
      rw [ih]
      constructor
      · rintro ⟨h1, h2⟩
        refine ⟨h1, fun g hg x hx => ?_⟩
        rcases List.mem_cons.1 hg with rfl | hg
        · rw [hD] at hx; cases hx
        · exact h2 g hg x hx
      · rintro ⟨h1, h2⟩; exact ⟨h1, fun g hg => h2 g (List.mem_cons_of_mem _ hg)⟩
    | some y =>
      simp only
      rw [ih, max_le_iff]
      constructor
      · rintro ⟨⟨h1, h3⟩, h2⟩
        refine ⟨h1, fun g hg x hx => ?_⟩
        rcases List.mem_cons.1 hg with rfl | hg
        · rw [hD] at hx; cases hx; exact h3
        · exact h2 g hg x hx
      · rintro ⟨h1, h2⟩
        exact ⟨⟨h1, h2 f (by simp) y hD⟩, fun g hg => h2 g (List.mem_cons_of_mem _ hg)⟩

theorem le_wgt_iff {lo hi : α} {D : List ℕ → Option α} {fs : List (List ℕ)} {b : α} :
    b ≤ wgt lo hi false D fs ↔ b ≤ hi ∧ ∀ f ∈ fs, ∀ x, D f = some x → b ≤ x := by
  unfold wgt
  simp only [Bool.false_eq_true, if_false]
  induction fs generalizing hi with
  | nil => simp
  | cons f fs ih =>
    rw [List.foldl_cons]
    cases hD : D f with
    | none =>
      simp only
      rw [ih]
      constructor
      · rintro ⟨h1, h2⟩
        refine ⟨h1, fun g hg x hx => ?_⟩
        rcases List.mem_cons.1 hg with rfl | hg
        · rw [hD] at hx; cases hx
        · exact h2 g hg x hx
      · rintro ⟨h1, h2⟩; exact ⟨h1, fun g hg => h2 g (List.mem_cons_of_mem _ hg)⟩
    | some y =>
      simp only
      rw [ih, le_min_iff]
      constructor
      · rintro ⟨⟨h1, h3⟩, h2⟩
        refine ⟨h1, fun g hg x hx => ?_⟩
        rcases List.mem_cons.1 hg with rfl | hg
        · rw [hD] at hx; cases hx; exact h3
        · exact h2 g hg x hx
      · rintro ⟨h1, h2⟩
        exact ⟨⟨h1, h2 f (by simp) y hD⟩, fun g hg => h2 g (List.mem_cons_of_mem _ hg)⟩

/-- What `recalculateWeights` does to the data of each simplex, for every order `ord` in
which the dimension index may list the simplices. -/
theorem recalc_spec (lo hi : α) (useMax skip : Bool) {ord K : Complex α} (hK : WF K)
    (hp : ord.Perm K) (hs : ord.Pairwise fun s t => dim s ≤ dim t) :
    let K' := recalculateWeightsIn lo hi useMax skip ord K
    WF K' ∧ (∀ s ∈ K, ¬ Elig skip s → s ∈ K') ∧
      ∀ s ∈ K', Elig skip s → s.data = wgt lo hi useMax (dat K') s.faces := by
  intro K'
  have hv : K'.map (·.vertices) = K.map (·.vertices) := recalc_vertices lo hi useMax skip ord K
  have hwf : WF K' := hK.of_vertices hv
  have hord : WF ord := hK.perm hp
  obtain ⟨h1, h2⟩ := recalc_fold lo hi useMax skip ord K hord.normal hs hord.distinct
  refine ⟨hwf, ?_, ?_⟩
  · intro s hsK hne
    have := h1 s.vertices (by
      intro t ht hte e
      have : t = s := hord.eq_of_vertices ht (hp.symm.subset hsK) e
      exact hne (this ▸ hte))
    rw [hK.dat_eq hsK] at this
    obtain ⟨t, ht, e1, e2⟩ := mem_of_dat this
    have : t = s := by cases t; cases s; simp_all
    exact this ▸ ht
  · intro s hsK he
    have : s.vertices ∈ K'.map (·.vertices) := List.mem_map_of_mem hsK
    rw [hv] at this
    obtain ⟨t, ht, e⟩ := List.mem_map.1 this
    have hte : Elig skip t := by unfold Elig dim at he ⊢; rw [e]; exact he
    have h3 := h2 t (hp.symm.subset ht) hte
    rw [hK.dat_eq ht, e, hwf.dat_eq hsK] at h3
    have hf : t.faces = s.faces := by unfold Simplex.faces; rw [e]
    rw [hf] at h3
    simpa using h3

omit [LinearOrder α] in
theorem byDimension_perm (K : Complex α) : K.byDimension.Perm K := List.perm_insertionSort _ _

omit [LinearOrder α] in
theorem byDimension_sorted (K : Complex α) :
    K.byDimension.Pairwise fun s t => dim s ≤ dim t :=
  pairwise_insertionSort_on (S := fun _ => True) (fun _ _ _ _ _ _ h1 h2 => h1.trans h2)
    (fun _ _ _ _ => Nat.le_total _ _) (fun _ _ => trivial)

/-- A list has an element of maximal value among those with a property. -/
theorem exists_max_mem {β : Type} (l : List β) (P : β → Prop) (f : β → α) (h : ∃ x ∈ l, P x) :
    ∃ m ∈ l, P m ∧ ∀ x ∈ l, P x → f x ≤ f m := by
  induction l with
  | nil => obtain ⟨x, hx, _⟩ := h; simp at hx
  | cons a l ih =>
    by_cases ht : ∃ x ∈ l, P x
    · obtain ⟨m, hm, hPm, hmax⟩ := ih ht
      by_cases ha : P a ∧ f m ≤ f a
      · refine ⟨a, by simp, ha.1, ?_⟩
        intro x hx hPx
        rcases List.mem_cons.1 hx with rfl | hx
        · exact le_rfl
        · exact (hmax x hx hPx).trans ha.2
      · refine ⟨m, List.mem_cons_of_mem _ hm, hPm, ?_⟩
        intro x hx hPx
        rcases List.mem_cons.1 hx with rfl | hx
        · exact (not_le.1 fun hle => ha ⟨hPx, hle⟩).le
        · exact hmax x hx hPx
    · obtain ⟨x, hx, hPx⟩ := h
      rcases List.mem_cons.1 hx with rfl | hx
      · refine ⟨x, by simp, hPx, ?_⟩
        intro y hy hPy
        rcases List.mem_cons.1 hy with rfl | hy
        · exact le_rfl
        · exact absurd ⟨y, hy, hPy⟩ ht
      · exact absurd ⟨x, hx, hPx⟩ ht

theorem exists_min_mem {β : Type} (l : List β) (P : β → Prop) (f : β → α) (h : ∃ x ∈ l, P x) :
    ∃ m ∈ l, P m ∧ ∀ x ∈ l, P x → f m ≤ f x :=
  exists_max_mem (α := αᵒᵈ) l P f h

end

end Aleph
