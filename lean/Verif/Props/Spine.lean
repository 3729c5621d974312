import Verif.Model.Spine
import Verif.Lemmas.Homology
import Verif.Lemmas.Simplex

/-!
# C33: spines
-/

namespace Aleph

open Spine Spec

variable {α : Type}

theorem facesOf_eq (s : Simplex α) : facesOf s.vertices = s.faces := rfl

theorem mem_facesOf {s f : List ℕ} (h : Normal s) :
    f ∈ facesOf s ↔ Normal f ∧ f ≠ [] ∧ f.toFinset ⊆ s.toFinset ∧ f.length + 1 = s.length := by
  unfold facesOf
  rw [mem_faces_iff (s := (⟨s, ()⟩ : Simplex Unit)) h, h.length_eq]
  constructor
  · rintro ⟨h1, h2, h3, h4⟩
    exact ⟨h1, h2, h3, by rw [h1.length_eq]; exact h4⟩
  · rintro ⟨h1, h2, h3, h4⟩
    exact ⟨h1, h2, h3, by rw [h1.length_eq] at h4; exact h4⟩

/-- The vertices of the simplices of a complex satisfying the invariants of a simplicial complex. -/
structure VOK (V : List (List ℕ)) : Prop where
  normal : ∀ s ∈ V, Normal s
  nonempty : ∀ s ∈ V, s ≠ []
  nodup : V.Nodup
  closed : ∀ s ∈ V, ∀ f ∈ facesOf s, f ∈ V

theorem vOK_of {K : Complex α} (hK : WF K) (hc : FaceClosed K) : VOK (K.map (·.vertices)) := by
  have hn : ∀ s ∈ K.map (·.vertices), Normal s := by
    intro s hs
    obtain ⟨t, ht, rfl⟩ := List.mem_map.1 hs
    exact hK.normal t ht
  refine ⟨hn, ?_, hK.distinct, ?_⟩
  · intro s hs
    obtain ⟨t, ht, rfl⟩ := List.mem_map.1 hs
    exact hK.nonempty t ht
  · intro s hs f hf
    rw [mem_facesOf (hn s hs)] at hf
    obtain ⟨t, ht, rfl⟩ := List.mem_map.1 hs
    obtain ⟨u, hu, he⟩ := hc t ht f.toFinset hf.2.2.1 (by simpa using hf.2.1)
    exact List.mem_map.2 ⟨u, hu, ((hK.normal u hu).eq_iff hf.1).2 he⟩

/-- A simplex without cofaces, and a face without other cofaces. -/
def FP (V : List (List ℕ)) (s f : List ℕ) : Prop :=
  s ∈ V ∧ f ∈ facesOf s ∧ (∀ y ∈ V, f ∈ facesOf y → y = s) ∧ ∀ y ∈ V, s ∉ facesOf y

theorem mem_sets_vertices {K : Complex α} (hK : WF K) {s : List ℕ} (hs : Normal s) :
    s.toFinset ∈ sets K ↔ s ∈ K.map (·.vertices) := by
  rw [mem_sets, List.mem_map]
  refine exists_congr fun t => and_congr_right fun ht => ?_
  exact ((hK.normal t ht).eq_iff hs).symm

theorem exists_vertices {K : Complex α} (hK : WF K) {σ : Finset ℕ} (h : σ ∈ sets K) :
    ∃ s ∈ K.map (·.vertices), Normal s ∧ s.toFinset = σ := by
  obtain ⟨t, ht, rfl⟩ := mem_sets.1 h
  exact ⟨t.vertices, List.mem_map_of_mem ht, hK.normal t ht, rfl⟩

theorem freePair_iff {K : Complex α} (hK : WF K) (hc : FaceClosed K) {s f : List ℕ} (hs : Normal s)
    (hf : Normal f) : FreePair (sets K) s.toFinset f.toFinset ↔ FP (K.map (·.vertices)) s f := by
  have hV := vOK_of hK hc
  have hd : DownClosed (sets K) := downClosed_sets.2 hc
  constructor
  · intro h
    have hcard := h.card hd
    obtain ⟨h1, h2, h3, h4⟩ := h
    rw [mem_sets_vertices hK hs] at h1
    rw [mem_sets_vertices hK hf] at h2
    have hface : f ∈ facesOf s := by
      rw [mem_facesOf hs]
      exact ⟨hf, hV.nonempty f h2, h3.1, by rw [hf.length_eq, hs.length_eq]; exact hcard⟩
    refine ⟨h1, hface, ?_, ?_⟩
    · intro y hy hfy
      have hyn := hV.normal y hy
      rw [mem_facesOf hyn] at hfy
      refine (hyn.eq_iff hs).2 (h4 _ ((mem_sets_vertices hK hyn).2 hy) ⟨hfy.2.2.1, fun hle => ?_⟩)
      have := Finset.card_le_card hle
      rw [← hyn.length_eq, ← hf.length_eq] at this
      omega
    · intro y hy hsy
      have hyn := hV.normal y hy
      rw [mem_facesOf hyn] at hsy
      have h5 := h4 _ ((mem_sets_vertices hK hyn).2 hy) (Finset.ssubset_of_ssubset_of_subset h3 hsy.2.2.1)
      have := congrArg Finset.card h5
      rw [← hyn.length_eq, ← hs.length_eq] at this
      omega
  · rintro ⟨h1, h2, h3, h4⟩
    have h2' := (mem_facesOf hs).1 h2
    refine ⟨(mem_sets_vertices hK hs).2 h1, (mem_sets_vertices hK hf).2 (hV.closed s h1 f h2), ⟨h2'.2.2.1, fun hle => ?_⟩, ?_⟩
    · have := Finset.card_le_card hle
      rw [← hs.length_eq, ← hf.length_eq] at this
      omega
    · intro ρ hρ hlt
      obtain ⟨r, hr, hrn, rfl⟩ := exists_vertices hK hρ
      by_contra hne
      -- each face of `r` with one more vertex than `f` is `s`
      have hx : ∀ x ∈ r, x ∉ f → insert x f.toFinset = s.toFinset := by
        intro x hxr hxf
        have hin : insert x f.toFinset ∈ sets K :=
          hd _ hρ _ (Finset.insert_subset (by simpa using hxr) hlt.1) ⟨x, Finset.mem_insert_self _ _⟩
        obtain ⟨y, hy, hyn, hye⟩ := exists_vertices hK hin
        rw [← hye, h3 y hy]
        rw [mem_facesOf hyn]
        refine ⟨hf, h2'.2.1, by rw [hye]; exact Finset.subset_insert _ _, ?_⟩
        rw [hf.length_eq, hyn.length_eq, hye, Finset.card_insert_of_notMem (by simpa using hxf)]
      obtain ⟨x, hxr, hxf⟩ := Finset.exists_of_ssubset hlt
      rw [List.mem_toFinset] at hxr hxf
      have hxs := hx x hxr hxf
      have hsr : s.toFinset ⊆ r.toFinset := by
        rw [← hxs]; exact Finset.insert_subset (by simpa using hxr) hlt.1
      have hss : s.toFinset ⊂ r.toFinset := ⟨hsr, fun hle => hne (Finset.Subset.antisymm hle hsr)⟩
      obtain ⟨z, hzr, hzs⟩ := Finset.exists_of_ssubset hss
      rw [List.mem_toFinset] at hzr
      have hzf : z ∉ f := fun h => hzs (h2'.2.2.1 (by simpa using h))
      apply hzs
      rw [← hx z hzr hzf]
      exact Finset.mem_insert_self _ _

theorem FP.face_normal {V : List (List ℕ)} (hV : VOK V) {s f : List ℕ} (h : FP V s f) : Normal f :=
  ((mem_facesOf (hV.normal s h.1)).1 h.2.1).1

theorem FP.ne {V : List (List ℕ)} {s f : List ℕ} (h : FP V s f) : f ≠ s := by
  rintro rfl
  exact h.2.2.2 f h.1 h.2.1

/-- A complex after a collapse. -/
def remove2 (V : List (List ℕ)) (s t : List ℕ) : List (List ℕ) := (V.filter (· != s)).filter (· != t)

theorem mem_remove2 {V : List (List ℕ)} {s t x : List ℕ} : x ∈ remove2 V s t ↔ x ∈ V ∧ x ≠ s ∧ x ≠ t := by
  simp only [remove2, List.mem_filter, bne_iff_ne, and_assoc]

theorem map_removeOnly (K : Complex α) (s : List ℕ) :
    (K.removeOnly s).map (·.vertices) = (K.map (·.vertices)).filter (· != s) := by
  unfold Complex.removeOnly
  induction K with
  | nil => rfl
  | cons a K ih => simp only [List.filter_cons, List.map_cons]; split <;> simp [ih]

theorem map_remove2 (K : Complex α) (s t : List ℕ) :
    ((K.removeOnly s).removeOnly t).map (·.vertices) = remove2 (K.map (·.vertices)) s t := by
  rw [map_removeOnly, map_removeOnly]; rfl

theorem VOK.remove2 {V : List (List ℕ)} (hV : VOK V) {s t : List ℕ} (h : FP V s t) : VOK (remove2 V s t) := by
  refine ⟨fun x hx => hV.normal x (mem_remove2.1 hx).1, fun x hx => hV.nonempty x (mem_remove2.1 hx).1,
    (hV.nodup.filter _).filter _, ?_⟩
  intro x hx f hf
  rw [mem_remove2] at hx ⊢
  refine ⟨hV.closed x hx.1 f hf, ?_, ?_⟩
  · rintro rfl; exact h.2.2.2 x hx.1 hf
  · rintro rfl; exact hx.2.1 (h.2.2.1 x hx.1 hf)

theorem FP.remove2 {V : List (List ℕ)} {s t s' t' : List ℕ} (h : FP V s t)
    (h' : FP V s' t') (hne : s' ≠ s) : FP (remove2 V s t) s' t' := by
  refine ⟨mem_remove2.2 ⟨h'.1, hne, ?_⟩, h'.2.1, fun y hy => h'.2.2.1 y (mem_remove2.1 hy).1,
    fun y hy => h'.2.2.2 y (mem_remove2.1 hy).1⟩
  rintro rfl
  exact h'.2.2.2 s h.1 h.2.1

/-! ### The map of cofaces -/

/-- The map of cofaces agrees with the complex. -/
def MOK (m : CofaceMap) (V : List (List ℕ)) : Prop :=
  ∀ x ∈ V, ∃ l, m x = some l ∧ l.Nodup ∧ ∀ y, y ∈ l ↔ y ∈ V ∧ x ∈ facesOf y

theorem add_fold (s : List ℕ) : ∀ (fs : List (List ℕ)) (m : CofaceMap),
    (∀ x, ((m x).getD []).Nodup) →
    (∀ x, ((fs.foldl (fun m f => m.add f s) m x).getD []).Nodup) ∧
    (∀ x, (m x).isSome → (fs.foldl (fun m f => m.add f s) m x).isSome) ∧
    ∀ x y, y ∈ (fs.foldl (fun m f => m.add f s) m x).getD [] ↔ y ∈ (m x).getD [] ∨ x ∈ fs ∧ y = s := by
  intro fs
  induction fs with
  | nil => intro m hm; simpa using hm
  | cons f fs ih =>
    intro m hm
    have h1 : ∀ x, ((m.add f s x).getD []).Nodup := by
      intro x
      unfold CofaceMap.add
      split
      · simpa using (hm f).insert
      · exact hm x
    have h2 : ∀ x, (m x).isSome → (m.add f s x).isSome := by
      intro x hx
      unfold CofaceMap.add
      split
      · rfl
      · exact hx
    have h3 : ∀ x y, y ∈ (m.add f s x).getD [] ↔ y ∈ (m x).getD [] ∨ x = f ∧ y = s := by
      intro x y
      unfold CofaceMap.add
      split
      · next h =>
        subst h
        rw [Option.getD_some, List.mem_insert_iff]
        tauto
      · next h => simp [h]
    obtain ⟨i1, i2, i3⟩ := ih _ h1
    refine ⟨i1, fun x hx => i2 x (h2 x hx), fun x y => ?_⟩
    rw [List.foldl_cons, i3, h3, List.mem_cons]
    tauto

theorem build_fold : ∀ (K : List (Simplex α)) (P : List (List ℕ)) (m : CofaceMap),
    (∀ x, ((m x).getD []).Nodup) → (∀ x ∈ P, (m x).isSome) →
    (∀ x y, y ∈ (m x).getD [] ↔ y ∈ P ∧ x ∈ facesOf y) →
    let m' := K.foldl (fun m s => s.faces.foldl (fun m f => m.add f s.vertices) (m.touch s.vertices)) m
    (∀ x, ((m' x).getD []).Nodup) ∧ (∀ x ∈ P ++ K.map (·.vertices), (m' x).isSome) ∧
    ∀ x y, y ∈ (m' x).getD [] ↔ y ∈ P ++ K.map (·.vertices) ∧ x ∈ facesOf y := by
  intro K
  induction K with
  | nil => intro P m h1 h2 h3; simpa using ⟨h1, h2, h3⟩
  | cons s K ih =>
    intro P m h1 h2 h3
    have t1 : ∀ x, (m.touch s.vertices x).getD [] = (m x).getD [] := by
      intro x
      unfold CofaceMap.touch
      split
      · next h => rw [h]; rfl
      · rfl
    have t2 : ∀ x, (m x).isSome ∨ x = s.vertices → (m.touch s.vertices x).isSome := by
      intro x hx
      unfold CofaceMap.touch
      split
      · rfl
      · next h => simpa [h] using hx
    obtain ⟨i1, i2, i3⟩ := add_fold s.vertices s.faces (m.touch s.vertices) (by simpa only [t1] using h1)
    have := ih (P ++ [s.vertices]) (s.faces.foldl (fun m f => m.add f s.vertices) (m.touch s.vertices)) i1 ?_ ?_
    · simpa [List.append_assoc] using this
    · intro x hx
      rw [List.mem_append, List.mem_singleton] at hx
      exact i2 x (t2 x (hx.imp_left (h2 x)))
    · intro x y
      rw [i3, t1, h3, List.mem_append, List.mem_singleton]
      constructor
      · rintro (h | ⟨h, rfl⟩)
        · exact ⟨Or.inl h.1, h.2⟩
        · exact ⟨Or.inr rfl, h⟩
      · rintro ⟨h | rfl, h'⟩
        · exact Or.inl ⟨h, h'⟩
        · exact Or.inr ⟨h', rfl⟩

theorem buildCofaceMap_ok (K : Complex α) : MOK (buildCofaceMap K) (K.map (·.vertices)) := by
  obtain ⟨h1, h2, h3⟩ := build_fold K [] (fun _ => none) (by simp) (by simp) (by simp)
  intro x hx
  have := h2 x (by simpa using hx)
  obtain ⟨l, hl⟩ := Option.isSome_iff_exists.1 this
  have hl' : buildCofaceMap K x = some l := hl
  refine ⟨l, hl', ?_, fun y => ?_⟩
  · have := h1 x; rw [hl] at this; simpa using this
  · have := h3 x y; rw [hl] at this; simpa using this

theorem freeFaceLoop_spec {m : CofaceMap} {V : List (List ℕ)} (hm : MOK m V) (s : List ℕ) (hs : s ∈ V) :
    ∀ fs : List (List ℕ), (∀ f ∈ fs, f ∈ V ∧ f ∈ facesOf s) →
    ∃ r, freeFaceLoop m s fs = some r ∧
      (∀ f, r = some f → f ∈ fs ∧ ∀ y ∈ V, f ∈ facesOf y → y = s) ∧
      (r = none → ∀ f ∈ fs, ∃ y ∈ V, f ∈ facesOf y ∧ y ≠ s) := by
  intro fs
  induction fs with
  | nil => intro _; exact ⟨none, rfl, by simp, by simp⟩
  | cons f fs ih =>
    intro hfs
    obtain ⟨l, hl, hnd, hmem⟩ := hm f (hfs f (by simp)).1
    have hsl : s ∈ l := (hmem s).2 ⟨hs, (hfs f (by simp)).2⟩
    unfold freeFaceLoop
    rw [hl]
    by_cases hone : l.length = 1
    · refine ⟨some f, by simp [hone, hsl], ?_, by simp⟩
      rintro f' hf'
      cases hf'
      refine ⟨by simp, fun y hy hfy => ?_⟩
      have hyl : y ∈ l := (hmem y).2 ⟨hy, hfy⟩
      obtain ⟨a, rfl⟩ := List.length_eq_one_iff.1 hone
      rw [List.mem_singleton] at hsl hyl
      rw [hsl, hyl]
    · obtain ⟨r, hr, h1, h2⟩ := ih fun f' hf' => hfs f' (List.mem_cons_of_mem _ hf')
      refine ⟨r, by simpa [hone] using hr, fun f' hf' => ⟨List.mem_cons_of_mem _ (h1 f' hf').1, (h1 f' hf').2⟩, ?_⟩
      intro hn f' hf'
      rcases List.mem_cons.1 hf' with rfl | hf'
      · by_contra hcon
        push Not at hcon
        apply hone
        have : ∀ y ∈ l, y = s := fun y hy => hcon y ((hmem y).1 hy).1 ((hmem y).1 hy).2
        have := List.eq_replicate_of_mem this
        rw [this, List.nodup_replicate] at hnd
        have : l.length ≠ 0 := by
          intro h0
          rw [List.length_eq_zero_iff.1 h0] at hsl
          simp at hsl
        omega
      · exact h2 hn f' hf'

theorem getFreeFace_spec {m : CofaceMap} {V : List (List ℕ)} (hV : VOK V) (hm : MOK m V) {s : List ℕ} (hs : s ∈ V) :
    ∃ r, getFreeFace m s = some r ∧ (∀ f, r = some f → FP V s f) ∧ (r = none → ∀ f, ¬ FP V s f) := by
  obtain ⟨l, hl, -, hmem⟩ := hm s hs
  unfold getFreeFace
  rw [hl]
  by_cases he : l.isEmpty
  · obtain ⟨r, hr, h1, h2⟩ := freeFaceLoop_spec hm s hs (facesOf s) fun f hf => ⟨hV.closed s hs f hf, hf⟩
    refine ⟨r, by simpa [he] using hr, fun f hf => ⟨hs, (h1 f hf).1, (h1 f hf).2, fun y hy hsy => ?_⟩, fun hn f hf => ?_⟩
    · have := (hmem y).2 ⟨hy, hsy⟩
      rw [List.isEmpty_iff.1 he] at this
      simp at this
    · obtain ⟨y, hy, hfy, hne⟩ := h2 hn f hf.2.1
      exact hne (hf.2.2.1 y hy hfy)
  · refine ⟨none, by simp [he], by simp, fun _ f hf => he ?_⟩
    rw [List.isEmpty_iff, List.eq_nil_iff_forall_not_mem]
    intro y hy
    exact hf.2.2.2 y ((hmem y).1 hy).1 ((hmem y).1 hy).2

theorem mem_insertPair {a : List (List ℕ × List ℕ)} {s f : List ℕ} {p : List ℕ × List ℕ}
    (h : p ∈ insertPair a s f) : p ∈ a ∨ p = (s, f) := by
  unfold insertPair at h
  split at h
  · exact Or.inl h
  · simpa using h

theorem insertPair_ne_nil (a : List (List ℕ × List ℕ)) (s f : List ℕ) : insertPair a s f ≠ [] := by
  unfold insertPair
  split
  · next h => rintro rfl; simp at h
  · simp

theorem addAdmissible_fold {m : CofaceMap} {V : List (List ℕ)} (hV : VOK V) (hm : MOK m V) :
    ∀ (l : List (List ℕ)) (a : List (List ℕ × List ℕ)), (∀ s ∈ l, s ∈ V) → (∀ p ∈ a, FP V p.1 p.2) →
    ∃ b, l.foldlM (addAdmissible m) a = some b ∧ (∀ p ∈ b, FP V p.1 p.2) ∧
      (b = [] → a = [] ∧ ∀ s ∈ l, ∀ f, ¬ FP V s f) := by
  intro l
  induction l with
  | nil => intro a _ ha; exact ⟨a, rfl, ha, by simp⟩
  | cons s l ih =>
    intro a hl ha
    obtain ⟨r, hr, h1, h2⟩ := getFreeFace_spec hV hm (hl s (by simp))
    rw [List.foldlM_cons]
    unfold addAdmissible
    rw [hr]
    cases r with
    | none =>
      obtain ⟨b, hb, h3, h4⟩ := ih a (fun s hs => hl s (List.mem_cons_of_mem _ hs)) ha
      refine ⟨b, hb, h3, fun h => ⟨(h4 h).1, ?_⟩⟩
      intro s' hs'
      rcases List.mem_cons.1 hs' with rfl | hs'
      · exact h2 rfl
      · exact (h4 h).2 s' hs'
    | some f =>
      obtain ⟨b, hb, h3, h4⟩ := ih (insertPair a s f) (fun s hs => hl s (List.mem_cons_of_mem _ hs)) (by
        intro p hp
        rcases mem_insertPair hp with hp | rfl
        · exact ha p hp
        · exact h1 f rfl)
      exact ⟨b, hb, h3, fun h => absurd (h4 h).1 (insertPair_ne_nil _ _ _)⟩

theorem eraseCofaces_fold (s t : List ℕ) : ∀ (fs : List (List ℕ)) (m : CofaceMap),
    (∀ f ∈ fs, (m f).isSome) → (∀ x l, m x = some l → l.Nodup) →
    ∃ m', fs.foldlM (eraseCofaces s t) m = some m' ∧
      (∀ x l, m' x = some l → l.Nodup) ∧ (∀ x, (m' x).isSome = (m x).isSome) ∧
      ∀ x y, y ∈ (m' x).getD [] ↔ y ∈ (m x).getD [] ∧ ¬ (x ∈ fs ∧ (y = s ∨ y = t)) := by
  intro fs
  induction fs with
  | nil => intro m _ hm; exact ⟨m, rfl, hm, by simp, by simp⟩
  | cons f fs ih =>
    intro m hf hm
    obtain ⟨l, hl⟩ := Option.isSome_iff_exists.1 (hf f (by simp))
    set m1 : CofaceMap := fun x => if x = f then some ((l.erase s).erase t) else m x with hm1
    have e1 : ∀ x, (m1 x).isSome = (m x).isSome := by
      intro x
      rw [hm1]
      dsimp only
      split
      · next h => rw [h, hl]; rfl
      · rfl
    have hnd := hm f l hl
    obtain ⟨m', h1, h2, h3, h4⟩ := ih m1 (fun f' hf' => by rw [e1]; exact hf f' (List.mem_cons_of_mem _ hf')) (by
      intro x l' hx
      rw [hm1] at hx
      dsimp only at hx
      split at hx
      · cases hx; exact (hnd.erase _).erase _
      · exact hm x l' hx)
    refine ⟨m', ?_, h2, fun x => by rw [h3, e1], fun x y => ?_⟩
    · rw [List.foldlM_cons]
      unfold eraseCofaces
      rw [hl]
      exact h1
    · rw [h4, List.mem_cons]
      have : y ∈ (m1 x).getD [] ↔ y ∈ (m x).getD [] ∧ ¬ (x = f ∧ (y = s ∨ y = t)) := by
        rw [hm1]
        dsimp only
        split
        · next h =>
          rw [h, hl, Option.getD_some, Option.getD_some, (hnd.erase _).mem_erase_iff, hnd.mem_erase_iff]
          tauto
        · next h => simp [h]
      rw [this]
      tauto

/-- The entries of a map of cofaces outside of the complex do not matter, as long as they are duplicate-free. -/
theorem updateCofaces_spec {m : CofaceMap} {V : List (List ℕ)} (hV : VOK V) (hm : MOK m V)
    (hnd : ∀ x l, m x = some l → l.Nodup) {s t : List ℕ} (h : FP V s t) :
    ∃ m', updateCofaces m s t = some m' ∧ MOK m' (remove2 V s t) ∧ ∀ x l, m' x = some l → l.Nodup := by
  have htV := hV.closed s h.1 t h.2.1
  have hsome : ∀ x ∈ V, (m x).isSome := fun x hx => by
    obtain ⟨l, hl, _⟩ := hm x hx
    rw [hl]; rfl
  obtain ⟨m1, a1, a2, a3, a4⟩ := eraseCofaces_fold s t (facesOf s) m (fun f hf => hsome f (hV.closed s h.1 f hf)) hnd
  obtain ⟨m2, b1, b2, b3, b4⟩ := eraseCofaces_fold s t (facesOf t) m1 (fun f hf => by
    rw [a3]; exact hsome f (hV.closed t htV f hf)) a2
  refine ⟨fun x => if x = s ∨ x = t then none else m2 x, ?_, ?_, ?_⟩
  · unfold updateCofaces
    simp only [a1, b1]
  · intro x hx
    rw [mem_remove2] at hx
    have hx2 : (m2 x).isSome := by rw [b3, a3]; exact hsome x hx.1
    obtain ⟨l, hl⟩ := Option.isSome_iff_exists.1 hx2
    refine ⟨l, by simp [hx.2.1, hx.2.2, hl], b2 x l hl, fun y => ?_⟩
    have h1 := b4 x y
    rw [hl, a4] at h1
    obtain ⟨l0, hl0, -, hmem⟩ := hm x hx.1
    rw [hl0, Option.getD_some, Option.getD_some, hmem] at h1
    rw [h1, mem_remove2]
    constructor
    · rintro ⟨⟨⟨h2, h3⟩, h4⟩, h5⟩
      refine ⟨⟨h2, ?_, ?_⟩, h3⟩
      · rintro rfl; exact h4 ⟨h3, Or.inl rfl⟩
      · rintro rfl; exact h5 ⟨h3, Or.inr rfl⟩
    · rintro ⟨⟨h2, h3, h4⟩, h5⟩
      exact ⟨⟨⟨h2, h5⟩, fun h => h.2.elim h3 h4⟩, fun h => h.2.elim h3 h4⟩
  · intro x l hx
    dsimp only at hx
    split at hx
    · simp at hx
    · exact b2 x l hx

theorem sets_remove2 {K : Complex α} (hK : WF K) {s t : List ℕ} (hs : Normal s) (ht : Normal t) :
    sets ((K.removeOnly s).removeOnly t) = ((sets K).erase s.toFinset).erase t.toFinset := by
  ext σ
  rw [Finset.mem_erase, Finset.mem_erase, mem_sets, mem_sets]
  unfold Complex.removeOnly
  simp only [List.mem_filter, bne_iff_ne]
  constructor
  · rintro ⟨u, ⟨⟨h1, h2⟩, h3⟩, rfl⟩
    have hu := hK.normal u h1
    exact ⟨fun h => h3 ((hu.eq_iff ht).2 h), fun h => h2 ((hu.eq_iff hs).2 h), u, h1, rfl⟩
  · rintro ⟨h1, h2, u, h3, rfl⟩
    exact ⟨u, ⟨⟨h3, fun h => h2 (by rw [← h]; rfl)⟩, fun h => h1 (by rw [← h]; rfl)⟩, rfl⟩

theorem removeOnly_sublist (K : Complex α) (s : List ℕ) : (K.removeOnly s).Sublist K := List.filter_sublist

/-- What is shown about a spine. -/
def IsSpine (K L : Complex α) : Prop :=
  L.Sublist K ∧ Collapses (sets K) (sets L) ∧ FaceClosed L ∧ ∀ σ τ, ¬ FreePair (sets L) σ τ

theorem isSpine_refl {K : Complex α} (hK : WF K) (hc : FaceClosed K)
    (h : ∀ s f, ¬ FP (K.map (·.vertices)) s f) : IsSpine K K := by
  refine ⟨List.Sublist.refl _, .refl _, hc, fun σ τ hp => ?_⟩
  obtain ⟨s, _, hs, rfl⟩ := exists_vertices hK hp.1
  obtain ⟨t, _, ht, rfl⟩ := exists_vertices hK hp.2.1
  exact h s t ((freePair_iff hK hc hs ht).1 hp)

theorem collapse_step {K : Complex α} (hK : WF K) (hc : FaceClosed K) {s t : List ℕ}
    (h : FP (K.map (·.vertices)) s t) :
    let L := (K.removeOnly s).removeOnly t
    WF L ∧ FaceClosed L ∧ L.length < K.length ∧ ∀ S, IsSpine L S → IsSpine K S := by
  have hV := vOK_of hK hc
  have hs := hV.normal s h.1
  have ht := h.face_normal hV
  have hfp := (freePair_iff hK hc hs ht).2 h
  have hsub : ((K.removeOnly s).removeOnly t).Sublist K :=
    (removeOnly_sublist _ _).trans (removeOnly_sublist _ _)
  have hset := sets_remove2 hK hs ht
  refine ⟨hK.sublist hsub, ?_, ?_, ?_⟩
  · rw [← downClosed_sets, hset]
    exact (downClosed_sets.2 hc).collapse hfp
  · refine lt_of_le_of_ne hsub.length_le fun he => ?_
    have he' := hsub.eq_of_length he
    have h1 := map_remove2 K s t
    rw [he'] at h1
    have h2 := h.1
    rw [h1, mem_remove2] at h2
    exact h2.2.1 rfl
  · rintro S ⟨h1, h2, h3, h4⟩
    refine ⟨h1.trans hsub, .step hfp ?_, h3, h4⟩
    rw [← hset]
    exact h2

theorem getElem?_mod_eq_none {β : Type} {l : List β} {k : ℕ} (h : l[k % l.length]? = none) : l = [] := by
  rw [List.getElem?_eq_none_iff] at h
  by_contra hne
  have := List.length_pos_iff.2 hne
  exact absurd (Nat.mod_lt k this) (by omega)

theorem refill_spec {m : CofaceMap} {V : List (List ℕ)} {L : Complex α} (hL : L.map (·.vertices) = remove2 V s t)
    (hV : VOK V) (h : FP V s t) (hm : MOK m (remove2 V s t)) (a : List (List ℕ × List ℕ))
    (ha : ∀ p ∈ a, FP (remove2 V s t) p.1 p.2) :
    ∃ b, refill m L a s t = some b ∧ (∀ p ∈ b, FP (remove2 V s t) p.1 p.2) ∧
      (b = [] → ∀ x f, ¬ FP (remove2 V s t) x f) := by
  have hV' := hV.remove2 h
  have htV := hV.closed s h.1 t h.2.1
  obtain ⟨a1, e1, f1, g1⟩ := addAdmissible_fold hV' hm ((facesOf s).filter fun f => f ≠ t) a (by
    intro x hx
    rw [List.mem_filter] at hx
    rw [mem_remove2]
    refine ⟨hV.closed s h.1 x hx.1, ?_, by simpa using hx.2⟩
    rintro rfl
    exact h.2.2.2 x h.1 hx.1) ha
  obtain ⟨a2, e2, f2, g2⟩ := addAdmissible_fold hV' hm (facesOf t) a1 (by
    intro x hx
    rw [mem_remove2]
    refine ⟨hV.closed t htV x hx, ?_, ?_⟩
    · rintro rfl; exact h.2.2.2 t htV hx
    · rintro rfl
      have := (mem_facesOf (hV.normal x htV)).1 hx
      omega) f1
  obtain ⟨a3, e3, f3, g3⟩ := addAdmissible_fold hV' hm (L.map (·.vertices)) [] (by rw [hL]; exact fun _ => id) (by simp)
  unfold refill
  simp only [e1, e2]
  by_cases he : a2.isEmpty
  · refine ⟨a3, by simpa [he, getPrincipalFaces] using e3, f3, fun hn x f hx => ?_⟩
    exact (g3 hn).2 x (by rw [hL]; exact hx.1) f hx
  · refine ⟨a2, by simp [he], f2, fun hn => ?_⟩
    rw [hn] at he
    simp at he

theorem spineLoop_spec (pick : ℕ → ℕ) : ∀ (n : ℕ) (m : CofaceMap) (a : List (List ℕ × List ℕ)) (L : Complex α),
    L.length < n → WF L → FaceClosed L → MOK m (L.map (·.vertices)) → (∀ x l, m x = some l → l.Nodup) →
    (∀ p ∈ a, FP (L.map (·.vertices)) p.1 p.2) → (a = [] → ∀ x f, ¬ FP (L.map (·.vertices)) x f) →
    ∃ S, loop pick n m a L = some S ∧ IsSpine L S := by
  intro n
  induction n with
  | zero => intro m a L hl; omega
  | succ n ih =>
    intro m a L hl hL hc hm hnd ha he
    unfold loop
    cases hg : a[pick n % a.length]? with
    | none => exact ⟨L, rfl, isSpine_refl hL hc (he (getElem?_mod_eq_none hg))⟩
    | some p =>
      obtain ⟨s, t⟩ := p
      have hp := ha _ (List.mem_of_getElem? hg)
      have hV := vOK_of hL hc
      obtain ⟨m', hm', hmok, hnd'⟩ := updateCofaces_spec hV hm hnd hp
      obtain ⟨c1, c2, c3, c4⟩ := collapse_step hL hc hp
      have hmap := map_remove2 L s t
      obtain ⟨b, hb, hb1, hb2⟩ := refill_spec (L := (L.removeOnly s).removeOnly t) hmap hV hp hmok
        (a.filter fun p => p.1 ≠ s) (by
          intro q hq
          rw [List.mem_filter] at hq
          exact hp.remove2 (ha q hq.1) (by simpa using hq.2))
      simp only [hm', hb]
      rw [← hmap] at hmok hb1 hb2
      obtain ⟨S, hS, hS'⟩ := ih m' b _ (by omega) c1 c2 hmok hnd' hb1 hb2
      exact ⟨S, hS, c4 S hS'⟩

theorem buildCofaceMap_nodup (K : Complex α) (x : List ℕ) (l : List (List ℕ)) (h : buildCofaceMap K x = some l) :
    l.Nodup := by
  obtain ⟨h1, -, -⟩ := build_fold K [] (fun _ => none) (by simp) (by simp) (by simp)
  have := h1 x
  change ((buildCofaceMap K x).getD []).Nodup at this
  rw [h] at this
  exact this

theorem spine_isSpine (pick : ℕ → ℕ) {K : Complex α} (hK : WF K) (hc : FaceClosed K) :
    ∃ L, spine pick K = some L ∧ IsSpine K L := by
  have hm := buildCofaceMap_ok K
  obtain ⟨a, h1, h2, h3⟩ := addAdmissible_fold (vOK_of hK hc) hm (K.map (·.vertices)) [] (fun _ => id) (by simp)
  unfold spine
  simp only [getPrincipalFaces, h1]
  exact spineLoop_spec pick _ _ a K (by omega) hK hc hm (buildCofaceMap_nodup K) h2 fun he x f hx =>
    (h3 he).2 x hx.1 f hx

/-! ### The reference implementation -/

theorem normal_uniq_sort (l : List ℕ) : Normal (uniq (l.insertionSort (· ≥ ·))) := ofRange_normal l ()

theorem intersect_eq_iff {f t : List ℕ} (hf : Normal f) : intersect f t = f ↔ f.toFinset ⊆ t.toFinset := by
  have hmem : ∀ x, x ∈ intersect f t ↔ x ∈ f ∧ x ∈ t := by
    intro x
    unfold intersect
    rw [mem_uniq, List.mem_insertionSort, List.mem_filter]
    simp
  constructor
  · intro h x hx
    rw [List.mem_toFinset] at hx ⊢
    rw [← h] at hx
    exact ((hmem x).1 hx).2
  · intro h
    refine Normal.ext (normal_uniq_sort _) hf fun x => ?_
    rw [hmem]
    exact ⟨fun h => h.1, fun hx => ⟨hx, by simpa using h (by simpa using hx)⟩⟩

theorem freeFace_spec {K : Complex α} (hK : WF K) {s : Simplex α} (hs : s ∈ K) :
    (∀ f, freeFace K s = some f → f ∈ facesOf s.vertices ∧ ∀ y ∈ K.map (·.vertices), f ∈ facesOf y → y = s.vertices) ∧
    (freeFace K s = none → ∀ f ∈ facesOf s.vertices, ∃ y ∈ K.map (·.vertices), f ∈ facesOf y ∧ y ≠ s.vertices) := by
  have key : ∀ f ∈ s.faces, (K.any fun t => (f.length - 1) + 1 == Complex.dim t && t.vertices != s.vertices &&
      intersect f t.vertices == f) = true ↔ ∃ y ∈ K.map (·.vertices), f ∈ facesOf y ∧ y ≠ s.vertices := by
    intro f hf
    rw [← facesOf_eq, mem_facesOf (hK.normal s hs)] at hf
    rw [List.any_eq_true]
    simp only [List.mem_map, exists_exists_and_eq_and]
    refine exists_congr fun t => and_congr_right fun ht => ?_
    rw [mem_facesOf (hK.normal t ht)]
    simp only [Bool.and_eq_true, beq_iff_eq, bne_iff_ne, intersect_eq_iff hf.1, Complex.dim]
    have h0 : 0 < f.length := List.length_pos_iff.2 hf.2.1
    constructor
    · rintro ⟨⟨h1, h2⟩, h3⟩
      exact ⟨⟨hf.1, hf.2.1, h3, by omega⟩, h2⟩
    · rintro ⟨⟨_, _, h3, h4⟩, h2⟩
      exact ⟨⟨by omega, h2⟩, h3⟩
  unfold freeFace
  constructor
  · intro f hf
    have h1 := List.mem_of_find?_eq_some hf
    have h2 := List.find?_some hf
    refine ⟨h1, fun y hy hfy => ?_⟩
    by_contra hne
    have := (key f h1).2 ⟨y, hy, hfy, hne⟩
    simp [this] at h2
  · intro hn f hf
    have := List.find?_eq_none.1 hn f hf
    refine (key f hf).1 ?_
    rwa [Bool.not_eq_true', Bool.not_eq_false] at this

theorem principalFaces_spec {K : Complex α} (hK : WF K) :
    (∀ p ∈ principalFaces K, FP (K.map (·.vertices)) p.1 p.2) ∧
    (principalFaces K = [] → ∀ s f, ¬ FP (K.map (·.vertices)) s f) := by
  have hany : ∀ s : List ℕ, (K.any fun u => u.faces.contains s) = true ↔ ∃ y ∈ K.map (·.vertices), s ∈ facesOf y := by
    intro s
    rw [List.any_eq_true]
    simp only [List.mem_map, exists_exists_and_eq_and, facesOf_eq, List.contains_iff_mem]
  constructor
  · rintro ⟨s, f⟩ hp
    unfold principalFaces at hp
    rw [List.mem_filter, List.mem_filterMap] at hp
    obtain ⟨⟨u, hu, he⟩, hp⟩ := hp
    split at he
    · simp at he
    · rw [Option.map_eq_some_iff] at he
      obtain ⟨g, hg, he⟩ := he
      cases he
      obtain ⟨h1, h2⟩ := (freeFace_spec hK hu).1 f hg
      refine ⟨List.mem_map_of_mem hu, h1, h2, fun y hy hsy => ?_⟩
      have := (hany u.vertices).2 ⟨y, hy, hsy⟩
      rw [this] at hp
      simp at hp
  · intro hn s f h
    obtain ⟨u, hu, rfl⟩ := List.mem_map.1 h.1
    have hlen := (mem_facesOf (hK.normal u hu)).1 h.2.1
    have hdim : Complex.dim u ≠ 0 := by
      have : 0 < f.length := List.length_pos_iff.2 hlen.2.1
      unfold Complex.dim
      omega
    cases hg : freeFace K u with
    | none =>
      obtain ⟨y, hy, hfy, hne⟩ := (freeFace_spec hK hu).2 hg f h.2.1
      exact hne (h.2.2.1 y hy hfy)
    | some g =>
      have : (u.vertices, g) ∈ principalFaces K := by
        unfold principalFaces
        rw [List.mem_filter, List.mem_filterMap]
        refine ⟨⟨u, hu, by simp [hdim, hg]⟩, ?_⟩
        rw [Bool.not_eq_true', Bool.eq_false_iff, Ne, hany]
        rintro ⟨y, hy, hsy⟩
        exact h.2.2.2 y hy hsy
      rw [hn] at this
      simp at this

theorem dumbLoop_spec (pick : ℕ → ℕ) : ∀ (n : ℕ) (L : Complex α), L.length < n → WF L → FaceClosed L →
    ∃ S, dumbLoop pick n L = some S ∧ IsSpine L S := by
  intro n
  induction n with
  | zero => intro L hl; omega
  | succ n ih =>
    intro L hl hL hc
    obtain ⟨h1, h2⟩ := principalFaces_spec hL
    unfold dumbLoop
    cases hg : (principalFaces L)[pick n % (principalFaces L).length]? with
    | none => exact ⟨L, by simp only [hg], isSpine_refl hL hc (h2 (getElem?_mod_eq_none hg))⟩
    | some p =>
      obtain ⟨s, t⟩ := p
      obtain ⟨c1, c2, c3, c4⟩ := collapse_step hL hc (h1 _ (List.mem_of_getElem? hg))
      obtain ⟨S, hS, hS'⟩ := ih _ (by omega) c1 c2
      exact ⟨S, by simp only [hg, hS], c4 S hS'⟩

theorem sizeOfIntersection_eq_iff {f t : List ℕ} : sizeOfIntersection f t = f.length ↔ f.toFinset ⊆ t.toFinset := by
  unfold sizeOfIntersection
  rw [List.length_filter_eq_length_iff]
  simp [Finset.subset_iff]

theorem isPrincipal_iff {K : Complex α} (hK : WF K) {s : Simplex α} (hs : s ∈ K) :
    isPrincipal K s = true ↔ 2 ≤ s.vertices.length ∧ ∀ y ∈ K.map (·.vertices), s.vertices ∉ facesOf y := by
  have h0 : 0 < s.vertices.length := List.length_pos_iff.2 (hK.nonempty s hs)
  unfold isPrincipal
  split
  · next h => simp only [Complex.dim] at h; simp; omega
  · next h =>
    simp only [Complex.dim] at h
    rw [List.all_eq_true]
    simp only [Complex.range, List.mem_filter, bne_iff_ne, Simplex.size, ne_eq, sizeOfIntersection_eq_iff]
    constructor
    · intro h1
      refine ⟨by omega, fun y hy hsy => ?_⟩
      obtain ⟨t, ht, rfl⟩ := List.mem_map.1 hy
      rw [mem_facesOf (hK.normal t ht)] at hsy
      exact h1 t ⟨ht, by simp [Complex.dim]; omega⟩ hsy.2.2.1
    · rintro ⟨-, h1⟩ t ⟨ht, hd⟩ hle
      refine h1 t.vertices (List.mem_map_of_mem ht) ?_
      rw [mem_facesOf (hK.normal t ht)]
      refine ⟨hK.normal s hs, hK.nonempty s hs, hle, ?_⟩
      simp only [Complex.dim, beq_iff_eq] at hd
      omega

theorem isAdmissible_spec {K : Complex α} (hK : WF K) {s : Simplex α} (hs : s ∈ K) :
    (∀ f, isAdmissible K s = some f → FP (K.map (·.vertices)) s.vertices f) ∧
    (isAdmissible K s = none → ∀ f, ¬ FP (K.map (·.vertices)) s.vertices f) := by
  have key : ∀ f ∈ s.faces, ((K.range (Complex.dim s)).all fun t =>
      t.vertices == s.vertices || sizeOfIntersection f t.vertices != f.length) = true ↔
      ∀ y ∈ K.map (·.vertices), f ∈ facesOf y → y = s.vertices := by
    intro f hf
    rw [← facesOf_eq, mem_facesOf (hK.normal s hs)] at hf
    rw [List.all_eq_true]
    simp only [Complex.range, List.mem_filter, Bool.or_eq_true, beq_iff_eq, bne_iff_ne, ne_eq,
      sizeOfIntersection_eq_iff, Complex.dim]
    constructor
    · intro h y hy hfy
      obtain ⟨t, ht, rfl⟩ := List.mem_map.1 hy
      rw [mem_facesOf (hK.normal t ht)] at hfy
      exact (h t ⟨ht, by omega⟩).resolve_right fun h => h hfy.2.2.1
    · rintro h t ⟨ht, hd⟩
      rw [or_iff_not_imp_right]
      intro hle
      rw [not_not] at hle
      have h0 : 0 < f.length := List.length_pos_iff.2 hf.2.1
      refine h t.vertices (List.mem_map_of_mem ht) ((mem_facesOf (hK.normal t ht)).2 ⟨hf.1, hf.2.1, hle, by omega⟩)
  unfold isAdmissible
  split
  · next hp =>
    rw [isPrincipal_iff hK hs] at hp
    constructor
    · intro f hf
      have h1 := List.mem_of_find?_eq_some hf
      have h2 := List.find?_some hf
      exact ⟨List.mem_map_of_mem hs, h1, (key f h1).1 h2, hp.2⟩
    · intro hn f hf
      exact List.find?_eq_none.1 hn f hf.2.1 ((key f hf.2.1).2 hf.2.2.1)
  · next hp =>
    rw [isPrincipal_iff hK hs] at hp
    refine ⟨by simp, fun _ f hf => hp ⟨?_, hf.2.2.2⟩⟩
    have := (mem_facesOf (hK.normal s hs)).1 hf.2.1
    have h0 : 0 < f.length := List.length_pos_iff.2 this.2.1
    omega

/-! ### The property -/

/-- For every simplicial complex, and however the hash map orders its elements, the calculation of the spine ends
without an exception; its result consists of simplices of the input, is a simplicial complex, arises from the input by
elementary collapses and permits no further collapse. -/
theorem C33_spine (pick : ℕ → ℕ) (K : Complex α) (hK : WF K) (hc : FaceClosed K) :
    ∃ L, spine pick K = some L ∧ L.Sublist K ∧ Collapses (sets K) (sets L) ∧ FaceClosed L ∧
      ∀ σ τ, ¬ FreePair (sets L) σ τ := spine_isSpine pick hK hc

/-- The same for the reference implementation. -/
theorem C33_dumb_spine (pick : ℕ → ℕ) (K : Complex α) (hK : WF K) (hc : FaceClosed K) :
    ∃ L, dumbSpine pick K = some L ∧ L.Sublist K ∧ Collapses (sets K) (sets L) ∧ FaceClosed L ∧
      ∀ σ τ, ¬ FreePair (sets L) σ τ := dumbLoop_spec pick _ K (by omega) hK hc

/-- Both spines have the Betti numbers of the input: in each dimension the quotient of the number of cycles by the
number of boundaries is the same. -/
theorem C33_homology (pick : ℕ → ℕ) (K : Complex α) (hK : WF K) (hc : FaceClosed K) (L : Complex α)
    (h : spine pick K = some L ∨ dumbSpine pick K = some L) : SameHomology (sets K) (sets L) := by
  have : Collapses (sets K) (sets L) := by
    rcases h with h | h
    · obtain ⟨L', h1, -, h2, -⟩ := C33_spine pick K hK hc
      rw [h] at h1; cases h1; exact h2
    · obtain ⟨L', h1, -, h2, -⟩ := C33_dumb_spine pick K hK hc
      rw [h] at h1; cases h1; exact h2
  exact (this.spec (downClosed_sets.2 hc) (empty_notMem_sets hK)).2.2

/-- The check for admissible simplices of the reference implementation finds a free face if and only if there is one. -/
theorem C33_admissible (K : Complex α) (hK : WF K) (hc : FaceClosed K) (s : Simplex α) (hs : s ∈ K) :
    (∀ f, isAdmissible K s = some f → FreePair (sets K) s.vset f.toFinset) ∧
    (isAdmissible K s = none ↔ ∀ τ, ¬ FreePair (sets K) s.vset τ) := by
  have hn := hK.normal s hs
  obtain ⟨h1, h2⟩ := isAdmissible_spec hK hs
  have h3 : ∀ f, isAdmissible K s = some f → FreePair (sets K) s.vset f.toFinset := fun f hf =>
    (freePair_iff hK hc hn ((h1 f hf).face_normal (vOK_of hK hc))).2 (h1 f hf)
  refine ⟨h3, fun he τ hτ => ?_, fun h => ?_⟩
  · obtain ⟨t, _, ht, rfl⟩ := exists_vertices hK hτ.2.1
    exact h2 he t ((freePair_iff hK hc hn ht).1 hτ)
  · cases he : isAdmissible K s with
    | none => rfl
    | some f => exact absurd (h3 f he) (h _)

/-- A triangle with a tail, next to a hollow triangle sharing an edge. -/
def spineExample : Complex ℕ :=
  [⟨[0], 0⟩, ⟨[1], 0⟩, ⟨[2], 0⟩, ⟨[3], 0⟩, ⟨[4], 0⟩, ⟨[1, 0], 0⟩, ⟨[2, 0], 0⟩, ⟨[2, 1], 0⟩, ⟨[3, 1], 0⟩, ⟨[3, 2], 0⟩,
    ⟨[4, 3], 0⟩, ⟨[2, 1, 0], 0⟩]

example : WF spineExample ∧ FaceClosed spineExample :=
  ⟨⟨by decide, by decide, by decide⟩, Closed1.faceClosed (by decide) (by unfold Closed1; decide)⟩

/-- The triangle and the tail are removed, the cycle remains. -/
example : (spine (fun _ => 0) spineExample).map (·.map (·.vertices)) = some [[1], [2], [3], [2, 1], [3, 1], [3, 2]] ∧
    (spine (fun n => n) spineExample).map (·.map (·.vertices)) = some [[1], [2], [3], [2, 1], [3, 1], [3, 2]] := by
  decide +kernel

example : (dumbSpine (fun _ => 0) spineExample).map (·.map (·.vertices)) =
    some [[1], [2], [3], [2, 1], [3, 1], [3, 2]] := by
  decide +kernel

example : isAdmissible spineExample ⟨[2, 1, 0], 0⟩ = some [1, 0] ∧ isAdmissible spineExample ⟨[2, 1], 0⟩ = none := by
  decide

end Aleph
