import Verif.Lemmas.Filtration

/-!
# C18–C21: simplices, their order, and filtration comparators
-/

namespace Aleph

open Finset Spec

variable {α : Type}

/-- C18. Any vertex range, in any order and with repetitions, gives a simplex whose vertices are
strictly descending and are exactly the vertices of the range. -/
theorem C18_normal_form (vs : List ℕ) (d : α) :
    (Simplex.ofRange vs d).vertices.Pairwise (· > ·) ∧
      (∀ v, v ∈ (Simplex.ofRange vs d).vertices ↔ v ∈ vs) ∧ (Simplex.ofRange vs d).data = d :=
  ⟨ofRange_normal vs d, fun _ => mem_ofRange, rfl⟩

/-- C18. Simplices compare equal exactly if the ranges contain the same vertices; data is
irrelevant, and equal simplices have equal hashes. -/
theorem C18_equality (vs ws : List ℕ) (d e : α) :
    ((Simplex.ofRange vs d).eq (Simplex.ofRange ws e) = true ↔ ∀ v, v ∈ vs ↔ v ∈ ws) ∧
      ((∀ v, v ∈ vs ↔ v ∈ ws) → ∀ combine,
        (Simplex.ofRange vs d).hash combine = (Simplex.ofRange ws e).hash combine) := by
  have key : (Simplex.ofRange vs d).vertices = (Simplex.ofRange ws e).vertices ↔
      ∀ v, v ∈ vs ↔ v ∈ ws := by
    constructor
    · intro h v
      rw [← mem_ofRange (d := d), h, mem_ofRange]
    · intro h
      refine (ofRange_normal vs d).ext (ofRange_normal ws e) fun v => ?_
      rw [mem_ofRange, mem_ofRange]; exact h v
  refine ⟨?_, ?_⟩
  · unfold Simplex.eq; rw [beq_iff_eq]; exact key
  · intro h c
    unfold Simplex.hash; rw [key.2 h]

/-- C18. The dimension is the number of distinct vertices minus one; the query throws exactly
for the empty simplex. -/
theorem C18_dimension (vs : List ℕ) (d : α) :
    ((Simplex.ofRange vs d).dimension = none ↔ vs = []) ∧
      ∀ n, (Simplex.ofRange vs d).dimension = some n → vs.toFinset.card = n + 1 := by
  have hset : (Simplex.ofRange vs d).vertices.toFinset = vs.toFinset := by
    ext v; rw [List.mem_toFinset, List.mem_toFinset]; exact mem_ofRange
  have hnil : (Simplex.ofRange vs d).vertices = [] ↔ vs = [] := by
    constructor
    · intro h
      cases vs with
      | nil => rfl
      | cons v vs =>
        have : v ∈ (Simplex.ofRange (v :: vs) d).vertices := mem_ofRange.2 (by simp)
        rw [h] at this; simp at this
    · rintro rfl; rfl
  have hl := (ofRange_normal vs d).length_eq
  rw [hset] at hl
  unfold Simplex.dimension
  by_cases h : (Simplex.ofRange vs d).vertices = []
  · rw [h]; simp [hnil.1 h]
  · have hvs : vs ≠ [] := fun e => h (hnil.2 e)
    have he : (Simplex.ofRange vs d).vertices.isEmpty = false := by
      rw [List.isEmpty_eq_false_iff]; exact h
    have hp := List.length_pos_of_ne_nil h
    rw [he]
    simp only [Bool.false_eq_true, if_false, Option.some.injEq, hvs, reduceCtorEq, true_and]
    intro n hn
    omega

example : (Simplex.ofRange [1, 3, 1, 2] 0.5).vertices = [3, 2, 1] := by decide

/-- C19. Boundary iteration yields exactly the non-empty subsets with one vertex less, each once;
each has dimension one less than the simplex.  In particular nothing for vertices and
the empty simplex. -/
theorem C19_boundary (d0 : α) (s : Simplex α) (hs : Normal s.vertices) :
    ((s.boundary d0).map Simplex.vset).Nodup ∧
    (∀ t, t ∈ (s.boundary d0).map Simplex.vset ↔
      t.Nonempty ∧ ∃ v ∈ s.vset, t = s.vset.erase v) ∧
    (∀ b ∈ s.boundary d0, Normal b.vertices ∧ ∃ n, b.dimension = some n ∧
      s.dimension = some (n + 1)) := by
  have hb : (s.boundary d0).map Simplex.vset = s.faces.map List.toFinset := by
    unfold Simplex.boundary; rw [List.map_map]; rfl
  have hf := fun f (h : f ∈ s.faces) => (mem_faces_iff hs).1 h
  refine ⟨?_, ?_, ?_⟩
  · rw [hb]
    refine List.Nodup.map_on ?_ (faces_nodup hs)
    intro f h1 g h2 he
    exact ((hf f h1).1.eq_iff (hf g h2).1).2 he
  · intro t
    rw [hb, List.mem_map]
    constructor
    · rintro ⟨f, h1, rfl⟩
      obtain ⟨h2, v, hv, rfl⟩ := (mem_faces hs).1 h1
      refine ⟨?_, v, List.mem_toFinset.2 hv, toFinset_filter_ne _ _⟩
      obtain ⟨x, hx⟩ := List.exists_mem_of_ne_nil _ (hf _ h1).2.1
      exact ⟨x, List.mem_toFinset.2 hx⟩
    · rintro ⟨hne, v, hv, rfl⟩
      refine ⟨s.vertices.filter (· ≠ v), (mem_faces hs).2 ⟨?_, v, List.mem_toFinset.1 hv, rfl⟩,
        toFinset_filter_ne _ _⟩
      have h1 := hne.card_pos
      rw [Finset.card_erase_of_mem hv] at h1
      rw [hs.length_eq]; change 2 ≤ s.vset.card; omega
  · intro b hbm
    obtain ⟨f, h1, rfl⟩ := List.mem_map.1 hbm
    obtain ⟨g1, g2, _, g4⟩ := hf f h1
    have hp := List.length_pos_of_ne_nil g2
    have hls := hs.length_eq
    have hlf := g1.length_eq
    unfold Simplex.vset at g4
    have hsn : s.vertices ≠ [] := by
      intro e; rw [e] at hls g4; simp at g4
    refine ⟨g1, f.length - 1, ?_, ?_⟩
    · unfold Simplex.dimension
      have : f.isEmpty = false := by rw [List.isEmpty_eq_false_iff]; exact g2
      simp [this]
    · unfold Simplex.dimension
      have : s.vertices.isEmpty = false := by rw [List.isEmpty_eq_false_iff]; exact hsn
      simp only [this, Bool.false_eq_true, if_false, Option.some.injEq]
      omega

/-- C19. Each non-empty subset with two vertices less occurs in the boundary of exactly two of the
boundary simplices. -/
theorem C19_codim_two (d0 : α) (s : Simplex α) (hs : Normal s.vertices) (t : Finset ℕ)
    (ht : t ⊆ s.vset) (hne : t.Nonempty) (hc : t.card + 2 = s.vset.card) :
    (s.boundary d0).countP (fun b => t ∈ (b.boundary d0).map Simplex.vset) = 2 := by
  have hlen : ¬ s.vertices.length ≤ 1 := by
    have := hne.card_pos
    rw [hs.length_eq]; change ¬ s.vset.card ≤ 1; omega
  have key : ∀ v ∈ s.vertices,
      (t ∈ ((⟨s.vertices.filter (· ≠ v), d0⟩ : Simplex α).boundary d0).map Simplex.vset ↔ v ∉ t) := by
    intro v hv
    rw [(C19_boundary d0 _ (hs.filter _)).2.1 t]
    have hvs : (⟨s.vertices.filter (· ≠ v), d0⟩ : Simplex α).vset = s.vset.erase v :=
      toFinset_filter_ne _ _
    rw [hvs]
    constructor
    · rintro ⟨_, w, _, rfl⟩
      simp
    · intro hvt
      refine ⟨hne, ?_⟩
      have hsub : t ⊆ s.vset.erase v := fun x hx =>
        Finset.mem_erase.2 ⟨fun e => hvt (e ▸ hx), ht hx⟩
      have hcard : (s.vset.erase v).card = t.card + 1 := by
        have hv' : v ∈ s.vset := List.mem_toFinset.2 hv
        rw [Finset.card_erase_of_mem hv']; omega
      obtain ⟨w, hw, hwt⟩ := Finset.exists_of_ssubset
        (Finset.ssubset_iff_subset_ne.2 ⟨hsub, fun e => by rw [← e] at hcard; omega⟩)
      refine ⟨w, hw, Finset.eq_of_subset_of_card_le ?_ ?_⟩
      · intro x hx; exact Finset.mem_erase.2 ⟨fun e => hwt (e ▸ hx), hsub hx⟩
      · rw [Finset.card_erase_of_mem hw]; omega
  have h1 : s.boundary d0 = s.vertices.map fun v => ⟨s.vertices.filter (· ≠ v), d0⟩ := by
    unfold Simplex.boundary
    rw [faces_eq hs, if_neg hlen, List.map_map]; rfl
  rw [h1, List.countP_map]
  have h2 : s.vertices.countP ((fun b : Simplex α => decide (t ∈ (b.boundary d0).map Simplex.vset)) ∘
      fun v => (⟨s.vertices.filter (· ≠ v), d0⟩ : Simplex α)) = s.vertices.countP fun v => v ∉ t := by
    apply List.countP_congr
    intro v hv
    simp only [Function.comp, decide_eq_true_eq]
    exact key v hv
  rw [h2, List.countP_eq_length_filter, (hs.filter _).length_eq, List.toFinset_filter]
  have h3 : {v ∈ s.vertices.toFinset | decide (v ∉ t) = true} = s.vset \ t := by
    ext v; simp [Simplex.vset]
  rw [h3, Finset.card_sdiff_of_subset ht]; omega

example : Normal (Simplex.ofRange [0, 1, 2] ()).vertices ∧
    ({0} : Finset ℕ) ⊆ (Simplex.ofRange [0, 1, 2] ()).vset ∧
    ({0} : Finset ℕ).card + 2 = (Simplex.ofRange [0, 1, 2] ()).vset.card := by decide

/-- C20. `operator<` is a strict total order of the vertex sets, whatever the data. -/
theorem C20_strict_total_order (s t u : Simplex α) :
    s.lt s = false ∧ (s.lt t = true → t.lt u = true → s.lt u = true) ∧
      (s.eq t = false → (s.lt t = true ∨ t.lt s = true)) ∧
      (s.eq t = true → s.lt t = false ∧ t.lt s = false) := by
  refine ⟨lexLt_irrefl _, lexLt_trans, ?_, ?_⟩
  · intro h; exact lexLt_total (by unfold Simplex.eq at h; simpa using h)
  · intro h
    unfold Simplex.eq at h
    rw [beq_iff_eq] at h
    rw [lt_iff, lt_iff, h]
    exact ⟨lexLt_irrefl _, lexLt_irrefl _⟩

/-- C20. Each proper face compares less than its coface. -/
theorem C20_faces_less (s t : Simplex α) (hs : Normal s.vertices) (ht : Normal t.vertices)
    (h : s.vset ⊂ t.vset) : s.lt t = true := lexLt_of_ssubset hs ht h

example : (Simplex.ofRange [0, 2] ()).vset ⊂ (Simplex.ofRange [0, 1, 2] ()).vset := by decide

section
variable [LinearOrder α]

/-- C21. The `Data` comparator is a strict total order on simplices, for every strict total order
`Compare` of the data (such as `std::less` and `std::greater`). -/
theorem C21_data_strict_total (lt : α → α → Bool) (hirr : ∀ a, lt a a = false)
    (htr : ∀ a b c, lt a b = true → lt b c = true → lt a c = true)
    (htot : ∀ a b, a ≠ b → lt a b = true ∨ lt b a = true) :
    StrictTotalOn (fun s => Normal s.vertices ∧ s.vertices ≠ []) (Filtration.data lt) :=
  data_strictTotal hirr htr htot

omit [LinearOrder α] in
/-- C21. Sorting a complex with any of the comparators is well defined: every arrangement of the
simplices without inversion is the same list, namely the result of `sort`, which
is strictly ascending. -/
theorem C21_sort_unique (K : Complex α) (hK : WF K) (S : Simplex α → Prop)
    (cmp : Simplex α → Simplex α → Option Bool) (h : StrictTotalOn S cmp) (hS : ∀ s ∈ K, S s) :
    (K.sort (asLt cmp)).Perm K ∧ ((K.sort (asLt cmp)).Pairwise fun s t => cmp s t = some true) ∧
      ∀ L : Complex α, L.Perm K → (L.Pairwise fun s t => cmp t s ≠ some true) →
        L = K.sort (asLt cmp) :=
  ⟨sort_perm _ _, sort_pairwise hK h hS, fun _ hp hL => sort_unique hK h hS hp hL⟩

/-- C21. If data is monotone with respect to `Compare`, sorting by `Data` gives a filtration: faces
precede their cofaces. -/
theorem C21_data_faces_first (lt : α → α → Bool) (hirr : ∀ a, lt a a = false)
    (htr : ∀ a b c, lt a b = true → lt b c = true → lt a c = true)
    (htot : ∀ a b, a ≠ b → lt a b = true ∨ lt b a = true) (K : Complex α) (hK : WF K)
    (hm : ∀ s ∈ K, ∀ t ∈ K, s.vset ⊂ t.vset → s.data = t.data ∨ lt s.data t.data = true) :
    FacesFirst (K.sort (asLt (Filtration.data lt))) :=
  sort_facesFirst hK (data_strictTotal hirr htr htot)
    (fun s hs => ⟨hK.normal s hs, hK.nonempty s hs⟩)
    fun s hs t ht hst => data_face ⟨hK.normal s hs, hK.nonempty s hs⟩
      ⟨hK.normal t ht, hK.nonempty t ht⟩ hst (hm s hs t ht hst)

/-- C21. The special case of `std::less` and monotone data. -/
theorem C21_data_less (K : Complex α) (hK : WF K) (hm : Spec.Monotone K) :
    FacesFirst (K.sort (asLt (Filtration.data fun a b => decide (a < b)))) := by
  refine C21_data_faces_first _ (by simp) (fun a b c h1 h2 => ?_) (fun a b h => ?_) K hK ?_
  · simp only [decide_eq_true_eq] at *; exact h1.trans h2
  · simp only [decide_eq_true_eq]; exact lt_or_gt_of_ne h
  · intro s hs t ht hst
    simp only [decide_eq_true_eq]
    exact (hm s hs t ht hst.1).eq_or_lt

/-- C21. The lower-star comparator is a strict total order on the simplices whose vertices have
values, and always sorts faces before cofaces. -/
theorem C21_lower_star (lo : α) (values : List α) (K : Complex α) (hK : WF K)
    (hv : ∀ s ∈ K, ∀ v ∈ s.vset, v < values.length) :
    StrictTotalOn (fun s => (Normal s.vertices ∧ s.vertices ≠ []) ∧
        ∀ v ∈ s.vertices, v < values.length) (Filtration.lowerStar lo values) ∧
      FacesFirst (K.sort (asLt (Filtration.lowerStar lo values))) := by
  have h1 : StrictTotalOn (InRange values) (Filtration.lowerStar lo values) :=
    byValue_strictTotal (maxVal lo values) (lowerStar_eq lo values)
  have hr : ∀ s ∈ K, InRange values s := fun s hs =>
    ⟨⟨hK.normal s hs, hK.nonempty s hs⟩, fun v hv' => hv s hs v (List.mem_toFinset.2 hv')⟩
  refine ⟨h1, sort_facesFirst hK h1 hr ?_⟩
  intro s hs t ht hst
  exact byValue_face (fun s hs => hs.1) (maxVal lo values) (lowerStar_eq lo values) (hr s hs)
    (hr t ht) hst (maxVal_mono (hr s hs) (hr t ht) hst.1)

/-- C21. The upper-star comparator is a strict total order on the simplices whose vertices have
values, and always sorts faces before cofaces. -/
theorem C21_upper_star (hi : α) (values : List α) (K : Complex α) (hK : WF K)
    (hv : ∀ s ∈ K, ∀ v ∈ s.vset, v < values.length) :
    StrictTotalOn (fun s => (Normal s.vertices ∧ s.vertices ≠ []) ∧
        ∀ v ∈ s.vertices, v < values.length) (Filtration.upperStar hi values) ∧
      FacesFirst (K.sort (asLt (Filtration.upperStar hi values))) := by
  have h1 : StrictTotalOn (InRange values) (Filtration.upperStar hi values) :=
    byValue_strictTotal (fun s => OrderDual.toDual (minVal hi values s)) (upperStar_eq hi values)
  have hr : ∀ s ∈ K, InRange values s := fun s hs =>
    ⟨⟨hK.normal s hs, hK.nonempty s hs⟩, fun v hv' => hv s hs v (List.mem_toFinset.2 hv')⟩
  refine ⟨h1, sort_facesFirst hK h1 hr ?_⟩
  intro s hs t ht hst
  exact byValue_face (fun s hs => hs.1) (fun s => OrderDual.toDual (minVal hi values s))
    (upperStar_eq hi values) (hr s hs) (hr t ht) hst (minVal_anti (hr s hs) (hr t ht) hst.1)

/-- C21. In lower-star order the maximum vertex value never decreases; in upper-star order the
minimum vertex value never increases. -/
theorem C21_star_values (lo hi : α) (values : List α) (K : Complex α) (hK : WF K)
    (hv : ∀ s ∈ K, ∀ v ∈ s.vset, v < values.length) :
    ((K.sort (asLt (Filtration.lowerStar lo values))).Pairwise fun s t =>
      ∀ b, lo ≤ b → (∀ v ∈ t.vset, ∀ x, values[v]? = some x → x ≤ b) →
        ∀ v ∈ s.vset, ∀ x, values[v]? = some x → x ≤ b) ∧
    ((K.sort (asLt (Filtration.upperStar hi values))).Pairwise fun s t =>
      ∀ b, b ≤ hi → (∀ v ∈ t.vset, ∀ x, values[v]? = some x → b ≤ x) →
        ∀ v ∈ s.vset, ∀ x, values[v]? = some x → b ≤ x) := by
  have hr : ∀ s ∈ K, InRange values s := fun s hs =>
    ⟨⟨hK.normal s hs, hK.nonempty s hs⟩, fun v hv' => hv s hs v (List.mem_toFinset.2 hv')⟩
  constructor
  · have h1 : StrictTotalOn (InRange values) (Filtration.lowerStar lo values) :=
      byValue_strictTotal (maxVal lo values) (lowerStar_eq lo values)
    refine (sort_pairwise hK h1 hr).imp_of_mem ?_
    intro s t hs ht hst b hb h v hvs x hx
    have hs' := hr s ((sort_perm _ _).subset hs)
    have ht' := hr t ((sort_perm _ _).subset ht)
    rw [lowerStar_eq lo values s t hs' ht'] at hst
    have hle : maxVal lo values s ≤ maxVal lo values t := by
      by_contra hc
      rw [not_le] at hc
      rw [if_neg (not_lt.2 hc.le), if_neg hc.ne'] at hst
      simp at hst
    have h2 := (foldl_max_le_iff values t.vertices ht'.2 lo b).2
      ⟨hb, fun w hw => h w (List.mem_toFinset.2 hw)⟩
    exact ((foldl_max_le_iff values s.vertices hs'.2 lo b).1 (hle.trans h2)).2 v
      (List.mem_toFinset.1 hvs) x hx
  · have h1 : StrictTotalOn (InRange values) (Filtration.upperStar hi values) :=
      byValue_strictTotal (fun s => OrderDual.toDual (minVal hi values s)) (upperStar_eq hi values)
    refine (sort_pairwise hK h1 hr).imp_of_mem ?_
    intro s t hs ht hst b hb h v hvs x hx
    have hs' := hr s ((sort_perm _ _).subset hs)
    have ht' := hr t ((sort_perm _ _).subset ht)
    rw [upperStar_eq hi values s t hs' ht'] at hst
    have hle : minVal hi values t ≤ minVal hi values s := by
      by_contra hc
      rw [not_le] at hc
      rw [if_neg (by rw [OrderDual.toDual_lt_toDual]; exact not_lt.2 hc.le),
        if_neg (fun e => hc.ne (OrderDual.toDual.injective e))] at hst
      simp at hst
    have h2 := (le_foldl_min_iff values t.vertices ht'.2 hi b).2
      ⟨hb, fun w hw => h w (List.mem_toFinset.2 hw)⟩
    exact ((le_foldl_min_iff values s.vertices hs'.2 hi b).1 (h2.trans hle)).2 v
      (List.mem_toFinset.1 hvs) x hx

end

/-- A complex used as a witness: two edges and their vertices in no particular order. -/
def path3 : Complex ℕ :=
  [⟨[1, 0], 2⟩, ⟨[1], 0⟩, ⟨[2], 1⟩, ⟨[0], 0⟩, ⟨[2, 1], 2⟩]

theorem path3_wf : WF path3 := ⟨by decide, by decide, by decide⟩

theorem path3_monotone : Spec.Monotone path3 := by unfold Spec.Monotone; decide

theorem path3_faceClosed : FaceClosed path3 :=
  Closed1.faceClosed path3_wf.normal (by unfold Closed1; decide)

example : (path3.sort (asLt (Filtration.data fun a b => decide (a < b)))).map (·.vertices) =
    [[0], [1], [2], [1, 0], [2, 1]] := by decide

example : (path3.sort (asLt (Filtration.lowerStar 0 [3, 1, 2]))).map (·.vertices) =
    [[1], [2], [2, 1], [0], [1, 0]] := by decide

example : ∀ s ∈ path3, ∀ v ∈ s.vset, v < [3, 1, 2].length := by decide

end Aleph
