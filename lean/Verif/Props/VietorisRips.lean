import Verif.Props.Rips
import Verif.Lemmas.Filtration

/-!
# C27 (vertex data) and C28: Vietoris–Rips complexes of point sets
-/

namespace Aleph

open Finset Spec Rips

variable {α : Type}

/-! ### Data from the vertices -/

theorem foldlM_option_max [LinearOrder α] (g : ℕ → Option α) (vs : List ℕ) (x : α)
    (h : ∀ v ∈ vs, (g v).isSome) :
    ∃ z, vs.foldlM (fun d v => (g v).map (max d)) x = some z ∧
      IsGreatest {y | y = x ∨ ∃ v ∈ vs, g v = some y} z := by
  induction vs generalizing x with
  | nil => exact ⟨x, rfl, by simp [IsGreatest, upperBounds]⟩
  | cons v vs ih =>
    obtain ⟨a, ha⟩ := Option.isSome_iff_exists.1 (h v List.mem_cons_self)
    obtain ⟨z, hz, h1, h2⟩ := ih (max x a) fun u hu => h u (List.mem_cons_of_mem _ hu)
    refine ⟨z, by rw [List.foldlM_cons, ha]; exact hz, ?_, ?_⟩
    · rcases h1 with h1 | ⟨u, hu, h1⟩
      · rcases max_choice x a with e | e
        · exact Or.inl (h1.trans e)
        · exact Or.inr ⟨v, List.mem_cons_self, by rw [ha, h1, e]⟩
      · exact Or.inr ⟨u, List.mem_cons_of_mem _ hu, h1⟩
    · rintro y (rfl | ⟨u, hu, hy⟩)
      · exact (le_max_left _ _).trans (h2 (Or.inl rfl))
      · rcases List.mem_cons.1 hu with rfl | hu
        · rw [ha] at hy; cases hy
          exact (le_max_right _ _).trans (h2 (Or.inl rfl))
        · exact h2 (Or.inr ⟨u, hu, hy⟩)

theorem assignData_loop {K : Complex α} (hK : WF K) (g : Simplex α → Option α)
    (post pre S : Complex α) (hp : pre ++ post = K)
    (hS : S.map (·.vertices) = pre.map (·.vertices)) (hg : ∀ s ∈ post, (g s).isSome) :
    post.foldlM (fun S s =>
      match g s with
      | none => none
      | some d => Complex.pushBack S (s.withData d)) S =
    some (S ++ post.filterMap fun s => (g s).map s.withData) := by
  induction post generalizing pre S with
  | nil => simp
  | cons s post ih =>
    obtain ⟨d, hd⟩ := Option.isSome_iff_exists.1 (hg s List.mem_cons_self)
    have hnew : ∀ t ∈ S, t.vertices ≠ s.vertices := by
      intro t ht he
      have h1 : t.vertices ∈ pre.map (·.vertices) := by
        rw [← hS]; exact List.mem_map_of_mem (f := fun s : Simplex α => s.vertices) ht
      have := hK.distinct
      rw [← hp, List.map_append, List.nodup_append] at this
      exact this.2.2 _ h1 _ (by simp) he
    have hsne := hK.nonempty s (by rw [← hp]; simp)
    rw [List.foldlM_cons, hd]
    simp only
    rw [pushBack_new (by simpa [Simplex.withData] using hsne)
      (by simpa [Simplex.withData] using hnew)]
    refine (ih (pre ++ [s]) (S ++ [s.withData d]) (by simpa using hp)
      (by simp [hS, Simplex.withData]) fun t ht => hg t (List.mem_cons_of_mem _ ht)).trans ?_
    simp [hd]

theorem eq_vertices {K : Complex α} (hK : WF K) {vs : List ℕ} (h1 : vs.Pairwise (· < ·))
    (h2 : ∀ v, v ∈ vs ↔ Has K {v}) : vs = K.vertices := by
  obtain ⟨g1, g2⟩ := C22_vertices K hK
  have hnd : vs.Nodup := h1.imp fun h => ne_of_lt h
  have hnd' : K.vertices.Nodup := g1.imp fun h => ne_of_lt h
  have hp : vs.Perm K.vertices := (List.perm_ext_iff_of_nodup hnd hnd').2 fun v => by
    rw [h2, g2]; rfl
  exact hp.eq_of_pairwise (le := (· < ·)) (fun a b _ _ hab hba => absurd hab (lt_asymm hba)) h1 g1

/-- C27. `assignMaximumData` keeps the simplices and their order, and gives each simplex the largest of the values of
its vertices, where the `i`-th value belongs to the `i`-th smallest vertex of the complex; `lo`, the lowest value of
the type, counts as well. -/
theorem C27_maximum_data [LinearOrder α] (lo : α) (K : Complex α) (hK : WF K) (hc : FaceClosed K)
    (vs : List ℕ) (h1 : vs.Pairwise (· < ·)) (h2 : ∀ v, v ∈ vs ↔ Has K {v})
    (values : List α) (hlen : vs.length ≤ values.length) :
    ∃ L, assignMaximumData lo K values = some L ∧ L.map (·.vertices) = K.map (·.vertices) ∧
      ∀ s ∈ L, IsGreatest {y | y = lo ∨ ∃ v ∈ s.vset, ∃ i : ℕ, vs[i]? = some v ∧ values[i]? = some y}
        s.data := by
  have hvs := eq_vertices hK h1 h2
  have hidx : ∀ v ∈ vs, ∃ i : ℕ, vs[i]? = some v ∧ vertexToIndex K v = i ∧ i < values.length := by
    intro v hv
    have hnone : vs.idxOf? v ≠ none := by rw [ne_eq, List.idxOf?_eq_none_iff]; simpa using hv
    obtain ⟨i, hi⟩ := Option.ne_none_iff_exists'.1 hnone
    obtain ⟨hlt, hget, -⟩ := List.findIdx?_eq_some_iff_getElem.1 hi
    refine ⟨i, ?_, ?_, by omega⟩
    · rw [List.getElem?_eq_getElem hlt]
      simpa using hget
    · unfold vertexToIndex; rw [← hvs, hi]; rfl
  have hvert : ∀ s ∈ K, ∀ v ∈ s.vertices, v ∈ vs := by
    intro s hs v hv
    rw [h2]
    exact hc s hs {v} (by simpa [Simplex.vset] using hv) (by simp)
  have hfold : ∀ s ∈ K, ∃ z, s.vertices.foldlM
      (fun d v => (values[vertexToIndex K v]?).map (max d)) lo = some z ∧
      IsGreatest {y | y = lo ∨ ∃ v ∈ s.vset, ∃ i : ℕ, vs[i]? = some v ∧ values[i]? = some y} z := by
    intro s hs
    obtain ⟨z, hz, hz'⟩ := foldlM_option_max (fun v => values[vertexToIndex K v]?) s.vertices lo (by
      intro v hv
      obtain ⟨i, -, hi, hi'⟩ := hidx v (hvert s hs v hv)
      simp only [hi]
      rw [List.getElem?_eq_getElem hi']; rfl)
    refine ⟨z, hz, ?_⟩
    convert hz' using 1
    ext y
    simp only [Set.mem_ofPred_eq]
    refine or_congr Iff.rfl ?_
    constructor
    · rintro ⟨v, hv, i, hi, hy⟩
      have hv' : v ∈ s.vertices := by simpa [Simplex.vset] using hv
      refine ⟨v, hv', ?_⟩
      obtain ⟨j, hj, hj', -⟩ := hidx v (hvert s hs v hv')
      have hnd : vs.Nodup := h1.imp fun h => ne_of_lt h
      have : i = j := by
        obtain ⟨hi1, hi2⟩ := List.getElem?_eq_some_iff.1 hi
        obtain ⟨hj1, hj2⟩ := List.getElem?_eq_some_iff.1 hj
        exact (hnd.getElem_inj_iff).1 (hi2.trans hj2.symm)
      rw [hj', ← this, hy]
    · rintro ⟨v, hv, hy⟩
      obtain ⟨j, hj, hj', -⟩ := hidx v (hvert s hs v hv)
      exact ⟨v, by simpa [Simplex.vset] using hv, j, hj, by rw [← hj']; exact hy⟩
  have hrun := assignData_loop hK (fun s => s.vertices.foldlM
      (fun d v => (values[vertexToIndex K v]?).map (max d)) lo) K [] [] rfl rfl (by
    intro s hs
    obtain ⟨z, hz, -⟩ := hfold s hs
    simp only [hz, Option.isSome_some])
  refine ⟨_, hrun, ?_, ?_⟩
  · rw [List.nil_append]
    have : ∀ M : Complex α, (∀ s ∈ M, s ∈ K) → (M.filterMap fun s => (s.vertices.foldlM
        (fun d v => (values[vertexToIndex K v]?).map (max d)) lo).map s.withData).map (·.vertices) =
        M.map (·.vertices) := by
      intro M hM
      induction M with
      | nil => rfl
      | cons s M ih =>
        obtain ⟨z, hz, -⟩ := hfold s (hM s List.mem_cons_self)
        rw [List.filterMap_cons, hz]
        simp only [Option.map_some, List.map_cons]
        rw [ih fun t ht => hM t (List.mem_cons_of_mem _ ht)]
        rfl
    exact this K fun _ h => h
  · intro s hs
    rw [List.nil_append, List.mem_filterMap] at hs
    obtain ⟨t, ht, hts⟩ := hs
    obtain ⟨z, hz, hz'⟩ := hfold t ht
    rw [hz] at hts
    simp only [Option.map_some, Option.some.injEq] at hts
    rw [← hts]
    exact hz'

/-- C27. Too few values are read past their end. -/
theorem C27_out_of_bounds_witness :
    assignMaximumData (0 : ℤ) [⟨[0], 0⟩, ⟨[1], 0⟩, ⟨[1, 0], 0⟩] [5] = none := by decide

/-! ### Vietoris–Rips complexes -/

/-- C28. The neighbourhood graph of `n` points. -/
theorem ripsSkeleton_spec [LinearOrder α] (d0 : α) (n : ℕ) (dist : ℕ → ℕ → α) (epsilon : α) :
    ∃ K, ripsSkeleton d0 n (radiusSearch n dist epsilon) = (K, false) ∧ WF K ∧
      (∀ v, Has K {v} ↔ v < n) ∧
      (∀ u v, u < v → (Has K {u, v} ↔ v < n ∧ dist u v < epsilon)) ∧
      (∀ s ∈ K, #s.vset = 1 → s.data = d0) ∧
      (∀ s ∈ K, ∀ u v, u < v → s.vset = {u, v} → s.data = dist u v) ∧
      ∀ s ∈ K, #s.vset ≤ 2 := by
  unfold ripsSkeleton
  generalize hl : (List.range n).map (fun i => Simplex.ofVertex i d0) ++
      ((radiusSearch n dist epsilon).zipIdx).flatMap (fun e =>
        (e.1.filter fun v => decide (e.2 < v.1)).map fun v => Simplex.ofRange [e.2, v.1] v.2) = l
  have hpair : ∀ (u v : ℕ) (x : α), u < v → Simplex.ofRange [u, v] x = ⟨[v, u], x⟩ := by
    intro u v x huv
    have : (Simplex.ofRange [u, v] x).vertices = [v, u] := by
      refine Normal.ext (ofRange_normal _ _) (by simpa [Normal] using huv) fun y => ?_
      rw [mem_ofRange]; simp [or_comm]
    show Simplex.mk (Simplex.ofRange [u, v] x).vertices _ = _
    rw [this]
  have hmem : ∀ s, s ∈ l ↔ (∃ i < n, s = ⟨[i], d0⟩) ∨
      ∃ u v, u < v ∧ v < n ∧ dist u v < epsilon ∧ s = ⟨[v, u], dist u v⟩ := by
    intro s
    rw [← hl, List.mem_append, List.mem_map, List.mem_flatMap]
    refine or_congr ?_ ?_
    · constructor
      · rintro ⟨i, hi, rfl⟩; exact ⟨i, List.mem_range.1 hi, rfl⟩
      · rintro ⟨i, hi, rfl⟩; exact ⟨i, List.mem_range.2 hi, rfl⟩
    · constructor
      · rintro ⟨⟨ns, u⟩, hns, hs⟩
        rw [List.mem_zipIdx_iff_getElem?] at hns
        simp only [radiusSearch, List.getElem?_map] at hns
        rw [List.mem_map] at hs
        obtain ⟨⟨v, x⟩, hv, rfl⟩ := hs
        rw [List.mem_filter] at hv
        obtain ⟨hv, huv⟩ := hv
        rw [decide_eq_true_iff] at huv
        by_cases hu : u < n
        · rw [List.getElem?_range hu] at hns
          simp only [Option.map_some, Option.some.injEq] at hns
          rw [← hns, List.mem_filter, List.mem_map] at hv
          obtain ⟨⟨j, hj, he⟩, hlt⟩ := hv
          cases he
          simp only [decide_eq_true_eq] at hlt
          exact ⟨u, v, huv, List.mem_range.1 hj, hlt, hpair u v _ huv⟩
        · rw [List.getElem?_eq_none (by simpa using hu)] at hns
          cases hns
      · rintro ⟨u, v, huv, hv, hd, rfl⟩
        refine ⟨(((List.range n).map fun j => (j, dist u j)).filter fun e => e.2 < epsilon, u), ?_, ?_⟩
        · rw [List.mem_zipIdx_iff_getElem?]
          simp only [radiusSearch, List.getElem?_map]
          rw [List.getElem?_range (by omega)]
          rfl
        · rw [List.mem_map]
          refine ⟨(v, dist u v), ?_, hpair u v _ huv⟩
          rw [List.mem_filter, List.mem_filter, List.mem_map]
          exact ⟨⟨⟨v, List.mem_range.2 hv, rfl⟩, by simpa using hd⟩, by simpa using huv⟩
  obtain ⟨K, h1, -, h2, h3⟩ := insertRange_spec [] l (by
    intro s hs
    rcases (hmem s).1 hs with ⟨i, -, rfl⟩ | ⟨u, v, -, -, -, rfl⟩ <;> simp)
  have hwf : WF K := by
    have := insertRange_wf Spec.WF.nil (l := l) (by
      intro s hs
      rcases (hmem s).1 hs with ⟨i, -, rfl⟩ | ⟨u, v, h, -, -, rfl⟩
      · simp [Normal]
      · simpa [Normal] using h)
    rw [h1] at this
    exact this
  have hK : ∀ s ∈ K, (∃ i < n, s = ⟨[i], d0⟩) ∨
      ∃ u v, u < v ∧ v < n ∧ dist u v < epsilon ∧ s = ⟨[v, u], dist u v⟩ := fun s hs =>
    (hmem s).1 ((h2 s hs).resolve_left (by simp))
  have hpne : ∀ a b c : ℕ, b < c → ({a} : Finset ℕ) ≠ {b, c} := by
    intro a b c hbc h
    have := congrArg Finset.card h
    rw [card_pair (by omega)] at this
    simp at this
  have hpp : ∀ a b c d : ℕ, a < b → c < d → ({b, a} : Finset ℕ) = {c, d} → a = c ∧ b = d := by
    intro a b c d hab hcd h
    have h1 : a ∈ ({c, d} : Finset ℕ) := by rw [← h]; simp
    have h2 : b ∈ ({c, d} : Finset ℕ) := by rw [← h]; simp
    simp only [mem_insert, mem_singleton] at h1 h2
    omega
  refine ⟨K, h1, hwf, ?_, ?_, ?_, ?_, ?_⟩
  · intro v
    constructor
    · rintro ⟨s, hs, he⟩
      rcases hK s hs with ⟨i, hi, rfl⟩ | ⟨a, b, hab, -, -, rfl⟩
      · simp only [Simplex.vset, List.toFinset_cons, List.toFinset_nil, insert_empty_eq,
          singleton_inj] at he
        omega
      · exfalso
        have he' : ({b, a} : Finset ℕ) = {v} := by simpa [Simplex.vset] using he
        rw [pair_comm] at he'
        exact hpne v a b hab he'.symm
    · intro hv
      obtain ⟨t, ht, he⟩ := h3 ⟨[v], d0⟩ ((hmem _).2 (Or.inl ⟨v, hv, rfl⟩))
      exact ⟨t, ht, by unfold Simplex.vset; rw [he]; simp⟩
  · intro u v huv
    constructor
    · rintro ⟨s, hs, he⟩
      rcases hK s hs with ⟨i, hi, rfl⟩ | ⟨a, b, hab, hb, hd, rfl⟩
      · exact absurd (by simpa [Simplex.vset] using he) (hpne i u v huv)
      · obtain ⟨rfl, rfl⟩ := hpp a b u v hab huv (by simpa [Simplex.vset] using he)
        exact ⟨hb, hd⟩
    · rintro ⟨hv, hd⟩
      obtain ⟨t, ht, he⟩ := h3 ⟨[v, u], dist u v⟩ ((hmem _).2 (Or.inr ⟨u, v, huv, hv, hd, rfl⟩))
      exact ⟨t, ht, by unfold Simplex.vset; rw [he]; simp [pair_comm]⟩
  · intro s hs hcard
    rcases hK s hs with ⟨i, hi, rfl⟩ | ⟨a, b, hab, hb, hd, rfl⟩
    · rfl
    · simp only [Simplex.vset, List.toFinset_cons, List.toFinset_nil, insert_empty_eq] at hcard
      rw [card_pair (by omega)] at hcard
      omega
  · intro s hs u v huv he
    rcases hK s hs with ⟨i, hi, rfl⟩ | ⟨a, b, hab, hb, hd, rfl⟩
    · exact absurd (by simpa [Simplex.vset] using he) (hpne i u v huv)
    · obtain ⟨rfl, rfl⟩ := hpp a b u v hab huv (by simpa [Simplex.vset] using he)
      rfl
  · intro s hs
    rcases hK s hs with ⟨i, hi, rfl⟩ | ⟨a, b, hab, hb, hd, rfl⟩
    · simp [Simplex.vset]
    · exact (List.toFinset_card_le _).trans (by simp)

theorem sort_data_spec [LinearOrder α] {K : Complex α} (hK : WF K)
    (hm : ∀ s ∈ K, ∀ t ∈ K, s.vset ⊂ t.vset → s.data ≤ t.data) :
    WF (K.sort (asLt (Filtration.data fun a b => a < b))) ∧
    FacesFirst (K.sort (asLt (Filtration.data fun a b => a < b))) ∧
    (K.sort (asLt (Filtration.data fun a b => a < b))).Pairwise fun s t => s.data ≤ t.data := by
  have hst : StrictTotalOn (α := α) Proper (Filtration.data fun a b => decide (a < b)) :=
    data_strictTotal (by simp) (fun a b c h1 h2 => by
      simp only [decide_eq_true_eq] at h1 h2 ⊢; exact h1.trans h2) (fun a b h => by
      simp only [decide_eq_true_eq]; exact lt_or_gt_of_ne h)
  have hprop : ∀ s ∈ K, Proper s := fun s hs => ⟨hK.normal s hs, hK.nonempty s hs⟩
  refine ⟨hK.perm (sort_perm _ _), sort_facesFirst hK hst hprop ?_, ?_⟩
  · intro s hs t ht hss
    refine data_face (hprop s hs) (hprop t ht) hss ?_
    rcases (hm s hs t ht hss).eq_or_lt with h | h
    · exact Or.inl h
    · exact Or.inr (by simpa using h)
  · refine (sort_pairwise hK hst hprop).imp_of_mem ?_
    intro s t hs ht h
    have hs' := hprop s ((sort_perm _ _).subset hs)
    have ht' := hprop t ((sort_perm _ _).subset ht)
    rw [data_eq hs' ht'] at h
    split at h
    · next e => exact e.le
    · simp only [Option.some.injEq, decide_eq_true_eq] at h
      exact h.le

theorem rips_clique_iff [LinearOrder α] {K : Complex α} {n : ℕ} {dist : ℕ → ℕ → α} {epsilon : α}
    (h1 : ∀ v, Has K {v} ↔ v < n)
    (h2 : ∀ u v, u < v → (Has K {u, v} ↔ v < n ∧ dist u v < epsilon)) (t : Finset ℕ) :
    IsClique K t ↔ (∀ v ∈ t, v < n) ∧ ∀ u ∈ t, ∀ v ∈ t, u < v → dist u v < epsilon := by
  unfold IsClique
  constructor
  · rintro ⟨ha, hb⟩
    refine ⟨fun v hv => (h1 v).1 (ha v hv), fun u hu v hv huv => ?_⟩
    exact ((h2 u v huv).1 (hb u hu v hv (by omega))).2
  · rintro ⟨ha, hb⟩
    refine ⟨fun v hv => (h1 v).2 (ha v hv), fun u hu v hv huv => ?_⟩
    rcases lt_or_gt_of_ne huv with h | h
    · exact (h2 u v h).2 ⟨ha v hv, hb u hu v hv h⟩
    · rw [pair_comm]
      exact (h2 v u h).2 ⟨ha u hu, hb v hv u hu h⟩

theorem rips_edgeClosed [LinearOrder α] {K : Complex α} {n : ℕ} {dist : ℕ → ℕ → α} {epsilon : α}
    (h1 : ∀ v, Has K {v} ↔ v < n)
    (h2 : ∀ u v, u < v → (Has K {u, v} ↔ v < n ∧ dist u v < epsilon)) : EdgeClosed K := by
  intro u v huv he
  rw [h1]
  rcases lt_or_gt_of_ne huv with h | h
  · have := (h2 u v h).1 he; omega
  · rw [pair_comm] at he
    exact ((h2 v u h).1 he).1

/-- C28. The Vietoris–Rips complex of `n` points contains the non-empty sets of at most `d + 1` points
with pairwise distances below the threshold, each of them once.  Points have the default value (zero), all other
simplices the largest pairwise distance, and the complex is a filtration sorted by its weights.  Distances must not be
smaller than the default value. -/
theorem C28_vietoris_rips [LinearOrder α] (o : Orders α) (d0 : α) (n : ℕ) (dist : ℕ → ℕ → α)
    (epsilon : α) (d : ℕ) (hpos : ∀ u v, u < v → v < n → d0 ≤ dist u v) :
    ∃ L, buildVietorisRips o d0 n dist epsilon d = some L ∧ WF L ∧
      (∀ t : Finset ℕ, Has L t ↔ t.Nonempty ∧ #t ≤ d + 1 ∧ (∀ v ∈ t, v < n) ∧
        ∀ u ∈ t, ∀ v ∈ t, u < v → dist u v < epsilon) ∧
      (∀ s ∈ L, #s.vset = 1 → s.data = d0) ∧
      (∀ s ∈ L, 2 ≤ #s.vset →
        IsGreatest {y | ∃ u ∈ s.vset, ∃ v ∈ s.vset, u < v ∧ y = dist u v} s.data) ∧
      FacesFirst L ∧ L.Pairwise fun s t => s.data ≤ t.data := by
  obtain ⟨K, hrun, hK, hv, he, hd1, hd2, hdim⟩ := ripsSkeleton_spec d0 n dist epsilon
  have hcl := rips_clique_iff hv he
  have hec := rips_edgeClosed hv he
  obtain ⟨E, h1, h2, h3, h4, h5⟩ := C26_cliques o d0 K hK hec d
  obtain ⟨E', M, h1', g1, g2, g3, g4, g5, -⟩ := C27_expansion_weights o d0 K hK hec d
  rw [h1] at h1'
  cases h1'
  have hedge : ∀ e : Finset ℕ, ∀ y, #e = 2 → HasData K e y → ∃ u ∈ e, ∃ v ∈ e, u < v ∧ y = dist u v := by
    rintro e y hcard ⟨s, hs, rfl, rfl⟩
    obtain ⟨a, b, hab, heq⟩ := card_eq_two.1 hcard
    rcases lt_or_gt_of_ne hab with h | h
    · exact ⟨a, by rw [heq]; simp, b, by rw [heq]; simp, h, hd2 s hs a b h heq⟩
    · exact ⟨b, by rw [heq]; simp, a, by rw [heq]; simp, h, hd2 s hs b a h (heq.trans (pair_comm _ _))⟩
  have hcard1 : ∀ s ∈ M, #s.vset = 1 → s.data = d0 := by
    intro s hs hcard
    obtain ⟨a, ha, hae, had⟩ := g4 s hs hcard
    rw [← had]
    exact hd1 a ha (by rw [hae]; exact hcard)
  have hcard2 : ∀ s ∈ M, 2 ≤ #s.vset →
      IsGreatest {y | ∃ u ∈ s.vset, ∃ v ∈ s.vset, u < v ∧ y = dist u v} s.data := by
    intro s hs hcard
    obtain ⟨⟨e, hes, hec, hed⟩, hub⟩ := g5 s hs hcard (by
      intro e heK hec
      obtain ⟨a, ha, b, hb, hab, hy⟩ := hedge e.vset e.data hec ⟨e, heK, rfl, rfl⟩
      rw [hy]
      refine hpos a b hab ?_
      have hpair : e.vset = {a, b} := (eq_of_subset_of_card_le
        (insert_subset ha (singleton_subset_iff.2 hb)) (by rw [hec, card_pair (by omega)])).symm
      exact ((he a b hab).1 ⟨e, heK, hpair⟩).1)
    refine ⟨?_, ?_⟩
    · obtain ⟨u, hu, v, hv, huv, hy⟩ := hedge e _ hec hed
      exact ⟨u, hes hu, v, hes hv, huv, hy⟩
    · rintro y ⟨u, hu, v, hvs, huv, rfl⟩
      have hsE : Has E s.vset := (g3 _).1 ⟨s, hs, rfl⟩
      obtain ⟨-, -, hclq⟩ := (h3 _).1 hsE
      obtain ⟨a, ha, hae⟩ := hclq.2 u hu v hvs (by omega)
      refine hub ⟨{u, v}, insert_subset hu (singleton_subset_iff.2 hvs), card_pair (by omega), a, ha, hae, ?_⟩
      exact hd2 a ha u v huv hae
  have hmono : ∀ s ∈ M, ∀ t ∈ M, s.vset ⊂ t.vset → s.data ≤ t.data := by
    intro s hs t ht hst
    have hlt := card_lt_card hst
    have hsne : 0 < #s.vset := by
      rw [card_pos]
      exact List.toFinset_nonempty_iff _ |>.2 (g2.nonempty s hs)
    obtain ⟨-, hub⟩ := hcard2 t ht (by omega)
    by_cases h : #s.vset = 1
    · rw [hcard1 s hs h]
      obtain ⟨u, hu, v, hvt, huv, hy⟩ := (hcard2 t ht (by omega)).1
      rw [hy]
      have htE : Has E t.vset := (g3 _).1 ⟨t, ht, rfl⟩
      obtain ⟨-, -, hclq⟩ := (h3 _).1 htE
      exact hpos u v huv (((hcl _).1 hclq).1 v hvt)
    · obtain ⟨u, hu, v, hvt, huv, hy⟩ := (hcard2 s hs (by omega)).1
      exact hub ⟨u, hst.1 hu, v, hst.1 hvt, huv, hy⟩
  obtain ⟨k1, k2, k3⟩ := sort_data_spec g2 hmono
  have hperm := sort_perm M (asLt (Filtration.data fun a b => decide (a < b)))
  refine ⟨_, by unfold buildVietorisRips; rw [hrun]; simp only [h1, g1], k1, ?_, ?_, ?_, k2, k3⟩
  · intro t
    have : Has (M.sort (asLt (Filtration.data fun a b => decide (a < b)))) t ↔ Has M t := by
      unfold Has
      simp only [hperm.mem_iff]
    rw [this, g3, h3, hcl]
  · exact fun s hs => hcard1 s (hperm.subset hs)
  · exact fun s hs => hcard2 s (hperm.subset hs)

/-- C28. The variant with values for the points: the simplices are the same, and each gets the largest value of its
points. -/
theorem C28_vietoris_rips_values [LinearOrder α] (o : Orders α) (d0 lo : α) (n : ℕ)
    (dist : ℕ → ℕ → α) (epsilon : α) (d : ℕ) (values : List α) (hlen : values.length = n)
    (hlo : ∀ x ∈ values, lo ≤ x) :
    ∃ L, buildVietorisRipsWithValues o d0 lo n dist epsilon d values = some L ∧ WF L ∧
      (∀ t : Finset ℕ, Has L t ↔ t.Nonempty ∧ #t ≤ d + 1 ∧ (∀ v ∈ t, v < n) ∧
        ∀ u ∈ t, ∀ v ∈ t, u < v → dist u v < epsilon) ∧
      (∀ s ∈ L, IsGreatest {y | ∃ v ∈ s.vset, values[v]? = some y} s.data) ∧
      FacesFirst L ∧ L.Pairwise fun s t => s.data ≤ t.data := by
  obtain ⟨K, hrun, hK, hv, he, hd1, hd2, hdim⟩ := ripsSkeleton_spec d0 n dist epsilon
  have hcl := rips_clique_iff hv he
  have hec := rips_edgeClosed hv he
  obtain ⟨E, h1, h2, h3, h4, h5⟩ := C26_cliques o d0 K hK hec d
  have hEc := C26_faceClosed o d0 K hK hec d E h1
  have hEv : ∀ v, Has E {v} ↔ v < n := by
    intro v
    rw [h3, hcl]
    constructor
    · rintro ⟨-, -, h, -⟩; exact h v (by simp)
    · intro h
      refine ⟨by simp, by simp, by simpa using h, ?_⟩
      intro a ha b hb hab
      simp only [mem_singleton] at ha hb
      omega
  obtain ⟨M, g1, g2, g3⟩ := C27_maximum_data lo E h2 hEc (List.range n) List.pairwise_lt_range
    (fun v => by rw [hEv, List.mem_range]) values (by simp [hlen])
  have hMwf : WF M := h2.of_map_vertices (by rw [g2])
  have hMhas : ∀ t, Has M t ↔ Has E t := has_of_map_vertices (by rw [g2])
  have hdata : ∀ s ∈ M, IsGreatest {y | ∃ v ∈ s.vset, values[v]? = some y} s.data := by
    intro s hs
    have hvn : ∀ v ∈ s.vset, v < n := by
      obtain ⟨-, -, hc⟩ := (h3 _).1 ((hMhas s.vset).1 ⟨s, hs, rfl⟩)
      exact ((hcl _).1 hc).1
    obtain ⟨k1, k2⟩ := g3 s hs
    have hval : ∀ v ∈ s.vset, ∀ y, values[v]? = some y → y ≤ s.data := by
      intro v hvs y hy
      exact k2 (Or.inr ⟨v, hvs, v, List.getElem?_range (hvn v hvs), hy⟩)
    refine ⟨?_, fun y ⟨v, hvs, hy⟩ => hval v hvs y hy⟩
    rcases k1 with h | ⟨v, hvs, i, hi, hy⟩
    · have hne : s.vset.Nonempty := (List.toFinset_nonempty_iff _).2 (hMwf.nonempty s hs)
      obtain ⟨v, hvs⟩ := hne
      have hlt : v < values.length := by rw [hlen]; exact hvn v hvs
      have hy := List.getElem?_eq_getElem hlt
      have := hval v hvs _ hy
      have h' := hlo _ (List.getElem_mem hlt)
      exact ⟨v, hvs, by rw [hy, le_antisymm (h ▸ this) h', h]⟩
    · have hin := (List.getElem?_eq_some_iff.1 hi)
      have : i = v := by
        obtain ⟨hlt, hh⟩ := hin
        simpa using hh
      exact ⟨v, hvs, this ▸ hy⟩
  have hmono : ∀ s ∈ M, ∀ t ∈ M, s.vset ⊂ t.vset → s.data ≤ t.data := by
    intro s hs t ht hst
    obtain ⟨v, hvs, hy⟩ := (hdata s hs).1
    exact (hdata t ht).2 ⟨v, hst.1 hvs, hy⟩
  obtain ⟨k1, k2, k3⟩ := sort_data_spec hMwf hmono
  have hperm := sort_perm M (asLt (Filtration.data fun a b => decide (a < b)))
  refine ⟨_, by unfold buildVietorisRipsWithValues; rw [hrun]; simp only [h1, g1], k1, ?_, ?_, k2, k3⟩
  · intro t
    have : Has (M.sort (asLt (Filtration.data fun a b => decide (a < b)))) t ↔ Has M t := by
      unfold Has
      simp only [hperm.mem_iff]
    rw [this, hMhas, h3, hcl]
  · exact fun s hs => hdata s (hperm.subset hs)

/-- Three points on a line: the hypotheses hold and the result has all seven simplices. -/
example : (∀ u v, u < v → v < 3 → (0 : ℤ) ≤ (fun i j : ℕ => ((j : ℤ) - i)) u v) ∧
    buildVietorisRips (Orders.default ℤ) 0 3 (fun i j => ((j : ℤ) - i).natAbs) 3 2 = some
      [⟨[0], 0⟩, ⟨[1], 0⟩, ⟨[2], 0⟩, ⟨[1, 0], 1⟩, ⟨[2, 1], 1⟩, ⟨[2, 0], 2⟩, ⟨[2, 1, 0], 2⟩] :=
  ⟨fun u v h _ => by simp; omega, by decide⟩

/-- The threshold is strict. -/
example : buildVietorisRips (Orders.default ℤ) 0 2 (fun i j => ((j : ℤ) - i).natAbs) 1 2 = some
      [⟨[0], 0⟩, ⟨[1], 0⟩] := by decide

example : buildVietorisRipsWithValues (Orders.default ℤ) 0 (-100) 2 (fun i j => ((j : ℤ) - i).natAbs) 2 2 [7, 3] = some
      [⟨[1], 3⟩, ⟨[0], 7⟩, ⟨[1, 0], 7⟩] := by decide

end Aleph
