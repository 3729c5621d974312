import Verif.Model.Witness
import Verif.Spec.Witness
import Verif.Props.VietorisRips
import Verif.Props.PhiPersistence

/-!
# C45: witness complexes
-/

namespace Aleph

open Finset Spec Rips

variable {α : Type}

/-! ### Flag complexes of weighted graphs -/

/-- Expanding a weighted graph on `n` vertices, assigning maximum weights, and sorting. -/
theorem flag_spec [LinearOrder α] (o : Orders α) (d0 : α) (n : ℕ) (w : ℕ → ℕ → Option α) (d : ℕ)
    (K : Complex α) (hK : WF K) (hv : ∀ v, Has K {v} ↔ v < n)
    (he : ∀ u v, u < v → (Has K {u, v} ↔ v < n ∧ (w u v).isSome))
    (hd1 : ∀ s ∈ K, #s.vset = 1 → s.data = d0)
    (hd2 : ∀ s ∈ K, ∀ u v, u < v → s.vset = {u, v} → w u v = some s.data)
    (hpos : ∀ u v x, u < v → v < n → w u v = some x → d0 ≤ x) :
    ∃ E M, expand o d0 K d = some E ∧ assignMaximumWeight o 1 E = some M ∧
      let L := M.sort (asLt (Filtration.data fun a b => decide (a < b)))
      WF L ∧
      (∀ t : Finset ℕ, Has L t ↔ t.Nonempty ∧ #t ≤ d + 1 ∧ (∀ v ∈ t, v < n) ∧
        ∀ u ∈ t, ∀ v ∈ t, u < v → (w u v).isSome) ∧
      (∀ s ∈ L, #s.vset = 1 → s.data = d0) ∧
      (∀ s ∈ L, 2 ≤ #s.vset →
        IsGreatest {y | ∃ u ∈ s.vset, ∃ v ∈ s.vset, u < v ∧ w u v = some y} s.data) ∧
      FacesFirst L ∧ L.Pairwise fun s t => s.data ≤ t.data := by
  have hcl : ∀ t : Finset ℕ, IsClique K t ↔ (∀ v ∈ t, v < n) ∧
      ∀ u ∈ t, ∀ v ∈ t, u < v → (w u v).isSome := by
    intro t
    unfold IsClique
    constructor
    · rintro ⟨ha, hb⟩
      refine ⟨fun v hv' => (hv v).1 (ha v hv'), fun u hu v hv' huv => ?_⟩
      exact ((he u v huv).1 (hb u hu v hv' (by omega))).2
    · rintro ⟨ha, hb⟩
      refine ⟨fun v hv' => (hv v).2 (ha v hv'), fun u hu v hv' huv => ?_⟩
      rcases lt_or_gt_of_ne huv with h | h
      · exact (he u v h).2 ⟨ha v hv', hb u hu v hv' h⟩
      · rw [pair_comm]
        exact (he v u h).2 ⟨ha u hu, hb v hv' u hu h⟩
  have hec : EdgeClosed K := by
    intro u v huv h'
    rw [hv]
    rcases lt_or_gt_of_ne huv with h | h
    · have := (he u v h).1 h'; omega
    · rw [pair_comm] at h'
      exact ((he v u h).1 h').1
  obtain ⟨E, h1, h2, h3, h4, h5⟩ := C26_cliques o d0 K hK hec d
  obtain ⟨E', M, h1', g1, g2, g3, g4, g5, -⟩ := C27_expansion_weights o d0 K hK hec d
  rw [h1] at h1'
  cases h1'
  have hedge : ∀ e : Finset ℕ, ∀ y, #e = 2 → HasData K e y →
      ∃ u ∈ e, ∃ v ∈ e, u < v ∧ w u v = some y := by
    rintro e y hcard ⟨s, hs, rfl, rfl⟩
    obtain ⟨a, b, hab, heq⟩ := card_eq_two.1 hcard
    rcases lt_or_gt_of_ne hab with h | h
    · exact ⟨a, by rw [heq]; simp, b, by rw [heq]; simp, h, hd2 s hs a b h heq⟩
    · exact ⟨b, by rw [heq]; simp, a, by rw [heq]; simp, h, hd2 s hs b a h (heq.trans (pair_comm _ _))⟩
  have hcard1 : ∀ s ∈ M, #s.vset = 1 → s.data = d0 := by
    intro s hs hcard
    obtain ⟨a, ha, hae, had⟩ := g4 s hs hcard
    rw [← had]
    exact hd1 a ha (by rw [hae]; exact hcard)
  have hcard2 : ∀ s ∈ M, 2 ≤ #s.vset →
      IsGreatest {y | ∃ u ∈ s.vset, ∃ v ∈ s.vset, u < v ∧ w u v = some y} s.data := by
    intro s hs hcard
    obtain ⟨⟨e, hes, hec, hed⟩, hub⟩ := g5 s hs hcard (by
      intro e heK hec
      obtain ⟨a, ha, b, hb, hab, hy⟩ := hedge e.vset e.data hec ⟨e, heK, rfl, rfl⟩
      refine hpos a b _ hab ?_ hy
      have hpair : e.vset = {a, b} := (eq_of_subset_of_card_le
        (insert_subset ha (singleton_subset_iff.2 hb)) (by rw [hec, card_pair (by omega)])).symm
      exact ((he a b hab).1 ⟨e, heK, hpair⟩).1)
    refine ⟨?_, ?_⟩
    · obtain ⟨u, hu, v, hv, huv, hy⟩ := hedge e _ hec hed
      exact ⟨u, hes hu, v, hes hv, huv, hy⟩
    · rintro y ⟨u, hu, v, hvs, huv, hy⟩
      have hsE : Has E s.vset := (g3 _).1 ⟨s, hs, rfl⟩
      obtain ⟨-, -, hclq⟩ := (h3 _).1 hsE
      obtain ⟨a, ha, hae⟩ := hclq.2 u hu v hvs (by omega)
      refine hub ⟨{u, v}, insert_subset hu (singleton_subset_iff.2 hvs), card_pair (by omega), a, ha, hae, ?_⟩
      have := hd2 a ha u v huv hae
      rw [hy] at this
      exact (Option.some.inj this).symm
  have hmono : ∀ s ∈ M, ∀ t ∈ M, s.vset ⊂ t.vset → s.data ≤ t.data := by
    intro s hs t ht hst
    have hlt := card_lt_card hst
    have hsne : 0 < #s.vset := by
      rw [card_pos]
      exact List.toFinset_nonempty_iff _ |>.2 (g2.nonempty s hs)
    obtain ⟨-, hub⟩ := hcard2 t ht (by omega)
    by_cases h : #s.vset = 1
    · rw [hcard1 s hs h]
      obtain ⟨u, hu, v, hvt, huv, hy⟩ := (hcard2 t ht (by omega)).1
      have htE : Has E t.vset := (g3 _).1 ⟨t, ht, rfl⟩
      obtain ⟨-, -, hclq⟩ := (h3 _).1 htE
      exact hpos u v _ huv (((hcl _).1 hclq).1 v hvt) hy
    · obtain ⟨u, hu, v, hvt, huv, hy⟩ := (hcard2 s hs (by omega)).1
      exact hub ⟨u, hst.1 hu, v, hst.1 hvt, huv, hy⟩
  obtain ⟨k1, k2, k3⟩ := sort_data_spec g2 hmono
  have hperm := sort_perm M (asLt (Filtration.data fun a b => decide (a < b)))
  refine ⟨E, M, h1, g1, k1, ?_, ?_, ?_, k2, k3⟩
  · intro t
    have : Has (M.sort (asLt (Filtration.data fun a b => decide (a < b)))) t ↔ Has M t := by
      unfold Has
      simp only [hperm.mem_iff]
    rw [this, g3, h3, hcl]
  · exact fun s hs => hcard1 s (hperm.subset hs)
  · exact fun s hs => hcard2 s (hperm.subset hs)

/-- Inserting the vertices below `n` and weighted edges between them, in any order. -/
theorem graph_spec (d0 : α) (n : ℕ) (w : ℕ → ℕ → Option α) (l : List (Simplex α))
    (hmem : ∀ s, s ∈ l ↔ (∃ i < n, s = ⟨[i], d0⟩) ∨
      ∃ u v x, u < v ∧ v < n ∧ w u v = some x ∧ s = ⟨[v, u], x⟩) :
    ∃ K, Complex.insertRange [] l = (K, false) ∧ WF K ∧
      (∀ v, Has K {v} ↔ v < n) ∧
      (∀ u v, u < v → (Has K {u, v} ↔ v < n ∧ (w u v).isSome)) ∧
      (∀ s ∈ K, #s.vset = 1 → s.data = d0) ∧
      (∀ s ∈ K, ∀ u v, u < v → s.vset = {u, v} → w u v = some s.data) := by
  obtain ⟨K, h1, -, h2, h3⟩ := insertRange_spec [] l (by
    intro s hs
    rcases (hmem s).1 hs with ⟨i, -, rfl⟩ | ⟨u, v, x, -, -, -, rfl⟩ <;> simp)
  have hwf : WF K := by
    have := insertRange_wf Spec.WF.nil (l := l) (by
      intro s hs
      rcases (hmem s).1 hs with ⟨i, -, rfl⟩ | ⟨u, v, x, h, -, -, rfl⟩
      · simp [Normal]
      · simpa [Normal] using h)
    rw [h1] at this
    exact this
  have hK : ∀ s ∈ K, (∃ i < n, s = ⟨[i], d0⟩) ∨
      ∃ u v x, u < v ∧ v < n ∧ w u v = some x ∧ s = ⟨[v, u], x⟩ := fun s hs =>
    (hmem s).1 ((h2 s hs).resolve_left (by simp))
  have hpne : ∀ a b c : ℕ, b < c → ({a} : Finset ℕ) ≠ {b, c} := by
    intro a b c hbc h
    have := congrArg Finset.card h
    rw [card_pair (by omega)] at this
    simp at this
  have hpp : ∀ a b c d : ℕ, a < b → c < d → ({b, a} : Finset ℕ) = {c, d} → a = c ∧ b = d := by
    intro a b c d hab hcd h
    have h1 : a ∈ ({c, d} : Finset ℕ) := by rw [← h]; simp
    have h2 : b ∈ ({c, d} : Finset ℕ) := by rw [← h]; simp
    simp only [mem_insert, mem_singleton] at h1 h2
    omega
  refine ⟨K, h1, hwf, ?_, ?_, ?_, ?_⟩
  · intro v
    constructor
    · rintro ⟨s, hs, he⟩
      rcases hK s hs with ⟨i, hi, rfl⟩ | ⟨a, b, x, hab, -, -, rfl⟩
      · simp only [Simplex.vset, List.toFinset_cons, List.toFinset_nil, insert_empty_eq,
          singleton_inj] at he
        omega
      · exfalso
        have he' : ({b, a} : Finset ℕ) = {v} := by simpa [Simplex.vset] using he
        rw [pair_comm] at he'
        exact hpne v a b hab he'.symm
    · intro hv
      obtain ⟨t, ht, he⟩ := h3 ⟨[v], d0⟩ ((hmem _).2 (Or.inl ⟨v, hv, rfl⟩))
      exact ⟨t, ht, by unfold Simplex.vset; rw [he]; simp⟩
  · intro u v huv
    constructor
    · rintro ⟨s, hs, he⟩
      rcases hK s hs with ⟨i, hi, rfl⟩ | ⟨a, b, x, hab, hb, hd, rfl⟩
      · exact absurd (by simpa [Simplex.vset] using he) (hpne i u v huv)
      · obtain ⟨rfl, rfl⟩ := hpp a b u v hab huv (by simpa [Simplex.vset] using he)
        exact ⟨hb, by rw [hd]; rfl⟩
    · rintro ⟨hv, hd⟩
      obtain ⟨x, hx⟩ := Option.isSome_iff_exists.1 hd
      obtain ⟨t, ht, he⟩ := h3 ⟨[v, u], x⟩ ((hmem _).2 (Or.inr ⟨u, v, x, huv, hv, hx, rfl⟩))
      exact ⟨t, ht, by unfold Simplex.vset; rw [he]; simp [pair_comm]⟩
  · intro s hs hcard
    rcases hK s hs with ⟨i, hi, rfl⟩ | ⟨a, b, x, hab, hb, hd, rfl⟩
    · rfl
    · simp only [Simplex.vset, List.toFinset_cons, List.toFinset_nil, insert_empty_eq] at hcard
      rw [card_pair (by omega)] at hcard
      omega
  · intro s hs u v huv he
    rcases hK s hs with ⟨i, hi, rfl⟩ | ⟨a, b, x, hab, hb, hd, rfl⟩
    · exact absurd (by simpa [Simplex.vset] using he) (hpne i u v huv)
    · obtain ⟨rfl, rfl⟩ := hpp a b u v hab huv (by simpa [Simplex.vset] using he)
      exact hd

theorem ofRange_pair (u v : ℕ) (x : α) (huv : u < v) : Simplex.ofRange [u, v] x = ⟨[v, u], x⟩ := by
  have : (Simplex.ofRange [u, v] x).vertices = [v, u] := by
    refine Normal.ext (ofRange_normal _ _) (by simpa [Normal] using huv) fun y => ?_
    rw [mem_ofRange]; simp [or_comm]
  show Simplex.mk (Simplex.ofRange [u, v] x).vertices _ = _
  rw [this]

/-! ### The thresholds -/

theorem nthElement_spec [LinearOrder α] (l : List α) (nu : ℕ) (h0 : 0 < nu) (h1 : nu ≤ l.length) :
    ∃ m, Witness.nthElement l nu = some m ∧ IsNthSmallest l nu m := by
  set s := l.insertionSort (· ≤ ·) with hs
  have hp : s.Perm l := List.perm_insertionSort _ _
  have hlt : nu - 1 < s.length := by rw [hp.length_eq]; omega
  have hsort : s.Pairwise (· ≤ ·) := List.pairwise_insertionSort _ _
  refine ⟨s[nu - 1], by unfold Witness.nthElement; exact List.getElem?_eq_getElem hlt, ?_, ?_, ?_⟩
  · exact hp.subset (List.getElem_mem hlt)
  · rw [← (hp.filter _).length_eq]
    have hsplit : ∀ p : α → Bool, s.filter p = (s.take (nu - 1)).filter p ++ (s.drop (nu - 1)).filter p := by
      intro p; rw [← List.filter_append, List.take_append_drop]
    have hnil : (s.drop (nu - 1)).filter (· < s[nu - 1]) = [] := by
      rw [List.filter_eq_nil_iff]
      intro a ha
      obtain ⟨i, hi, rfl⟩ := List.mem_iff_getElem.1 ha
      rw [List.getElem_drop]
      simp only [decide_eq_true_eq, not_lt]
      rcases Nat.eq_zero_or_pos i with rfl | hi0
      · simp
      · exact List.pairwise_iff_getElem.1 hsort _ _ hlt _ (by omega)
    rw [hsplit, hnil, List.append_nil]
    calc _ ≤ (s.take (nu - 1)).length := List.length_filter_le _ _
      _ < nu := by rw [List.length_take]; omega
  · rw [← (hp.filter _).length_eq]
    have hsplit : ∀ p : α → Bool, s.filter p = (s.take nu).filter p ++ (s.drop nu).filter p := by
      intro p; rw [← List.filter_append, List.take_append_drop]
    have hall : (s.take nu).filter (· ≤ s[nu - 1]) = s.take nu := by
      rw [List.filter_eq_self]
      intro a ha
      obtain ⟨i, hi, rfl⟩ := List.mem_iff_getElem.1 ha
      rw [List.getElem_take, decide_eq_true_iff]
      rw [List.length_take] at hi
      rcases Nat.lt_or_ge i (nu - 1) with h | h
      · exact List.pairwise_iff_getElem.1 hsort _ _ _ hlt h
      · have : i = nu - 1 := by omega
        subst this; exact le_refl _
    rw [hsplit, hall, List.length_append, List.length_take]
    rw [hp.length_eq]
    omega

/-- The `nu`-th smallest element is unique. -/
theorem Spec.IsNthSmallest.unique [LinearOrder α] {l : List α} {nu : ℕ} {m m' : α}
    (h : IsNthSmallest l nu m) (h' : IsNthSmallest l nu m') : m = m' := by
  have key : ∀ {m m' : α}, IsNthSmallest l nu m → IsNthSmallest l nu m' → ¬ m < m' := by
    intro m m' h h' hlt
    have : (l.filter (· ≤ m)).length ≤ (l.filter (· < m')).length := by
      refine (List.monotone_filter_right l ?_).length_le
      intro a ha
      simp only [decide_eq_true_eq] at ha ⊢
      exact lt_of_le_of_lt ha hlt
    have := h.2.2
    have := h'.2.1
    omega
  exact le_antisymm (not_lt.1 (key h' h)) (not_lt.1 (key h h'))

theorem Spec.IsThreshold.unique [LinearOrder α] [Zero α] {dist : ℕ → ℕ → α} {landmarks : List ℕ}
    {nu k : ℕ} {m m' : α} (h : IsThreshold dist landmarks nu k m)
    (h' : IsThreshold dist landmarks nu k m') : m = m' := by
  rcases h with ⟨h1, h2⟩ | ⟨h1, h2⟩ <;> rcases h' with ⟨h1', h2'⟩ | ⟨h1', h2'⟩
  · rw [h2, h2']
  · omega
  · omega
  · exact h2.unique h2'

/-- All thresholds exist if `nu` does not exceed the number of landmarks. -/
theorem smallest_spec [LinearOrder α] [Zero α] (N : ℕ) (dist : ℕ → ℕ → α) (landmarks : List ℕ)
    (nu : ℕ) (h : nu ≤ landmarks.length) :
    ∃ f : ℕ → α, (∀ k, IsThreshold dist landmarks nu k (f k)) ∧
      Witness.smallest nu ((List.range N).map fun j => landmarks.map fun l => dist l j) =
        some ((List.range N).map f) := by
  unfold Witness.smallest
  by_cases h0 : nu = 0
  · subst h0
    refine ⟨fun _ => 0, fun k => Or.inl ⟨rfl, rfl⟩, ?_⟩
    rw [if_neg (by simp), List.map_map]
    rfl
  · choose f hf1 hf2 using fun k => nthElement_spec (landmarks.map fun l => dist l k) nu (by omega)
      (by simpa using h)
    refine ⟨f, fun k => Or.inr ⟨by omega, hf2 k⟩, ?_⟩
    rw [if_pos h0, List.mapM_map]
    exact mapM_all_some _ _ _ fun k _ => hf1 k

/-! ### The graph -/

theorem foldl_minIf_spec [LinearOrder α] (P : ℕ → Prop) [DecidablePred P] (g : ℕ → α) (ks : List ℕ) (x : α) :
    IsLeast {y | y = x ∨ ∃ k ∈ ks, P k ∧ y = g k}
      (ks.foldl (fun z k => if P k then min z (g k) else z) x) := by
  induction ks generalizing x with
  | nil => simp [IsLeast, lowerBounds]
  | cons k ks ih =>
    rw [List.foldl_cons]
    obtain ⟨h1, h2⟩ := ih (if P k then min x (g k) else x)
    by_cases hP : P k
    · rw [if_pos hP] at h1 h2 ⊢
      refine ⟨?_, ?_⟩
      · rcases h1 with h | ⟨j, hj, hPj, h⟩
        · rcases min_choice x (g k) with e | e
          · exact Or.inl (h.trans e)
          · exact Or.inr ⟨k, List.mem_cons_self, hP, h.trans e⟩
        · exact Or.inr ⟨j, List.mem_cons_of_mem _ hj, hPj, h⟩
      · have hle := h2 (Or.inl rfl)
        rintro y (rfl | ⟨j, hj, hPj, rfl⟩)
        · exact hle.trans (min_le_left _ _)
        · rcases List.mem_cons.1 hj with rfl | hj
          · exact hle.trans (min_le_right _ _)
          · exact h2 (Or.inr ⟨j, hj, hPj, rfl⟩)
    · rw [if_neg hP] at h1 h2 ⊢
      refine ⟨?_, ?_⟩
      · rcases h1 with h | ⟨j, hj, hPj, h⟩
        · exact Or.inl h
        · exact Or.inr ⟨j, List.mem_cons_of_mem _ hj, hPj, h⟩
      · rintro y (rfl | ⟨j, hj, hPj, rfl⟩)
        · exact h2 (Or.inl rfl)
        · rcases List.mem_cons.1 hj with rfl | hj
          · exact absurd hPj hP
          · exact h2 (Or.inr ⟨j, hj, hPj, rfl⟩)

theorem edgeWeight_eq [LinearOrder α] [Add α] (top R : α) (N : ℕ) (dist : ℕ → ℕ → α)
    (landmarks : List ℕ) (f : ℕ → α) (i j a b : ℕ) (hi : landmarks[i]? = some a)
    (hj : landmarks[j]? = some b) :
    Witness.edgeWeight top R ((List.range N).map fun k => landmarks.map fun l => dist l k)
        ((List.range N).map f) i j =
      some ((List.range N).foldl (fun z k => if max (dist a k) (dist b k) ≤ R + f k then
        min z (max (dist a k) (dist b k)) else z) top) := by
  unfold Witness.edgeWeight
  have : ((List.range N).map fun k => landmarks.map fun l => dist l k).zip ((List.range N).map f) =
      (List.range N).map fun k => (landmarks.map fun l => dist l k, f k) := by
    rw [List.zip_map', ]
  rw [this]
  generalize List.range N = ks
  clear this
  induction ks generalizing top with
  | nil => rfl
  | cons k ks ih =>
    rw [List.map_cons, List.foldlM_cons, List.foldl_cons, ← ih]
    simp [hi, hj]

theorem witness_simplices [LinearOrder α] [Add α] [Zero α] (top R : α) (N : ℕ) (dist : ℕ → ℕ → α)
    (landmarks : List ℕ) (nu : ℕ) (f : ℕ → α) (hf : ∀ k, IsThreshold dist landmarks nu k (f k))
    (htop : ∀ a ∈ landmarks, ∀ k < N, dist a k < top) :
    ∃ w : ℕ → ℕ → Option α,
      (∀ u v y, u < v → v < landmarks.length →
        (w u v = some y ↔ IsWitnessWeight N dist landmarks nu R u v y)) ∧
      (∀ u v, u < v → v < landmarks.length →
        ((w u v).isSome ↔ ∃ k < N, ∃ y, IsWitness dist landmarks nu R k u v y)) ∧
      ∃ l, Witness.simplices top R ((List.range N).map fun k => landmarks.map fun l => dist l k)
          ((List.range N).map f) landmarks.length = some l ∧
        ∀ s, s ∈ l ↔ (∃ i < landmarks.length, s = ⟨[i], 0⟩) ∨
          ∃ u v x, u < v ∧ v < landmarks.length ∧ w u v = some x ∧ s = ⟨[v, u], x⟩ := by
  set D := (List.range N).map fun k => landmarks.map fun l => dist l k with hD
  set m := (List.range N).map f with hm
  have hget : ∀ i, i < landmarks.length → ∃ a, landmarks[i]? = some a ∧ a ∈ landmarks := by
    intro i hi
    exact ⟨_, List.getElem?_eq_getElem hi, List.getElem_mem hi⟩
  let w : ℕ → ℕ → Option α := fun u v => (Witness.edgeWeight top R D m u v).bind fun x =>
    if x ≠ top then some x else none
  -- the value computed for a pair of landmarks
  have hval : ∀ u v, u < v → v < landmarks.length → ∃ x, Witness.edgeWeight top R D m u v = some x ∧
      IsLeast {y | y = top ∨ ∃ k < N, IsWitness dist landmarks nu R k u v y} x := by
    intro u v huv hv
    obtain ⟨a, ha, -⟩ := hget u (by omega)
    obtain ⟨b, hb, -⟩ := hget v hv
    refine ⟨_, edgeWeight_eq top R N dist landmarks f u v a b ha hb, ?_⟩
    have h := foldl_minIf_spec (fun k => max (dist a k) (dist b k) ≤ R + f k)
      (fun k => max (dist a k) (dist b k)) (List.range N) top
    convert h using 4 with y
    constructor
    · rintro ⟨k, hk, a', b', m', ha', hb', hm', hy, hle⟩
      rw [ha] at ha'; cases ha'
      rw [hb] at hb'; cases hb'
      have := hm'.unique (hf k)
      subst this
      exact ⟨k, List.mem_range.2 hk, hy ▸ hle, hy⟩
    · rintro ⟨k, hk, hle, hy⟩
      exact ⟨k, List.mem_range.1 hk, a, b, f k, ha, hb, hf k, hy, hy ▸ hle⟩
  have hlt : ∀ u v k y, k < N → IsWitness dist landmarks nu R k u v y → y < top := by
    rintro u v k y hk ⟨a, b, m, ha, hb, -, rfl, -⟩
    exact max_lt (htop a (List.mem_of_getElem? ha) k hk) (htop b (List.mem_of_getElem? hb) k hk)
  have hw : ∀ u v, u < v → v < landmarks.length → ∃ x, Witness.edgeWeight top R D m u v = some x ∧
      ((x = top ∧ w u v = none ∧ ¬ ∃ k < N, ∃ y, IsWitness dist landmarks nu R k u v y) ∨
        (x ≠ top ∧ w u v = some x ∧ IsWitnessWeight N dist landmarks nu R u v x)) := by
    intro u v huv hv
    obtain ⟨x, hx, h1, h2⟩ := hval u v huv hv
    refine ⟨x, hx, ?_⟩
    by_cases hxt : x = top
    · refine Or.inl ⟨hxt, by simp [w, hx, hxt], ?_⟩
      rintro ⟨k, hk, y, hy⟩
      have := h2 (Or.inr ⟨k, hk, hy⟩)
      have := hlt u v k y hk hy
      rw [hxt] at *
      order
    · refine Or.inr ⟨hxt, by simp [w, hx, hxt], h1.resolve_left hxt, ?_⟩
      rintro y ⟨k, hk, hy⟩
      exact h2 (Or.inr ⟨k, hk, hy⟩)
  have hedges : ∀ i < landmarks.length, Witness.edgesOf top R D m landmarks.length i =
      some ((List.range' (i + 1) (landmarks.length - (i + 1))).flatMap fun j =>
        ((w i j).map fun x => (⟨[j, i], x⟩ : Simplex α)).toList) := by
    intro i hi
    unfold Witness.edgesOf
    rw [mapM_all_some _ (fun j => ((w i j).map fun x => (⟨[j, i], x⟩ : Simplex α)).toList)]
    · rfl
    · intro j hj
      rw [List.mem_range'_1] at hj
      obtain ⟨x, hx, ⟨h1, h2, -⟩ | ⟨h1, h2, -⟩⟩ := hw i j (by omega) (by omega)
      · rw [hx, h2]; simp [h1]
      · rw [hx, h2]; simp [h1, ofRange_pair i j x (by omega)]
  refine ⟨w, ?_, ?_, ?_⟩
  · intro u v y huv hv
    obtain ⟨x, hx, ⟨h1, h2, h3⟩ | ⟨h1, h2, h3⟩⟩ := hw u v huv hv
    · rw [h2]
      simp only [reduceCtorEq, false_iff]
      rintro ⟨⟨k, hk, hy⟩, -⟩
      exact h3 ⟨k, hk, y, hy⟩
    · rw [h2, Option.some.injEq]
      constructor
      · rintro rfl; exact h3
      · intro h; exact h3.unique h
  · intro u v huv hv
    obtain ⟨x, hx, ⟨h1, h2, h3⟩ | ⟨h1, h2, h3⟩⟩ := hw u v huv hv
    · simpa [h2] using h3
    · rw [h2]
      obtain ⟨⟨k, hk, hy⟩, -⟩ := h3
      simp only [Option.isSome_some, true_iff]
      exact ⟨k, hk, x, hy⟩
  · refine ⟨(List.range landmarks.length).flatMap fun i => (⟨[i], 0⟩ : Simplex α) ::
      (List.range' (i + 1) (landmarks.length - (i + 1))).flatMap fun j =>
        ((w i j).map fun x => (⟨[j, i], x⟩ : Simplex α)).toList, ?_, ?_⟩
    · unfold Witness.simplices
      rw [mapM_all_some _ (fun i => (⟨[i], 0⟩ : Simplex α) ::
        (List.range' (i + 1) (landmarks.length - (i + 1))).flatMap fun j =>
          ((w i j).map fun x => (⟨[j, i], x⟩ : Simplex α)).toList)]
      · rfl
      · intro i hi
        rw [hedges i (List.mem_range.1 hi)]
        rfl
    · intro s
      simp only [List.mem_flatMap, List.mem_range, List.mem_cons, List.mem_range'_1,
        Option.mem_toList, Option.map_eq_some_iff]
      constructor
      · rintro ⟨i, hi, rfl | ⟨j, hj, x, hx, rfl⟩⟩
        · exact Or.inl ⟨i, hi, rfl⟩
        · exact Or.inr ⟨i, j, x, by omega, by omega, hx, rfl⟩
      · rintro (⟨i, hi, rfl⟩ | ⟨u, v, x, huv, hv, hx, rfl⟩)
        · exact ⟨i, hi, Or.inl rfl⟩
        · exact ⟨u, by omega, Or.inr ⟨v, by omega, x, hx, rfl⟩⟩

/-- C45. The witness complex of `N` points with respect to a list of landmarks (indices of points).  Its
vertices are the positions in the list of landmarks; its simplices are the non-empty sets of at most
`dimension + 1` landmarks (`d + 2` if no dimension is given, where `d` is the dimension of the container) any two of
which have a witness: a point whose distance to both is at most `R` plus its distance to its `nu`-th nearest
landmark.  Vertices have the weight zero, edges the smallest distance for which there is a witness, other
simplices the largest weight of their edges, and the result is a filtration sorted by weights.  Distances are
non-negative and smaller than the largest representable number `top`. -/
theorem C45_witness_complex [LinearOrder α] [Add α] [Zero α] (o : Orders α) (top : α) (N d : ℕ)
    (dist : ℕ → ℕ → α) (landmarks : List ℕ) (dimension nu : ℕ) (R : α) (hl : landmarks ≠ [])
    (hvalid : ∀ a ∈ landmarks, a < N) (hnu : nu ≤ landmarks.length)
    (hdist : ∀ a ∈ landmarks, ∀ k < N, 0 ≤ dist a k ∧ dist a k < top) :
    ∃ L, Witness.build o top N d dist landmarks dimension nu R = some L ∧ WF L ∧
      (∀ t : Finset ℕ, Has L t ↔ t.Nonempty ∧ #t ≤ (if dimension = 0 then d + 1 else dimension) + 1 ∧
        (∀ v ∈ t, v < landmarks.length) ∧
        ∀ u ∈ t, ∀ v ∈ t, u < v → ∃ k < N, ∃ y, IsWitness dist landmarks nu R k u v y) ∧
      (∀ s ∈ L, #s.vset = 1 → s.data = 0) ∧
      (∀ s ∈ L, 2 ≤ #s.vset → IsGreatest {y | ∃ u ∈ s.vset, ∃ v ∈ s.vset, u < v ∧
        IsWitnessWeight N dist landmarks nu R u v y} s.data) ∧
      FacesFirst L ∧ L.Pairwise fun s t => s.data ≤ t.data := by
  obtain ⟨f, hf, hsm⟩ := smallest_spec N dist landmarks nu hnu
  obtain ⟨w, hw1, hw2, l, hs, hmem⟩ := witness_simplices top R N dist landmarks nu f hf
    fun a ha k hk => (hdist a ha k hk).2
  obtain ⟨K, hK, hwf, hv, he, hd1, hd2⟩ := graph_spec 0 landmarks.length w l hmem
  have hpos : ∀ u v x, u < v → v < landmarks.length → w u v = some x → 0 ≤ x := by
    intro u v x huv hv hx
    obtain ⟨⟨k, hk, a, b, m, ha, hb, -, rfl, -⟩, -⟩ := (hw1 u v x huv hv).1 hx
    exact le_max_of_le_left (hdist a (List.mem_of_getElem? ha) k hk).1
  obtain ⟨E, M, h1, h2, k1, k2, k3, k4, k5, k6⟩ := flag_spec o 0 landmarks.length w
    (if dimension = 0 then d + 1 else dimension) K hwf hv he hd1 hd2 hpos
  have hvlt : ∀ s ∈ M.sort (asLt (Filtration.data fun a b => decide (a < b))), ∀ v ∈ s.vset,
      v < landmarks.length := fun s hs v hv => ((k2 s.vset).1 ⟨s, hs, rfl⟩).2.2.1 v hv
  refine ⟨_, ?_, k1, ?_, k3, ?_, k5, k6⟩
  · unfold Witness.build
    rw [if_neg, Witness.distances, if_pos]
    · simp only [hsm, hs, hK, h1, h2]
    · simpa using hvalid
    · push Not
      obtain ⟨a, ha⟩ := List.exists_mem_of_ne_nil _ hl
      have := hvalid a ha
      exact ⟨by simpa using hl, by omega⟩
  · intro t
    rw [k2]
    refine and_congr_right fun _ => and_congr_right fun _ => and_congr_right fun hlt => ?_
    refine forall₄_congr fun u hu v hv => forall_congr' fun huv => ?_
    exact hw2 u v huv (hlt v hv)
  · intro s hs' hc
    have := k4 s hs' hc
    convert this using 1
    ext y
    constructor
    · rintro ⟨u, hu, v, hv, huv, hy⟩
      exact ⟨u, hu, v, hv, huv, (hw1 u v y huv (hvlt s hs' v hv)).2 hy⟩
    · rintro ⟨u, hu, v, hv, huv, hy⟩
      exact ⟨u, hu, v, hv, huv, (hw1 u v y huv (hvlt s hs' v hv)).1 hy⟩

/-- C45. Without landmarks or points the complex is empty. -/
theorem C45_empty [LinearOrder α] [Add α] [Zero α] (o : Orders α) (top : α) (N d : ℕ)
    (dist : ℕ → ℕ → α) (landmarks : List ℕ) (dimension nu : ℕ) (R : α) (h : landmarks = [] ∨ N = 0) :
    Witness.build o top N d dist landmarks dimension nu R = some [] := by
  unfold Witness.build
  rw [if_pos]
  simpa using h

/-- Six points on a line and three landmarks. -/
def lineDist (i j : ℕ) : ℤ := |(i : ℤ) - j|

example : ∃ L, Witness.build (Orders.default ℤ) 1000 6 1 lineDist [0, 2, 5] 0 2 0 = some L ∧
    L.length = 5 := ⟨_, rfl, by decide +kernel⟩

example : ([0, 2, 5] : List ℕ) ≠ [] ∧ (∀ a ∈ ([0, 2, 5] : List ℕ), a < 6) ∧ 2 ≤ ([0, 2, 5] : List ℕ).length ∧
    ∀ a ∈ ([0, 2, 5] : List ℕ), ∀ k < 6, 0 ≤ lineDist a k ∧ lineDist a k < 1000 := by
  decide

/-- C45. If `nu` exceeds the number of landmarks, the code reads past the end of a column. -/
theorem C45_nu_out_of_range [LinearOrder α] [Add α] [Zero α] (o : Orders α) (top : α) (N d : ℕ)
    (dist : ℕ → ℕ → α) (landmarks : List ℕ) (dimension nu : ℕ) (R : α) (hl : landmarks ≠ []) (hN : N ≠ 0)
    (hvalid : ∀ a ∈ landmarks, a < N) (hnu : landmarks.length < nu) :
    Witness.build o top N d dist landmarks dimension nu R = none := by
  have h0 : Witness.nthElement (landmarks.map fun l => dist l 0) nu = none := by
    unfold Witness.nthElement
    rw [List.getElem?_eq_none]
    rw [List.length_insertionSort, List.length_map]
    omega
  have hsm : Witness.smallest nu ((List.range N).map fun j => landmarks.map fun l => dist l j) = none := by
    unfold Witness.smallest
    rw [if_pos (by omega)]
    obtain ⟨n, rfl⟩ := Nat.exists_eq_succ_of_ne_zero hN
    rw [List.range_succ_eq_map, List.map_cons, List.mapM_cons, h0]
    rfl
  unfold Witness.build
  rw [if_neg, Witness.distances, if_pos]
  · simp only [hsm]
  · simpa using hvalid
  · push Not
    exact ⟨by simpa using hl, hN⟩

example : Witness.build (Orders.default ℤ) 1000 6 1 lineDist [0] 0 2 0 = none :=
  C45_nu_out_of_range _ _ _ _ _ _ _ _ _ (by decide) (by decide) (by decide) (by decide)

/-! ### Landmarks -/

/-- C45. Random landmarks are pairwise different valid indices. -/
theorem C45_random_landmarks (shuffle : List ℕ → List ℕ) (hs : ∀ l, (shuffle l).Perm l) (n k : ℕ)
    (hk : k ≤ n) :
    ∃ l, Witness.randomLandmarks shuffle n k = some l ∧ l.length = k ∧ l.Nodup ∧ ∀ i ∈ l, i < n := by
  have hp := hs (List.range n)
  refine ⟨_, if_pos (by rw [hp.length_eq, List.length_range]; exact hk), ?_, ?_, ?_⟩
  · rw [List.length_take, hp.length_eq, List.length_range]; omega
  · exact (hp.nodup_iff.2 List.nodup_range).sublist (List.take_sublist _ _)
  · intro i hi
    exact List.mem_range.1 (hp.subset (List.mem_of_mem_take hi))

example : Witness.randomLandmarks List.reverse 5 3 = some [4, 3, 2] := by decide

theorem minDistance_spec [LinearOrder α] (top : α) (dist : ℕ → ℕ → α) (l : List ℕ) (i : ℕ) (hl : l ≠ [])
    (htop : ∀ j ∈ l, dist i j ≤ top) : IsDistanceTo dist l i (Witness.minDistance top dist l i) := by
  have h := foldl_minIf_spec (fun _ => True) (fun j => dist i j) l top
  simp only [if_true, true_and] at h
  refine ⟨?_, fun y hy => h.2 (Or.inr hy)⟩
  rcases h.1 with e | h'
  · obtain ⟨j, hj⟩ := List.exists_mem_of_ne_nil _ hl
    refine ⟨j, hj, le_antisymm (h.2 (Or.inr ⟨j, hj, rfl⟩)) ?_⟩
    show _ ≤ List.foldl _ _ _
    rw [e]; exact htop j hj
  · exact h'

theorem farthest_loop (g : ℕ → α) [LinearOrder α] (bot : α) (n : ℕ) (hbot : ∀ i < n, bot ≤ g i) :
    let p := (List.range n).foldl (fun p i => if p.1 < g i then (g i, i) else p) (bot, 0)
    (∀ i < n, g i ≤ p.1) ∧ (p = (bot, 0) ∨ (p.2 < n ∧ p.1 = g p.2)) := by
  induction n with
  | zero => simp
  | succ n ih =>
    obtain ⟨h1, h2⟩ := ih fun i hi => hbot i (by omega)
    simp only [List.range_succ, List.foldl_append, List.foldl_cons, List.foldl_nil]
    set p := (List.range n).foldl (fun p i => if p.1 < g i then (g i, i) else p) (bot, 0) with hp
    by_cases h : p.1 < g n
    · rw [if_pos h]
      refine ⟨?_, Or.inr ⟨by simp, rfl⟩⟩
      intro i hi
      rcases Nat.lt_succ_iff_lt_or_eq.1 hi with hi | rfl
      · exact (h1 i hi).trans h.le
      · exact le_refl _
    · rw [if_neg h]
      refine ⟨?_, ?_⟩
      · intro i hi
        rcases Nat.lt_succ_iff_lt_or_eq.1 hi with hi | rfl
        · exact h1 i hi
        · exact not_lt.1 h
      · rcases h2 with h2 | ⟨h2, h3⟩
        · exact Or.inl h2
        · exact Or.inr ⟨by omega, h3⟩

theorem farthest_spec [LinearOrder α] (top bot : α) (N : ℕ) (dist : ℕ → ℕ → α) (l : List ℕ) (hN : 0 < N)
    (hl : l ≠ []) (hb : ∀ i < N, ∀ j ∈ l, bot ≤ dist i j ∧ dist i j ≤ top) :
    (Witness.farthest top bot N dist l).2 < N ∧ ∃ x,
      IsDistanceTo dist l (Witness.farthest top bot N dist l).2 x ∧
      ∀ i < N, ∀ y, IsDistanceTo dist l i y → y ≤ x := by
  have hspec := fun i (hi : i < N) => minDistance_spec top dist l i hl fun j hj => (hb i hi j hj).2
  have hbot : ∀ i < N, bot ≤ Witness.minDistance top dist l i := by
    intro i hi
    obtain ⟨j, hj, e⟩ := (hspec i hi).1
    rw [e]
    exact (hb i hi j hj).1
  obtain ⟨h1, h2⟩ := farthest_loop (Witness.minDistance top dist l) bot N hbot
  change (∀ i < N, _ ≤ (Witness.farthest top bot N dist l).1) at h1
  change Witness.farthest top bot N dist l = _ ∨ _ at h2
  have key : (Witness.farthest top bot N dist l).2 < N ∧
      (Witness.farthest top bot N dist l).1 =
        Witness.minDistance top dist l (Witness.farthest top bot N dist l).2 := by
    rcases h2 with h2 | h2
    · rw [h2] at h1 ⊢
      exact ⟨hN, le_antisymm (hbot 0 hN) (h1 0 hN)⟩
    · exact h2
  refine ⟨key.1, _, hspec _ key.1, ?_⟩
  intro i hi y hy
  rw [hy.unique (hspec i hi), ← key.2]
  exact h1 i hi

theorem selectMore_spec [LinearOrder α] (top bot : α) (N : ℕ) (dist : ℕ → ℕ → α) (hN : 0 < N)
    (hb : ∀ i < N, ∀ j < N, bot ≤ dist i j ∧ dist i j ≤ top) (k : ℕ) (l : List ℕ) (hl : l ≠ [])
    (hlt : ∀ i ∈ l, i < N) :
    ∃ r, Witness.selectMore top bot N dist k l = l ++ r ∧ r.length = k ∧ (∀ i ∈ r, i < N) ∧
      ∀ m a, r[m]? = some a → ∃ x, IsDistanceTo dist (l ++ r.take m) a x ∧
        ∀ i < N, ∀ y, IsDistanceTo dist (l ++ r.take m) i y → y ≤ x := by
  induction k generalizing l with
  | zero => exact ⟨[], by simp [Witness.selectMore], rfl, by simp, by simp⟩
  | succ k ih =>
    obtain ⟨h1, h2⟩ := farthest_spec top bot N dist l hN hl fun i hi j hj => hb i hi j (hlt j hj)
    set a := (Witness.farthest top bot N dist l).2 with ha
    obtain ⟨r, e, hlen, hr, hm⟩ := ih (l ++ [a]) (by simp) (by
      intro i hi
      rcases List.mem_append.1 hi with h | h
      · exact hlt i h
      · rw [List.mem_singleton.1 h]; exact h1)
    refine ⟨a :: r, ?_, by simp [hlen], ?_, ?_⟩
    · rw [Witness.selectMore, ← ha, e]; simp
    · intro i hi
      rcases List.mem_cons.1 hi with rfl | h
      · exact h1
      · exact hr i h
    · intro m b hmb
      cases m with
      | zero =>
        simp only [List.getElem?_cons_zero, Option.some.injEq] at hmb
        subst hmb
        simpa using h2
      | succ m =>
        rw [List.getElem?_cons_succ] at hmb
        have := hm m b hmb
        simpa using this

/-- C45. Max-min landmarks: for `1 ≤ n ≤ N` the function returns `n` valid indices, the first one is arbitrary, and each
following one is a point with the largest distance to the nearest landmark chosen before it. -/
theorem C45_max_min_landmarks [LinearOrder α] (top bot : α) (N : ℕ) (dist : ℕ → ℕ → α) (first n : ℕ)
    (hfirst : first < N) (h1 : 1 ≤ n) (hn : n ≤ N)
    (hb : ∀ i < N, ∀ j < N, bot ≤ dist i j ∧ dist i j ≤ top) :
    ∃ l, Witness.maxMinLandmarks top bot N dist first n = some l ∧ l.length = n ∧
      (∀ i ∈ l, i < N) ∧ l[0]? = some first ∧
      ∀ m a, 0 < m → l[m]? = some a → ∃ x, IsDistanceTo dist (l.take m) a x ∧
        ∀ i < N, ∀ y, IsDistanceTo dist (l.take m) i y → y ≤ x := by
  obtain ⟨r, e, hlen, hr, hm⟩ := selectMore_spec top bot N dist (by omega) hb (n - 1) [first] (by simp)
    (by simpa using hfirst)
  refine ⟨first :: r, ?_, by simp [hlen]; omega, ?_, rfl, ?_⟩
  · unfold Witness.maxMinLandmarks
    rw [if_neg (by omega), e]; rfl
  · intro i hi
    rcases List.mem_cons.1 hi with rfl | h
    · exact hfirst
    · exact hr i h
  · intro m a h0 hma
    obtain ⟨m, rfl⟩ := Nat.exists_eq_succ_of_ne_zero (Nat.pos_iff_ne_zero.1 h0)
    exact hm m a hma

/-- C45. Max-min landmarks are pairwise different if there are at least `n` points with pairwise positive
distances. -/
theorem C45_max_min_nodup [LinearOrder α] (top bot zero : α) (N : ℕ) (dist : ℕ → ℕ → α) (first n : ℕ)
    (hfirst : first < N) (h1 : 1 ≤ n) (hn : n ≤ N)
    (hb : ∀ i < N, ∀ j < N, bot ≤ dist i j ∧ dist i j ≤ top)
    (hself : ∀ i < N, dist i i = zero) (hpos : ∀ i < N, ∀ j < N, i ≠ j → zero < dist i j) :
    ∃ l, Witness.maxMinLandmarks top bot N dist first n = some l ∧ l.Nodup := by
  obtain ⟨l, e, hlen, hlt, -, hm⟩ := C45_max_min_landmarks top bot N dist first n hfirst h1 hn hb
  refine ⟨l, e, ?_⟩
  have key : ∀ m, m ≤ n → (l.take m).Nodup := by
    intro m
    induction m with
    | zero => simp
    | succ m ih =>
      intro hmn
      have hml : m < l.length := by omega
      rw [List.take_succ_eq_append_getElem hml]
      rcases Nat.eq_zero_or_pos m with rfl | h0
      · simp
      obtain ⟨x, hx, hmax⟩ := hm m l[m] h0 (List.getElem?_eq_getElem hml)
      refine List.nodup_append.2 ⟨ih (by omega), by simp, ?_⟩
      intro a ha b hb' hab
      rw [List.mem_singleton] at hb'
      subst hab
      rw [hb'] at ha
      -- a point that has not been chosen yet
      have hex : ∃ i < N, i ∉ l.take m := by
        by_contra hcon
        push Not at hcon
        have : List.range N ⊆ l.take m := fun i hi => hcon i (List.mem_range.1 hi)
        have := (List.nodup_range.subperm this).length_le
        rw [List.length_range, List.length_take] at this
        omega
      obtain ⟨i, hi, hil⟩ := hex
      obtain ⟨y, hy⟩ : ∃ y, IsDistanceTo dist (l.take m) i y := ⟨_, minDistance_spec top dist _ i (by
        intro h
        rcases List.take_eq_nil_iff.1 h with h | h
        · omega
        · rw [h] at hml; simp at hml) fun j hj => (hb i hi j (hlt j (List.mem_of_mem_take hj))).2⟩
      have hyx := hmax i hi y hy
      have hx0 : x ≤ zero := hx.2 ⟨l[m], ha, (hself _ (hlt _ (List.getElem_mem hml))).symm⟩
      obtain ⟨j, hj, hyj⟩ := hy.1
      have : zero < y := by
        rw [hyj]
        refine hpos i hi j (hlt j (List.mem_of_mem_take hj)) ?_
        rintro rfl
        exact hil hj
      order
  have := key n le_rfl
  rwa [List.take_of_length_le (by omega)] at this

/-- C45. Too many landmarks raise an exception; a request for zero landmarks yields one. -/
theorem C45_max_min_range [LinearOrder α] (top bot : α) (N : ℕ) (dist : ℕ → ℕ → α) (first n : ℕ) :
    (N < n → Witness.maxMinLandmarks top bot N dist first n = none) ∧
      Witness.maxMinLandmarks top bot N dist first 0 = some [first] := by
  refine ⟨fun h => if_pos h, ?_⟩
  unfold Witness.maxMinLandmarks
  rw [if_neg (by omega)]
  rfl

example : Witness.maxMinLandmarks 1000 (-1000) 6 lineDist 1 3 = some [1, 5, 3] := by decide

end Aleph
