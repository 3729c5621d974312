import Verif.Model.NetworkAnalysis
import Verif.Spec.NetworkAnalysis
import Verif.Props.PythonZeroDim
import Verif.Props.Utilities
import Verif.Props.EdgeListReader
import Mathlib.Algebra.Order.Field.Basic
import Mathlib.Algebra.Order.Ring.Rat
import Mathlib.Tactic.Linarith

/-!
# C164: analysis of networks
-/

namespace Aleph.NetworkAnalysis

open Finset Spec Rips

variable {α : Type}

/-! ### Weights -/

/-- A simplex with a new weight, unless it is a vertex. -/
def withWeight (f : α → α) (s : Simplex α) : Simplex α := if Complex.dim s = 0 then s else s.withData (f s.data)

theorem withWeight_vertices (f : α → α) (s : Simplex α) : (withWeight f s).vertices = s.vertices := by
  unfold withWeight
  split <;> rfl

theorem withWeight_vset (f : α → α) (s : Simplex α) : (withWeight f s).vset = s.vset := by
  unfold Simplex.vset
  rw [withWeight_vertices]

theorem map_vertices (f : α → α) (K : Complex α) : (K.map (withWeight f)).map (·.vertices) = K.map (·.vertices) := by
  rw [List.map_map]
  exact List.map_congr_left fun s _ => withWeight_vertices f s

theorem wf_map {K : Complex α} (hK : WF K) (f : α → α) : WF (K.map (withWeight f) : Complex α) :=
  hK.of_map_vertices (List.Perm.of_eq (map_vertices f K))

theorem reweigh_eq {K : Complex α} (hK : WF K) (f : α → α) : reweigh f K = K.map (withWeight f) := by
  have key : ∀ n ≤ K.length, (List.range n).foldl (fun (K : Complex α) i =>
      match K[i]? with
      | none => K
      | some s =>
        if Complex.dim s = 0 then K
        else
          match K.replace i (s.withData (f s.data)) with
          | none => K
          | some (L, _) => L) K = (K.take n).map (withWeight f) ++ K.drop n := by
    intro n
    induction n with
    | zero => intro _; simp
    | succ n ih =>
      intro hn
      rw [List.range_succ, List.foldl_append, ih (by omega)]
      simp only [List.foldl_cons, List.foldl_nil]
      have hlt : n < K.length := by omega
      have hlen : ((K.take n).map (withWeight f)).length = n := by simp; omega
      have hget : ((K.take n).map (withWeight f) ++ K.drop n)[n]? = some K[n] := by
        rw [List.getElem?_append_right (by omega), hlen, Nat.sub_self, List.getElem?_drop, Nat.add_zero, List.getElem?_eq_getElem hlt]
      have htake : (K.take (n + 1)).map (withWeight f) = (K.take n).map (withWeight f) ++ [withWeight f K[n]] := by
        rw [List.take_add_one, List.getElem?_eq_getElem hlt, List.map_append]
        rfl
      have hdrop : K.drop n = K[n] :: K.drop (n + 1) := List.drop_eq_getElem_cons hlt
      simp only [hget]
      split
      · next h0 =>
        rw [htake, hdrop]
        simp [withWeight, h0]
      · next h0 =>
        have hwf : WF ((K.take n).map (withWeight f) ++ K.drop n : Complex α) := by
          refine hK.of_map_vertices (List.Perm.of_eq ?_)
          rw [List.map_append, map_vertices, ← List.map_append, List.take_append_drop]
        have hr := (C22_replace _ hwf n (K[n].withData (f K[n].data)) (by simp; omega)
          (show K[n].vertices ≠ [] from hK.nonempty _ (List.getElem_mem hlt))).2 ?_
        · rw [hr]
          simp only
          rw [List.set_append_right _ _ (by omega), hlen, Nat.sub_self, hdrop, htake, List.set_cons_zero]
          simp [withWeight, h0]
        · rintro ⟨j, t, hj, ht, he⟩
          have hd := hwf.distinct
          rw [List.nodup_iff_getElem?_ne_getElem?] at hd
          have e1 : (((K.take n).map (withWeight f) ++ K.drop n).map (·.vertices))[j]? = some K[n].vertices := by
            have ht' : ((K.take n).map (withWeight f) ++ K.drop n)[j]? = some t := ht
            rw [List.getElem?_map, ht']
            simpa [Simplex.eq, Simplex.withData] using he
          have e2 : (((K.take n).map (withWeight f) ++ K.drop n).map (·.vertices))[n]? = some K[n].vertices := by
            rw [List.getElem?_map, hget]
            rfl
          rcases lt_or_gt_of_ne hj with h | h
          · exact hd j n h (by rw [List.length_map]; simp; omega) (e1.trans e2.symm)
          · exact hd n j h (by
              by_contra hge
              rw [List.getElem?_eq_none (not_lt.1 hge)] at e1
              cases e1) (e2.trans e1.symm)
  have := key K.length le_rfl
  rw [List.take_length, List.drop_length, List.append_nil] at this
  exact this

section Range

variable [LinearOrder α]

theorem foldl_extremes (K : Complex α) (a b : α) : K.foldl (fun m s => (max m.1 s.data, min m.2 s.data)) (a, b) =
    (K.foldl (fun m s => max m s.data) a, K.foldl (fun m s => min m s.data) b) := by
  induction K generalizing a b with
  | nil => rfl
  | cons s K ih => simp only [List.foldl_cons, ih]

theorem foldl_max (K : Complex α) (a : α) : IsGreatest {y | y = a ∨ ∃ s ∈ K, s.data = y} (K.foldl (fun m s => max m s.data) a) := by
  induction K generalizing a with
  | nil => simp [IsGreatest, upperBounds]
  | cons s K ih =>
    simp only [List.foldl_cons]
    obtain ⟨h1, h2⟩ := ih (max a s.data)
    refine ⟨?_, ?_⟩
    · rcases h1 with h1 | ⟨t, ht, h1⟩
      · rw [h1]
        rcases max_choice a s.data with h | h
        · exact Or.inl h
        · exact Or.inr ⟨s, by simp, h.symm⟩
      · exact Or.inr ⟨t, by simp [ht], h1⟩
    · rintro y (rfl | ⟨t, ht, rfl⟩)
      · exact (le_max_left _ _).trans (h2 (Or.inl rfl))
      · rcases List.mem_cons.1 ht with rfl | ht
        · exact (le_max_right _ _).trans (h2 (Or.inl rfl))
        · exact h2 (Or.inr ⟨t, ht, rfl⟩)

theorem foldl_min (K : Complex α) (a : α) : IsLeast {y | y = a ∨ ∃ s ∈ K, s.data = y} (K.foldl (fun m s => min m s.data) a) :=
  foldl_max (α := αᵒᵈ) K a

theorem extremes_eq (c : Context α) {G : Complex α} {lo hi : α} (hr : IsRange G lo hi) (hlo : c.lo ≤ hi) (hhi : lo ≤ c.hi) : extremes c G = (hi, lo) := by
  unfold extremes
  rw [foldl_extremes]
  refine Prod.ext ?_ ?_
  · obtain ⟨h1, h2⟩ := foldl_max G c.lo
    refine le_antisymm ?_ (h2 (Or.inr hr.2.1))
    rcases h1 with h | h
    · simp only [h, hlo]
    · exact hr.2.2 h
  · obtain ⟨h1, h2⟩ := foldl_min G c.hi
    refine le_antisymm (h2 (Or.inr hr.1.1)) ?_
    rcases h1 with h | h
    · simp only [h, hhi]
    · exact hr.1.2 h

variable [Field α]

theorem preprocess_eq (c : Context α) (s : Settings α) {G : Complex α} (hG : WF G) {lo hi : α} (hr : IsRange G lo hi) (hlo : c.lo ≤ hi) (hhi : lo ≤ c.hi) :
    preprocess c s G = (G.map (withWeight (newWeight s.normalize s.invert lo hi)), newMaximum s.normalize lo hi) := by
  have hcomp : ∀ (K : Complex α) (f g : α → α), (K.map (withWeight f)).map (withWeight g) = K.map (withWeight fun w => g (f w)) := by
    intro K f g
    rw [List.map_map]
    refine List.map_congr_left fun t _ => ?_
    simp only [Function.comp, withWeight]
    by_cases h : Complex.dim t = 0
    · simp [h]
    · have h' : Complex.dim (t.withData (f t.data)) ≠ 0 := h
      simp only [if_neg h, if_neg h']
      rfl
  have hid : G.map (withWeight fun w => w) = G := by
    conv_rhs => rw [← List.map_id G]
    refine List.map_congr_left fun t _ => ?_
    simp only [withWeight]
    split <;> rfl
  unfold preprocess
  rw [extremes_eq c hr hlo hhi]
  simp only
  by_cases hn : s.normalize = true ∧ hi ≠ lo
  · have hn' : s.normalize = true ∧ lo ≠ hi := ⟨hn.1, hn.2.symm⟩
    rw [if_pos hn]
    simp only
    rw [reweigh_eq hG]
    cases hinv : s.invert with
    | false =>
      have : newWeight s.normalize false lo hi = fun w => (w - lo) / (hi - lo) := by
        funext w
        simp only [newWeight, if_pos hn', Bool.false_eq_true, if_false]
      rw [this, newMaximum, if_pos hn']
      rfl
    | true =>
      have : newWeight s.normalize true lo hi = fun w => 1 - (w - lo) / (hi - lo) := by
        funext w
        simp only [newWeight, newMaximum, if_pos hn', if_true]
      rw [this, newMaximum, if_pos hn', if_pos rfl, reweigh_eq (wf_map hG _), hcomp]
  · have hn' : ¬ (s.normalize = true ∧ lo ≠ hi) := fun h => hn ⟨h.1, h.2.symm⟩
    rw [if_neg hn]
    simp only
    cases hinv : s.invert with
    | false =>
      have : newWeight s.normalize false lo hi = fun w => w := by
        funext w
        simp only [newWeight, if_neg hn', Bool.false_eq_true, if_false]
      rw [this, newMaximum, if_neg hn', hid]
      rfl
    | true =>
      have : newWeight s.normalize true lo hi = fun w => hi - w := by
        funext w
        simp only [newWeight, newMaximum, if_neg hn', if_true]
      rw [this, newMaximum, if_neg hn', if_pos rfl, reweigh_eq hG]

end Range

/-! ### The clique complex -/

theorem card_eq_dim {K : Complex α} (hK : WF K) {s : Simplex α} (hs : s ∈ K) : #s.vset = Complex.dim s + 1 := by
  have h1 : #s.vset = s.vertices.length := List.toFinset_card_of_nodup ((hK.normal s hs).imp fun h => ne_of_gt h)
  have h2 : 0 < s.vertices.length := List.length_pos_iff.2 (hK.nonempty s hs)
  unfold Complex.dim
  omega

theorem hasData_map {G : Complex α} (hG : WF G) (g : α → α) (t : Finset ℕ) (y : α) :
    HasData (G.map (withWeight g)) t y ↔ (#t = 1 ∧ HasData G t y) ∨ (#t ≠ 1 ∧ ∃ w, HasData G t w ∧ y = g w) := by
  constructor
  · rintro ⟨s, hs, rfl, rfl⟩
    obtain ⟨r, hr, rfl⟩ := List.mem_map.1 hs
    rw [withWeight_vset]
    have := card_eq_dim hG hr
    by_cases h : Complex.dim r = 0
    · exact Or.inl ⟨by omega, r, hr, rfl, by rw [withWeight, if_pos h]⟩
    · exact Or.inr ⟨by omega, r.data, ⟨r, hr, rfl, rfl⟩, by rw [withWeight, if_neg h]; rfl⟩
  · rintro (⟨h, r, hr, rfl, rfl⟩ | ⟨h, w, ⟨r, hr, rfl, rfl⟩, rfl⟩)
    · have := card_eq_dim hG hr
      exact ⟨_, List.mem_map_of_mem hr, withWeight_vset g r, by rw [withWeight, if_pos (by omega)]⟩
    · have := card_eq_dim hG hr
      exact ⟨_, List.mem_map_of_mem hr, withWeight_vset g r, by rw [withWeight, if_neg (by omega)]; rfl⟩

theorem has_map (G : Complex α) (g : α → α) (t : Finset ℕ) : Has (G.map (withWeight g)) t ↔ Has G t :=
  has_of_map_vertices (List.Perm.of_eq (map_vertices g G)) t

theorem mem_cliquesUpTo {G : Complex α} {k : ℕ} {t : Finset ℕ} : t ∈ cliquesUpTo G k ↔ t.Nonempty ∧ #t ≤ k + 1 ∧ IsClique G t := by
  classical
  unfold cliquesUpTo
  rw [mem_filter, mem_powerset, and_iff_right_iff_imp]
  rintro ⟨-, -, h, -⟩ v hv
  obtain ⟨s, hs, e⟩ := h v hv
  exact mem_biUnion.2 ⟨{v}, by rw [mem_sets]; exact ⟨s, hs, e⟩, by simp⟩

theorem has_iff_hasData {G : Complex α} {t : Finset ℕ} : Has G t ↔ ∃ w, HasData G t w :=
  ⟨fun ⟨s, hs, e⟩ => ⟨s.data, s, hs, e, rfl⟩, fun ⟨_, s, hs, e, _⟩ => ⟨s, hs, e⟩⟩

/-- The facts about the expanded complex that are used. -/
structure IsExpansion [LinearOrder α] (G : Complex α) (g : α → α) (k : ℕ) (L : Complex α) : Prop where
  filt : IsFiltration L
  size : L.length ≤ idxMax
  sorted : L.Pairwise fun s t => s.data ≤ t.data
  has : ∀ t, Has L t ↔ t ∈ cliquesUpTo G k
  vertices : ∀ s ∈ L, #s.vset = 1 → HasData G s.vset s.data
  weights : ∀ s ∈ L, 2 ≤ #s.vset → IsGreatest {y | ∃ u ∈ s.vset, ∃ v ∈ s.vset, u ≠ v ∧ ∃ w, HasData G {u, v} w ∧ y = g w} s.data

theorem expandGraph_spec [LinearOrder α] [Zero α] (o : Orders α) {G : Complex α} (hG : WF G) (hc : EdgeClosed G) (hne : ∃ v, Has G {v}) {g : α → α}
    (hw : WeightsFit G g) (k : ℕ) (hsize : #(cliquesUpTo G k) ≤ idxMax) :
    ∃ L, expandGraph o k (G.map (withWeight g)) = .ok L ∧ IsExpansion G g k L := by
  have hG' := wf_map hG g
  have hc' : EdgeClosed (G.map (withWeight g) : Complex α) := by
    intro u v huv h
    rw [has_map] at h ⊢
    exact hc u v huv h
  obtain ⟨L, M, h1, h2, h3, h4, h5, h6, -⟩ := C27_expansion_weights o 0 (G.map (withWeight g)) hG' hc' k
  obtain ⟨L', g1, -, g2, -⟩ := C26_cliques o 0 (G.map (withWeight g)) hG' hc' k
  rw [h1] at g1
  obtain rfl : L = L' := Option.some.inj g1
  have hhas : ∀ t, Has M t ↔ t ∈ cliquesUpTo G k := by
    intro t
    rw [h4, g2, mem_cliquesUpTo]
    unfold IsClique
    simp only [has_map]
  have hv : ∀ s ∈ M, #s.vset = 1 → HasData G s.vset s.data := by
    intro s hs hcard
    exact (((hasData_map hG g _ _).1 (h5 s hs hcard)).resolve_right fun h => h.1 hcard).2
  have hge : ∀ s ∈ M, 2 ≤ #s.vset → IsGreatest {y | ∃ u ∈ s.vset, ∃ v ∈ s.vset, u ≠ v ∧ ∃ w, HasData G {u, v} w ∧ y = g w} s.data := by
    intro s hs hcard
    have := h6 s hs hcard (by
      intro e he hcard
      obtain ⟨u, v, huv, hev⟩ := card_eq_two.1 hcard
      rcases (hasData_map hG g e.vset e.data).1 ⟨e, he, rfl, rfl⟩ with h | ⟨-, w, hw1, hw2⟩
      · omega
      · rw [hw2]
        rw [hev] at hw1
        exact (hw u v w huv hw1).1)
    convert this using 3 with y
    constructor
    · rintro ⟨u, hu, v, hv, huv, w, hw, rfl⟩
      refine ⟨{u, v}, insert_subset hu (singleton_subset_iff.2 hv), card_pair huv, (hasData_map hG g _ _).2 (Or.inr ⟨?_, w, hw, rfl⟩)⟩
      rw [card_pair huv]
      omega
    · rintro ⟨e, he, hcard, hd⟩
      obtain ⟨u, v, huv, rfl⟩ := card_eq_two.1 hcard
      rcases (hasData_map hG g _ _).1 hd with h | ⟨-, w, hw1, hw2⟩
      · omega
      · exact ⟨u, he (by simp), v, he (by simp), huv, w, hw1, hw2⟩
  have hmono : ∀ s ∈ M, ∀ t ∈ M, s.vset ⊂ t.vset → s.data ≤ t.data := by
    intro s hs t ht hst
    have hcs := card_eq_dim h3 hs
    have hlt := card_lt_card hst
    have hub := (hge t ht (by omega)).2
    by_cases hs1 : #s.vset = 1
    · obtain ⟨v, hv1⟩ := card_eq_one.1 hs1
      obtain ⟨u, hu, hus⟩ := exists_of_ssubset hst
      have hvt : v ∈ t.vset := hst.1 (by rw [hv1]; simp)
      have huv : v ≠ u := by
        rintro rfl
        rw [hv1] at hus
        simp at hus
      obtain ⟨w, hw1⟩ := has_iff_hasData.1 ((mem_cliquesUpTo.1 ((hhas t.vset).1 ⟨t, ht, rfl⟩)).2.2.2 v hvt u hu huv)
      have := hv s hs hs1
      rw [hv1] at this
      exact ((hw v u w huv hw1).2 _ this).trans (hub ⟨v, hvt, u, hu, huv, w, hw1, rfl⟩)
    · obtain ⟨u, hu, v, hv, huv, w, hw1, e⟩ := (hge s hs (by omega)).1
      rw [e]
      exact hub ⟨u, hst.1 hu, v, hst.1 hv, huv, w, hw1, rfl⟩
  obtain ⟨s1, s2, s3⟩ := sort_data_spec h3 hmono
  have hp := sort_perm M (asLt (Filtration.data fun a b : α => decide (a < b)))
  have hhas' : ∀ t, Has (M.sort (asLt (Filtration.data fun a b : α => decide (a < b)))) t ↔ t ∈ cliquesUpTo G k := fun t =>
    (PythonMatrix.has_perm hp t).trans (hhas t)
  refine ⟨M.sort (asLt (Filtration.data fun a b : α => decide (a < b))), ?_, ⟨s1, ?_, s2⟩, ?_, s3, hhas', ?_, ?_⟩
  · unfold expandGraph
    simp only [h1, h2]
    cases hd : M.dimension with
    | some d => rfl
    | none =>
      rw [(C22_dimension M h3).1] at hd
      obtain ⟨v, hv⟩ := hne
      obtain ⟨s, hs, -⟩ := (hhas {v}).2 (mem_cliquesUpTo.2 ⟨by simp, by simp, by simpa using hv, by simp⟩)
      rw [hd] at hs
      cases hs
  · intro s hs t hts htne
    obtain ⟨a1, a2, a3, a4⟩ := mem_cliquesUpTo.1 ((hhas' s.vset).1 ⟨s, hs, rfl⟩)
    exact (hhas' t).2 (mem_cliquesUpTo.2 ⟨htne, (card_le_card hts).trans a2, fun v hv => a3 v (hts hv), fun u hu v hv => a4 u (hts hu) v (hts hv)⟩)
  · refine le_trans ?_ hsize
    have hnd : ((M.sort (asLt (Filtration.data fun a b : α => decide (a < b)))).map Simplex.vset).Nodup := by
      refine List.Nodup.map_on ?_ s1.nodup
      intro s hs t ht he
      exact s1.eq_of_vset hs ht he
    have hcd := List.toFinset_card_of_nodup hnd
    rw [List.length_map] at hcd
    rw [← hcd]
    refine card_le_card fun t ht => ?_
    rw [List.mem_toFinset, List.mem_map] at ht
    obtain ⟨s, hs, rfl⟩ := ht
    exact (hhas' _).1 ⟨s, hs, rfl⟩
  · exact fun s hs => hv s (hp.subset hs)
  · exact fun s hs => hge s (hp.subset hs)

section Expansion

variable [LinearOrder α] {G : Complex α} {g : α → α} {k : ℕ} {L : Complex α}

theorem IsExpansion.sublevel (h : IsExpansion G g k L) (hw : ∀ u v w, u ≠ v → HasData G {u, v} w → ∀ y, HasData G {u} y → y ≤ g w) (hG : WF G) (x : α) :
    Spec.sublevel L x = cliquesAt G g k x := by
  classical
  ext t
  unfold Spec.sublevel cliquesAt
  rw [mem_sets, mem_filter, ← h.has]
  have huniq : ∀ t y z, HasData G t y → HasData G t z → y = z := by
    rintro t y z ⟨a, ha, rfl, rfl⟩ ⟨b, hb, e, rfl⟩
    rw [hG.eq_of_vset ha hb e.symm]
  constructor
  · rintro ⟨s, hs, rfl⟩
    obtain ⟨k1, k2⟩ := List.mem_filter.1 hs
    rw [decide_eq_true_eq] at k2
    obtain ⟨a1, a2, a3, a4⟩ := mem_cliquesUpTo.1 ((h.has _).1 ⟨s, k1, rfl⟩)
    have hub : ∀ u ∈ s.vset, ∀ v ∈ s.vset, u ≠ v → ∀ w, HasData G {u, v} w → g w ≤ x := by
      intro u hu v hv huv w hw
      have hcard : 2 ≤ #s.vset := by
        rw [← card_pair huv]
        exact card_le_card (insert_subset hu (singleton_subset_iff.2 hv))
      exact ((h.weights s k1 hcard).2 ⟨u, hu, v, hv, huv, w, hw, rfl⟩).trans k2
    refine ⟨⟨s, k1, rfl⟩, ?_, hub⟩
    intro v hv y hy
    by_cases hcard : #s.vset = 1
    · obtain ⟨v', hv'⟩ := card_eq_one.1 hcard
      have := h.vertices s k1 hcard
      rw [hv'] at this hv
      rw [mem_singleton] at hv
      subst hv
      rw [huniq _ _ _ hy this]
      exact k2
    · obtain ⟨u, hu, huv⟩ := exists_mem_ne (by have := a1.card_pos; omega : 1 < #s.vset) v
      obtain ⟨w, hw1⟩ := has_iff_hasData.1 (a4 v hv u hu huv.symm)
      exact (hw v u w huv.symm hw1 y hy).trans (hub v hv u hu huv.symm w hw1)
  · rintro ⟨⟨s, hs, rfl⟩, h1, h2⟩
    refine ⟨s, List.mem_filter.2 ⟨hs, ?_⟩, rfl⟩
    rw [decide_eq_true_eq]
    have hpos := (mem_cliquesUpTo.1 ((h.has _).1 ⟨s, hs, rfl⟩)).1.card_pos
    by_cases hcard : #s.vset = 1
    · obtain ⟨v, hv⟩ := card_eq_one.1 hcard
      have := h.vertices s hs hcard
      rw [hv] at this
      exact h1 v (by rw [hv]; simp) _ this
    · obtain ⟨u, hu, v, hv, huv, w, hw1, e⟩ := (h.weights s hs (by omega)).1
      rw [e]
      exact h2 u hu v hv huv w hw1

theorem IsExpansion.count (h : IsExpansion G g k L) (hw : ∀ u v w, u ≠ v → HasData G {u, v} w → ∀ y, HasData G {u} y → y ≤ g w) (hG : WF G) {inf : α}
    (hinf : ∀ s ∈ L, s.data ≠ inf) {p : List (ℕ × ℕ)} {Ds : List (Diagram α)} (hp : IsComplexPairing L false p) (hD : IsDiagramsOf inf L p Ds) (e : ℕ)
    (he : ∃ t ∈ cliquesUpTo G k, #t = e + 2) (x y : α) :
    IsPersistentBetti (cliquesAt G g k x) (cliquesAt G g k y) e ((pointsOfDimension e Ds).countP fun p => p.1 ≤ x ∧ (p.2 = inf ∨ y < p.2)) := by
  obtain ⟨q, Es, q1, q2, q3⟩ := C51_pipeline inf L h.filt h.size true
  have hb := C51_persistent_betti inf L h.filt h.size h.sorted hinf .standard .vector false Es (q3 _ _ _) e x y
  rw [h.sublevel hw hG x, h.sublevel hw hG y, pointsOfDimension_eq q2] at hb
  obtain ⟨t, t1, t2⟩ := he
  have hne : t.Nonempty := card_pos.1 (by omega)
  obtain ⟨j, hj⟩ := (SpanningTree.has_iff_at hne).1 ((h.has t).2 t1)
  have hdim : ∃ t < L.length, e < dimAt L t := ⟨j, lt_of_vsetAt hne hj, by rw [dimAt, hj, t2]; omega⟩
  rw [pointsOfDimension_eq hD, (PythonMatrix.points_perm_of_lt h.filt h.size hp q1 hdim inf).countP_eq]
  exact hb

omit [LinearOrder α] in
/-- The first simplex of a dimension is paired with its youngest face. -/
theorem first_pair {L : Complex α} (hL : WF L) {d : ℕ} (h : ∃ j < L.length, dimAt L j = d + 1) (hc : FaceClosed L) :
    ∃ i j, j < L.length ∧ dimAt L j = d + 1 ∧ i ∈ facets L j ∧ (∀ i' ∈ facets L j, i' ≤ i) ∧ PersPair (facets L) i j := by
  classical
  let j := Nat.find h
  obtain ⟨hj, hd⟩ : j < L.length ∧ dimAt L j = d + 1 := Nat.find_spec h
  have hmin : ∀ m < j, ¬ (m < L.length ∧ dimAt L m = d + 1) := fun m hm => Nat.find_min h hm
  have hcard : #(vsetAt L j) = d + 2 := by
    have := (vsetAt_nonempty hL hj).card_pos
    unfold dimAt at hd
    omega
  have hne : (facets L j).Nonempty := by
    obtain ⟨u, hu, hu2⟩ := exists_subset_card_eq (show d + 1 ≤ #(vsetAt L j) by omega)
    have hs : vsetAt L j = L[j].vset := by simp only [vsetAt, List.getElem?_eq_getElem hj]
    have hune : u.Nonempty := card_pos.1 (by omega)
    obtain ⟨i, hi⟩ := (SpanningTree.has_iff_at hune).1 (hc L[j] (List.getElem_mem hj) u (by rw [← hs]; exact hu) hune)
    refine ⟨i, ?_⟩
    simp only [facets, mem_filter, mem_range]
    exact ⟨lt_of_vsetAt hune hi, by rw [hi]; exact hu, by rw [hi, hcard, hu2]⟩
  have hbd : chainBd (facets L) {j} = facets L j := by
    ext m
    simp only [chainBd, mem_filter, singleton_biUnion]
    constructor
    · exact fun h => h.1
    · intro h
      refine ⟨h, ?_⟩
      rw [show ({k ∈ ({j} : Finset ℕ) | m ∈ facets L k}) = {j} by
        ext x
        simp only [mem_filter, mem_singleton]
        exact ⟨fun h => h.1, fun e => ⟨e, by rw [e]; exact h⟩⟩]
      simp
  refine ⟨(facets L j).max' hne, j, hj, hd, max'_mem _ _, fun i' hi' => le_max' _ _ hi', ⟨{j}, by simp, ?_⟩, ?_⟩
  · rw [hbd]
    exact ⟨max'_mem _ _, fun m hm => le_max' _ _ hm⟩
  · rintro ⟨c, hcj, hm, -⟩
    unfold chainBd at hm
    rw [mem_filter] at hm
    obtain ⟨m, hmc, hmi⟩ := mem_biUnion.1 hm.1
    have hmem := max'_mem (facets L j) hne
    simp only [facets, mem_filter, mem_range] at hmem
    have hmi' := hmi
    simp only [facets, mem_filter, mem_range] at hmi'
    have hml : m < j := mem_range.1 (hcj hmc)
    refine hmin m hml ⟨hml.trans hj, ?_⟩
    unfold dimAt
    omega

/-- Every diagram of positive dimension has a point on the diagonal. -/
theorem IsExpansion.diagonal (h : IsExpansion G g k L) {inf : α} {p : List (ℕ × ℕ)} {Ds : List (Diagram α)} (hp : IsComplexPairing L false p)
    (hD : IsDiagramsOf inf L p Ds) {D : Diagram α} (hmem : D ∈ Ds) (hpos : 0 < D.dimension) : ∃ q ∈ D.points, q.1 = q.2 := by
  obtain ⟨hne, hpts⟩ := (hD.2 D).1 hmem
  have hlt : ∀ ij ∈ p, ij.1 < L.length := by
    rintro ⟨i, j⟩ hij
    rcases (hp.2.2 i j).1 hij with g | g
    · exact ((pairFacts h.filt h.size).lt _ _ g).1
    · exact g.2.1.1
  rw [diagramPoints_eq_map inf hlt] at hpts
  obtain ⟨q, hq⟩ := List.exists_mem_of_ne_nil _ hne
  rw [hpts, List.mem_map] at hq
  obtain ⟨⟨i, j⟩, hij, -⟩ := hq
  obtain ⟨hij, hdi⟩ := List.mem_filter.1 hij
  rw [decide_eq_true_eq] at hdi
  have hbig : ∃ t < L.length, D.dimension < dimAt L t := by
    rcases (hp.2.2 i j).1 hij with g | ⟨-, -, g | ⟨t, ht, g⟩⟩
    · obtain ⟨-, g2, g3⟩ := (pairFacts h.filt h.size).lt _ _ g
      exact ⟨j, g2, by simp only at hdi; omega⟩
    · cases g
    · exact ⟨t, ht, by simp only at hdi; omega⟩
  have hex : ∃ j < L.length, dimAt L j = D.dimension + 1 := by
    obtain ⟨t, ht, hd⟩ := hbig
    unfold dimAt at hd
    obtain ⟨u, hu, hu2⟩ := exists_subset_card_eq (show D.dimension + 2 ≤ #(vsetAt L t) by omega)
    have hs : vsetAt L t = L[t].vset := by simp only [vsetAt, List.getElem?_eq_getElem ht]
    have hune : u.Nonempty := card_pos.1 (by omega)
    obtain ⟨m, hm⟩ := (SpanningTree.has_iff_at hune).1 (h.filt.closed L[t] (List.getElem_mem ht) u (by rw [← hs]; exact hu) hune)
    exact ⟨m, lt_of_vsetAt hune hm, by rw [dimAt, hm, hu2]; omega⟩
  obtain ⟨i, j, hj, hdj, hif, himax, hpair⟩ := first_pair h.filt.wf hex h.filt.closed
  have hif' := hif
  simp only [facets, mem_filter, mem_range] at hif'
  obtain ⟨hi, hsub, hcard⟩ := hif'
  have hij : i < j := by
    have := h.filt.order
    obtain ⟨e1, e2⟩ : vsetAt L i = L[i].vset ∧ vsetAt L j = L[j].vset := by
      constructor
      · simp only [vsetAt, List.getElem?_eq_getElem hi]
      · simp only [vsetAt, List.getElem?_eq_getElem hj]
    rcases lt_trichotomy i j with h | h | h
    · exact h
    · subst h
      omega
    · exfalso
      have := (List.pairwise_iff_getElem.1 this) j i hj hi h
      refine this ⟨by rw [← e1, ← e2]; exact hsub, fun hh => ?_⟩
      have := card_le_card (show vsetAt L j ⊆ vsetAt L i by rw [e1, e2]; exact hh)
      omega
  have hdata : L[i].data = L[j].data := by
    have hmono : ∀ a b (ha : a < L.length) (hb : b < L.length), a ≤ b → L[a].data ≤ L[b].data := by
      intro a b ha hb hab
      rcases hab.eq_or_lt with rfl | hab
      · exact le_rfl
      · exact List.pairwise_iff_getElem.1 h.sorted a b ha hb hab
    refine le_antisymm (hmono i j hi hj hij.le) ?_
    have hsj : vsetAt L j = L[j].vset := by simp only [vsetAt, List.getElem?_eq_getElem hj]
    have hcj : #L[j].vset = D.dimension + 2 := by
      unfold dimAt at hdj
      rw [hsj] at hdj
      omega
    obtain ⟨u, hu, v, hv, huv, w, hw, e⟩ := (h.weights L[j] (List.getElem_mem hj) (by omega)).1
    -- a face that contains the heaviest edge
    obtain ⟨τ, hτ1, hτ2, hτ3⟩ := exists_subsuperset_card_eq (show ({u, v} : Finset ℕ) ⊆ L[j].vset from insert_subset hu (singleton_subset_iff.2 hv))
      (show #({u, v} : Finset ℕ) ≤ D.dimension + 1 by rw [card_pair huv]; omega) (show D.dimension + 1 ≤ #L[j].vset by omega)
    have hτne : τ.Nonempty := card_pos.1 (by omega)
    obtain ⟨m, hm⟩ := (SpanningTree.has_iff_at hτne).1 (h.filt.closed L[j] (List.getElem_mem hj) τ hτ2 hτne)
    have hml := lt_of_vsetAt hτne hm
    have hmi : m ≤ i := himax m (by
      simp only [facets, mem_filter, mem_range]
      exact ⟨hml, by rw [hm, hsj]; exact hτ2, by rw [hm, hsj]; omega⟩)
    have hsm : L[m].vset = τ := by
      rw [← hm]
      simp only [vsetAt, List.getElem?_eq_getElem hml]
    have := (h.weights L[m] (List.getElem_mem hml) (by rw [hsm]; omega)).2 ⟨u, by rw [hsm]; exact hτ1 (by simp), v, by rw [hsm]; exact hτ1 (by simp), huv, w, hw, e⟩
    exact this.trans (hmono m i hml hi hmi)
  refine ⟨(L[i].data, L[j].data), ?_, hdata⟩
  rw [hpts, List.mem_map]
  refine ⟨(i, j), List.mem_filter.2 ⟨(hp.2.2 i j).2 (Or.inl hpair), ?_⟩, ?_⟩
  · rw [decide_eq_true_eq]
    unfold dimAt at hdj ⊢
    simp only
    omega
  · simp only [dataD, List.getElem?_eq_getElem hi, List.getElem?_eq_getElem hj, Option.map_some, Option.getD_some]

theorem IsExpansion.data_ne (h : IsExpansion G g k L) {inf : α} (hinf : ∀ s ∈ G, s.data ≠ inf ∧ g s.data ≠ inf) : ∀ s ∈ L, s.data ≠ inf := by
  intro s hs
  have hpos := (mem_cliquesUpTo.1 ((h.has _).1 ⟨s, hs, rfl⟩)).1.card_pos
  by_cases hcard : #s.vset = 1
  · obtain ⟨r, hr, -, e⟩ := h.vertices s hs hcard
    rw [← e]
    exact (hinf r hr).1
  · obtain ⟨u, hu, v, hv, huv, w, ⟨r, hr, -, rfl⟩, e⟩ := (h.weights s hs (by omega)).1
    rw [e]
    exact (hinf r hr).2

/-- The coordinates of points are data of simplices, or infinite. -/
theorem IsExpansion.points (h : IsExpansion G g k L) {inf : α} {p : List (ℕ × ℕ)} {Ds : List (Diagram α)} (hp : IsComplexPairing L false p)
    (hD : IsDiagramsOf inf L p Ds) {D : Diagram α} (hmem : D ∈ Ds) {q : α × α} (hq : q ∈ D.points) :
    (∃ s ∈ L, q.1 = s.data) ∧ (q.2 = inf ∨ ∃ s ∈ L, q.2 = s.data) := by
  obtain ⟨-, hpts⟩ := (hD.2 D).1 hmem
  have hlt : ∀ ij ∈ p, ij.1 < L.length := by
    rintro ⟨i, j⟩ hij
    rcases (hp.2.2 i j).1 hij with g | g
    · exact ((pairFacts h.filt h.size).lt _ _ g).1
    · exact g.2.1.1
  rw [diagramPoints_eq_map inf hlt] at hpts
  rw [hpts, List.mem_map] at hq
  obtain ⟨⟨i, j⟩, hij, rfl⟩ := hq
  have hi := hlt _ (List.mem_filter.1 hij).1
  refine ⟨⟨L[i], List.getElem_mem hi, by simp only [dataD, List.getElem?_eq_getElem hi, Option.map_some, Option.getD_some]⟩, ?_⟩
  by_cases hj : j < L.length
  · exact Or.inr ⟨L[j], List.getElem_mem hj, by simp only [dataD, List.getElem?_eq_getElem hj, Option.map_some, Option.getD_some]⟩
  · exact Or.inl (by simp only [dataD, List.getElem?_eq_none (not_lt.1 hj), Option.map_none, Option.getD_none])

/-- Diagrams are reported for all dimensions below that of the complex. -/
theorem IsExpansion.dimensions (h : IsExpansion G g k L) {inf : α} {p : List (ℕ × ℕ)} {Ds : List (Diagram α)} (hp : IsComplexPairing L false p)
    (hD : IsDiagramsOf inf L p Ds) (e : ℕ) : (∃ D ∈ Ds, D.dimension = e) ↔ ∃ t ∈ cliquesUpTo G k, #t = e + 2 := by
  have hlt : ∀ ij ∈ p, ij.1 < L.length := by
    rintro ⟨i, j⟩ hij
    rcases (hp.2.2 i j).1 hij with g | g
    · exact ((pairFacts h.filt h.size).lt _ _ g).1
    · exact g.2.1.1
  constructor
  · rintro ⟨D, hmem, rfl⟩
    obtain ⟨hne, hpts⟩ := (hD.2 D).1 hmem
    rw [diagramPoints_eq_map inf hlt] at hpts
    obtain ⟨q, hq⟩ := List.exists_mem_of_ne_nil _ hne
    rw [hpts, List.mem_map] at hq
    obtain ⟨⟨i, j⟩, hij, -⟩ := hq
    obtain ⟨hij, hdi⟩ := List.mem_filter.1 hij
    rw [decide_eq_true_eq] at hdi
    simp only at hdi
    have hbig : ∃ t, ∃ ht : t < L.length, D.dimension + 2 ≤ #L[t].vset := by
      have hcv : ∀ t, (ht : t < L.length) → dimAt L t = #L[t].vset - 1 := by
        intro t ht
        simp only [dimAt, vsetAt, List.getElem?_eq_getElem ht]
      rcases (hp.2.2 i j).1 hij with g | ⟨-, -, g | ⟨t, ht, g⟩⟩
      · obtain ⟨-, g2, g3⟩ := (pairFacts h.filt h.size).lt _ _ g
        exact ⟨j, g2, by have := hcv j g2; omega⟩
      · cases g
      · exact ⟨t, ht, by have := hcv t ht; omega⟩
    obtain ⟨t, ht, hd⟩ := hbig
    obtain ⟨u, hu, hu2⟩ := exists_subset_card_eq hd
    exact ⟨u, (h.has u).1 (h.filt.closed L[t] (List.getElem_mem ht) u hu (card_pos.1 (by omega))), hu2⟩
  · rintro ⟨t, ht, hcard⟩
    have hne : t.Nonempty := card_pos.1 (by omega)
    obtain ⟨m, hm⟩ := (SpanningTree.has_iff_at hne).1 ((h.has t).2 ht)
    obtain ⟨i, j, hj, hdj, hif, -, hpair⟩ := first_pair h.filt.wf (d := e) ⟨m, lt_of_vsetAt hne hm, by rw [dimAt, hm, hcard]; omega⟩ h.filt.closed
    refine ⟨⟨e, diagramPoints inf L e p⟩, (hD.2 _).2 ⟨?_, rfl⟩, rfl⟩
    rw [diagramPoints_eq_map inf hlt]
    simp only [ne_eq, List.map_eq_nil_iff]
    refine List.ne_nil_of_mem (a := (i, j)) (List.mem_filter.2 ⟨(hp.2.2 i j).2 (Or.inl hpair), ?_⟩)
    rw [decide_eq_true_eq]
    simp only [facets, mem_filter, mem_range] at hif
    unfold dimAt at hdj ⊢
    simp only
    omega

end Expansion

/-! ### The output -/

/-- What the diagrams of a network are, given by their dimensions and their points: there is a diagram for each dimension below that of the clique complex, it has no
points on the diagonal, and it counts persistent homology classes, in particular those of the complete complex, with infinite points. -/
structure _root_.Aleph.Spec.IsNetworkAnalysis [LinearOrder α] (inf : α) (G : Complex α) (g : α → α) (k : ℕ) (Es : List (ℕ × List (α × α))) : Prop where
  ascending : (Es.map Prod.fst).Pairwise (· < ·)
  dimensions : ∀ e, e ∈ Es.map Prod.fst ↔ ∃ t ∈ cliquesUpTo G k, #t = e + 2
  off : ∀ E ∈ Es, ∀ p ∈ E.2, p.1 ≠ p.2
  counts : ∀ E ∈ Es, ∀ x y, x ≤ y →
    IsPersistentBetti (cliquesAt G g k x) (cliquesAt G g k y) E.1 (E.2.countP fun p => p.1 ≤ x ∧ (p.2 = inf ∨ y < p.2))
  betti : ∀ E ∈ Es, IsPersistentBetti (cliquesUpTo G k) (cliquesUpTo G k) E.1 (E.2.countP fun p => p.2 = inf)

/-- The text for a diagram: a header with the name of the file, the dimension, the number of points, and the Betti number, followed by one line for each point. -/
def _root_.Aleph.Spec.IsNetworkText (print : α → List Char) (filename : List Char) (d : ℕ) (points : List (α × α)) (betti : ℕ) (text : List Char) : Prop :=
  ∃ sd se sb, IsUsualNotation d sd ∧ IsUsualNotation points.length se ∧ IsUsualNotation betti sb ∧
    text = "# Persistence diagram <".toList ++ filename ++ ">\n#\n# Dimension   : ".toList ++ sd ++ "\n# Entries     : ".toList ++ se ++
      "\n# Betti number: ".toList ++ sb ++ "\n".toList ++ points.flatMap fun p => print p.1 ++ ['\t'] ++ print p.2 ++ ['\n']

/-- The argument for the dimension of the expansion, which is one by default. -/
def _root_.Aleph.Spec.IsExpansionArgument (stoul : List Char → Option ℕ) (rest : List (List Char)) (k : ℕ) : Prop :=
  rest = [] ∧ k = 1 ∨ ∃ word more, rest = word :: more ∧ stoul word = some k

section Run

variable [LinearOrder α] [Field α]

theorem diagrams_run (c : Context α) (o : Orders α) (files : List Char → Option (List Char)) (s : Settings α) (filename : List Char) (rest : List (List Char))
    {R G : Complex α} {lo hi : α} {k : ℕ} (hR : readGraph c files filename = .ok R) (hN : assignNodes c files s R = .ok G)
    (hk : IsExpansionArgument c.stoul rest k) (hG : WF G) (hc : EdgeClosed G) (hne : ∃ v, Has G {v}) (hr : IsRange G lo hi) (hlo : c.lo ≤ hi) (hhi : lo ≤ c.hi)
    (hw : WeightsFit G (newWeight s.normalize s.invert lo hi)) (hsize : #(cliquesUpTo G k) ≤ idxMax) :
    ∃ L p Ds, diagrams c o files s filename rest = .ok (L, k, newMaximum s.normalize lo hi, Ds) ∧
      IsExpansion G (newWeight s.normalize s.invert lo hi) k L ∧ IsComplexPairing L false p ∧ IsDiagramsOf c.inf L p Ds := by
  obtain ⟨L, h1, h2⟩ := expandGraph_spec o hG hc hne hw k hsize
  obtain ⟨p, Ds, q1, q2, q3⟩ := C51_pipeline c.inf L h2.filt h2.size false
  refine ⟨L, p, Ds, ?_, h2, q1, q2⟩
  have hexp : expansion c rest = .ok k := by
    rcases hk with ⟨rfl, rfl⟩ | ⟨word, more, rfl, hk⟩
    · rfl
    · simp only [expansion, hk]
  unfold diagrams
  simp only [bind, Except.bind, hR, hN, preprocess_eq c s hG hr hlo hhi, hexp, h1, q3 .twist .vector true]

theorem analysis_of {G : Complex α} {g : α → α} {k : ℕ} {L : Complex α} (h : IsExpansion G g k L)
    (hw : ∀ u v w, u ≠ v → HasData G {u, v} w → ∀ y, HasData G {u} y → y ≤ g w) (hG : WF G) {inf : α} (hinf : ∀ s ∈ G, s.data ≠ inf ∧ g s.data ≠ inf)
    {p : List (ℕ × ℕ)} {Ds : List (Diagram α)} (hp : IsComplexPairing L false p) (hD : IsDiagramsOf inf L p Ds) :
    IsNetworkAnalysis inf G g k (Ds.map fun D => (D.dimension, D.removeDiagonal.points)) := by
  have hinfL := h.data_ne hinf
  have hcount : ∀ D ∈ Ds, ∀ x y, x ≤ y → IsPersistentBetti (cliquesAt G g k x) (cliquesAt G g k y) D.dimension
      (D.removeDiagonal.points.countP fun p => p.1 ≤ x ∧ (p.2 = inf ∨ y < p.2)) := by
    intro D hmem x y hxy
    have := h.count hw hG hinfL hp hD D.dimension ((h.dimensions hp hD _).1 ⟨D, hmem, rfl⟩) x y
    rw [pointsOfDimension_eq hD, ← ((hD.2 D).1 hmem).2] at this
    rw [Diagram.removeDiagonal, List.countP_filter]
    convert this using 1
    refine List.countP_congr fun q hq => ?_
    simp only [Bool.and_eq_true, decide_eq_true_eq, Bool.not_eq_true', decide_eq_false_iff_not, and_iff_left_iff_imp]
    rintro ⟨h1, h2⟩ he
    obtain ⟨⟨s, hs, e⟩, -⟩ := h.points hp hD hmem hq
    rcases h2 with h2 | h2
    · rw [he, h2] at e
      exact hinfL s hs e.symm
    · rw [← he] at h2
      exact absurd (hxy.trans_lt h2) (not_lt.2 h1)
  refine ⟨?_, ?_, ?_, ?_, ?_⟩
  · rw [List.map_map]
    exact hD.1
  · intro e
    rw [← h.dimensions hp hD, List.map_map, List.mem_map]
    rfl
  · intro E hE q hq
    obtain ⟨D, -, rfl⟩ := List.mem_map.1 hE
    have := (List.mem_filter.1 hq).2
    simpa using this
  · intro E hE x y hxy
    obtain ⟨D, hmem, rfl⟩ := List.mem_map.1 hE
    exact hcount D hmem x y hxy
  · intro E hE
    obtain ⟨D, hmem, rfl⟩ := List.mem_map.1 hE
    -- a threshold that exceeds all weights
    obtain ⟨-, hub⟩ := foldl_max L 0
    set z := L.foldl (fun m s => max m s.data) 0
    have hz : ∀ s ∈ L, s.data ≤ z := fun s hs => hub (Or.inr ⟨s, hs, rfl⟩)
    have hall : cliquesAt G g k z = cliquesUpTo G k := by
      rw [← h.sublevel hw hG]
      ext t
      unfold Spec.sublevel
      rw [mem_sets, ← h.has]
      constructor
      · rintro ⟨s, hs, e⟩
        exact ⟨s, (List.mem_filter.1 hs).1, e⟩
      · rintro ⟨s, hs, e⟩
        exact ⟨s, List.mem_filter.2 ⟨hs, by simpa using hz s hs⟩, e⟩
    have := hcount D hmem z z le_rfl
    rw [hall] at this
    convert this using 1
    refine List.countP_congr fun q hq => ?_
    obtain ⟨⟨s, hs, e⟩, h2⟩ := h.points hp hD hmem (List.mem_filter.1 hq).1
    simp only [decide_eq_true_eq]
    constructor
    · intro hq2
      exact ⟨by rw [e]; exact hz s hs, Or.inl hq2⟩
    · rintro ⟨-, hq2 | hq2⟩
      · exact hq2
      · rcases h2 with h2 | ⟨t, ht, h2⟩
        · exact h2
        · rw [h2] at hq2
          exact absurd hq2 (not_lt.2 (hz t ht))

omit [Field α] in
theorem diagramBlock_spec (c : Context α) (filename : List Char) (D : Diagram α) :
    IsNetworkText c.print filename D.dimension D.points (D.points.countP fun p => p.2 = c.inf) (diagramBlock c filename D) :=
  ⟨_, _, _, Utilities.decimal_spec _, Utilities.decimal_spec _, Utilities.decimal_spec _, rfl⟩

theorem blocks_stdout (c : Context α) (s : Settings α) (filename : List Char) (m : α) :
    ∀ Ds : List (Diagram α), (∀ pre D post B, Ds = pre ++ D :: (post ++ [B]) → (close c s m D).points ≠ B.points) →
      (blocks c s filename m Ds).flatMap Prod.snd = List.intercalate "\n\n".toList (Ds.map fun D => diagramBlock c filename (close c s m D)) := by
  intro Ds
  induction Ds with
  | nil => intro _; rfl
  | cons D Ds ih =>
    intro h
    rw [blocks, List.flatMap_cons, ih (fun pre E post B e => h (D :: pre) E post B (by rw [e]; rfl))]
    rcases List.eq_nil_or_concat Ds with rfl | ⟨post, B, rfl⟩
    · simp [List.intercalate]
    · have := h [] D post B (by simp)
      have hne : ∃ E Es, post ++ [B] = E :: Es := List.exists_cons_of_ne_nil (by simp)
      simp only [List.concat_eq_append, List.getLast?_append, List.getLast?_singleton, Option.some_or]
      have heq : Diagram.eq (close c s m D) B = false := by
        unfold Diagram.eq
        simpa using this
      rw [heq]
      obtain ⟨E, Es, e⟩ := hne
      rw [e]
      simp [List.intercalate]

/-- C164. What `network_analysis` writes to standard output, without `--infinity`: for each dimension below that of the clique complex of the network (expanded up to the given
dimension), a block with a header and the points of a diagram, separated by two empty lines.  Diagrams have no points on the diagonal and count the persistent homology
classes of the complexes of all cliques whose weights (normalized and inverted as requested) do not exceed a threshold; the Betti numbers are those of
the clique complex.  Missing: weights that do not fit (see `C164_weights` for those that do, and `C164_node_weights_witness`), and the largest dimension. -/
theorem _root_.Aleph.C164_output_partial (c : Context α) (o : Orders α) (files : List Char → Option (List Char)) (opts : List Opt) (s : Settings α)
    (hs : settings c opts = .ok s) (hf : s.infinity = c.inf) (hb : s.basePath = []) (filename : List Char) (rest : List (List Char))
    (R G : Complex α) (lo hi : α) (k : ℕ) (hR : readGraph c files filename = .ok R) (hN : assignNodes c files s R = .ok G)
    (hk : IsExpansionArgument c.stoul rest k) (hG : WF G) (hc : EdgeClosed G) (hne : ∃ v, Has G {v}) (hr : IsRange G lo hi) (hlo : c.lo ≤ hi) (hhi : lo ≤ c.hi)
    (hinf : ∀ t ∈ G, t.data ≠ c.inf ∧ newWeight s.normalize s.invert lo hi t.data ≠ c.inf)
    (hw : WeightsFit G (newWeight s.normalize s.invert lo hi)) (hsize : #(cliquesUpTo G k) ≤ idxMax) :
    ∃ Es texts, main c o files opts (filename :: rest) = .ok (0, ⟨List.intercalate "\n\n".toList texts, []⟩) ∧
      List.Forall₂ (fun E t => IsNetworkText c.print filename E.1 E.2 (E.2.countP fun p => p.2 = c.inf) t) Es texts ∧
      IsNetworkAnalysis c.inf G (newWeight s.normalize s.invert lo hi) k Es := by
  obtain ⟨L, p, Ds, h1, h2, h3, h4⟩ := diagrams_run c o files s filename rest hR hN hk hG hc hne hr hlo hhi hw hsize
  have hclose : ∀ D, close c s (newMaximum s.normalize lo hi) D = D.removeDiagonal := by
    intro D
    unfold close
    rw [if_neg fun h => h.1 hf]
  have hstd := blocks_stdout c s filename (newMaximum s.normalize lo hi) Ds (by
    intro pre D post B e
    rw [hclose]
    have hB : B ∈ Ds := by rw [e]; simp
    have hpos : 0 < B.dimension := by
      have := h4.1
      rw [e, List.map_append, List.map_cons, List.map_append, List.pairwise_append, List.pairwise_cons] at this
      exact Nat.zero_lt_of_lt (this.2.1.1 B.dimension (by simp))
    obtain ⟨q, hq1, hq2⟩ := h2.diagonal h3 h4 hB hpos
    intro he
    rw [← he] at hq1
    have := (List.mem_filter.1 hq1).2
    simp [hq2] at this)
  refine ⟨Ds.map fun D => (D.dimension, D.removeDiagonal.points), Ds.map fun D => diagramBlock c filename (close c s (newMaximum s.normalize lo hi) D), ?_, ?_,
    analysis_of h2 (fun u v w huv hd => (hw u v w huv hd).2) hG hinf h3 h4⟩
  · unfold main
    simp only [hs, h1, emit, hb, List.isEmpty_nil, if_true]
    rw [hstd]
  · rw [List.forall₂_map_left_iff, List.forall₂_map_right_iff]
    refine List.forall₂_same.2 fun D _ => ?_
    rw [hclose]
    exact diagramBlock_spec c filename D.removeDiagonal

/-- The points that are reported: with a factor for infinite values, unpaired points end at the product of the factor and the largest weight. -/
def _root_.Aleph.Spec.networkPoints (inf : α) (factor : Option α) (top : α) (points : List (α × α)) : List (α × α) :=
  match factor with
  | none => points
  | some f => points.map fun p => if p.2 = inf then (p.1, f * top) else p

theorem close_points (c : Context α) (s : Settings α) (m : α) (D : Diagram α) (factor : Option α)
    (hf : factor = if s.infinity = c.inf ∨ s.infinity = c.hi then none else some s.infinity) :
    (close c s m D).points = networkPoints c.inf factor m D.removeDiagonal.points ∧ (close c s m D).dimension = D.dimension := by
  unfold close
  simp only
  split
  · next h =>
    rw [if_neg (by tauto)] at hf
    rw [hf]
    exact ⟨rfl, rfl⟩
  · next h =>
    rw [if_pos (by tauto)] at hf
    rw [hf]
    exact ⟨rfl, rfl⟩

theorem mem_blocks (c : Context α) (s : Settings α) (filename : List Char) (m : α) (Ds : List (Diagram α)) :
    List.Forall₂ (fun D b => b.1 = close c s m D ∧ ∃ tail, b.2 = diagramBlock c filename (close c s m D) ++ tail ∧ (tail = [] ∨ tail = "\n\n".toList)) Ds
      (blocks c s filename m Ds) := by
  induction Ds with
  | nil => exact .nil
  | cons D Ds ih =>
    rw [blocks]
    refine .cons ⟨rfl, _, rfl, ?_⟩ ih
    cases Ds.getLast? with
    | none => exact Or.inl rfl
    | some B =>
      simp only
      split
      · exact Or.inr rfl
      · exact Or.inl rfl

/-- C164. With `--output`: there is one file for each dimension, with the text for its diagram, possibly followed by two empty lines.  Names consist of the path, the
name of the input without directories and extension, and the dimension; they are all different.  Unpaired points are replaced if there is a factor. -/
theorem _root_.Aleph.C164_files_partial (c : Context α) (o : Orders α) (files : List Char → Option (List Char)) (opts : List Opt) (s : Settings α)
    (hs : settings c opts = .ok s) (hb : s.basePath ≠ []) (factor : Option α)
    (hf : factor = if s.infinity = c.inf ∨ s.infinity = c.hi then none else some s.infinity) (filename : List Char) (rest : List (List Char))
    (R G : Complex α) (lo hi : α) (k : ℕ) (hR : readGraph c files filename = .ok R) (hN : assignNodes c files s R = .ok G)
    (hk : IsExpansionArgument c.stoul rest k) (hG : WF G) (hc : EdgeClosed G) (hne : ∃ v, Has G {v}) (hr : IsRange G lo hi) (hlo : c.lo ≤ hi) (hhi : lo ≤ c.hi)
    (hinf : ∀ t ∈ G, t.data ≠ c.inf ∧ newWeight s.normalize s.invert lo hi t.data ≠ c.inf)
    (hw : WeightsFit G (newWeight s.normalize s.invert lo hi)) (hsize : #(cliquesUpTo G k) ≤ idxMax) :
    ∃ Es fs, main c o files opts (filename :: rest) = .ok (0, ⟨[], fs⟩) ∧ (fs.map Prod.fst).Nodup ∧
      List.Forall₂ (fun E f => ∃ number text tail,
        f.1 = s.basePath ++ "/".toList ++ Filesystem.stem (Filesystem.basename filename) ++ "_d".toList ++ number ++ ".txt".toList ∧ decimalValue number = E.1 ∧
        IsNetworkText c.print filename E.1 (networkPoints c.inf factor (newMaximum s.normalize lo hi) E.2)
          ((networkPoints c.inf factor (newMaximum s.normalize lo hi) E.2).countP fun p => p.2 = c.inf) text ∧
        f.2 = text ++ tail ∧ (tail = [] ∨ tail = "\n\n".toList)) Es fs ∧
      IsNetworkAnalysis c.inf G (newWeight s.normalize s.invert lo hi) k Es := by
  obtain ⟨L, p, Ds, h1, h2, h3, h4⟩ := diagrams_run c o files s filename rest hR hN hk hG hc hne hr hlo hhi hw hsize
  have hana := analysis_of h2 (fun u v w huv hd => (hw u v w huv hd).2) hG hinf h3 h4
  set m := newMaximum s.normalize lo hi with hm
  -- the numbers in the names
  have hname : ∀ D ∈ Ds, ∃ number, decimalValue number = D.dimension ∧ ∀ E : Diagram α, E.dimension = D.dimension →
      outputName s filename L k E = some (s.basePath ++ "/".toList ++ Filesystem.stem (Filesystem.basename filename) ++ "_d".toList ++ number ++ ".txt".toList) := by
    intro D hD
    obtain ⟨t, ht, hcard⟩ := (h2.dimensions h3 h4 _).1 ⟨D, hD, rfl⟩
    have htk := (mem_cliquesUpTo.1 ht).2.1
    obtain ⟨n, -, e1, -, -, e2, -⟩ := C126_order D.dimension D.dimension (max ((L.dimension).getD 0) k) (by omega) (by omega) (by omega)
    refine ⟨n, e2, fun E hE => ?_⟩
    unfold outputName
    rw [hE, e1]
    rfl
  choose! number hn1 hn2 using hname
  have hblocks := mem_blocks c s filename m Ds
  obtain ⟨fs, hfs⟩ : ∃ fs, (blocks c s filename m Ds).mapM (fun t => (outputName s filename L k t.1).map fun name => (name, t.2)) = some fs ∧
      List.Forall₂ (fun D (f : List Char × List Char) =>
        f.1 = s.basePath ++ "/".toList ++ Filesystem.stem (Filesystem.basename filename) ++ "_d".toList ++ number D ++ ".txt".toList ∧
        ∃ tail, f.2 = diagramBlock c filename (close c s m D) ++ tail ∧ (tail = [] ∨ tail = "\n\n".toList)) Ds fs := by
    clear hana h1 h3 h4 hn1
    generalize blocks c s filename m Ds = bs at hblocks
    induction hblocks with
    | nil => exact ⟨[], rfl, .nil⟩
    | cons hab _ ih =>
      rename_i D b Ds bs _
      obtain ⟨fs, e1, e2⟩ := ih fun D hD => hn2 D (List.mem_cons_of_mem _ hD)
      obtain ⟨a1, tail, a2, a3⟩ := hab
      have := hn2 D List.mem_cons_self b.1 (by rw [a1, (close_points c s m D factor hf).2])
      refine ⟨(s.basePath ++ "/".toList ++ Filesystem.stem (Filesystem.basename filename) ++ "_d".toList ++ number D ++ ".txt".toList, b.2) :: fs, ?_,
        .cons ⟨rfl, tail, a2, a3⟩ e2⟩
      rw [List.mapM_cons, this, e1]
      rfl
  obtain ⟨hfs1, hfs2⟩ := hfs
  refine ⟨Ds.map fun D => (D.dimension, D.removeDiagonal.points), fs, ?_, ?_, ?_, hana⟩
  · unfold main
    simp only [hs, h1, emit]
    rw [if_neg (by simpa using hb), hfs1]
  · have hmap : fs.map Prod.fst = Ds.map fun D =>
        s.basePath ++ "/".toList ++ Filesystem.stem (Filesystem.basename filename) ++ "_d".toList ++ number D ++ ".txt".toList := by
      clear * - hfs2
      induction hfs2 with
      | nil => rfl
      | cons h _ ih => rw [List.map_cons, List.map_cons, ih, h.1]
    rw [hmap]
    have hdist : Ds.Pairwise fun D E => D.dimension ≠ E.dimension := by
      have := h4.1
      rw [List.pairwise_map] at this
      exact this.imp fun h => ne_of_lt h
    rw [List.Nodup, List.pairwise_map]
    refine hdist.imp_of_mem fun {D E} hD hE hne he => hne ?_
    have := List.append_cancel_left (List.append_cancel_right he)
    rw [← hn1 D hD, ← hn1 E hE, this]
  · rw [List.forall₂_map_left_iff]
    clear * - hfs2 hn1 hf
    induction hfs2 with
    | nil => exact .nil
    | cons h _ ih =>
      rename_i D f Ds fs _
      obtain ⟨a1, tail, a2, a3⟩ := h
      refine .cons ⟨number D, _, tail, a1, hn1 D List.mem_cons_self, ?_, a2, a3⟩ (ih fun E hE => hn1 E (List.mem_cons_of_mem _ hE))
      have := diagramBlock_spec c filename (close c s m D)
      rw [(close_points c s m D factor hf).1, (close_points c s m D factor hf).2] at this
      exact this

/-- C164, disagreement: with a factor for infinite values, the Betti numbers in the headers are all zero. -/
theorem _root_.Aleph.C164_factor_betti (inf f top : α) (h : f * top ≠ inf) (points : List (α × α)) :
    ((networkPoints inf (some f) top points).countP fun p => p.2 = inf) = 0 := by
  rw [List.countP_eq_zero]
  intro p hp
  obtain ⟨q, -, rfl⟩ := List.mem_map.1 hp
  split <;> simp_all

/-- C164. Graphs without vertices: an exception. -/
theorem _root_.Aleph.C164_empty (c : Context α) (o : Orders α) (files : List Char → Option (List Char)) (opts : List Opt) (s : Settings α)
    (hs : settings c opts = .ok s) (filename : List Char) (rest : List (List Char)) (hR : readGraph c files filename = .ok [])
    (hN : s.nodeWeights = []) (k : ℕ) (hk : IsExpansionArgument c.stoul rest k) : main c o files opts (filename :: rest) = .error .exception := by
  have hexp : expansion c rest = .ok k := by
    rcases hk with ⟨rfl, rfl⟩ | ⟨word, more, rfl, hk⟩
    · rfl
    · simp only [expansion, hk]
  have hpre : (preprocess c s []).1 = [] := by
    have : ∀ f : α → α, reweigh f [] = [] := fun f => rfl
    unfold preprocess
    simp only
    split <;> split <;> simp [this]
  have hL : expandGraph o k ([] : Complex α) = .error .exception := by
    obtain ⟨L, M, h1, h2, h3, h4, -⟩ := C27_expansion_weights o 0 ([] : Complex α) WF.nil (by rintro u v - ⟨s, hs, -⟩; cases hs) k
    obtain ⟨L', g1, -, g2, -⟩ := C26_cliques o 0 ([] : Complex α) WF.nil (by rintro u v - ⟨s, hs, -⟩; cases hs) k
    rw [h1] at g1
    obtain rfl : L = L' := Option.some.inj g1
    have hM : M = [] := by
      rw [List.eq_nil_iff_forall_not_mem]
      intro s hs
      obtain ⟨⟨v, hv⟩, -, a, -⟩ := (g2 s.vset).1 ((h4 _).1 ⟨s, hs, rfl⟩)
      obtain ⟨t, ht, -⟩ := a v hv
      cases ht
    unfold expandGraph
    simp only [h1, h2, hM]
    rfl
  have hd : diagrams c o files s filename rest = .error .exception := by
    unfold diagrams
    have e1 : assignNodes c files s ([] : Complex α) = .ok [] := by unfold assignNodes; rw [hN]; rfl
    cases hp : preprocess c s ([] : Complex α) with
    | mk a b =>
      rw [hp] at hpre
      simp only at hpre
      simp only [bind, Except.bind, hR, e1, hp, hexp, hpre, hL]
  unfold main
  simp only [hs, hd]

/-- C164, disagreement: if no vertices are joined, or if the expansion is limited to vertices, nothing is reported at all, although each vertex is a component. -/
theorem _root_.Aleph.C164_no_edges (c : Context α) (o : Orders α) (files : List Char → Option (List Char)) (opts : List Opt) (s : Settings α)
    (hs : settings c opts = .ok s) (filename : List Char) (rest : List (List Char))
    (R G : Complex α) (lo hi : α) (k : ℕ) (hR : readGraph c files filename = .ok R) (hN : assignNodes c files s R = .ok G)
    (hk : IsExpansionArgument c.stoul rest k) (hG : WF G) (hone : k = 0 ∨ ∀ t ∈ G, #t.vset = 1) (hne : ∃ v, Has G {v}) (hc : EdgeClosed G)
    (hr : IsRange G lo hi) (hlo : c.lo ≤ hi) (hhi : lo ≤ c.hi) (hw : WeightsFit G (newWeight s.normalize s.invert lo hi)) (hsize : #(cliquesUpTo G k) ≤ idxMax) :
    main c o files opts (filename :: rest) = .ok (0, ⟨[], []⟩) := by
  obtain ⟨L, p, Ds, h1, h2, h3, h4⟩ := diagrams_run c o files s filename rest hR hN hk hG hc hne hr hlo hhi hw hsize
  have hnil : Ds = [] := by
    rw [List.eq_nil_iff_forall_not_mem]
    intro D hD
    obtain ⟨t, ht, hcard⟩ := (h2.dimensions h3 h4 _).1 ⟨D, hD, rfl⟩
    obtain ⟨a1, a2, a3, a4⟩ := mem_cliquesUpTo.1 ht
    rcases hone with rfl | hone
    · omega
    · obtain ⟨u, hu, v, hv, huv⟩ := one_lt_card.1 (show 1 < #t by omega)
      obtain ⟨r, hr, e⟩ := a4 u hu v hv huv
      have := hone r hr
      rw [e, card_pair huv] at this
      omega
  have hemit : emit s filename L k ([] : List (Diagram α × List Char)) = .ok ⟨[], []⟩ := by
    unfold emit
    split <;> rfl
  unfold main
  simp only [hs, h1, hnil, blocks, hemit]

/-- C164. Without node weights, all vertices have the weight zero.  Then the weights of edges fit if they are normalized (and not all equal), or inverted, or if they are not negative. -/
theorem _root_.Aleph.C164_weights [IsStrictOrderedRing α] (G : Complex α) (lo hi : α) (hr : IsRange G lo hi) (h0 : ∀ v y, HasData G {v} y → y = 0)
    (normalize invert : Bool) (h : (normalize = true ∧ lo ≠ hi) ∨ invert = true ∨ 0 ≤ lo) : WeightsFit G (newWeight normalize invert lo hi) := by
  intro u v w huv hd
  have hle : lo ≤ w ∧ w ≤ hi := by
    obtain ⟨r, hr', -, e⟩ := hd
    exact ⟨hr.1.2 ⟨r, hr', e⟩, hr.2.2 ⟨r, hr', e⟩⟩
  have hpos : 0 ≤ newWeight normalize invert lo hi w := by
    unfold newWeight newMaximum
    by_cases hn : normalize = true ∧ lo ≠ hi
    · have hlt : 0 < hi - lo := by
        have := lt_of_le_of_ne (hle.1.trans hle.2) hn.2
        linarith
      simp only [if_pos hn]
      have h1 : 0 ≤ (w - lo) / (hi - lo) := div_nonneg (by linarith) hlt.le
      have h2 : (w - lo) / (hi - lo) ≤ 1 := by rw [div_le_one hlt]; linarith
      split <;> linarith
    · simp only [if_neg hn]
      split
      · linarith
      · next hi' =>
        rcases h with h | h | h
        · exact absurd h hn
        · exact absurd h hi'
        · linarith
  exact ⟨hpos, fun y hy => by rw [h0 u y hy]; exact hpos⟩

end Run

/-! ### Options and files -/

/-- C164. Options: each of them sets what it describes; if an option with an argument is repeated, the last one counts.  An invalid factor is an exception. -/
theorem _root_.Aleph.C164_options (c : Context α) (opts : List Opt) :
    settings c [] = .ok ⟨false, false, c.inf, [], []⟩ ∧
    ∀ opt s, settings c opts = .ok s → settings c (opts ++ [opt]) =
      match opt with
      | .invert => .ok { s with invert := true }
      | .normalize => .ok { s with normalize := true }
      | .output path => .ok { s with basePath := path }
      | .nodeWeights name => .ok { s with nodeWeights := name }
      | .unknown => .ok s
      | .infinity factor => if c.stod factor = none then .error .exception else .ok { s with infinity := (c.stod factor).getD s.infinity } := by
  refine ⟨rfl, fun opt s h => ?_⟩
  have : settings c (opts ++ [opt]) = setOption c s opt := by
    unfold settings at h ⊢
    rw [List.foldlM_append, h]
    simp only [bind, Except.bind, List.foldlM_cons, List.foldlM_nil]
    cases setOption c s opt <;> rfl
  rw [this]
  cases opt with
  | infinity factor =>
    simp only [setOption]
    cases c.stod factor <;> simp
  | _ => rfl

/-- C164. A call without arguments: the result is −1. -/
theorem _root_.Aleph.C164_usage [LinearOrder α] [Field α] (c : Context α) (o : Orders α) (files : List Char → Option (List Char)) (opts : List Opt) (s : Settings α)
    (hs : settings c opts = .ok s) : main c o files opts [] = .ok (-1, ⟨[], []⟩) := by
  unfold main
  simp only [hs]

/-- C164. Files that cannot be opened: an exception.  Otherwise, the extension decides about the format; any other file is an edge list. -/
theorem _root_.Aleph.C164_formats [LinearOrder α] [Zero α] (c : Context α) (files : List Char → Option (List Char)) (filename text : List Char) :
    (files filename = none → readGraph c files filename = .error .exception) ∧
    (files filename = some text → ∀ K, readGraph c files filename = .ok K ↔
      if Filesystem.extension filename = ".gml".toList then ∃ st, GmlReader.read c.stoll c.convert max text = .ok (st, K)
      else if Filesystem.extension filename = ".net".toList then ∃ labels, PajekReader.read c.stoul c.convert [] text = some (labels, K)
      else ∃ labels, EdgeListReader.read {} c.convertVertex c.convert [] text = some (labels, K)) := by
  constructor
  · intro h
    unfold readGraph
    rw [h]
  · intro h K
    unfold readGraph
    rw [h]
    simp only
    split
    · cases GmlReader.read c.stoll c.convert max text with
      | error e => simp
      | ok r => obtain ⟨st, K'⟩ := r; simp
    · split
      · cases PajekReader.read c.stoul c.convert [] text with
        | none => simp
        | some r => obtain ⟨st, K'⟩ := r; simp
      · cases EdgeListReader.read {} c.convertVertex c.convert [] text with
        | none => simp
        | some r => obtain ⟨st, K'⟩ := r; simp

/-- C164. Edge lists: the hypotheses of `C164_output_partial` about the structure of the graph hold, and vertices have the weight zero. -/
theorem _root_.Aleph.C164_edge_list [LinearOrder α] [Zero α] (c : Context α) (files : List Char → Option (List Char)) (filename text : List Char)
    (hf : files filename = some text) (h1 : Filesystem.extension filename ≠ ".gml".toList) (h2 : Filesystem.extension filename ≠ ".net".toList)
    {ls : List (List Char)} {b : Bool} (hl : Lines text ls b) {T : List (List (List Char))}
    (hT : EdgeLines ({} : EdgeListReader.Options).trimLines ({} : EdgeListReader.Options).separator ls T) (hlen : ∀ ts ∈ T, 2 ≤ ts.length) :
    ∃ G, readGraph c files filename = .ok G ∧ WF G ∧ EdgeClosed G ∧ (∀ v y, HasData G {v} y → y = 0) ∧ (T ≠ [] → ∃ v, Has G {v}) := by
  obtain ⟨M, K, e, hK, hdata, -⟩ := (C77_read_partial ({} : EdgeListReader.Options) c.convertVertex c.convert [] text hl hT).2 hlen
  have hread := ((C164_formats c files filename text).2 hf K).2 (by rw [if_neg h1, if_neg h2]; exact ⟨M, e⟩)
  refine ⟨K, hread, hK.wf, ?_, ?_, ?_⟩
  · rintro u v huv ⟨s, hs, hv⟩
    exact hK.closed s hs {u} (by rw [hv]; simp) (by simp)
  · intro v y hy
    have := (hdata {v} y).1 hy
    generalize hx : ({v} : Finset ℕ) = x at this
    cases this with
    | vertex => rfl
    | edge a b w before after _ hab _ =>
      have := congrArg Finset.card hx
      rw [card_pair hab] at this
      simp at this
  · intro hne
    obtain ⟨ts, hts⟩ := List.exists_mem_of_ne_nil _ hne
    refine ⟨_, has_iff_hasData.2 ⟨0, (hdata _ 0).2 (.vertex _ _ _ _ (List.mem_map_of_mem hts) (Or.inl rfl))⟩⟩

/-! ### Concrete networks -/

/-- The number of a sequence of digits. -/
def number (word : List Char) : ℕ := word.foldl (fun n c => 10 * n + (c.toNat - 48)) 0

/-- Numbers without sign and fraction. -/
def demo : Context ℚ where
  inf := 1000
  lo := -999
  hi := 999
  stod word := some (number word)
  stoul word := some (number word)
  stoll _ := .invalid
  convert word := number word
  convertVertex := number
  values text := (Strings.split (· = ' ') text).map fun w => (number w : ℚ)
  print x := if x = 1000 then "inf".toList else if x = 1 then ['1'] else if x = 2 then ['2'] else if x = 0 then ['0'] else if x = 4 then ['4'] else ['?']

/-- A square with one diagonal, a triangle without weights, an edge, and weights of two nodes. -/
def demoFiles (name : List Char) : Option (List Char) :=
  if name = "square.txt".toList then some "0 1 1\n1 2 1\n2 3 2\n3 0 2\n0 2 4\n".toList
  else if name = "triangle.txt".toList then some "0 1 0\n1 2 0\n0 2 0\n".toList
  else if name = "edge.txt".toList then some "0 1 1\n".toList
  else if name = "nodes.txt".toList then some "2 4".toList
  else none

/-- The complex that is read from the first file. -/
def square : Complex ℚ := [⟨[0], 0⟩, ⟨[1], 0⟩, ⟨[1, 0], 1⟩, ⟨[2], 0⟩, ⟨[2, 0], 4⟩, ⟨[2, 1], 1⟩, ⟨[3], 0⟩, ⟨[3, 0], 2⟩, ⟨[3, 2], 2⟩]

theorem square_read : readGraph demo demoFiles "square.txt".toList = .ok square := by decide +kernel

/-- The hypotheses of `C164_output_partial` hold. -/
example : WF square ∧ EdgeClosed square ∧ (∃ v, Has square {v}) ∧ IsRange square 0 4 ∧ (∀ v y, HasData square {v} y → y = 0) ∧
    WeightsFit square (newWeight false false 0 4) := by
  have hr : IsRange square 0 4 := by
    refine ⟨⟨⟨⟨[0], 0⟩, by decide, rfl⟩, ?_⟩, ⟨⟨⟨[2, 0], 4⟩, by decide, rfl⟩, ?_⟩⟩
    · rintro y ⟨s, hs, rfl⟩
      revert s
      decide +kernel
    · rintro y ⟨s, hs, rfl⟩
      revert s
      decide +kernel
  have h0 : ∀ v y, HasData square {v} y → y = 0 := by
    rintro v y ⟨s, hs, e, rfl⟩
    have : ∀ s ∈ square, #s.vset = 1 → s.data = 0 := by decide +kernel
    exact this s hs (by rw [e]; rfl)
  have hwf : WF square := ⟨by decide, by decide, by decide⟩
  refine ⟨hwf, ?_, ⟨0, ⟨[0], 0⟩, by decide, rfl⟩, hr, h0, C164_weights square 0 4 hr h0 _ _ (Or.inr (Or.inr le_rfl))⟩
  rintro u v - ⟨s, hs, e⟩
  have : ∀ s ∈ square, ∀ u ∈ s.vset, ∃ r ∈ square, r.vset = {u} := by decide +kernel
  exact this s hs u (by rw [e]; simp)

/-- The cycle of the square is born at 2; with triangles, both cycles are filled at 4. -/
example : diagrams demo (Orders.default ℚ) demoFiles ⟨false, false, 1000, [], []⟩ "square.txt".toList ["2".toList] =
    .ok ([⟨[0], 0⟩, ⟨[1], 0⟩, ⟨[2], 0⟩, ⟨[3], 0⟩, ⟨[1, 0], 1⟩, ⟨[2, 1], 1⟩, ⟨[3, 0], 2⟩, ⟨[3, 2], 2⟩, ⟨[2, 0], 4⟩, ⟨[2, 1, 0], 4⟩, ⟨[3, 2, 0], 4⟩], 2, 4,
      [⟨0, [(0, 1000), (0, 1), (0, 1), (0, 2)]⟩, ⟨1, [(2, 4), (4, 4)]⟩]) := by decide +kernel

/-- Normalized and inverted weights: the heaviest edge comes first. -/
example : diagrams demo (Orders.default ℚ) demoFiles ⟨true, true, 1000, [], []⟩ "square.txt".toList ["2".toList] =
    .ok ([⟨[0], 0⟩, ⟨[1], 0⟩, ⟨[2], 0⟩, ⟨[3], 0⟩, ⟨[2, 0], 0⟩, ⟨[3, 0], 1 / 2⟩, ⟨[3, 2], 1 / 2⟩, ⟨[3, 2, 0], 1 / 2⟩, ⟨[1, 0], 3 / 4⟩, ⟨[2, 1], 3 / 4⟩, ⟨[2, 1, 0], 3 / 4⟩], 2, 1,
      [⟨0, [(0, 1000), (0, 3 / 4), (0, 0), (0, 1 / 2)]⟩, ⟨1, [(1 / 2, 1 / 2), (3 / 4, 3 / 4)]⟩]) := by decide +kernel

/-- C164, disagreement: with a factor for infinite values, the lines between two diagrams can be missing.  All weights of the triangle are zero, so that the unpaired point of
dimension 0 becomes (0, 0), which is the only point of dimension 1 before points on the diagonal are removed; the program takes the first diagram for the last one. -/
theorem _root_.Aleph.C164_separator_witness :
    diagrams demo (Orders.default ℚ) demoFiles ⟨false, false, 2, [], []⟩ "triangle.txt".toList ["2".toList] =
      .ok ([⟨[0], 0⟩, ⟨[1], 0⟩, ⟨[2], 0⟩, ⟨[1, 0], 0⟩, ⟨[2, 0], 0⟩, ⟨[2, 1], 0⟩, ⟨[2, 1, 0], 0⟩], 2, 0, [⟨0, [(0, 1000), (0, 0), (0, 0)]⟩, ⟨1, [(0, 0)]⟩]) ∧
    blocks demo ⟨false, false, 2, [], []⟩ "triangle.txt".toList 0 [⟨0, [(0, 1000), (0, 0), (0, 0)]⟩, ⟨1, [(0, 0)]⟩] =
      [(⟨0, [(0, 0)]⟩, "# Persistence diagram <triangle.txt>\n#\n# Dimension   : 0\n# Entries     : 1\n# Betti number: 0\n0\t0\n".toList),
       (⟨1, []⟩, "# Persistence diagram <triangle.txt>\n#\n# Dimension   : 1\n# Entries     : 0\n# Betti number: 0\n".toList)] := by decide +kernel

/-- C164, disagreement: weights of nodes take part in finding the range of weights, but they are neither normalized nor inverted.  The edge comes before its vertices, and a
component dies before it is born.  Without these options, weights of nodes are respected. -/
theorem _root_.Aleph.C164_node_weights_witness :
    diagrams demo (Orders.default ℚ) demoFiles ⟨false, false, 1000, [], "nodes.txt".toList⟩ "edge.txt".toList [] =
      .ok ([⟨[0], 2⟩, ⟨[1], 4⟩, ⟨[1, 0], 4⟩], 1, 4, [⟨0, [(2, 1000), (4, 4)]⟩]) ∧
    diagrams demo (Orders.default ℚ) demoFiles ⟨false, true, 1000, [], "nodes.txt".toList⟩ "edge.txt".toList [] =
      .ok ([⟨[1, 0], 1⟩, ⟨[0], 2⟩, ⟨[1], 4⟩], 1, 1, [⟨0, [(2, 1000), (4, 1)]⟩]) := by
  constructor <;> decide +kernel

/-- C164, disagreement: with fewer weights than nodes, memory behind the last one is read. -/
theorem _root_.Aleph.C164_few_node_weights_witness :
    diagrams demo (Orders.default ℚ) demoFiles ⟨false, false, 1000, [], "nodes.txt".toList⟩ "square.txt".toList [] = .error .undefined := by decide +kernel

end Aleph.NetworkAnalysis
