import Verif.Model.StratifiedDiagram
import Verif.Spec.StratifiedDiagram
import Verif.Props.StratifiedAnalysis
import Verif.Lemmas.LexOrder
import Verif.Lemmas.LevelDiagrams

/-!
# C192: Diagrams of stratified graphs
-/

namespace Aleph.StratifiedAnalysis

open Spec Spec.Strata Aleph.SpanningTree

variable {α : Type}

theorem eqvGen_touched {G : ℕ → ℕ → Prop} {a b : ℕ} (h : Relation.EqvGen G a b) : a = b ∨ ((∃ x, G a x ∨ G x a) ∧ ∃ x, G b x ∨ G x b) := by
  induction h with
  | rel x y h => exact .inr ⟨⟨y, .inl h⟩, ⟨x, .inr h⟩⟩
  | refl x => exact .inl rfl
  | symm x y _ ih => exact ih.imp Eq.symm And.symm
  | trans x y z _ _ ih1 ih2 =>
    rcases ih1 with rfl | ⟨h1, h2⟩
    · exact ih2
    · rcases ih2 with rfl | ⟨h3, h4⟩
      · exact .inr ⟨h1, h2⟩
      · exact .inr ⟨h1, h4⟩

section

variable [Field α] [LinearOrder α]

theorem minAbsoluteWeight_spec (K : Complex α) : ∀ huge : α, (∀ s ∈ K, Complex.dim s = 1 → minAbsoluteWeight huge K ≤ |s.data|) ∧ minAbsoluteWeight huge K ≤ huge ∧
    (minAbsoluteWeight huge K = huge ∨ ∃ s ∈ K, Complex.dim s = 1 ∧ |s.data| = minAbsoluteWeight huge K) := by
  induction K with
  | nil => intro huge; exact ⟨fun s hs => by simp at hs, le_refl _, .inl rfl⟩
  | cons s K ih =>
    intro huge
    by_cases hd : Complex.dim s = 1
    · have he : minAbsoluteWeight huge (s :: K) = minAbsoluteWeight (min huge |s.data|) K := by simp [minAbsoluteWeight, hd]
      obtain ⟨h1, h2, h3⟩ := ih (min huge |s.data|)
      rw [he]
      refine ⟨?_, le_trans h2 (min_le_left _ _), ?_⟩
      · intro x hx hxd
        rcases List.mem_cons.1 hx with rfl | hx
        · exact le_trans h2 (min_le_right _ _)
        · exact h1 x hx hxd
      · rcases h3 with h3 | ⟨x, hx, hx'⟩
        · rw [h3]
          rcases min_choice huge |s.data| with h | h
          · exact .inl h
          · exact .inr ⟨s, List.mem_cons_self, hd, h.symm⟩
        · exact .inr ⟨x, List.mem_cons_of_mem _ hx, hx'⟩
    · have he : minAbsoluteWeight huge (s :: K) = minAbsoluteWeight huge K := by simp [minAbsoluteWeight, hd]
      obtain ⟨h1, h2, h3⟩ := ih huge
      rw [he]
      refine ⟨?_, h2, h3.imp id fun ⟨x, hx, h⟩ => ⟨x, List.mem_cons_of_mem _ hx, h⟩⟩
      intro x hx hxd
      rcases List.mem_cons.1 hx with rfl | hx
      · exact absurd hxd hd
      · exact h1 x hx hxd

omit [Field α] in
theorem dataRange_spec (K : Complex α) : ∀ huge lowest : α, (∀ s ∈ K, (dataRange huge lowest K).1 ≤ s.data ∧ s.data ≤ (dataRange huge lowest K).2) ∧
    (dataRange huge lowest K).1 ≤ huge ∧ lowest ≤ (dataRange huge lowest K).2 ∧
    ((dataRange huge lowest K).1 = huge ∨ ∃ s ∈ K, s.data = (dataRange huge lowest K).1) ∧ ((dataRange huge lowest K).2 = lowest ∨ ∃ s ∈ K, s.data = (dataRange huge lowest K).2) := by
  induction K with
  | nil => intro huge lowest; exact ⟨fun s hs => by simp at hs, le_refl _, le_refl _, .inl rfl, .inl rfl⟩
  | cons s K ih =>
    intro huge lowest
    have he : dataRange huge lowest (s :: K) = dataRange (min huge s.data) (max lowest s.data) K := rfl
    obtain ⟨h1, h2, h3, h4, h5⟩ := ih (min huge s.data) (max lowest s.data)
    rw [he]
    refine ⟨?_, le_trans h2 (min_le_left _ _), le_trans (le_max_left _ _) h3, ?_, ?_⟩
    · intro x hx
      rcases List.mem_cons.1 hx with rfl | hx
      · exact ⟨le_trans h2 (min_le_right _ _), le_trans (le_max_right _ _) h3⟩
      · exact h1 x hx
    · rcases h4 with h | ⟨x, hx, hx'⟩
      · rw [h]
        rcases min_choice huge s.data with h' | h'
        · exact .inl h'
        · exact .inr ⟨s, List.mem_cons_self, h'.symm⟩
      · exact .inr ⟨x, List.mem_cons_of_mem _ hx, hx'⟩
    · rcases h5 with h | ⟨x, hx, hx'⟩
      · rw [h]
        rcases max_choice lowest s.data with h' | h'
        · exact .inl h'
        · exact .inr ⟨s, List.mem_cons_self, h'.symm⟩
      · exact .inr ⟨x, List.mem_cons_of_mem _ hx, hx'⟩

end

/-- The spanning tree of a sorted filtration is extreme. -/
theorem tree_extreme [AddCommGroup α] [LinearOrder α] [IsOrderedAddMonoid α] (reverse : Bool) {L : Complex α} (hL : IsFiltration L) (hlen : L.length ≤ idxMax)
    (hs : L.Pairwise (fun s t => if reverse then t.data ≤ s.data else s.data ≤ t.data)) {n : ℕ} {G : ℕ → ℕ → Prop} {p : List (ℕ × ℕ)} {inc : Bool} (hp : IsComplexPairing L inc p) (h1 : 1 ≤ n)
    (hv : ∀ v, Has L {v} ↔ v < n) (he : ∀ u v, u < v → (Has L {u, v} ↔ G u v)) (hG : ∀ u v, G u v → u < v) (hc : ∀ a < n, ∀ b < n, Relation.EqvGen G a b) {w : ℕ → ℕ → α}
    (hw : ∀ u v x, u < v → HasData L {u, v} x → x = w u v) : ExtremeSpanningTree reverse n G w (tree L p) := by
  have hd : ∀ k u v, u < v → vsetAt L k = {u, v} → dataD 0 L k = w u v := by
    intro k u v huv hk
    obtain ⟨t, t1, t2, t3⟩ := simplex_at (by simp) hk
    exact hw u v _ huv ⟨t, t2, t3, by simp [dataD, t1]⟩
  have hmono : ∀ i j, i ≤ j → j < L.length → if reverse then dataD 0 L j ≤ dataD 0 L i else dataD 0 L i ≤ dataD 0 L j := by
    intro i j hij hj
    rcases hij.eq_or_lt with rfl | h
    · cases reverse <;> exact le_refl _
    · have := List.pairwise_iff_getElem.1 hs i j (by omega) hj h
      simp only [dataD, List.getElem?_eq_getElem hj, List.getElem?_eq_getElem (show i < L.length by omega), Option.map_some, Option.getD_some]
      exact this
  cases reverse
  · exact tree_minimum hL hlen hmono hp h1 hv he hG hc hd
  · exact tree_minimum (α := αᵒᵈ) (K := L) (f := fun i => dataD (0 : α) L i) hL hlen hmono hp h1 hv he hG hc (w := w) hd

variable [Field α] [LinearOrder α] [IsStrictOrderedRing α]

/-- C192 (partial). The diagram of a connected graph for the standard filtration with global weights: all points are created at the lowest weight, and one point for each edge of a minimum spanning tree (a maximum spanning
tree in the reverse direction, with the highest weight), unless its weight is that of the vertices.  Another point ends at the smallest absolute value of all weights.  On request, all values are mapped linearly such that the
weights cover the unit interval.  *Missing:* the absolute filtration, see `C190_absolute`, and isolated vertices, see `C190_global`. -/
theorem _root_.Aleph.C192_diagram_partial (inf huge lowest : α) (scale reverse : Bool) (K : Complex α) (hK : WF K) (n : ℕ) (hn : 2 ≤ n) (hlen : K.length ≤ idxMax) (G : ℕ → ℕ → Prop)
    (w : ℕ → ℕ → α) (hdim : ∀ s ∈ K, s.vset.card ≤ 2) (hv : ∀ v, Has K {v} ↔ v < n) (he : ∀ u v x, u < v → (HasData K {u, v} x ↔ G u v ∧ x = w u v)) (hG : ∀ u v, G u v → u < v ∧ v < n)
    (hc : ∀ a < n, ∀ b < n, Relation.EqvGen G a b) (hinf : ∀ u v, G u v → w u v ≠ inf) (hrange : ∀ u v, G u v → |w u v| ≤ huge ∧ lowest ≤ w u v) :
    ∃ L D T lo hi m, prepare false .global reverse K = .ok L ∧ diagramOf inf huge lowest scale L = some D ∧ D.dimension = 0 ∧
      IsLeast {x | ∃ u v, G u v ∧ x = w u v} lo ∧ IsGreatest {x | ∃ u v, G u v ∧ x = w u v} hi ∧ IsLeast {x | ∃ u v, G u v ∧ x = |w u v|} m ∧
      ExtremeSpanningTree reverse n G w T ∧
      D.points.Perm (((((T.map fun e => w e.1 e.2).filter (· ≠ if reverse then hi else lo)).map fun x => (if reverse then hi else lo, x)) ++ [(if reverse then hi else lo, m)]).map
        fun q => if scale then (rescale lo hi q.1, rescale lo hi q.2) else q) := by
  -- edges of the graph
  have hedge : ∀ t : Finset ℕ, ∀ x, t.card = 2 → (HasData K t x ↔ ∃ u v, G u v ∧ t = {u, v} ∧ x = w u v) := by
    intro t x ht
    obtain ⟨a, b, hab, rfl⟩ := Finset.card_eq_two.1 ht
    constructor
    · intro h
      rcases Nat.lt_or_gt_of_ne hab with hlt | hlt
      · have := (he a b x hlt).1 h
        exact ⟨a, b, this.1, rfl, this.2⟩
      · rw [Finset.pair_comm] at h ⊢
        have := (he b a x hlt).1 h
        exact ⟨b, a, this.1, rfl, this.2⟩
    · rintro ⟨u, v, hg, ht', rfl⟩
      rw [ht']
      exact (he u v _ (hG u v hg).1).2 ⟨hg, rfl⟩
  have hhas : ∀ u v, u < v → (Has K {u, v} ↔ G u v) := by
    intro u v huv
    constructor
    · rintro ⟨s, hs, hs'⟩
      exact ((he u v s.data huv).1 ⟨s, hs, hs', rfl⟩).1
    · intro h
      obtain ⟨s, hs, hs', _⟩ := (he u v _ huv).2 ⟨h, rfl⟩
      exact ⟨s, hs, hs'⟩
  have hT : ∀ v, Has K {v} → Touched K v := by
    intro v hvK
    have hvn := (hv v).1 hvK
    obtain ⟨b, hb, hne⟩ : ∃ b < n, v ≠ b := by
      by_cases h : v = 0
      · exact ⟨1, by omega, by omega⟩
      · exact ⟨0, by omega, h⟩
    rcases eqvGen_touched (hc v hvn b hb) with h | ⟨⟨x, h | h⟩, _⟩
    · exact absurd h hne
    · exact ⟨{v, x}, Finset.card_pair (ne_of_lt (hG v x h).1), by simp, (hhas v x (hG v x h).1).2 h⟩
    · exact ⟨{x, v}, Finset.card_pair (ne_of_lt (hG x v h).1), by simp, (hhas x v (hG x v h).1).2 h⟩
  obtain ⟨L, p0, hW, hperm, hL3, hL4, hsort, hff⟩ := C190_standard_partial .global (by decide) reverse K hK hdim hT
  have hLhas : ∀ t, Has L t ↔ Has K t := by
    intro t
    have := hperm.mem_iff (a := t)
    rw [List.mem_map, List.mem_map] at this
    exact this
  have hLlen : L.length ≤ idxMax := by
    have := hperm.length_eq
    rw [List.length_map, List.length_map] at this
    omega
  have hLcard : ∀ s ∈ L, s.vset.card = 1 ∨ s.vset.card = 2 := by
    intro s hs
    have h0 : s.vset.card ≠ 0 := by
      rw [StratifiedGraph.card_vset_eq (hW.normal s hs)]
      exact fun h => hW.nonempty s hs (List.length_eq_zero_iff.1 h)
    obtain ⟨s', hs', h'⟩ := (hLhas s.vset).1 ⟨s, hs, rfl⟩
    have := hdim s' hs'
    rw [h'] at this
    omega
  have hLv : ∀ v, Has L {v} ↔ v < n := fun v => (hLhas _).trans (hv v)
  have hLe : ∀ u v, u < v → (Has L {u, v} ↔ G u v) := fun u v huv => (hLhas _).trans (hhas u v huv)
  have hLd : ∀ t : Finset ℕ, ∀ x, t.card = 2 → (HasData L t x ↔ ∃ u v, G u v ∧ t = {u, v} ∧ x = w u v) := fun t x ht => (hL3 t x (by omega)).trans (hedge t x ht)
  have hLw : ∀ u v x, u < v → HasData L {u, v} x → x = w u v := by
    intro u v x huv h
    exact ((he u v x huv).1 ((hL3 _ x (by rw [Finset.card_pair (ne_of_lt huv)]; omega)).1 h)).2
  have hclosed : FaceClosed L := by
    intro s hs t ht hne
    rcases hLcard s hs with h | h
    · obtain ⟨v, hv'⟩ := Finset.card_eq_one.1 h
      rw [hv', Finset.subset_singleton_iff] at ht
      rcases ht with rfl | rfl
      · simp at hne
      · exact ⟨s, hs, hv'⟩
    · obtain ⟨u, v, hg, hst, _⟩ := (hLd s.vset s.data h).1 ⟨s, hs, rfl, rfl⟩
      have hlt := hG u v hg
      by_cases hc2 : t.card = 2
      · exact ⟨s, hs, (Finset.eq_of_subset_of_card_le ht (by omega)).symm⟩
      · have h1 := Finset.card_le_card ht
        have h2 := hne.card_pos
        obtain ⟨x, hx⟩ := Finset.card_eq_one.1 (show t.card = 1 by omega)
        have hxs : x ∈ s.vset := ht (by rw [hx]; simp)
        rw [hst] at hxs
        simp only [Finset.mem_insert, Finset.mem_singleton] at hxs
        obtain ⟨y, hy, hy'⟩ := (hLv x).2 (by rcases hxs with rfl | rfl <;> omega)
        exact ⟨y, hy, by rw [hy', hx]⟩
  have hF : IsFiltration L := ⟨hW, hclosed, hff⟩
  -- an edge
  obtain ⟨u0, v0, hg0⟩ : ∃ u v, G u v := by
    obtain ⟨t, ht, _, s, hs, hs'⟩ := hT 0 ((hv 0).2 (by omega))
    obtain ⟨u, v, hg, _⟩ := (hedge t s.data ht).1 ⟨s, hs, hs', rfl⟩
    exact ⟨u, v, hg⟩
  -- extreme weights
  have hdimL : ∀ s ∈ L, Complex.dim s = 1 ↔ s.vset.card = 2 := fun s hs => dim_eq_one hW hs
  have hLedge : ∀ u v, G u v → ∃ s ∈ L, Complex.dim s = 1 ∧ s.data = w u v := by
    intro u v hg
    have hc2 : ({u, v} : Finset ℕ).card = 2 := Finset.card_pair (ne_of_lt (hG u v hg).1)
    obtain ⟨s, hs, h1, h2⟩ := (hLd {u, v} (w u v) hc2).2 ⟨u, v, hg, rfl, rfl⟩
    exact ⟨s, hs, (hdimL s hs).2 (by rw [h1, hc2]), h2⟩
  have hLedge' : ∀ s ∈ L, Complex.dim s = 1 → ∃ u v, G u v ∧ s.data = w u v := by
    intro s hs hd
    obtain ⟨u, v, hg, _, h⟩ := (hLd s.vset s.data ((hdimL s hs).1 hd)).1 ⟨s, hs, rfl, rfl⟩
    exact ⟨u, v, hg, h⟩
  obtain ⟨lo, hi, -, ⟨s1, hs1, hd1, rfl⟩, ⟨s2, hs2, hd2, rfl⟩, hb⟩ := range_none false L (by
    obtain ⟨s, hs, hd, _⟩ := hLedge u0 v0 hg0
    exact ⟨s, hs, hd⟩)
  have hlo : IsLeast {x | ∃ u v, G u v ∧ x = w u v} s1.data := by
    refine ⟨hLedge' s1 hs1 hd1, ?_⟩
    rintro x ⟨u, v, hg, rfl⟩
    obtain ⟨s, hs, hd, h⟩ := hLedge u v hg
    rw [← h]
    exact (hb s hs hd).1
  have hhi : IsGreatest {x | ∃ u v, G u v ∧ x = w u v} s2.data := by
    refine ⟨hLedge' s2 hs2 hd2, ?_⟩
    rintro x ⟨u, v, hg, rfl⟩
    obtain ⟨s, hs, hd, h⟩ := hLedge u v hg
    rw [← h]
    exact (hb s hs hd).2
  generalize s1.data = lo at hlo
  generalize s2.data = hi at hhi
  -- weights of vertices
  have hLw0 : ∀ v x, HasData L {v} x → x = if reverse then hi else lo := by
    intro v x h
    obtain ⟨_, h2⟩ := (hL4 v x).1 h
    rw [if_neg (by decide)] at h2
    obtain ⟨⟨t, ht, htx⟩, hall⟩ := h2
    obtain ⟨u', v', hg', _, hx⟩ := (hedge t x ht).1 htx
    cases reverse
    · refine le_antisymm ?_ (hlo.2 ⟨u', v', hg', hx⟩)
      obtain ⟨u, v, hg, hw⟩ := hlo.1
      exact hall {u, v} lo (Finset.card_pair (ne_of_lt (hG u v hg).1)) ((he u v lo (hG u v hg).1).2 ⟨hg, hw⟩)
    · refine le_antisymm (hhi.2 ⟨u', v', hg', hx⟩) ?_
      obtain ⟨u, v, hg, hw⟩ := hhi.1
      exact hall {u, v} hi (Finset.card_pair (ne_of_lt (hG u v hg).1)) ((he u v hi (hG u v hg).1).2 ⟨hg, hw⟩)
  have hw0edge : ∃ u v, G u v ∧ (if reverse then hi else lo) = w u v := by
    cases reverse
    · exact hlo.1
    · exact hhi.1
  have hw0inf : (if reverse then hi else lo) ≠ inf := by
    obtain ⟨u, v, hg, h⟩ := hw0edge
    rw [h]; exact hinf u v hg
  -- the smallest absolute weight
  have hm : IsLeast {x | ∃ u v, G u v ∧ x = |w u v|} (minAbsoluteWeight huge L) := by
    obtain ⟨a1, a2, a3⟩ := minAbsoluteWeight_spec L huge
    have hlow : ∀ x ∈ {x | ∃ u v, G u v ∧ x = |w u v|}, minAbsoluteWeight huge L ≤ x := by
      rintro x ⟨u, v, hg, rfl⟩
      obtain ⟨s, hs, hd, h⟩ := hLedge u v hg
      rw [← h]
      exact a1 s hs hd
    refine ⟨?_, hlow⟩
    rcases a3 with h | ⟨s, hs, hd, h⟩
    · exact ⟨u0, v0, hg0, le_antisymm (hlow _ ⟨u0, v0, hg0, rfl⟩) (by rw [h]; exact (hrange u0 v0 hg0).1)⟩
    · obtain ⟨u, v, hg, h'⟩ := hLedge' s hs hd
      exact ⟨u, v, hg, by rw [← h, h']⟩
  -- the range of all weights
  have hall : ∀ s ∈ L, ∃ u v, G u v ∧ s.data = w u v := by
    intro s hs
    rcases hLcard s hs with h | h
    · obtain ⟨v, hv'⟩ := Finset.card_eq_one.1 h
      rw [hLw0 v s.data ⟨s, hs, hv', rfl⟩]
      exact hw0edge
    · exact hLedge' s hs ((hdimL s hs).2 h)
  have hrng : dataRange huge lowest L = (lo, hi) := by
    obtain ⟨a1, a2, a3, a4, a5⟩ := dataRange_spec L huge lowest
    have b1 : ∀ u v, G u v → (dataRange huge lowest L).1 ≤ w u v ∧ w u v ≤ (dataRange huge lowest L).2 := by
      intro u v hg
      obtain ⟨s, hs, _, h⟩ := hLedge u v hg
      rw [← h]; exact a1 s hs
    refine Prod.ext ?_ ?_
    · refine le_antisymm ?_ ?_
      · obtain ⟨u, v, hg, h⟩ := hlo.1
        show _ ≤ lo
        rw [h]; exact (b1 u v hg).1
      · rcases a4 with h | ⟨s, hs, h⟩
        · rw [h]
          exact le_trans (hlo.2 ⟨u0, v0, hg0, rfl⟩) (le_trans (le_abs_self _) (hrange u0 v0 hg0).1)
        · rw [← h]
          obtain ⟨u, v, hg, h'⟩ := hall s hs
          exact hlo.2 ⟨u, v, hg, h'⟩
    · refine le_antisymm ?_ ?_
      · rcases a5 with h | ⟨s, hs, h⟩
        · rw [h]
          exact le_trans (hrange u0 v0 hg0).2 (hhi.2 ⟨u0, v0, hg0, rfl⟩)
        · rw [← h]
          obtain ⟨u, v, hg, h'⟩ := hall s hs
          exact hhi.2 ⟨u, v, hg, h'⟩
      · obtain ⟨u, v, hg, h⟩ := hhi.1
        show hi ≤ _
        rw [h]; exact (b1 u v hg).2
  -- the diagram
  obtain ⟨p, Ds, q1, q2, q3⟩ := C51_pipeline inf L hF hLlen false
  have hG' : ∀ u v, G u v → u < v := fun u v h => (hG u v h).1
  obtain ⟨t1, t2⟩ := points_tree_eq inf hF hLlen (by omega) hLv hLe hG' hc hLw0 hLw (.inr hn) q1
  have hext := tree_extreme reverse hF hLlen hsort q1 (by omega) hLv hLe hG' hc hLw
  have hdims := diagram_dimensions hF hLlen q1 q2
  obtain ⟨D, hD, hD0⟩ : ∃ D ∈ Ds, D.dimension = 0 := by
    rw [hdims]
    obtain ⟨s, hs, hd, _⟩ := hLedge u0 v0 hg0
    exact ⟨s.vset, by unfold sets; rw [List.mem_toFinset]; exact List.mem_map_of_mem hs, (hdimL s hs).1 hd⟩
  have honly : ∀ D' ∈ Ds, D'.dimension = 0 := by
    intro D' hD'
    obtain ⟨t, ht, htc⟩ := (hdims D'.dimension).1 ⟨D', hD', rfl⟩
    unfold sets at ht
    rw [List.mem_toFinset] at ht
    obtain ⟨s, hs, rfl⟩ := List.mem_map.1 ht
    rcases hLcard s hs with h | h <;> omega
  have hDs : Ds = [D] := by
    have hpw := q2.1
    rcases Ds with _ | ⟨D1, _ | ⟨D2, Ds⟩⟩
    · simp at hD
    · simp only [List.mem_singleton] at hD
      rw [hD]
    · exfalso
      rw [List.map_cons, List.map_cons, List.pairwise_cons] at hpw
      have := hpw.1 D2.dimension List.mem_cons_self
      rw [honly D1 List.mem_cons_self, honly D2 (by simp)] at this
      omega
  have hpts : D.points.Perm ((if reverse then hi else lo, inf) :: (tree L p).map fun e => (if reverse then hi else lo, w e.1 e.2)) := by
    have := ((q2.2 D).1 hD).2
    rw [this, hD0]
    exact t2
  generalize htree : tree L p = T at *
  set w0 := if reverse then hi else lo with hw0
  have hclosep : ((D.removeDiagonal).points.map (close inf (minAbsoluteWeight huge L))).Perm
      ((((T.map fun e => w e.1 e.2).filter (· ≠ w0)).map fun x => (w0, x)) ++ [(w0, minAbsoluteWeight huge L)]) := by
    have h1 : (D.removeDiagonal).points.Perm ((w0, inf) :: ((T.map fun e => w e.1 e.2).filter (· ≠ w0)).map fun x => (w0, x)) := by
      refine (hpts.filter _).trans (List.Perm.of_eq ?_)
      rw [List.filter_cons, if_pos (by simpa using hw0inf)]
      congr 1
      rw [List.filter_map, List.filter_map, List.map_map]
      congr 1
      refine List.filter_congr fun e _ => ?_
      simp only [Function.comp_apply]
      by_cases h : w e.1 e.2 = w0
      · simp [h]
      · have h' : w0 ≠ w e.1 e.2 := fun h' => h h'.symm
        simp [h, h']
    refine (h1.map _).trans ?_
    rw [List.map_cons]
    have h2 : close inf (minAbsoluteWeight huge L) (w0, inf) = (w0, minAbsoluteWeight huge L) := by simp [close, Diagram.isUnpaired]
    have h3 : (((T.map fun e => w e.1 e.2).filter (· ≠ w0)).map fun x => (w0, x)).map (close inf (minAbsoluteWeight huge L)) = ((T.map fun e => w e.1 e.2).filter (· ≠ w0)).map fun x => (w0, x) := by
      rw [List.map_map]
      refine List.map_congr_left fun x hx => ?_
      obtain ⟨e, hee, rfl⟩ := List.mem_map.1 (List.mem_filter.1 hx).1
      have := hinf _ _ (t1.edges e hee)
      simp [close, Diagram.isUnpaired, this]
    rw [h2, h3]
    exact List.perm_append_comm (l₁ := [(w0, minAbsoluteWeight huge L)])
  have hres : diagramOf inf huge lowest scale L = some ⟨0, ((D.removeDiagonal).points.map (close inf (minAbsoluteWeight huge L))).map fun q => if scale then (rescale lo hi q.1, rescale lo hi q.2) else q⟩ := by
    unfold diagramOf
    rw [q3, hDs]
    simp only [Option.bind_eq_bind, Option.bind_some, List.getLast?_singleton, hrng]
    have hdr : (D.removeDiagonal).dimension = 0 := hD0
    cases scale
    · simp [hdr]
    · simp only [if_true, hdr]
      congr 2
      refine List.map_congr_left fun q _ => ?_
      unfold rescalePoint rescale
      by_cases h : lo = hi
      · simp [h]
      · simp [h]
  exact ⟨L, _, T, lo, hi, minAbsoluteWeight huge L, p0, hres, rfl, hlo, hhi, hm, hext, hclosep.map _⟩

/-- C192. If all weights are negative and not all the same, the normalised diagram has a point whose second coordinate is larger than one: the smallest absolute value is not in the range of the weights. -/
theorem _root_.Aleph.C192_beyond (inf huge lowest : α) (reverse : Bool) (K : Complex α) (hK : WF K) (n : ℕ) (hn : 2 ≤ n) (hlen : K.length ≤ idxMax) (G : ℕ → ℕ → Prop)
    (w : ℕ → ℕ → α) (hdim : ∀ s ∈ K, s.vset.card ≤ 2) (hv : ∀ v, Has K {v} ↔ v < n) (he : ∀ u v x, u < v → (HasData K {u, v} x ↔ G u v ∧ x = w u v)) (hG : ∀ u v, G u v → u < v ∧ v < n)
    (hc : ∀ a < n, ∀ b < n, Relation.EqvGen G a b) (hinf : ∀ u v, G u v → w u v ≠ inf) (hrange : ∀ u v, G u v → |w u v| ≤ huge ∧ lowest ≤ w u v)
    (hneg : ∀ u v, G u v → w u v < 0) (hdiff : ∃ u v u' v', G u v ∧ G u' v' ∧ w u v ≠ w u' v') :
    ∃ L D, prepare false .global reverse K = .ok L ∧ diagramOf inf huge lowest true L = some D ∧ ∃ q ∈ D.points, 1 < q.2 := by
  obtain ⟨L, D, T, lo, hi, m, h1, h2, -, h4, h5, h6, -, h8⟩ := C192_diagram_partial inf huge lowest true reverse K hK n hn hlen G w hdim hv he hG hc hinf hrange
  refine ⟨L, D, h1, h2, (rescale lo hi (if reverse then hi else lo), rescale lo hi m), h8.mem_iff.2 ?_, ?_⟩
  · rw [List.map_append]
    exact List.mem_append_right _ (by simp)
  · obtain ⟨u, v, u', v', g, g', hne⟩ := hdiff
    have hlt : lo < hi := by
      have a1 := h4.2 ⟨u, v, g, rfl⟩
      have a2 := h4.2 ⟨u', v', g', rfl⟩
      have b1 := h5.2 ⟨u, v, g, rfl⟩
      have b2 := h5.2 ⟨u', v', g', rfl⟩
      rcases lt_or_gt_of_ne hne with h | h
      · exact lt_of_le_of_lt a1 (lt_of_lt_of_le h b2)
      · exact lt_of_le_of_lt a2 (lt_of_lt_of_le h b1)
    have hhi : hi < 0 := by
      obtain ⟨a, b, g, h⟩ := h5.1
      rw [h]; exact hneg a b g
    have hm : 0 ≤ m := by
      obtain ⟨a, b, _, h⟩ := h6.1
      rw [h]; exact abs_nonneg _
    show 1 < rescale lo hi m
    unfold rescale
    rw [if_neg hlt.ne, one_lt_div (sub_pos.2 hlt)]
    exact sub_lt_sub_right (lt_of_lt_of_le hhi hm) _

/-- C192. If no weight is negative, the diagram for increasing weights has a point on the diagonal, although such points have been removed: its unpaired point gets the lowest weight as second coordinate. -/
theorem _root_.Aleph.C192_diagonal (inf huge lowest : α) (scale : Bool) (K : Complex α) (hK : WF K) (n : ℕ) (hn : 2 ≤ n) (hlen : K.length ≤ idxMax) (G : ℕ → ℕ → Prop)
    (w : ℕ → ℕ → α) (hdim : ∀ s ∈ K, s.vset.card ≤ 2) (hv : ∀ v, Has K {v} ↔ v < n) (he : ∀ u v x, u < v → (HasData K {u, v} x ↔ G u v ∧ x = w u v)) (hG : ∀ u v, G u v → u < v ∧ v < n)
    (hc : ∀ a < n, ∀ b < n, Relation.EqvGen G a b) (hinf : ∀ u v, G u v → w u v ≠ inf) (hrange : ∀ u v, G u v → |w u v| ≤ huge ∧ lowest ≤ w u v)
    (hpos : ∀ u v, G u v → 0 ≤ w u v) :
    ∃ L D, prepare false .global false K = .ok L ∧ diagramOf inf huge lowest scale L = some D ∧ ∃ q ∈ D.points, q.1 = q.2 := by
  obtain ⟨L, D, T, lo, hi, m, h1, h2, -, h4, h5, h6, -, h8⟩ := C192_diagram_partial inf huge lowest scale false K hK n hn hlen G w hdim hv he hG hc hinf hrange
  have hm : m = lo := by
    refine le_antisymm ?_ ?_
    · obtain ⟨u, v, g, h⟩ := h4.1
      exact h6.2 ⟨u, v, g, by rw [h, abs_of_nonneg (hpos u v g)]⟩
    · obtain ⟨u, v, g, h⟩ := h6.1
      rw [abs_of_nonneg (hpos u v g)] at h
      exact h4.2 ⟨u, v, g, h⟩
  refine ⟨L, D, h1, h2, (fun q => if scale then (rescale lo hi q.1, rescale lo hi q.2) else q) (lo, m), h8.mem_iff.2 (List.mem_map_of_mem (by simp)), ?_⟩
  subst hm
  cases scale <;> rfl

/-- A path with three vertices. -/
def rationalPath (x y : ℚ) : Complex ℚ := [⟨[0], 0⟩, ⟨[1], 0⟩, ⟨[2], 0⟩, ⟨[1, 0], x⟩, ⟨[2, 1], y⟩]

/-- Its edges. -/
def PathEdge (u v : ℕ) : Prop := (u = 0 ∧ v = 1) ∨ (u = 1 ∧ v = 2)

/-- The weights of its edges. -/
def pathWeight (x y : ℚ) (u _v : ℕ) : ℚ := if u = 0 then x else y

theorem rationalPath_facts (x y : ℚ) : WF (rationalPath x y) ∧ (rationalPath x y).length ≤ idxMax ∧ (∀ s ∈ rationalPath x y, s.vset.card ≤ 2) ∧ (∀ v, Has (rationalPath x y) {v} ↔ v < 3) ∧
    (∀ u v z, u < v → (HasData (rationalPath x y) {u, v} z ↔ PathEdge u v ∧ z = pathWeight x y u v)) ∧ (∀ u v, PathEdge u v → u < v ∧ v < 3) ∧ ∀ a < 3, ∀ b < 3, Relation.EqvGen PathEdge a b := by
  have h01 : Relation.EqvGen PathEdge 0 1 := .rel _ _ (.inl ⟨rfl, rfl⟩)
  have h12 : Relation.EqvGen PathEdge 1 2 := .rel _ _ (.inr ⟨rfl, rfl⟩)
  have h0 : ∀ a < 3, Relation.EqvGen PathEdge 0 a := by
    intro a ha
    interval_cases a
    · exact .refl _
    · exact h01
    · exact .trans _ _ _ h01 h12
  have hmem : ∀ s, s ∈ rationalPath x y ↔ s = ⟨[0], 0⟩ ∨ s = ⟨[1], 0⟩ ∨ s = ⟨[2], 0⟩ ∨ s = ⟨[1, 0], x⟩ ∨ s = ⟨[2, 1], y⟩ := by simp [rationalPath]
  refine ⟨⟨?_, ?_, ?_⟩, show 5 ≤ _ by decide, ?_, ?_, ?_, ?_, ?_⟩
  · intro s hs
    rcases (hmem s).1 hs with rfl | rfl | rfl | rfl | rfl <;> simp [Normal]
  · intro s hs
    rcases (hmem s).1 hs with rfl | rfl | rfl | rfl | rfl <;> simp
  · simp [rationalPath]
  · intro s hs
    rcases (hmem s).1 hs with rfl | rfl | rfl | rfl | rfl <;> simp [Simplex.vset]
  · intro v
    constructor
    · rintro ⟨s, hs, hv⟩
      have hvs : v ∈ s.vset := by rw [hv]; simp
      rcases (hmem s).1 hs with rfl | rfl | rfl | rfl | rfl <;> simp [Simplex.vset] at hvs <;> omega
    · intro hv
      interval_cases v
      · exact ⟨⟨[0], 0⟩, (hmem _).2 (by simp), rfl⟩
      · exact ⟨⟨[1], 0⟩, (hmem _).2 (by simp), rfl⟩
      · exact ⟨⟨[2], 0⟩, (hmem _).2 (by simp), rfl⟩
  · intro u v z huv
    constructor
    · rintro ⟨s, hs, hv, rfl⟩
      have hu' : u ∈ s.vset := by rw [hv]; simp
      have hv' : v ∈ s.vset := by rw [hv]; simp
      rcases (hmem s).1 hs with rfl | rfl | rfl | rfl | rfl <;> simp [Simplex.vset] at hu' hv'
      · omega
      · omega
      · omega
      · obtain ⟨rfl, rfl⟩ : u = 0 ∧ v = 1 := by omega
        exact ⟨.inl ⟨rfl, rfl⟩, by simp [pathWeight]⟩
      · obtain ⟨rfl, rfl⟩ : u = 1 ∧ v = 2 := by omega
        exact ⟨.inr ⟨rfl, rfl⟩, by simp [pathWeight]⟩
    · rintro ⟨⟨rfl, rfl⟩ | ⟨rfl, rfl⟩, hz⟩ <;> rw [hz]
      · exact ⟨⟨[1, 0], x⟩, (hmem _).2 (by simp), (by simp [Simplex.vset, Finset.pair_comm]), by simp [pathWeight]⟩
      · exact ⟨⟨[2, 1], y⟩, (hmem _).2 (by simp), (by simp [Simplex.vset, Finset.pair_comm]), by simp [pathWeight]⟩
  · rintro u v (⟨rfl, rfl⟩ | ⟨rfl, rfl⟩) <;> decide
  · intro a ha b hb
    exact .trans _ _ _ (.symm _ _ (h0 a ha)) (h0 b hb)

/-- The path with the weights -1 and 3 satisfies the hypotheses of `C192_diagram_partial`. -/
example (scale reverse : Bool) : ∃ L D, prepare false .global reverse (rationalPath (-1) 3) = .ok L ∧ diagramOf 1000 999 (-999) scale L = some D ∧ D.dimension = 0 := by
  obtain ⟨f1, f2, f3, f4, f5, f6, f7⟩ := rationalPath_facts (-1) 3
  obtain ⟨L, D, T, lo, hi, m, h1, h2, h3, -⟩ := C192_diagram_partial 1000 999 (-999) scale reverse _ f1 3 (by decide) f2 PathEdge (pathWeight (-1) 3) f3 f4 f5 f6 f7
    (by rintro u v (⟨rfl, rfl⟩ | ⟨rfl, rfl⟩) <;> norm_num [pathWeight]) (by rintro u v (⟨rfl, rfl⟩ | ⟨rfl, rfl⟩) <;> norm_num [pathWeight])
  exact ⟨L, D, h1, h2, h3⟩

/-- The path with the weights -2 and -1 satisfies the hypotheses of `C192_beyond`. -/
example (reverse : Bool) : ∃ L D, prepare false .global reverse (rationalPath (-2) (-1)) = .ok L ∧ diagramOf 1000 999 (-999) true L = some D ∧ ∃ q ∈ D.points, 1 < q.2 := by
  obtain ⟨f1, f2, f3, f4, f5, f6, f7⟩ := rationalPath_facts (-2) (-1)
  exact C192_beyond 1000 999 (-999) reverse _ f1 3 (by decide) f2 PathEdge (pathWeight (-2) (-1)) f3 f4 f5 f6 f7
    (by rintro u v (⟨rfl, rfl⟩ | ⟨rfl, rfl⟩) <;> norm_num [pathWeight]) (by rintro u v (⟨rfl, rfl⟩ | ⟨rfl, rfl⟩) <;> norm_num [pathWeight])
    (by rintro u v (⟨rfl, rfl⟩ | ⟨rfl, rfl⟩) <;> norm_num [pathWeight]) ⟨0, 1, 1, 2, .inl ⟨rfl, rfl⟩, .inr ⟨rfl, rfl⟩, by norm_num [pathWeight]⟩

/-- The path with the weights 1 and 2 satisfies the hypotheses of `C192_diagonal`. -/
example (scale : Bool) : ∃ L D, prepare false .global false (rationalPath 1 2) = .ok L ∧ diagramOf 1000 999 (-999) scale L = some D ∧ ∃ q ∈ D.points, q.1 = q.2 := by
  obtain ⟨f1, f2, f3, f4, f5, f6, f7⟩ := rationalPath_facts 1 2
  exact C192_diagonal 1000 999 (-999) scale _ f1 3 (by decide) f2 PathEdge (pathWeight 1 2) f3 f4 f5 f6 f7
    (by rintro u v (⟨rfl, rfl⟩ | ⟨rfl, rfl⟩) <;> norm_num [pathWeight]) (by rintro u v (⟨rfl, rfl⟩ | ⟨rfl, rfl⟩) <;> norm_num [pathWeight])
    (by rintro u v (⟨rfl, rfl⟩ | ⟨rfl, rfl⟩) <;> norm_num [pathWeight])

end Aleph.StratifiedAnalysis
