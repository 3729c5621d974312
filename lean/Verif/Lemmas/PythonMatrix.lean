import Verif.Spec.PythonMatrix
import Verif.Lemmas.SimplexSkeleton
import Verif.Lemmas.SpanningTree
import Verif.Props.VietorisRips
import Mathlib.Algebra.Order.Group.Unbundled.Int
import Mathlib.Data.Finset.Powerset

/-!
# Complexes of distance matrices
-/

namespace Aleph.PythonMatrix

open Finset Spec

variable {α : Type}

/-! ### Access to arrays -/

theorem offset_eq {s0 s1 : ℤ} (h0 : 8 ∣ s0) (h1 : 8 ∣ s1) {u v : ℕ} (hb : |u * s0 + v * s1| < 2 ^ 63) :
    offset (elementStride s0) (elementStride s1) u v = u * s0 + v * s1 := by
  have hw : ((wordSize : ℕ) : ℤ) = 18446744073709551616 := rfl
  have key : ∀ s : ℤ, 8 ∣ s → ((elementStride s : ℕ) : ℤ) * 8 = s % (wordSize : ℕ) := by
    rintro s ⟨k, rfl⟩
    unfold elementStride
    rw [hw]
    omega
  have e0 := key s0 h0
  have e1 := key s1 h1
  have hmod : (((u * elementStride s0 + v * elementStride s1) * 8 % wordSize : ℕ) : ℤ) = (u * s0 + v * s1) % (wordSize : ℕ) := by
    push_cast
    have : ((u : ℤ) * (elementStride s0 : ℕ) + (v : ℤ) * (elementStride s1 : ℕ)) * 8 = u * (s0 % (wordSize : ℕ)) + v * (s1 % (wordSize : ℕ)) := by
      rw [← e0, ← e1]
      ring
    rw [this]
    rw [Int.add_emod, Int.mul_emod, Int.emod_emod, ← Int.mul_emod, Int.mul_emod (v : ℤ), Int.emod_emod, ← Int.mul_emod, ← Int.add_emod]
  unfold offset
  simp only
  rw [hw] at hmod
  have hw' : wordSize = 18446744073709551616 := rfl
  rw [hw'] at hmod ⊢
  rw [abs_lt] at hb
  generalize ((u * elementStride s0 + v * elementStride s1) * 8 % 18446744073709551616 : ℕ) = b at *
  generalize (u : ℤ) * s0 + v * s1 = x at *
  split <;> omega

theorem access {A : Matrix α} {n m : ℕ} {M : ℕ → ℕ → α} (hA : IsMatrix A n m M) :
    ∃ s0 s1, dimensions A = .ok (n, m, s0, s1) ∧ ∀ u < n, ∀ v < m, element A s0 s1 u v = .ok (M u v) := by
  obtain ⟨s0, s1, h1, h2, h3, h4⟩ := hA.layout
  refine ⟨s0, s1, ?_, ?_⟩
  · unfold dimensions
    rw [hA.shape, h1]
  · intro u hu v hv
    obtain ⟨g1, g2⟩ := h4 u hu v hv
    unfold element
    rw [offset_eq h2 h3 g1, g2]

theorem mapM_ok {β γ : Type} {f : β → Except Failure γ} {g : β → γ} : ∀ {l : List β}, (∀ x ∈ l, f x = .ok (g x)) → l.mapM f = .ok (l.map g)
  | [], _ => rfl
  | x :: l, h => by
    rw [List.mapM_cons, h x (by simp), mapM_ok fun y hy => h y (by simp [hy])]
    rfl

/-! ### The graph of a matrix -/

theorem pair_ofRange {u v : ℕ} (x : α) (huv : u < v) : Simplex.ofRange [u, v] x = ⟨[v, u], x⟩ := by
  have : (Simplex.ofRange [u, v] x).vertices = [v, u] := by
    refine Normal.ext (ofRange_normal _ _) (by simpa [Normal] using huv) fun y => ?_
    rw [mem_ofRange]; simp [or_comm]
  show Simplex.mk (Simplex.ofRange [u, v] x).vertices _ = _
  rw [this]

theorem distanceComplex_eq [Zero α] {A : Matrix α} {n : ℕ} {M : ℕ → ℕ → α} (hA : IsMatrix A n n M) :
    ∃ l, distanceComplex A = complexOf l ∧
      ∀ s, s ∈ l ↔ (∃ i < n, s = ⟨[i], 0⟩) ∨ ∃ u v, u < v ∧ v < n ∧ s = ⟨[v, u], M u v⟩ := by
  obtain ⟨s0, s1, h1, h2⟩ := access hA
  unfold distanceComplex
  rw [h1]
  simp only [ne_eq, not_true_eq_false, if_false]
  have hmem : ∀ e : ℕ × ℕ, e ∈ ((List.range n).flatMap fun u => (List.range' (u + 1) (n - (u + 1))).map fun v => (u, v)) ↔ e.1 < e.2 ∧ e.2 < n := by
    rintro ⟨a, b⟩
    simp only [List.mem_flatMap, List.mem_range, List.mem_map, List.mem_range'_1, Prod.mk.injEq]
    constructor
    · rintro ⟨u, hu, v, hv, rfl, rfl⟩
      omega
    · rintro ⟨h1, h2⟩
      exact ⟨a, by omega, b, by omega, rfl, rfl⟩
  rw [mapM_ok (g := fun e => Simplex.ofRange [e.1, e.2] (M e.1 e.2)) (by
    intro e he
    rw [hmem] at he
    rw [h2 e.1 (by omega) e.2 he.2]
    rfl)]
  refine ⟨_, rfl, fun s => ?_⟩
  rw [List.mem_append]
  refine or_congr ?_ ?_
  · simp only [List.mem_map, List.mem_range]
    constructor
    · rintro ⟨i, hi, rfl⟩; exact ⟨i, hi, rfl⟩
    · rintro ⟨i, hi, rfl⟩; exact ⟨i, hi, rfl⟩
  · rw [List.mem_map]
    constructor
    · rintro ⟨e, he, rfl⟩
      rw [hmem] at he
      exact ⟨e.1, e.2, he.1, he.2, pair_ofRange _ he.1⟩
    · rintro ⟨u, v, huv, hv, rfl⟩
      exact ⟨(u, v), (hmem _).2 ⟨huv, hv⟩, pair_ofRange _ huv⟩

theorem distanceComplex_spec [LinearOrder α] [Zero α] {A : Matrix α} {n : ℕ} {M : ℕ → ℕ → α} (hA : IsMatrix A n n M) :
    ∃ K, distanceComplex A = .ok K ∧ IsRips n M 1 K ∧
      (∀ s ∈ K, ∀ u v, u < v → s.vset = {u, v} → s.data = M u v) := by
  obtain ⟨l, hl, hmem⟩ := distanceComplex_eq hA
  obtain ⟨K, h1, -, h2, h3⟩ := insertRange_spec [] l (by
    intro s hs
    rcases (hmem s).1 hs with ⟨i, -, rfl⟩ | ⟨u, v, -, -, rfl⟩ <;> simp)
  have hwf : WF K := by
    have := insertRange_wf Spec.WF.nil (l := l) (by
      intro s hs
      rcases (hmem s).1 hs with ⟨i, -, rfl⟩ | ⟨u, v, h, -, rfl⟩
      · simp [Normal]
      · simpa [Normal] using h)
    rw [h1] at this
    exact this
  have hK : ∀ s ∈ K, (∃ i < n, s = ⟨[i], 0⟩) ∨ ∃ u v, u < v ∧ v < n ∧ s = ⟨[v, u], M u v⟩ := fun s hs =>
    (hmem s).1 ((h2 s hs).resolve_left (by simp))
  have hpp : ∀ a b c d : ℕ, a < b → c < d → ({b, a} : Finset ℕ) = {c, d} → a = c ∧ b = d := by
    intro a b c d hab hcd h
    have h1 : a ∈ ({c, d} : Finset ℕ) := by rw [← h]; simp
    have h2 : b ∈ ({c, d} : Finset ℕ) := by rw [← h]; simp
    simp only [mem_insert, mem_singleton] at h1 h2
    omega
  have hdata : ∀ s ∈ K, ∀ u v, u < v → s.vset = {u, v} → s.data = M u v := by
    intro s hs u v huv he
    rcases hK s hs with ⟨i, hi, rfl⟩ | ⟨a, b, hab, hb, rfl⟩
    · exfalso
      have := congrArg Finset.card he
      rw [card_pair (by omega)] at this
      simp [Simplex.vset] at this
    · obtain ⟨rfl, rfl⟩ := hpp a b u v hab huv (by simpa [Simplex.vset] using he)
      rfl
  refine ⟨K, by rw [hl, complexOf, h1], ⟨hwf, ?_, ?_, ?_⟩, hdata⟩
  · intro t
    constructor
    · rintro ⟨s, hs, rfl⟩
      rcases hK s hs with ⟨i, hi, rfl⟩ | ⟨a, b, hab, hb, rfl⟩
      · simp [Simplex.vset, hi]
      · refine ⟨by simp [Simplex.vset], (List.toFinset_card_le _).trans (by simp), ?_⟩
        intro v hv
        simp [Simplex.vset] at hv
        omega
    · rintro ⟨hne, hcard, hlt⟩
      have hpos := hne.card_pos
      have : #t = 1 ∨ #t = 2 := by omega
      rcases this with h | h
      · obtain ⟨v, rfl⟩ := card_eq_one.1 h
        obtain ⟨t, ht, he⟩ := h3 ⟨[v], 0⟩ ((hmem _).2 (Or.inl ⟨v, hlt v (by simp), rfl⟩))
        exact ⟨t, ht, by unfold Simplex.vset; rw [he]; simp⟩
      · have hpair : ∃ u v, u < v ∧ t = {u, v} := by
          obtain ⟨a, b, hab, rfl⟩ := card_eq_two.1 h
          rcases lt_or_gt_of_ne hab with h | h
          · exact ⟨a, b, h, rfl⟩
          · exact ⟨b, a, h, pair_comm _ _⟩
        obtain ⟨u, v, huv, rfl⟩ := hpair
        obtain ⟨t, ht, he⟩ := h3 ⟨[v, u], M u v⟩ ((hmem _).2 (Or.inr ⟨u, v, huv, hlt v (by simp), rfl⟩))
        exact ⟨t, ht, by unfold Simplex.vset; rw [he]; simp [pair_comm]⟩
  · intro s hs hcard
    rcases hK s hs with ⟨i, hi, rfl⟩ | ⟨a, b, hab, hb, rfl⟩
    · rfl
    · simp only [Simplex.vset, List.toFinset_cons, List.toFinset_nil, insert_empty_eq] at hcard
      rw [card_pair (by omega)] at hcard
      omega
  · intro s hs hcard
    rcases hK s hs with ⟨i, hi, rfl⟩ | ⟨a, b, hab, hb, rfl⟩
    · simp [Simplex.vset] at hcard
    · refine ⟨⟨a, by simp [Simplex.vset], b, by simp [Simplex.vset], hab, rfl⟩, ?_⟩
      rintro y ⟨u, hu, v, hv, huv, rfl⟩
      simp [Simplex.vset] at hu hv
      have : u = a ∧ v = b := by omega
      rw [this.1, this.2]

/-! ### Expansion and sorting -/

section Expansion

variable [LinearOrder α] [Zero α]

theorem isClique_iff {n : ℕ} {M : ℕ → ℕ → α} {K : Complex α} (h : IsRips n M 1 K) (t : Finset ℕ) : IsClique K t ↔ ∀ v ∈ t, v < n := by
  unfold IsClique
  constructor
  · rintro ⟨h1, -⟩ v hv
    exact ((h.simplices _).1 (h1 v hv)).2.2 v (by simp)
  · intro hlt
    refine ⟨fun v hv => (h.simplices _).2 ⟨by simp, by simp, by simpa using hlt v hv⟩, fun u hu v hv huv => (h.simplices _).2 ⟨by simp, ?_, ?_⟩⟩
    · rw [card_pair huv]
    · intro x hx
      simp only [mem_insert, mem_singleton] at hx
      rcases hx with rfl | rfl
      · exact hlt _ hu
      · exact hlt _ hv

theorem edgeClosed {n : ℕ} {M : ℕ → ℕ → α} {K : Complex α} (h : IsRips n M 1 K) : EdgeClosed K := by
  intro u v huv he
  refine (h.simplices _).2 ⟨by simp, by simp, ?_⟩
  have := ((h.simplices _).1 he).2.2 u (by simp)
  simpa using this

theorem expanded_spec (o : Orders α) {n : ℕ} {M : ℕ → ℕ → α} (hpos : ∀ u v, u < v → v < n → 0 ≤ M u v) {K : Complex α} (h : IsRips n M 1 K)
    (hd2 : ∀ s ∈ K, ∀ u v, u < v → s.vset = {u, v} → s.data = M u v) (d : ℕ) :
    ∃ L, expanded o d K = .ok L ∧ IsRips n M d L := by
  have hec := edgeClosed h
  have hcl := isClique_iff h
  obtain ⟨E, h1, h2, h3, h4, h5⟩ := C26_cliques o 0 K h.once hec d
  obtain ⟨E', L, h1', g1, g2, g3, g4, g5, -⟩ := C27_expansion_weights o 0 K h.once hec d
  rw [h1] at h1'
  cases h1'
  have hhas : ∀ t : Finset ℕ, Has L t ↔ t.Nonempty ∧ #t ≤ d + 1 ∧ ∀ v ∈ t, v < n := fun t => by rw [g3, h3, hcl]
  have hedge : ∀ e : Finset ℕ, ∀ y, #e = 2 → HasData K e y → ∃ u ∈ e, ∃ v ∈ e, u < v ∧ y = M u v := by
    rintro e y hcard ⟨s, hs, rfl, rfl⟩
    obtain ⟨a, b, hab, heq⟩ := card_eq_two.1 hcard
    rcases lt_or_gt_of_ne hab with h | h
    · exact ⟨a, by rw [heq]; simp, b, by rw [heq]; simp, h, hd2 s hs a b h heq⟩
    · exact ⟨b, by rw [heq]; simp, a, by rw [heq]; simp, h, hd2 s hs b a h (heq.trans (pair_comm _ _))⟩
  refine ⟨L, by rw [expanded, h1]; simp only [g1], g2, hhas, ?_, ?_⟩
  · intro s hs hcard
    obtain ⟨a, ha, hae, had⟩ := g4 s hs hcard
    rw [← had]
    exact h.points a ha (by rw [hae]; exact hcard)
  · intro s hs hcard
    obtain ⟨⟨e, hes, hec, hed⟩, hub⟩ := g5 s hs hcard (by
      intro e heK hec
      obtain ⟨a, ha, b, hb, hab, hy⟩ := hedge e.vset e.data hec ⟨e, heK, rfl, rfl⟩
      rw [hy]
      exact hpos a b hab (((h.simplices _).1 ⟨e, heK, rfl⟩).2.2 b hb))
    refine ⟨?_, ?_⟩
    · obtain ⟨u, hu, v, hv, huv, hy⟩ := hedge e _ hec hed
      exact ⟨u, hes hu, v, hes hv, huv, hy⟩
    · rintro y ⟨u, hu, v, hvs, huv, rfl⟩
      have hlt := ((hhas _).1 ⟨s, hs, rfl⟩).2.2
      obtain ⟨a, ha, hae⟩ := ((hcl s.vset).2 hlt).2 u hu v hvs (by omega)
      exact hub ⟨{u, v}, insert_subset hu (singleton_subset_iff.2 hvs), card_pair (by omega), a, ha, hae, hd2 a ha u v huv hae⟩

theorem sorted_spec {n : ℕ} {M : ℕ → ℕ → α} (hpos : ∀ u v, u < v → v < n → 0 ≤ M u v) {d : ℕ} {K : Complex α} (h : IsRips n M d K) :
    IsRips n M d (sorted K) ∧ IsFiltration (sorted K) ∧ (sorted K).Pairwise fun s t => s.data ≤ t.data := by
  have hmono : ∀ s ∈ K, ∀ t ∈ K, s.vset ⊂ t.vset → s.data ≤ t.data := by
    intro s hs t ht hst
    have hlt := card_lt_card hst
    have hsne : 0 < #s.vset := card_pos.2 ((h.simplices _).1 ⟨s, hs, rfl⟩).1
    obtain ⟨-, hub⟩ := h.largest t ht (by omega)
    by_cases h1 : #s.vset = 1
    · rw [h.points s hs h1]
      obtain ⟨u, hu, v, hvt, huv, hy⟩ := (h.largest t ht (by omega)).1
      rw [hy]
      exact hpos u v huv (((h.simplices _).1 ⟨t, ht, rfl⟩).2.2 v hvt)
    · obtain ⟨u, hu, v, hvt, huv, hy⟩ := (h.largest s hs (by omega)).1
      exact hub ⟨u, hst.1 hu, v, hst.1 hvt, huv, hy⟩
  obtain ⟨k1, k2, k3⟩ := sort_data_spec h.once hmono
  have hperm : (sorted K).Perm K := sort_perm K _
  have hhas : ∀ t, Has (sorted K) t ↔ Has K t := by
    intro t
    unfold Has
    simp only [hperm.mem_iff]
  refine ⟨⟨k1, fun t => by rw [hhas, h.simplices], fun s hs => h.points s (hperm.subset hs), fun s hs => h.largest s (hperm.subset hs)⟩,
    ⟨k1, ?_, k2⟩, k3⟩
  intro s hs t hts htn
  obtain ⟨g1, g2, g3⟩ := (h.simplices _).1 ((hhas _).1 ⟨s, hs, rfl⟩)
  exact (hhas t).2 ((h.simplices _).2 ⟨htn, (card_le_card hts).trans g2, fun v hv => g3 v (hts hv)⟩)

theorem length_eq {n : ℕ} {M : ℕ → ℕ → α} {d : ℕ} {K : Complex α} (h : IsRips n M d K) : K.length = ripsSize n d := by
  have hnd : (K.map Simplex.vset).Nodup := by
    refine List.Nodup.map_on ?_ h.once.nodup
    intro s hs t ht he
    exact h.once.eq_of_vset hs ht he
  have hset : (K.map Simplex.vset).toFinset = (range (d + 1)).biUnion fun k => powersetCard (k + 1) (range n) := by
    ext t
    simp only [List.mem_toFinset, List.mem_map, mem_biUnion, mem_range, mem_powersetCard]
    have := h.simplices t
    unfold Has at this
    rw [this]
    constructor
    · rintro ⟨h1, h2, h3⟩
      have := h1.card_pos
      exact ⟨#t - 1, by omega, fun x hx => mem_range.2 (h3 x hx), by omega⟩
    · rintro ⟨k, hk, h1, h2⟩
      exact ⟨card_pos.1 (by omega), by omega, fun v hv => mem_range.1 (h1 hv)⟩
  have hc := List.toFinset_card_of_nodup hnd
  rw [hset, card_biUnion, List.length_map] at hc
  · rw [← hc]
    unfold ripsSize
    exact sum_congr rfl fun k _ => by rw [card_powersetCard, card_range]
  · intro i _ j _ hij
    refine disjoint_left.2 ?_
    intro t h1 h2
    rw [mem_powersetCard] at h1 h2
    omega

end Expansion

/-! ### The pairing -/

theorem pairingOf_spec {K : Complex α} (hK : IsFiltration K) (hn : K.length ≤ idxMax) :
    ∃ p, pairingOf K = .ok p ∧ IsComplexPairing K false p ∧
      ∀ inf : α, ∃ Ds, makePersistenceDiagrams inf p K = some Ds ∧ IsDiagramsOf inf K p Ds ∧
        ∀ a k dualize, calculatePersistenceDiagrams a k inf K dualize false = some Ds := by
  obtain ⟨r, h1, h2, h3, h4, h5⟩ := C11_is_boundary_matrix .vector K hK hn
  obtain ⟨p, g1, g2⟩ := C05_pairing_all_algorithms .standard .vector r h2 false idxMax
  have hcp : IsComplexPairing K false p := isComplexPairing_of h2 h3 h4 h5 hn g2
  obtain ⟨M', q, m1, m2, m3⟩ := C08_dual_pairing .twist .standard .vector .vector r h2 false idxMax
  rw [g1] at m3
  cases m3
  refine ⟨p, ?_, hcp, fun inf => ?_⟩
  · unfold pairingOf
    rw [h1]
    simp only [m1]
    rw [show calculatePersistencePairing .twist .vector M' = some p from m2]
  · obtain ⟨p', Ds, c1, c2, c3⟩ := C51_pipeline inf K hK hn false
    have := c3 .twist .vector true
    unfold calculatePersistenceDiagrams at this
    rw [h1] at this
    simp only [if_true, m1, m2] at this
    refine ⟨Ds, this, ?_, c3⟩
    have hcr : ∀ ij ∈ p, ij.1 < K.length := by
      rintro ⟨i, j⟩ hij
      have := (C09_pairing_wellformed .standard .vector r h2 false idxMax p g1).2.2.1 i j hij
      rw [h3] at this
      exact this.1
    obtain ⟨Ds', d1, d2⟩ := (C12_diagrams inf K hK.wf p).1 hcr
    rw [this] at d1
    cases d1
    exact d2

end Aleph.PythonMatrix
