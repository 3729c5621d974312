import Verif.Props.ZeroDimFunctor
import Mathlib.Data.Set.Card

/-!
Components of a filtered complex between two edges that join components.
-/

namespace Aleph

open Finset Aleph.Spec

variable {α : Type} {K : Complex α}

theorem joined_succ_of_not_bridges {t : ℕ} (hb : ¬ Bridges K t) {a b : ℕ} : Joined K (t + 1) a b ↔ Joined K t a b := by
  constructor
  · intro h
    unfold Joined at h
    induction h with
    | refl _ => exact .refl _
    | symm _ _ _ ih => exact .symm _ _ ih
    | trans _ _ _ _ _ ih ih' => exact .trans _ _ _ ih ih'
    | rel a b h =>
      obtain ⟨hne, k, hk, hab⟩ := h
      rcases Nat.lt_succ_iff_lt_or_eq.1 hk with hk | rfl
      · exact .rel _ _ ⟨hne, k, hk, hab⟩
      · by_contra hj
        exact hb ⟨a, b, hne, hab, hj⟩
  · exact Spec.Joined.mono (Nat.le_succ t)

theorem joined_of_not_bridges {t t' : ℕ} (htt : t ≤ t') (hb : ∀ s, t ≤ s → s < t' → ¬ Bridges K s) {a b : ℕ} :
    Joined K t' a b ↔ Joined K t a b := by
  induction t', htt using Nat.le_induction with
  | base => rfl
  | succ n hn ih =>
    rw [joined_succ_of_not_bridges (hb n hn (Nat.lt_succ_self n))]
    exact ih fun s h1 h2 => hb s h1 (by omega)

theorem oldest_of_not_bridges {t t' : ℕ} (htt : t ≤ t') (hb : ∀ s, t ≤ s → s < t' → ¬ Bridges K s) {i : ℕ} :
    OldestAt K t' i ↔ OldestAt K t i := by
  unfold OldestAt
  simp only [joined_of_not_bridges htt hb]

theorem joined_succ_of_edge {t u v : ℕ} (huv : u ≠ v) (he : vsetAt K t = {u, v}) {a b : ℕ} :
    Joined K (t + 1) a b ↔ Joined K t a b ∨ (Joined K t a u ∧ Joined K t v b) ∨ (Joined K t a v ∧ Joined K t u b) := by
  constructor
  · intro h
    unfold Joined at h
    induction h with
    | refl _ => exact .inl (.refl _)
    | symm x y _ ih =>
      rcases ih with h | ⟨h1, h2⟩ | ⟨h1, h2⟩
      · exact .inl (.symm _ _ h)
      · exact .inr (.inr ⟨.symm _ _ h2, .symm _ _ h1⟩)
      · exact .inr (.inl ⟨.symm _ _ h2, .symm _ _ h1⟩)
    | trans x y z _ _ ih ih' =>
      rcases ih with h | ⟨h1, h2⟩ | ⟨h1, h2⟩ <;> rcases ih' with g | ⟨g1, g2⟩ | ⟨g1, g2⟩
      · exact .inl (.trans _ _ _ h g)
      · exact .inr (.inl ⟨.trans _ _ _ h g1, g2⟩)
      · exact .inr (.inr ⟨.trans _ _ _ h g1, g2⟩)
      · exact .inr (.inl ⟨h1, .trans _ _ _ h2 g⟩)
      · exact .inr (.inl ⟨h1, g2⟩)
      · exact .inl (.trans _ _ _ h1 g2)
      · exact .inr (.inr ⟨h1, .trans _ _ _ h2 g⟩)
      · exact .inl (.trans _ _ _ h1 g2)
      · exact .inr (.inr ⟨h1, g2⟩)
    | rel a b h =>
      obtain ⟨hne, k, hk, hab⟩ := h
      rcases Nat.lt_succ_iff_lt_or_eq.1 hk with hk | rfl
      · exact .inl (.rel _ _ ⟨hne, k, hk, hab⟩)
      · rw [he] at hab
        have ha : a ∈ ({u, v} : Finset ℕ) := by rw [hab]; simp
        have hb : b ∈ ({u, v} : Finset ℕ) := by rw [hab]; simp
        simp only [mem_insert, mem_singleton] at ha hb
        rcases ha with rfl | rfl <;> rcases hb with rfl | rfl
        · exact absurd rfl hne
        · exact .inr (.inl ⟨.refl _, .refl _⟩)
        · exact .inr (.inr ⟨.refl _, .refl _⟩)
        · exact absurd rfl hne
  · have hj : Joined K (t + 1) u v := .rel _ _ ⟨huv, t, Nat.lt_succ_self t, he⟩
    have m : ∀ {x y}, Joined K t x y → Joined K (t + 1) x y := Spec.Joined.mono (Nat.le_succ t)
    rintro (h | ⟨h1, h2⟩ | ⟨h1, h2⟩)
    · exact m h
    · exact .trans _ _ _ (m h1) (.trans _ _ _ hj (m h2))
    · exact .trans _ _ _ (m h1) (.trans _ _ _ (.symm _ _ hj) (m h2))

theorem component_finite (hK : WF K) (t r : ℕ) : (component K t r).Finite := by
  refine Set.Finite.subset (K.vertices.toFinset.finite_toSet) ?_
  rintro w ⟨h, _⟩
  simpa using ((C22_vertices K hK).2 w).2 h

theorem component_of_joined {t r r' : ℕ} (h : Joined K t r r') : component K t r = component K t r' := by
  ext w
  exact ⟨fun ⟨a, b⟩ => ⟨a, .trans _ _ _ (.symm _ _ h) b⟩, fun ⟨a, b⟩ => ⟨a, .trans _ _ _ h b⟩⟩

theorem component_of_not_bridges {t t' : ℕ} (htt : t ≤ t') (hb : ∀ s, t ≤ s → s < t' → ¬ Bridges K s) (r : ℕ) :
    component K t' r = component K t r := by
  ext w
  exact and_congr_right fun _ => joined_of_not_bridges htt hb

theorem component_zero (r : ℕ) (hr : Has K {r}) : component K 0 r = {r} := by
  ext w
  constructor
  · rintro ⟨_, h⟩
    exact (joined_of_rep (rep := id) (fun _ _ k _ hk _ => absurd hk (Nat.not_lt_zero k)) h).symm
  · rintro rfl
    exact ⟨hr, .refl _⟩

theorem has_vertex_iff {w : ℕ} : Has K {w} ↔ ∃ i, vsetAt K i = {w} := by
  constructor
  · rintro ⟨s, hs, h⟩
    obtain ⟨i, hi⟩ := List.mem_iff_getElem?.1 hs
    exact ⟨i, by rw [vsetAt_some hi, h]⟩
  · rintro ⟨i, hi⟩
    have hl := lt_of_vsetAt (by simp) hi
    exact ⟨K[i], List.getElem_mem hl, by rw [← hi, vsetAt_some (List.getElem?_eq_getElem hl)]⟩

/-- What happens to the components at an edge that joins two of them. -/
theorem mergeCall_components (hK : WF K) {t y o u v : ℕ} {c d : α} (h : MergeCall K t (.merge y o c d u v)) :
    y ≠ o ∧ Disjoint (component K t o) (component K t y) ∧
    component K (t + 1) o = component K t o ∪ component K t y ∧
    (component K t u = component K t y ∧ component K t v = component K t o ∨
      component K t u = component K t o ∧ component K t v = component K t y) ∧
    ∀ i r, vsetAt K i = {r} → OldestAt K (t + 1) i → r ≠ y ∧ (r ≠ o → component K (t + 1) r = component K t r) := by
  obtain ⟨hs, hnj, hc, i, j, hi, hj, hoi, hoj, hlt⟩ := h
  have hiy : vsetAt K i = {y} := by rw [vsetAt_some hi]; simp [Simplex.vset]
  have hyo : y ≠ o := by
    rintro rfl
    have := vsetAt_unique hK (by simp) hiy hj
    omega
  have hnorm := hK.normal _ (List.mem_of_getElem? hs)
  have huv : u ≠ v := by
    have := hnorm.nodup
    simpa using this
  have hvs : vsetAt K t = {u, v} := by rw [vsetAt_some hs]; simp [Simplex.vset]
  have hno : ¬ Joined K t o y := by
    intro hj
    rcases hc with ⟨h1, h2⟩ | ⟨h1, h2⟩
    · exact hnj (.trans _ _ _ h1 (.trans _ _ _ (.symm _ _ hj) (.symm _ _ h2)))
    · exact hnj (.trans _ _ _ h1 (.trans _ _ _ hj (.symm _ _ h2)))
  have hsucc : ∀ {a b}, Joined K (t + 1) a b ↔ Joined K t a b ∨ (Joined K t a y ∧ Joined K t o b) ∨
      (Joined K t a o ∧ Joined K t y b) := by
    intro a b
    rw [joined_succ_of_edge huv hvs]
    rcases hc with ⟨h1, h2⟩ | ⟨h1, h2⟩
    · refine or_congr Iff.rfl (or_congr (and_congr ?_ ?_) (and_congr ?_ ?_))
      · exact ⟨fun h => .trans _ _ _ h h1, fun h => .trans _ _ _ h (.symm _ _ h1)⟩
      · exact ⟨fun h => .trans _ _ _ (.symm _ _ h2) h, fun h => .trans _ _ _ h2 h⟩
      · exact ⟨fun h => .trans _ _ _ h h2, fun h => .trans _ _ _ h (.symm _ _ h2)⟩
      · exact ⟨fun h => .trans _ _ _ (.symm _ _ h1) h, fun h => .trans _ _ _ h1 h⟩
    · rw [or_comm (a := Joined K t a y ∧ Joined K t o b)]
      refine or_congr Iff.rfl (or_congr (and_congr ?_ ?_) (and_congr ?_ ?_))
      · exact ⟨fun h => .trans _ _ _ h h1, fun h => .trans _ _ _ h (.symm _ _ h1)⟩
      · exact ⟨fun h => .trans _ _ _ (.symm _ _ h2) h, fun h => .trans _ _ _ h2 h⟩
      · exact ⟨fun h => .trans _ _ _ h h2, fun h => .trans _ _ _ h (.symm _ _ h2)⟩
      · exact ⟨fun h => .trans _ _ _ (.symm _ _ h1) h, fun h => .trans _ _ _ h1 h⟩
  refine ⟨hyo, ?_, ?_, ?_, ?_⟩
  · rw [Set.disjoint_left]
    rintro w ⟨_, h1⟩ ⟨_, h2⟩
    exact hno (.trans _ _ _ h1 (.symm _ _ h2))
  · ext w
    constructor
    · rintro ⟨hw, h⟩
      rcases hsucc.1 h with h | ⟨h1, _⟩ | ⟨_, h2⟩
      · exact .inl ⟨hw, h⟩
      · exact absurd h1 hno
      · exact .inr ⟨hw, h2⟩
    · rintro (⟨hw, h⟩ | ⟨hw, h⟩)
      · exact ⟨hw, hsucc.2 (.inl h)⟩
      · exact ⟨hw, hsucc.2 (.inr (.inr ⟨.refl _, h⟩))⟩
  · rcases hc with ⟨h1, h2⟩ | ⟨h1, h2⟩
    · exact .inl ⟨component_of_joined h1, component_of_joined h2⟩
    · exact .inr ⟨component_of_joined h1, component_of_joined h2⟩
  · intro i' r hr ho'
    obtain ⟨r', hr', hmin⟩ := ho'
    rw [hr] at hr'
    cases singleton_injective hr'
    have h1 : r ≠ y := by
      rintro rfl
      have := hmin j o hj (hsucc.2 (.inr (.inl ⟨.refl _, .refl _⟩)))
      have := vsetAt_unique hK (by simp) hr hiy
      omega
    refine ⟨h1, fun h2 => ?_⟩
    have eq : ∀ {k w}, vsetAt K k = {w} → OldestAt K t k → Joined K t r w → r = w := by
      rintro k w hk ⟨w', hw', hmin'⟩ hj
      rw [hk] at hw'
      cases singleton_injective hw'
      have a := hmin k w hk (Spec.Joined.mono (Nat.le_succ t) hj)
      have b := hmin' i' r hr (.symm _ _ hj)
      have : i' = k := le_antisymm a b
      subst this
      rw [hr] at hk
      exact singleton_injective hk
    ext w
    refine and_congr_right fun _ => ?_
    rw [hsucc]
    constructor
    · rintro (h | ⟨h, _⟩ | ⟨h, _⟩)
      · exact h
      · exact absurd (eq hiy hoi h) h1
      · exact absurd (eq hj hoj h) h2
    · exact .inl

end Aleph
