import Verif.Spec.CliquePersistence
import Verif.Lemmas.ZeroDimFunctor
import Verif.Props.ZeroDimFunctor
import Verif.Props.RelevantEdges
import Verif.Lemmas.Communities
import Mathlib.Algebra.BigOperators.Group.Finset.Basic

/-!
Components of filtered graphs, by their oldest vertices.
-/

namespace Aleph

open Finset Spec

namespace CliquePersistence

variable {α : Type} {C : Complex α}

theorem merge_position (hK : WF C) {t y o u v : ℕ} {c d : α} (h : MergeCall C t (.merge y o c d u v)) :
    t < C.length ∧ ∃ i, C[i]? = some ⟨[y], c⟩ ∧ vsetAt C i = {y} ∧ OldestAt C t i := by
  obtain ⟨hs, _, _, i, j, hi, hj, hoi, hoj, hlt⟩ := h
  exact ⟨(List.getElem?_eq_some_iff.1 hs).1, i, hi, by rw [vsetAt_some hi]; simp [Simplex.vset], hoi⟩

theorem merge_not_oldest (hK : WF C) {t y o u v : ℕ} {c d : α} (h : MergeCall C t (.merge y o c d u v)) {i t' : ℕ} (hi : vsetAt C i = {y})
    (ht : t < t') : ¬ OldestAt C t' i := by
  intro ho
  obtain ⟨_, _, _, _, hr⟩ := mergeCall_components hK h
  exact (hr i y hi (Spec.OldestAt.mono (by omega) ho)).1 rfl

theorem not_essential (hK : WF C) {t y o u v : ℕ} {c d : α} (h : MergeCall C t (.merge y o c d u v)) : ¬ Essential C y := by
  rintro ⟨i, hi, ho⟩
  exact merge_not_oldest hK h hi (merge_position hK h).1 ho

theorem oldest_succ (hK : WF C) {t y o u v : ℕ} {c d : α} (h : MergeCall C t (.merge y o c d u v)) {i r : ℕ} (hi : vsetAt C i = {r})
    (ho : OldestAt C t i) (hr : r ≠ y) : OldestAt C (t + 1) i := by
  obtain ⟨hs, hnj, hc, iy, io, hiy, hio, hoy, hoo, hlt⟩ := h
  have hiy' : vsetAt C iy = {y} := by rw [vsetAt_some hiy]; simp [Simplex.vset]
  have hnorm := hK.normal _ (List.mem_of_getElem? hs)
  have huv : u ≠ v := by
    have := hnorm.nodup
    simpa using this
  have hvs : vsetAt C t = {u, v} := by rw [vsetAt_some hs]; simp [Simplex.vset]
  have key : ∀ {a b : ℕ} {p q : ℕ}, vsetAt C p = {a} → OldestAt C t p → vsetAt C q = {b} → Joined C t a b → p ≤ q := by
    intro a b p q hp hop hq hj
    obtain ⟨a', ha', hmin⟩ := hop
    rw [hp] at ha'
    rw [← singleton_injective ha'] at hmin
    exact hmin q b hq hj
  have eq_of : ∀ {a b : ℕ} {p q : ℕ}, vsetAt C p = {a} → OldestAt C t p → vsetAt C q = {b} → OldestAt C t q → Joined C t a b → p = q := by
    intro a b p q hp hop hq hoq hj
    exact le_antisymm (key hp hop hq hj) (key hq hoq hp (.symm _ _ hj))
  refine ⟨r, hi, ?_⟩
  intro j w hj hjw
  rw [joined_succ_of_edge huv hvs] at hjw
  have hry : ¬ Joined C t r y := by
    intro hj'
    have := eq_of hi ho hiy' hoy hj'
    rw [this, hiy'] at hi
    exact hr (singleton_injective hi).symm
  have main : ∀ {a b : ℕ}, Joined C t r a → Joined C t b w → (Joined C t a y ∧ Joined C t b o) ∨ (Joined C t a o ∧ Joined C t b y) → i ≤ j := by
    intro a b h1 h2 h3
    rcases h3 with ⟨h3, _⟩ | ⟨h3, h4⟩
    · exact absurd (.trans _ _ _ h1 h3) hry
    · have h5 : i = io := eq_of hi ho hio hoo (.trans _ _ _ h1 h3)
      have h6 := key hiy' hoy hj (.trans _ _ _ (.symm _ _ h4) h2)
      omega
  rcases hjw with h1 | ⟨h1, h2⟩ | ⟨h1, h2⟩
  · exact key hi ho hj h1
  · exact main h1 h2 hc
  · exact main h1 h2 (by tauto)

theorem life_unique (hK : WF C) {top : α} {y : ℕ} {S S' : Set ℕ} {c c' d d' : α} (h : Life C top y S c d) (h' : Life C top y S' c' d') :
    S = S' ∧ c = c' ∧ d = d' := by
  have hform : ∀ {i j : ℕ} {a b : α}, C[i]? = some ⟨[y], a⟩ → C[j]? = some ⟨[y], b⟩ → a = b := by
    intro i j a b hi hj
    have := hK.eq_of_vertices (List.mem_of_getElem? hi) (List.mem_of_getElem? hj) rfl
    exact congrArg Simplex.data this
  have hess : ∀ {i : ℕ} {c : α}, OldestAt C C.length i → RootCall C i (.root y c) → Essential C y := by
    intro i c ho hr
    exact ⟨i, by rw [vsetAt_some hr]; simp [Simplex.vset], ho⟩
  cases h with
  | dies t o u v c d h =>
    obtain ⟨ht, i, hi, hiy, hoi⟩ := merge_position hK h
    cases h' with
    | dies t' o' u' v' c' d' h' =>
      obtain ⟨ht', i', hi', hiy', hoi'⟩ := merge_position hK h'
      have htt : t = t' := by
        rcases Nat.lt_trichotomy t t' with hlt | heq | hlt
        · exact absurd hoi' (merge_not_oldest hK h hiy' hlt)
        · exact heq
        · exact absurd hoi (merge_not_oldest hK h' hiy hlt)
      subst htt
      refine ⟨rfl, hform hi hi', ?_⟩
      have h1 := h.1
      rw [h'.1] at h1
      cases h1
      rfl
    | stays i' c' ho hr => exact absurd (hess ho hr) (not_essential hK h)
  | stays i c ho hr =>
    cases h' with
    | dies t' o' u' v' c' d' h' => exact absurd (hess ho hr) (not_essential hK h')
    | stays i' c' ho' hr' => exact ⟨rfl, hform hr hr', rfl⟩

theorem life_exists (hK : WF C) (hall : ∀ t, Bridges C t → ∃ y o c d u v, MergeCall C t (.merge y o c d u v)) (top : α) {y : ℕ} (hy : Has C {y}) :
    ∃ S c d, Life C top y S c d := by
  obtain ⟨i, hi⟩ := has_vertex_iff.1 hy
  have hil := lt_of_vsetAt (by simp) hi
  by_cases ho : OldestAt C C.length i
  · obtain ⟨s', h1, h2⟩ := (index_eq_some hK).1 (index_vertex hK hi)
    have : C[i]? = some ⟨[y], s'.data⟩ := by rw [h1, ← h2]
    exact ⟨_, _, _, .stays i s'.data ho this⟩
  · classical
    have hex : ∃ t, ¬ OldestAt C t i := ⟨_, ho⟩
    have hspec := Nat.find_spec hex
    have hmin := fun m => Nat.find_min hex (m := m)
    generalize Nat.find hex = n at hspec hmin
    cases n with
    | zero =>
      exfalso
      refine hspec ⟨y, hi, ?_⟩
      intro j w hj hjw
      have : w ∈ component C 0 y := ⟨has_vertex_iff.2 ⟨j, hj⟩, hjw⟩
      rw [component_zero y hy] at this
      rw [Set.mem_singleton_iff] at this
      subst this
      rw [vsetAt_unique hK (by simp) hi hj]
    | succ n =>
      have hon : OldestAt C n i := not_not.1 (hmin n (Nat.lt_succ_self n))
      have hb : Bridges C n := by
        by_contra hb
        refine hspec ((oldest_of_not_bridges (Nat.le_succ n) ?_).2 hon)
        intro s h1 h2
        have : s = n := by omega
        rwa [this]
      obtain ⟨y', o, c, d, u, v, hm⟩ := hall n hb
      have hyy : y = y' := by
        by_contra hne
        exact hspec (oldest_succ hK hm hi hon hne)
      subst hyy
      exact ⟨_, _, _, .dies n o u v c d hm⟩

end CliquePersistence

end Aleph
