import Verif.Lemmas.Weights

namespace Aleph

open Finset Spec Complex

variable {α : Type}

theorem index_eq_some {K : Complex α} (hK : WF K) {vs : List ℕ} {i : ℕ} :
    K.index vs = some i ↔ ∃ s, K[i]? = some s ∧ s.vertices = vs := by
  unfold Complex.index
  rw [List.findIdx?_eq_some_iff_getElem]
  constructor
  · rintro ⟨h, h1, _⟩
    exact ⟨K[i], List.getElem?_eq_getElem h, by simpa using h1⟩
  · rintro ⟨s, hs, rfl⟩
    obtain ⟨h, rfl⟩ := List.getElem?_eq_some_iff.1 hs
    refine ⟨h, by simp, ?_⟩
    intro j hji
    simp only [beq_iff_eq]
    intro e
    have hj : j < K.length := by omega
    have h2 := hK.distinct
    rw [List.nodup_iff_getElem?_ne_getElem?] at h2
    refine h2 j i hji (by rw [List.length_map]; exact h) ?_
    rw [List.getElem?_map, List.getElem?_map, List.getElem?_eq_getElem hj,
      List.getElem?_eq_getElem h]
    simp [e]

theorem index_eq_none {K : Complex α} {vs : List ℕ} :
    K.index vs = none ↔ ∀ s ∈ K, s.vertices ≠ vs := by
  unfold Complex.index
  rw [List.findIdx?_eq_none_iff]
  simp

theorem pushBack_wf {K K' : Complex α} (hK : WF K) {s : Simplex α} (hs : Normal s.vertices)
    (h : K.pushBack s = some K') : WF K' := by
  unfold pushBack at h
  split at h
  · cases h
  · next hne =>
    split at h
    · cases h; exact hK
    · next hc =>
      cases h
      exact hK.append_singleton hs (by simpa using hne) (by simpa using hc)

theorem insertRange_wf {K : Complex α} (hK : WF K) {l : List (Simplex α)}
    (hl : ∀ s ∈ l, Normal s.vertices) : WF (K.insertRange l).1 := by
  induction l generalizing K with
  | nil => exact hK
  | cons s l ih =>
    rw [insertRange]
    cases h : K.pushBack s with
    | none => exact hK
    | some K' =>
      exact ih (pushBack_wf hK (hl s (by simp)) h) fun t ht => hl t (List.mem_cons_of_mem _ ht)

theorem set_wf {K : Complex α} (hK : WF K) {i : ℕ} {s : Simplex α} (hs : Normal s.vertices)
    (hne : s.vertices ≠ []) (h : ∀ j t, K[j]? = some t → t.vertices = s.vertices → j = i) :
    WF (K.set i s) := by
  have hmem : ∀ t ∈ K.set i s, t ∈ K ∨ t = s := fun t ht => List.mem_or_eq_of_mem_set ht
  refine ⟨?_, ?_, ?_⟩
  · intro t ht; rcases hmem t ht with h1 | rfl
    · exact hK.normal t h1
    · exact hs
  · intro t ht; rcases hmem t ht with h1 | rfl
    · exact hK.nonempty t h1
    · exact hne
  · rw [List.nodup_iff_getElem?_ne_getElem?]
    intro a b hab hb e
    have h2 := hK.distinct
    rw [List.nodup_iff_getElem?_ne_getElem?] at h2
    rw [List.length_map, List.length_set] at hb
    rw [List.getElem?_map, List.getElem?_map, List.getElem?_set, List.getElem?_set] at e
    have ha : a < K.length := by omega
    by_cases h3 : i = a
    · subst h3
      rw [if_pos rfl, if_pos ha, if_neg (by omega), List.getElem?_eq_getElem hb] at e
      simp only [Option.map_some, Option.some.injEq] at e
      have := h b K[b] (List.getElem?_eq_getElem hb) e.symm
      omega
    · rw [if_neg h3] at e
      by_cases h4 : i = b
      · subst h4
        rw [if_pos rfl, if_pos hb, List.getElem?_eq_getElem ha] at e
        simp only [Option.map_some, Option.some.injEq] at e
        exact h3 (h a K[a] (List.getElem?_eq_getElem ha) e).symm
      · rw [if_neg h4] at e
        refine h2 a b hab (by rw [List.length_map]; exact hb) ?_
        rw [List.getElem?_map, List.getElem?_map]; exact e

theorem replace_wf {K K' : Complex α} {b : Bool} (hK : WF K) {i : ℕ} {s : Simplex α}
    (hs : Normal s.vertices) (h : K.replace i s = some (K', b)) : WF K' := by
  unfold Complex.replace at h
  split at h
  · cases h
  · next hc =>
    push Not at hc
    have hne : s.vertices ≠ [] := by simpa using hc.1
    split at h
    · next j hj =>
      split at h
      · next e =>
        cases h
        refine set_wf hK hs hne ?_
        intro k t hk hv
        have := (index_eq_some hK).2 ⟨t, hk, hv⟩
        rw [hj] at this
        cases this; exact e
      · cases h; exact hK
    · next hn =>
      cases h
      refine set_wf hK hs hne ?_
      intro k t hk hv
      exact absurd hv (index_eq_none.1 hn t (List.mem_of_getElem? hk))

theorem rearrange_perm {K K' : Complex α} {p : List ℕ} (h : K.rearrange p = some K') :
    K'.Perm K := by
  unfold rearrange at h
  split at h
  · next hp =>
    cases h
    have h1 := hp.filterMap fun i => K[i]?
    refine h1.trans (List.Perm.of_eq ?_)
    clear h1 hp
    have : ∀ l : List (Simplex α), (List.range l.length).filterMap (fun i => l[i]?) = l := by
      intro l
      induction l with
      | nil => rfl
      | cons a l ih =>
        rw [List.length_cons, List.range_succ_eq_map, List.filterMap_cons]
        simp only [List.getElem?_cons_zero]
        rw [List.filterMap_map]
        congr 1
    exact this K
  · cases h

theorem removeLoop_sublist (f : ℕ) (K K' : Complex α) (h : removeLoop f K = some K') :
    K'.Sublist K := by
  induction f generalizing K with
  | zero => cases h
  | succ f ih =>
    rw [removeLoop] at h
    have h1 := (removeSweep_spec [] K).1
    generalize removeSweep [] K = r at h h1
    obtain ⟨L, b⟩ := r
    cases b with
    | true => exact (ih L h).trans h1
    | false => cases h; exact h1

theorem remove_sublist {K K' : Complex α} {vs : List ℕ} (h : K.remove vs = some K') :
    K'.Sublist K := (removeLoop_sublist _ _ _ h).trans List.filter_sublist

theorem exec_wf {K K' : Complex α} {b : Bool} (hK : WF K) {o : Op α} (ho : Op.NormalArgs o)
    (h : K.exec o = some (K', b)) : WF K' := by
  cases o with
  | clear => cases h; exact WF.nil
  | pushBack s =>
    rw [exec] at h
    cases hp : K.pushBack s with
    | none => rw [hp] at h; cases h; exact hK
    | some L => rw [hp] at h; cases h; exact pushBack_wf hK ho hp
  | insertRange l =>
    simp only [exec, Option.some.injEq] at h
    have := insertRange_wf hK ho
    rw [h] at this; exact this
  | replace i s =>
    rw [exec] at h
    split at h
    · cases hr : K.replace i s with
      | none => rw [hr] at h; cases h; exact hK
      | some x => obtain ⟨L, c⟩ := x; rw [hr] at h; cases h; exact replace_wf hK ho hr
    · cases h
  | rearrange p =>
    rw [exec] at h
    obtain ⟨L, hL, he⟩ := Option.map_eq_some_iff.1 h
    cases he; exact hK.perm (rearrange_perm hL)
  | sort lt => cases h; exact hK.perm (sort_perm _ _)
  | remove vs =>
    rw [exec] at h
    obtain ⟨L, hL, he⟩ := Option.map_eq_some_iff.1 h
    cases he; exact hK.sublist (remove_sublist hL)
  | removeOnly vs => cases h; exact hK.sublist List.filter_sublist
  | createMissingFaces =>
    rw [exec] at h
    obtain ⟨L, hL, he⟩ := Option.map_eq_some_iff.1 h
    cases he
    obtain ⟨M, h1, h2, _⟩ := createMissingFaces_spec hK
    rw [hL] at h1; cases h1; exact h2

theorem remove_total (K : Complex α) (vs : List ℕ) : ∃ K', K.remove vs = some K' := by
  have hlen : (K.removeOnly vs).length < K.length + 1 := by
    have := (List.filter_sublist (l := K) (p := fun s => s.vertices != vs)).length_le
    unfold removeOnly; omega
  obtain ⟨K', h, _⟩ := removeLoop_spec (P := fun _ => False) (K0 := K.removeOnly vs)
    (fun _ _ _ _ h => h.elim) _ _ hlen (List.Sublist.refl _) (fun _ _ h => h.elim)
  exact ⟨K', h⟩

/-! ### Filters -/

theorem filterM_spec (p : Simplex α → Bool) (K L : Complex α) (hK : WF (L ++ K)) :
    K.foldlM (fun L s => if p s then Complex.pushBack L s else some L) L =
      some (L ++ K.filter p) := by
  induction K generalizing L with
  | nil => simp
  | cons s K ih =>
    rw [List.foldlM_cons]
    have hne : s.vertices.isEmpty = false := by
      rw [List.isEmpty_eq_false_iff]; exact hK.nonempty s (by simp)
    have hc : Complex.contains L s.vertices = false := by
      rw [contains_eq_false]
      intro t ht e
      have h1 := hK.distinct
      rw [List.map_append, List.map_cons, List.nodup_append] at h1
      exact h1.2.2 _ (List.mem_map_of_mem ht) _ (by simp) e
    by_cases hp : p s = true
    · rw [if_pos hp, pushBack, hne, hc]
      simp only [Bool.false_eq_true, if_false, Option.bind_eq_bind, Option.bind_some]
      rw [ih (L ++ [s]) (by simpa using hK), List.filter_cons_of_pos hp]
      simp
    · rw [if_neg hp]
      simp only [Option.bind_eq_bind, Option.bind_some]
      rw [ih L (hK.sublist (List.Sublist.append_left (List.sublist_cons_self _ _) _)),
        List.filter_cons_of_neg hp]

end Aleph
