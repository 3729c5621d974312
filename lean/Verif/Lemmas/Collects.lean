import Verif.Spec.Collects
import Verif.Spec.Rips
import Verif.Lemmas.History

/-!
# Complexes of a list of simplices
-/

namespace Aleph

open Spec

variable {α : Type}

theorem ofRange_vset (vs : List ℕ) (d : α) : (Simplex.ofRange vs d).vset = vs.toFinset := by
  ext v
  rw [Simplex.vset, List.mem_toFinset, List.mem_toFinset, Simplex.ofRange, mem_uniq, (List.perm_insertionSort _ _).mem_iff]

theorem ofRange_ne_nil {vs : List ℕ} (h : vs ≠ []) (d : α) : (Simplex.ofRange vs d).vertices ≠ [] := by
  obtain ⟨v, hv⟩ := List.exists_mem_of_ne_nil vs h
  intro h0
  have : v ∈ (Simplex.ofRange vs d).vset := by rw [ofRange_vset]; exact List.mem_toFinset.2 hv
  rw [Simplex.vset, h0] at this
  simp at this

theorem insertRange_collects_aux : ∀ (entries : List (List ℕ × α)) (pre : List (List ℕ × α)) (K : Complex α), (∀ e ∈ entries, e.1 ≠ []) → Collects K pre →
    Collects (Complex.insertRange K (entries.map fun e => Simplex.ofRange e.1 e.2)).1 (pre ++ entries) := by
  intro entries
  induction entries with
  | nil => intro pre K _ h; simpa [Complex.insertRange] using h
  | cons e entries ih =>
    intro pre K hne h
    obtain ⟨h1, h2, h3, h4⟩ := h
    have hvs := ofRange_ne_nil (α := α) (hne e (by simp)) e.2
    rw [List.map_cons, Complex.insertRange, show pre ++ e :: entries = (pre ++ [e]) ++ entries by simp]
    by_cases hcon : K.contains (Simplex.ofRange e.1 e.2).vertices = true
    · have e1 : K.pushBack (Simplex.ofRange e.1 e.2) = some K := by simp [Complex.pushBack, hvs, hcon]
      rw [e1]
      refine ih (pre ++ [e]) K (fun x hx => hne x (by simp [hx])) ⟨h1, ?_, ?_, ?_⟩
      · intro x hx
        rcases List.mem_append.1 hx with hx | hx
        · exact h2 x hx
        · rw [List.mem_singleton] at hx
          subst hx
          rw [Complex.contains, Complex.find, List.find?_isSome] at hcon
          obtain ⟨s, hs, hs'⟩ := hcon
          refine List.mem_map.2 ⟨s, hs, ?_⟩
          rw [← ofRange_vset x.1 x.2, Simplex.vset, Simplex.vset]
          have : s.vertices = (Simplex.ofRange x.1 x.2).vertices := by simpa using hs'
          rw [this]
      · rw [List.map_append]
        exact h3.trans (List.sublist_append_left _ _)
      · intro s hs
        have := h4 s hs
        rw [List.find?_append]
        cases hf : pre.find? fun e => decide (e.1.toFinset = s.vset) with
        | none => rw [hf] at this; simp at this
        | some x => rw [hf] at this; simpa using this
    · have e1 : K.pushBack (Simplex.ofRange e.1 e.2) = some (K ++ [Simplex.ofRange e.1 e.2]) := by simp [Complex.pushBack, hvs, hcon]
      rw [e1]
      have hwf : WF (K ++ [Simplex.ofRange e.1 e.2]) := pushBack_wf h1 (ofRange_normal e.1 e.2) e1
      refine ih (pre ++ [e]) _ (fun x hx => hne x (by simp [hx])) ⟨hwf, ?_, ?_, ?_⟩
      · intro x hx
        rw [List.map_append, List.mem_append]
        rcases List.mem_append.1 hx with hx | hx
        · exact Or.inl (h2 x hx)
        · rw [List.mem_singleton] at hx
          subst hx
          right
          simp [ofRange_vset]
      · rw [List.map_append, List.map_append]
        refine h3.append ?_
        simp only [List.map_cons, List.map_nil, ofRange_vset]
        exact List.Sublist.refl _
      · intro s hs
        rw [List.find?_append]
        rcases List.mem_append.1 hs with hs | hs
        · have := h4 s hs
          cases hf : pre.find? fun e => decide (e.1.toFinset = s.vset) with
          | none => rw [hf] at this; simp at this
          | some x => rw [hf] at this; simpa using this
        · rw [List.mem_singleton] at hs
          subst hs
          have hnone : (pre.find? fun x => decide (x.1.toFinset = (Simplex.ofRange e.1 e.2).vset)) = none := by
            rw [List.find?_eq_none]
            intro x hx hx'
            have hx'' : x.1.toFinset = (Simplex.ofRange e.1 e.2).vset := of_decide_eq_true hx'
            obtain ⟨s, hs, hs'⟩ := List.mem_map.1 (h2 x hx)
            rw [hx''] at hs'
            apply hcon
            rw [Complex.contains, Complex.find, List.find?_isSome]
            refine ⟨s, hs, ?_⟩
            have := congrArg vlist hs'
            rw [Simplex.vset, Simplex.vset, vlist_of_normal (h1.normal s hs), vlist_of_normal (ofRange_normal e.1 e.2)] at this
            simpa using this
          rw [hnone]
          simp [ofRange_vset]
          rfl

theorem insertRange_collects (entries : List (List ℕ × α)) (h : ∀ e ∈ entries, e.1 ≠ []) :
    Collects (Complex.insertRange [] (entries.map fun e => Simplex.ofRange e.1 e.2)).1 entries := by
  have := insertRange_collects_aux entries [] [] h ⟨⟨by simp, by simp, by simp⟩, by simp, by simp, by simp⟩
  simpa using this

/-- If simplices with the same vertices have the same data, the complex has exactly the data of the list. -/
theorem Spec.Collects.hasData {K : Complex α} {entries : List (List ℕ × α)} (h : Collects K entries) (hf : ∀ e ∈ entries, ∀ e' ∈ entries, e.1.toFinset = e'.1.toFinset → e.2 = e'.2)
    (t : Finset ℕ) (d : α) : HasData K t d ↔ ∃ e ∈ entries, e.1.toFinset = t ∧ e.2 = d := by
  obtain ⟨h1, h2, h3, _⟩ := h
  have hmem : ∀ s ∈ K, ∃ e ∈ entries, e.1.toFinset = s.vset ∧ e.2 = s.data := by
    intro s hs
    obtain ⟨e, he, hes⟩ := List.mem_map.1 (h3.subset (List.mem_map.2 ⟨s, hs, rfl⟩))
    simp only [Prod.mk.injEq] at hes
    exact ⟨e, he, hes.1, hes.2⟩
  constructor
  · rintro ⟨s, hs, rfl, rfl⟩
    exact hmem s hs
  · rintro ⟨e, he, rfl, rfl⟩
    obtain ⟨s, hs, hs'⟩ := List.mem_map.1 (h2 e he)
    obtain ⟨e', he', h4, h5⟩ := hmem s hs
    refine ⟨s, hs, hs', ?_⟩
    rw [← h5]
    exact hf e' he' e he (h4.trans hs')

end Aleph
