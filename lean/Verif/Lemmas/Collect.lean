import Verif.Model.Barycentric
import Verif.Lemmas.Simplex
import Mathlib.Data.Finset.Powerset

/-!
# Boundary simplices of a range of simplices
-/

namespace Aleph.Barycentric

open Finset Simplex

/-- The elements of a set are stored in ascending order. -/
def Ordered (S : List (List ℕ)) : Prop := S.Pairwise fun x y => lexLt x y = true

theorem Ordered.nodup {S : List (List ℕ)} (h : Ordered S) : S.Nodup := by
  refine List.Pairwise.imp ?_ h
  rintro x y hxy rfl
  rw [lexLt_irrefl] at hxy
  cases hxy

theorem mem_setInsert {x y : List ℕ} {S : List (List ℕ)} : y ∈ setInsert x S ↔ y = x ∨ y ∈ S := by
  induction S with
  | nil => simp [setInsert]
  | cons z S ih =>
    unfold setInsert
    split
    · simp
    · next h1 =>
      split
      · rw [List.mem_cons, ih, List.mem_cons]; tauto
      · next h2 =>
        have : x = z := by
          by_contra hne
          rcases lexLt_total hne with h | h
          · exact h1 h
          · exact h2 h
        subst this
        simp

theorem setInsert_ordered {x : List ℕ} {S : List (List ℕ)} (h : Ordered S) : Ordered (setInsert x S) := by
  induction S with
  | nil => simp [setInsert, Ordered]
  | cons z S ih =>
    rw [Ordered, List.pairwise_cons] at h
    unfold setInsert
    split
    · next h1 =>
      refine List.pairwise_cons.2 ⟨?_, List.pairwise_cons.2 h⟩
      intro y hy
      rcases List.mem_cons.1 hy with rfl | hy
      · exact h1
      · exact lexLt_trans h1 (h.1 y hy)
    · split
      · next h2 =>
        refine List.pairwise_cons.2 ⟨?_, ih h.2⟩
        intro y hy
        rcases mem_setInsert.1 hy with rfl | hy
        · exact h2
        · exact h.1 y hy
      · exact List.pairwise_cons.2 h

theorem mem_setInsertAll {y : List ℕ} {S l : List (List ℕ)} : y ∈ setInsertAll S l ↔ y ∈ S ∨ y ∈ l := by
  unfold setInsertAll
  induction l generalizing S with
  | nil => simp
  | cons x l ih => rw [List.foldl_cons, ih, mem_setInsert, List.mem_cons]; tauto

theorem setInsertAll_ordered {S l : List (List ℕ)} (h : Ordered S) : Ordered (setInsertAll S l) := by
  unfold setInsertAll
  induction l generalizing S with
  | nil => exact h
  | cons x l ih => exact ih (setInsert_ordered h)

theorem ordered_nil : Ordered [] := List.Pairwise.nil

theorem mem_facets {vs f : List ℕ} (h : Normal vs) :
    f ∈ facets vs ↔ Normal f ∧ f ≠ [] ∧ f.toFinset ⊆ vs.toFinset ∧ #f.toFinset + 1 = #vs.toFinset :=
  mem_faces_iff (s := (⟨vs, ()⟩ : Simplex Unit)) h

/-- The vertices of a proper face. -/
def Proper (vs f : List ℕ) : Prop := Normal f ∧ f ≠ [] ∧ f.toFinset ⊂ vs.toFinset

theorem facets_proper {vs f : List ℕ} (h : Normal vs) (hf : f ∈ facets vs) : Proper vs f := by
  obtain ⟨h1, h2, h3, h4⟩ := (mem_facets h).1 hf
  refine ⟨h1, h2, h3.ssubset_of_ne ?_⟩
  intro he
  rw [he] at h4
  omega

theorem Proper.trans {vs f g : List ℕ} (h : Proper vs f) (h' : Proper f g) : Proper vs g :=
  ⟨h'.1, h'.2.1, h'.2.2.trans h.2.2⟩

theorem length_le {vs : List ℕ} {S : List (List ℕ)} (hvs : Normal vs) (ho : Ordered S) (h : ∀ f ∈ S, Proper vs f) :
    S.length ≤ 2 ^ vs.length := by
  rw [← List.toFinset_card_of_nodup ho.nodup, hvs.length_eq, ← card_powerset]
  refine card_le_card_of_injOn List.toFinset ?_ ?_
  · intro f hf
    rw [mem_coe, List.mem_toFinset] at hf
    exact mem_coe.2 (mem_powerset.2 (h f hf).2.2.1)
  · intro f hf g hg he
    rw [mem_coe, List.mem_toFinset] at hf hg
    exact ((h f hf).1.eq_iff (h g hg).1).2 he

theorem collectLoop_spec {vs : List ℕ} (hvs : Normal vs) (f : ℕ) (S : List (List ℕ)) (ho : Ordered S)
    (h : ∀ f ∈ S, Proper vs f) (hf : 2 ^ vs.length < f + S.length) :
    ∃ S', collectLoop f S = some S' ∧ (∀ g ∈ S, g ∈ S') ∧ Ordered S' ∧ (∀ g ∈ S', Proper vs g) ∧
      ∀ g ∈ S', ∀ e ∈ facets g, e ∈ S' := by
  induction f generalizing S with
  | zero =>
    have := length_le hvs ho h
    omega
  | succ f ih =>
    rw [collectLoop]
    have hmem : ∀ g, g ∈ setInsertAll S (setInsertAll [] (S.flatMap facets)) ↔ g ∈ S ∨ ∃ e ∈ S, g ∈ facets e := by
      intro g
      rw [mem_setInsertAll, mem_setInsertAll]
      simp
    have ho' : Ordered (setInsertAll S (setInsertAll [] (S.flatMap facets))) := setInsertAll_ordered ho
    generalize hS' : setInsertAll S (setInsertAll [] (S.flatMap facets)) = S' at hmem ho'
    have hp : ∀ g ∈ S', Proper vs g := by
      intro g hg
      rcases (hmem g).1 hg with hg | ⟨e, he, hg⟩
      · exact h g hg
      · exact (h e he).trans (facets_proper (h e he).1 hg)
    have hsub : S.toFinset ⊆ S'.toFinset := by
      intro g hg
      rw [List.mem_toFinset] at hg ⊢
      exact (hmem g).2 (Or.inl hg)
    have hle := card_le_card hsub
    rw [List.toFinset_card_of_nodup ho.nodup, List.toFinset_card_of_nodup ho'.nodup] at hle
    by_cases hl : S'.length = S.length
    · rw [if_neg (by simpa using hl)]
      refine ⟨S', rfl, fun g hg => (hmem g).2 (Or.inl hg), ho', hp, ?_⟩
      have heq : S.toFinset = S'.toFinset := by
        apply eq_of_subset_of_card_le hsub
        rw [List.toFinset_card_of_nodup ho.nodup, List.toFinset_card_of_nodup ho'.nodup, hl]
      intro g hg e he
      have hg' : g ∈ S := by
        rw [← List.mem_toFinset, heq, List.mem_toFinset]; exact hg
      exact (hmem e).2 (Or.inr ⟨g, hg', he⟩)
    · rw [if_pos (by simpa using hl)]
      obtain ⟨S'', h1, h2, h3⟩ := ih S' ho' hp (by omega)
      exact ⟨S'', h1, fun g hg => h2 g ((hmem g).2 (Or.inl hg)), h3⟩

/-- `collectBoundaries` of one simplex yields all proper faces. -/
theorem collectOne_spec {vs : List ℕ} (hvs : Normal vs) :
    ∃ S, collectOne vs = some S ∧ Ordered S ∧ ∀ f, f ∈ S ↔ Proper vs f := by
  obtain ⟨S, h1, h2, h3, h4, h5⟩ := collectLoop_spec hvs (2 ^ vs.length + 1) (setInsertAll [] (facets vs))
    (setInsertAll_ordered ordered_nil)
    (by
      intro f hf
      rw [mem_setInsertAll] at hf
      rcases hf with hf | hf
      · cases hf
      · exact facets_proper hvs hf)
    (by omega)
  refine ⟨S, h1, h3, fun f => ⟨h4 f, ?_⟩⟩
  intro hf
  obtain ⟨k, hk⟩ : ∃ k, #vs.toFinset = #f.toFinset + k + 1 :=
    ⟨#vs.toFinset - #f.toFinset - 1, by have := card_lt_card hf.2.2; omega⟩
  induction k generalizing f with
  | zero =>
    apply h2
    rw [mem_setInsertAll]
    right
    rw [mem_facets hvs]
    exact ⟨hf.1, hf.2.1, hf.2.2.1, by omega⟩
  | succ k ih =>
    obtain ⟨x, hx, hx'⟩ := exists_of_ssubset hf.2.2
    have hg : (vlist (insert x f.toFinset)).toFinset = insert x f.toFinset := vlist_toFinset _
    have hgn := vlist_normal (insert x f.toFinset)
    have hgp : Proper vs (vlist (insert x f.toFinset)) := by
      refine ⟨hgn, vlist_ne_nil (by simp), ?_⟩
      rw [hg]
      have hs : insert x f.toFinset ⊆ vs.toFinset := insert_subset hx hf.2.2.1
      apply hs.ssubset_of_ne
      intro he
      have := congrArg Finset.card he
      rw [card_insert_of_notMem hx'] at this
      omega
    have := ih _ hgp (by rw [hg, card_insert_of_notMem hx']; omega)
    apply h5 _ this
    rw [mem_facets hgn, hg]
    refine ⟨hf.1, hf.2.1, subset_insert _ _, ?_⟩
    rw [card_insert_of_notMem hx']

/-- `collectBoundaries` of a range yields all proper faces of its elements. -/
theorem collect_spec {l : List (List ℕ)} (h : ∀ vs ∈ l, Normal vs) :
    ∃ S, collect l = some S ∧ ∀ f, f ∈ S ↔ ∃ vs ∈ l, Proper vs f := by
  have key : ∀ S0 : List (List ℕ), ∃ S, l.foldlM (fun S vs => (collectOne vs).map (setInsertAll S)) S0 = some S ∧
      ∀ f, f ∈ S ↔ f ∈ S0 ∨ ∃ vs ∈ l, Proper vs f := by
    induction l with
    | nil => intro S0; exact ⟨S0, rfl, by simp⟩
    | cons vs l ih =>
      intro S0
      obtain ⟨B, hB, _, hB'⟩ := collectOne_spec (h vs List.mem_cons_self)
      obtain ⟨S, hS, hS'⟩ := ih (fun v hv => h v (List.mem_cons_of_mem _ hv)) (setInsertAll S0 B)
      refine ⟨S, ?_, ?_⟩
      · rw [List.foldlM_cons, hB]
        exact hS
      · intro f
        rw [hS', mem_setInsertAll, hB']
        simp [or_assoc]
  obtain ⟨S, hS, hS'⟩ := key []
  exact ⟨S, hS, fun f => by rw [hS']; simp⟩

end Aleph.Barycentric
