import Verif.Model.NearestNeighbours
import Verif.Model.Rips
import Mathlib.Algebra.Order.Ring.Int
import Mathlib.Algebra.Order.Group.Abs

/-!
# Nearest neighbour queries
-/

namespace Aleph

open NearestNeighbours

variable {α : Type}

namespace Spec

/-- What `std::sort` guarantees: for a strict weak order on the elements of the list, the result is a permutation without a
descent. -/
def IsStdSort {β : Type} (sort : (β → β → Bool) → List β → List β) : Prop :=
  ∀ (lt : β → β → Bool) (l : List β),
    (∀ a ∈ l, lt a a = false) →
    (∀ a ∈ l, ∀ b ∈ l, ∀ c ∈ l, lt a b = true → lt b c = true → lt a c = true) →
    (∀ a ∈ l, ∀ b ∈ l, ∀ c ∈ l, lt a b = false → lt b c = false → lt a c = false) →
    (sort lt l).Perm l ∧ (sort lt l).Pairwise fun a b => lt b a = false

end Spec

open Spec

/-- The contract of `std::sort` is satisfiable. -/
theorem exists_isStdSort (β : Type) : ∃ sort : (β → β → Bool) → List β → List β, IsStdSort sort := by
  classical
  suffices h : ∀ (lt : β → β → Bool) (l : List β), ∃ l' : List β,
      (∀ a ∈ l, lt a a = false) →
      (∀ a ∈ l, ∀ b ∈ l, ∀ c ∈ l, lt a b = true → lt b c = true → lt a c = true) →
      (∀ a ∈ l, ∀ b ∈ l, ∀ c ∈ l, lt a b = false → lt b c = false → lt a c = false) →
      l'.Perm l ∧ l'.Pairwise fun a b => lt b a = false by
    exact ⟨fun lt l => (h lt l).choose, fun lt l h1 h2 h3 => (h lt l).choose_spec h1 h2 h3⟩
  intro lt l
  by_cases hyp : (∀ a ∈ l, lt a a = false) ∧
      (∀ a ∈ l, ∀ b ∈ l, ∀ c ∈ l, lt a b = true → lt b c = true → lt a c = true) ∧
      (∀ a ∈ l, ∀ b ∈ l, ∀ c ∈ l, lt a b = false → lt b c = false → lt a c = false)
  · obtain ⟨h1, h2, h3⟩ := hyp
    -- work in the subtype of the elements of the list
    let r : {a // a ∈ l} → {a // a ∈ l} → Prop := fun a b => lt b.1 a.1 = false
    have htot : ∀ a b, r a b ∨ r b a := by
      intro a b
      by_cases h : lt b.1 a.1 = false
      · exact Or.inl h
      · refine Or.inr ?_
        by_contra h'
        have := h2 _ a.2 _ b.2 _ a.2 (by simpa [r] using h') (by simpa using h)
        rw [h1 _ a.2] at this
        exact absurd this (by decide)
    have htr : ∀ a b c, r a b → r b c → r a c := fun a b c hab hbc =>
      h3 _ c.2 _ b.2 _ a.2 hbc hab
    have : Std.Total r := ⟨htot⟩
    have : IsTrans _ r := ⟨htr⟩
    refine ⟨(l.attach.insertionSort r).map Subtype.val, fun _ _ _ => ⟨?_, ?_⟩⟩
    · have := (List.perm_insertionSort r l.attach).map Subtype.val
      rwa [List.attach_map_subtype_val] at this
    · rw [List.pairwise_map]
      exact List.pairwise_insertionSort r l.attach
  · exact ⟨[], fun h1 h2 h3 => absurd ⟨h1, h2, h3⟩ hyp⟩

lemma neighboursOf_spec [LinearOrder α] (sort : (ℕ → ℕ → Bool) → List ℕ → List ℕ) (hs : IsStdSort sort) (n : ℕ)
    (dist : ℕ → ℕ → α) (k i : ℕ) (hk : k ≤ n) :
    ∃ ids, neighboursOf sort n dist k i = some (ids, ids.map (dist i)) ∧
      ids.length = k ∧ ids.Nodup ∧ (∀ j ∈ ids, j < n) ∧
      ids.Pairwise (fun a b => dist i a ≤ dist i b) ∧
      ∀ a ∈ ids, ∀ j < n, j ∉ ids → dist i a ≤ dist i j := by
  set cmp : ℕ → ℕ → Bool := fun a b =>
    match ((List.range n).map fun j => dist i j)[a]?, ((List.range n).map fun j => dist i j)[b]? with
    | some x, some y => decide (x < y)
    | _, _ => false with hcmp
  have hlt : ∀ a b, a < n → b < n → cmp a b = decide (dist i a < dist i b) := by
    intro a b ha hb
    simp [hcmp, ha, hb]
  obtain ⟨hp, hd⟩ := hs cmp (List.range n)
    (by intro a ha; simp only [List.mem_range] at ha; simp [hlt a a ha ha])
    (by
      intro a ha b hb c hc
      simp only [List.mem_range] at ha hb hc
      rw [hlt a b ha hb, hlt b c hb hc, hlt a c ha hc]
      simp only [decide_eq_true_eq]
      exact lt_trans)
    (by
      intro a ha b hb c hc
      simp only [List.mem_range] at ha hb hc
      rw [hlt a b ha hb, hlt b c hb hc, hlt a c ha hc]
      simp only [decide_eq_false_iff_not, not_lt]
      exact fun h1 h2 => le_trans h2 h1)
  set L := sort cmp (List.range n) with hL
  have hmem : ∀ j, j ∈ L ↔ j < n := fun j => by rw [hp.mem_iff, List.mem_range]
  have hsorted : L.Pairwise fun a b => dist i a ≤ dist i b := by
    refine hd.imp_of_mem ?_
    intro a b ha hb h
    rw [hlt b a ((hmem b).1 hb) ((hmem a).1 ha)] at h
    simpa using h
  have hds : ((List.range n).map fun j => dist i j).insertionSort (· ≤ ·) = L.map (dist i) := by
    refine List.Perm.eq_of_pairwise (le := (· ≤ ·)) (fun a b _ _ => le_antisymm) ?_ ?_ ?_
    · exact List.pairwise_insertionSort (· ≤ ·) _
    · rw [List.pairwise_map]; exact hsorted
    · exact (List.perm_insertionSort _ _).trans (hp.map _).symm
  have hlen : L.length = n := by simpa using hp.length_eq
  refine ⟨L.take k, ?_, ?_, ?_, ?_, ?_, ?_⟩
  · simp only [neighboursOf]
    rw [if_neg (by omega), hds, List.map_take]
    rfl
  · simp [hlen, hk]
  · exact (hp.nodup_iff.2 List.nodup_range).sublist (List.take_sublist k L)
  · intro j hj; exact (hmem j).1 (List.mem_of_mem_take hj)
  · exact hsorted.sublist (List.take_sublist k L)
  · intro a ha j hj hj'
    have hjL := (hmem j).2 hj
    rw [← List.take_append_drop k L] at hjL hsorted
    rcases List.mem_append.1 hjL with h | h
    · exact absurd h hj'
    · exact (List.pairwise_append.1 hsorted).2.2 a ha j h

lemma mapM_eq_some {β γ : Type} (f : β → Option γ) (g : β → γ) :
    ∀ l : List β, (∀ x ∈ l, f x = some (g x)) → l.mapM f = some (l.map g)
  | [], _ => rfl
  | x :: l, h => by
    rw [List.mapM_cons, h x (by simp), mapM_eq_some f g l fun y hy => h y (by simp [hy])]
    rfl

/-- **C61.**  The search for the `k` nearest neighbours: for each point `i`, exactly `k` different indices together with
their distances to `i`, in ascending order, and no other point is closer to `i` than any of them. -/
theorem C61_k_nearest [LinearOrder α] (sort : (ℕ → ℕ → Bool) → List ℕ → List ℕ) (hs : IsStdSort sort) (n : ℕ)
    (dist : ℕ → ℕ → α) (k : ℕ) (hk : k ≤ n) :
    ∃ res, neighbourSearch sort n dist k = some res ∧ res.length = n ∧
      ∀ (i : ℕ) (hi : i < res.length),
        (res[i]).1.length = k ∧ (res[i]).1.Nodup ∧ (∀ j ∈ (res[i]).1, j < n) ∧
        (res[i]).2 = (res[i]).1.map (dist i) ∧
        (res[i]).2.Pairwise (· ≤ ·) ∧
        ∀ a ∈ (res[i]).1, ∀ j < n, j ∉ (res[i]).1 → dist i a ≤ dist i j := by
  choose ids h1 h2 h3 h4 h5 h6 using fun i => neighboursOf_spec sort hs n dist k i hk
  refine ⟨(List.range n).map fun i => (ids i, (ids i).map (dist i)),
    mapM_eq_some _ _ _ fun i _ => h1 i, by simp, ?_⟩
  intro i hi
  simp only [List.getElem_map, List.getElem_range]
  exact ⟨h2 i, h3 i, h4 i, trivial, by rw [List.pairwise_map]; exact h5 i, h6 i⟩

/-- **C61.**  If every point is closer to itself than to the other points, then it is reported as its own nearest
neighbour. -/
theorem C61_self [LinearOrder α] (sort : (ℕ → ℕ → Bool) → List ℕ → List ℕ) (hs : IsStdSort sort) (n : ℕ)
    (dist : ℕ → ℕ → α) (k : ℕ) (h0 : 0 < k) (hk : k ≤ n)
    (hd : ∀ i < n, ∀ j < n, i ≠ j → dist i i < dist i j) :
    ∃ res, neighbourSearch sort n dist k = some res ∧
      ∀ (i : ℕ) (hi : i < res.length), ∃ ids ds, res[i] = (i :: ids, dist i i :: ds) := by
  obtain ⟨res, hres, hl, h⟩ := C61_k_nearest sort hs n dist k hk
  refine ⟨res, hres, fun i hi => ?_⟩
  obtain ⟨h1, h2, h3, h4, h5, h6⟩ := h i hi
  generalize res[i] = e at *
  obtain ⟨ids, ds⟩ := e
  dsimp only at *
  subst h4
  cases ids with
  | nil => simp at h1; omega
  | cons a ids =>
    have hin : i < n := by omega
    have : a = i := by
      by_contra hne
      have ha := hd i hin a (h3 a (by simp)) (Ne.symm hne)
      by_cases hi' : i ∈ a :: ids
      · rcases List.mem_cons.1 hi' with hi' | hi'
        · exact hne hi'.symm
        · rw [List.map_cons, List.pairwise_cons] at h5
          exact absurd (h5.1 _ (List.mem_map_of_mem hi')) (not_le.2 ha)
      · exact absurd (h6 a (by simp) i hin hi') (not_le.2 ha)
    subst this
    exact ⟨ids, ids.map (dist a), rfl⟩

/-- **C61.**  More neighbours than points: undefined behaviour, unless there are no points at all. -/
theorem C61_too_many [LinearOrder α] (sort : (ℕ → ℕ → Bool) → List ℕ → List ℕ) (n : ℕ) (dist : ℕ → ℕ → α) (k : ℕ)
    (hk : n < k) : neighbourSearch sort n dist k = if n = 0 then some [] else none := by
  split
  · next h => subst h; rfl
  · next h =>
    obtain ⟨m, rfl⟩ : ∃ m, n = m + 1 := ⟨n - 1, by omega⟩
    rw [neighbourSearch, List.range_succ_eq_map, List.mapM_cons, neighboursOf]
    simp [hk]

/-- **C61.**  The search with a radius: for each point `i` the indices of exactly the points at a distance smaller than the
radius, each once and in ascending order, with their distances. -/
theorem C61_radius [LinearOrder α] (n : ℕ) (dist : ℕ → ℕ → α) (radius : α) :
    (Rips.radiusSearch n dist radius).length = n ∧
    ∀ (i : ℕ) (hi : i < (Rips.radiusSearch n dist radius).length),
      (((Rips.radiusSearch n dist radius)[i]).map (·.1)).Pairwise (· < ·) ∧
      ∀ j d, (j, d) ∈ (Rips.radiusSearch n dist radius)[i] ↔ j < n ∧ d = dist i j ∧ d < radius := by
  refine ⟨by simp [Rips.radiusSearch], fun i hi => ?_⟩
  simp only [Rips.radiusSearch, List.getElem_map, List.getElem_range]
  refine ⟨?_, fun j d => ?_⟩
  · refine List.Pairwise.sublist (List.Sublist.map _ (List.filter_sublist)) ?_
    rw [List.map_map]
    have : (fun x : ℕ × α => x.1) ∘ (fun j => (j, dist i j)) = id := rfl
    rw [this, List.map_id]
    exact List.pairwise_lt_range
  · simp only [List.mem_filter, List.mem_map, List.mem_range, Prod.mk.injEq, decide_eq_true_eq]
    constructor
    · rintro ⟨⟨a, ha, rfl, rfl⟩, hr⟩; exact ⟨ha, rfl, hr⟩
    · rintro ⟨hj, rfl, hr⟩; exact ⟨⟨j, hj, rfl, rfl⟩, hr⟩

/-- Four points on a line. -/
example : ∃ dist : ℕ → ℕ → ℤ, (∀ i < 4, ∀ j < 4, i ≠ j → dist i i < dist i j) ∧
    neighbourSearch (fun lt l => l.insertionSort fun a b => lt b a = false) 4 dist 2 =
      some [([0, 1], [0, 1]), ([1, 0], [0, 1]), ([2, 3], [0, 2]), ([3, 2], [0, 2])] ∧
    Rips.radiusSearch 4 dist 3 = [[(0, 0), (1, 1)], [(0, 1), (1, 0)], [(2, 0), (3, 2)], [(2, 2), (3, 0)]] :=
  ⟨fun i j => abs (([0, 1, 5, 7] : List ℤ).getD i 0 - ([0, 1, 5, 7] : List ℤ).getD j 0), by decide +kernel, by
    decide +kernel, by decide +kernel⟩

end Aleph
