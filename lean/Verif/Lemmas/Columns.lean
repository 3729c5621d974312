import Verif.Model.Matrix
import Mathlib.Data.List.Dedup
import Mathlib.Order.Basic

/-! Helper lemmas about sorted columns and symmetric differences. -/

namespace Aleph

/-- Strictly ascending list. -/
abbrev Strict (c : List Nat) : Prop := c.Pairwise (· < ·)

theorem symmDiffGo_spec (x : Nat) (rest : List Nat) (next : List Nat → List Nat)
    (hx : Strict (x :: rest))
    (hnext : ∀ ys, Strict ys → Strict (next ys) ∧
      ∀ z, z ∈ next ys ↔ ((z ∈ rest ∧ z ∉ ys) ∨ (z ∉ rest ∧ z ∈ ys))) :
    ∀ ys, Strict ys → Strict (symmDiffGo x rest next ys) ∧
      ∀ z, z ∈ symmDiffGo x rest next ys ↔
        ((z ∈ x :: rest ∧ z ∉ ys) ∨ (z ∉ x :: rest ∧ z ∈ ys)) := by
  have hx1 : ∀ z ∈ rest, x < z := (List.pairwise_cons.1 hx).1
  intro ys
  induction ys with
  | nil => intro _; simpa [symmDiffGo] using hx
  | cons y ys ih =>
    intro hys
    have hys1 : ∀ z ∈ ys, y < z := (List.pairwise_cons.1 hys).1
    have hys2 : Strict ys := (List.pairwise_cons.1 hys).2
    unfold symmDiffGo
    by_cases h1 : x < y
    · rw [if_pos h1]
      obtain ⟨hs, hm⟩ := hnext _ hys
      refine ⟨?_, ?_⟩
      · refine List.pairwise_cons.2 ⟨?_, hs⟩
        intro z hz
        rcases (hm z).1 hz with ⟨h, _⟩ | ⟨_, h⟩
        · exact hx1 z h
        · rcases List.mem_cons.1 h with rfl | h
          · exact h1
          · exact lt_trans h1 (hys1 z h)
      · intro z
        rw [List.mem_cons, hm]
        by_cases hz : z = x
        · subst hz
          have : z ∉ y :: ys := by
            intro h
            rcases List.mem_cons.1 h with h | h
            · omega
            · have := hys1 z h; omega
          simp [this]
        · simp [hz]
    · rw [if_neg h1]
      by_cases h2 : y < x
      · rw [if_pos h2]
        obtain ⟨hs, hm⟩ := ih hys2
        refine ⟨?_, ?_⟩
        · refine List.pairwise_cons.2 ⟨?_, hs⟩
          intro z hz
          rcases (hm z).1 hz with ⟨h, _⟩ | ⟨_, h⟩
          · rcases List.mem_cons.1 h with rfl | h
            · exact h2
            · exact lt_trans h2 (hx1 z h)
          · exact hys1 z h
        · intro z
          rw [List.mem_cons, hm]
          by_cases hz : z = y
          · subst hz
            have : z ∉ x :: rest := by
              intro h
              rcases List.mem_cons.1 h with h | h
              · omega
              · have := hx1 z h; omega
            simp [this]
          · simp [hz]
      · rw [if_neg h2]
        have hxy : x = y := by omega
        subst hxy
        obtain ⟨hs, hm⟩ := hnext _ hys2
        refine ⟨hs, ?_⟩
        intro z
        rw [hm]
        by_cases hz : z = x
        · subst hz
          have a1 : z ∉ rest := fun h => by have := hx1 z h; omega
          have a2 : z ∉ ys := fun h => by have := hys1 z h; omega
          simp [a1, a2]
        · simp [hz]

theorem symmDiff_spec (xs : List Nat) : Strict xs → ∀ ys, Strict ys →
    Strict (symmDiff xs ys) ∧
      ∀ z, z ∈ symmDiff xs ys ↔ ((z ∈ xs ∧ z ∉ ys) ∨ (z ∉ xs ∧ z ∈ ys)) := by
  induction xs with
  | nil => intro _ ys hys; simpa [symmDiff] using hys
  | cons x xs ih =>
    intro hx ys hys
    unfold symmDiff
    exact symmDiffGo_spec x xs _ hx (ih (List.pairwise_cons.1 hx).2) ys hys

theorem symmDiff_strict {xs ys : List Nat} (hx : Strict xs) (hy : Strict ys) :
    Strict (symmDiff xs ys) := (symmDiff_spec xs hx ys hy).1

theorem mem_symmDiff {xs ys : List Nat} (hx : Strict xs) (hy : Strict ys) (z : Nat) :
    z ∈ symmDiff xs ys ↔ ((z ∈ xs ∧ z ∉ ys) ∨ (z ∉ xs ∧ z ∈ ys)) :=
  (symmDiff_spec xs hx ys hy).2 z

theorem Strict.nodup {c : List Nat} (h : Strict c) : c.Nodup :=
  h.imp (fun h => Nat.ne_of_lt h)

theorem Strict.ext {a b : List Nat} (ha : Strict a) (hb : Strict b)
    (h : ∀ z, z ∈ a ↔ z ∈ b) : a = b :=
  ((List.perm_ext_iff_of_nodup ha.nodup hb.nodup).2 h).eq_of_pairwise
    (fun _ _ _ _ h1 h2 => absurd (lt_trans h1 h2) (lt_irrefl _)) ha hb

/-- All elements of a strict list are bounded by its last element. -/
theorem Strict.le_getLast {c : List Nat} (h : Strict c) {i : Nat} (hi : c.getLast? = some i) :
    ∀ z ∈ c, z ≤ i := by
  intro z hz
  obtain ⟨ys, rfl⟩ := List.getLast?_eq_some_iff.1 hi
  rcases List.mem_append.1 hz with h1 | h1
  · exact Nat.le_of_lt ((List.pairwise_append.1 h).2.2 z h1 i (by simp))
  · simp at h1; omega

theorem getLast?_mem {c : List Nat} {i : Nat} (hi : c.getLast? = some i) : i ∈ c :=
  List.mem_of_getLast? hi

theorem Strict.getLast?_eq {c : List Nat} (h : Strict c) {i : Nat} :
    c.getLast? = some i ↔ i ∈ c ∧ ∀ z ∈ c, z ≤ i := by
  constructor
  · intro hi; exact ⟨getLast?_mem hi, h.le_getLast hi⟩
  · rintro ⟨h1, h2⟩
    cases hl : c.getLast? with
    | none => rw [List.getLast?_eq_none_iff] at hl; subst hl; simp at h1
    | some m =>
      have := h.le_getLast hl i h1
      have := h2 m (getLast?_mem hl)
      congr 1; omega

/-- Adding a column with the same maximum strictly lowers the maximum. -/
theorem symmDiff_lower {xs ys : List Nat} (hx : Strict xs) (hy : Strict ys) {i : Nat}
    (hxi : xs.getLast? = some i) (hyi : ys.getLast? = some i) :
    ∀ z ∈ symmDiff xs ys, z < i := by
  intro z hz
  have hx1 := getLast?_mem hxi
  have hy1 := getLast?_mem hyi
  rcases (mem_symmDiff hx hy z).1 hz with ⟨h1, h2⟩ | ⟨h1, h2⟩
  · refine lt_of_le_of_ne (hx.le_getLast hxi z h1) ?_
    rintro rfl; exact h2 hy1
  · refine lt_of_le_of_ne (hy.le_getLast hyi z h2) ?_
    rintro rfl; exact h1 hx1

theorem store_eq {k : Kind} {c : List Nat} (h : c.Nodup) : Rep.store k c = c := by
  cases k <;> simp [Rep.store, h.dedup]

end Aleph
