import Verif.Spec.Matrix
import Verif.Lemmas.Columns
import Mathlib.Data.ZMod.Basic
import Mathlib.Algebra.Field.ZMod
import Mathlib.LinearAlgebra.Span.Basic
import Mathlib.LinearAlgebra.Span.Defs
import Mathlib.LinearAlgebra.Finsupp.LinearCombination
import Mathlib.Algebra.BigOperators.Pi
import Mathlib.Tactic.Abel

/-! Lows of vectors in prefix spans over the field with two elements. -/

namespace Aleph

open Finset

abbrev Vec := ℕ → ZMod 2

/-- `i` is the index of the lowest (largest index) non-zero entry of `v`. -/
def IsLow (v : Vec) (i : ℕ) : Prop := v i ≠ 0 ∧ ∀ z, i < z → v z = 0

theorem zmod2_cases (a : ZMod 2) : a = 0 ∨ a = 1 := by
  revert a; decide

theorem zmod2_add_self (a : ZMod 2) : a + a = 0 := by
  revert a; decide

theorem vec_add_self (v : Vec) : v + v = 0 := by
  funext i; exact zmod2_add_self _

theorem vec_neg (v : Vec) : -v = v := by
  rw [neg_eq_iff_add_eq_zero]; exact vec_add_self v

theorem vec_sub (v w : Vec) : v - w = v + w := by
  rw [sub_eq_add_neg, vec_neg]

theorem IsLow.ne_zero {v : Vec} {i : ℕ} (h : IsLow v i) : v ≠ 0 := by
  rintro rfl; exact h.1 rfl

theorem IsLow.unique {v : Vec} {i j : ℕ} (h : IsLow v i) (h' : IsLow v j) : i = j := by
  rcases lt_trichotomy i j with hlt | h1 | hlt
  · exact absurd (h.2 j hlt) h'.1
  · exact h1
  · exact absurd (h'.2 i hlt) h.1

theorem IsLow.add_of_lt {v w : Vec} {i j : ℕ} (h : IsLow v i) (h' : IsLow w j) (hij : i < j) :
    IsLow (v + w) j := by
  refine ⟨?_, ?_⟩
  · simp only [Pi.add_apply, h.2 j hij, zero_add]; exact h'.1
  · intro z hz
    simp only [Pi.add_apply, h.2 z (hij.trans hz), h'.2 z hz, add_zero]

/-- The span of the first `j` members of a family. -/
def spanLt (F : ℕ → Vec) (j : ℕ) : Submodule (ZMod 2) Vec :=
  Submodule.span (ZMod 2) (F '' {k | k < j})

theorem spanLt_mono (F : ℕ → Vec) {i j : ℕ} (h : i ≤ j) : spanLt F i ≤ spanLt F j :=
  Submodule.span_mono (Set.image_mono (fun k (hk : k < i) => lt_of_lt_of_le hk h))

theorem mem_spanLt_self (F : ℕ → Vec) {k j : ℕ} (h : k < j) : F k ∈ spanLt F j :=
  Submodule.subset_span ⟨k, h, rfl⟩

theorem spanLt_zero (F : ℕ → Vec) : spanLt F 0 = ⊥ := by
  simp [spanLt]

theorem spanLt_succ (F : ℕ → Vec) (j : ℕ) :
    spanLt F (j + 1) = spanLt F j ⊔ Submodule.span (ZMod 2) {F j} := by
  unfold spanLt
  rw [← Submodule.span_union]
  congr 1
  ext v
  simp only [Set.mem_image, Set.mem_ofPred_eq, Set.mem_union, Set.mem_singleton_iff]
  constructor
  · rintro ⟨k, hk, rfl⟩
    rcases Nat.lt_succ_iff_lt_or_eq.1 hk with h | rfl
    · exact Or.inl ⟨k, h, rfl⟩
    · exact Or.inr rfl
  · rintro (⟨k, hk, rfl⟩ | rfl)
    · exact ⟨k, Nat.lt_succ_of_lt hk, rfl⟩
    · exact ⟨j, Nat.lt_succ_self j, rfl⟩

theorem mem_spanLt_succ {F : ℕ → Vec} {j : ℕ} {v : Vec} :
    v ∈ spanLt F (j + 1) ↔ v ∈ spanLt F j ∨ v + F j ∈ spanLt F j := by
  rw [spanLt_succ, Submodule.mem_sup]
  constructor
  · rintro ⟨y, hy, z, hz, rfl⟩
    obtain ⟨a, rfl⟩ := Submodule.mem_span_singleton.1 hz
    rcases zmod2_cases a with rfl | rfl
    · left; simpa using hy
    · right; rw [one_smul, add_assoc, vec_add_self, add_zero]; exact hy
  · rintro (h | h)
    · exact ⟨v, h, 0, Submodule.zero_mem _, add_zero _⟩
    · refine ⟨v + F j, h, F j, Submodule.mem_span_singleton_self _, ?_⟩
      rw [add_assoc, vec_add_self, add_zero]

/-- Families that differ by a unipotent upper triangular transformation have the same prefix
spans. -/
theorem spanLt_eq_of_unipotent {F G : ℕ → Vec} {n : ℕ}
    (h : ∀ k < n, G k + F k ∈ spanLt F k) : ∀ j ≤ n, spanLt G j = spanLt F j := by
  intro j
  induction j with
  | zero => intro _; simp [spanLt_zero]
  | succ j ih =>
    intro hj
    have ih' := ih (Nat.le_of_succ_le hj)
    have hk := h j hj
    ext v
    rw [mem_spanLt_succ, mem_spanLt_succ, ih']
    constructor
    · rintro (h1 | h1)
      · exact Or.inl h1
      · right
        have := Submodule.add_mem _ h1 hk
        have e : v + G j + (G j + F j) = v + F j := by
          rw [add_assoc, ← add_assoc (G j), vec_add_self, zero_add]
        rwa [e] at this
    · rintro (h1 | h1)
      · exact Or.inl h1
      · right
        have := Submodule.add_mem _ h1 hk
        have e : v + F j + (G j + F j) = v + G j := by
          rw [add_comm (G j), add_assoc, ← add_assoc (F j), vec_add_self, zero_add]
        rwa [e] at this

/-- In a family with distinct lows each non-zero vector of a prefix span has the low of one of the
members. -/
theorem low_of_mem_spanLt {F : ℕ → Vec} {n : ℕ}
    (hlow : ∀ k < n, F k = 0 ∨ ∃ i, IsLow (F k) i)
    (hdist : ∀ k < n, ∀ l < n, ∀ i, IsLow (F k) i → IsLow (F l) i → k = l) :
    ∀ j ≤ n, ∀ v ∈ spanLt F j, v = 0 ∨ ∃ k < j, ∃ i, IsLow (F k) i ∧ IsLow v i := by
  intro j
  induction j with
  | zero => intro _ v hv; left; simpa [spanLt_zero] using hv
  | succ j ih =>
    intro hj v hv
    have ih' := ih (Nat.le_of_succ_le hj)
    rcases mem_spanLt_succ.1 hv with h | h
    · rcases ih' v h with h | ⟨k, hk, i, h1, h2⟩
      · exact Or.inl h
      · exact Or.inr ⟨k, Nat.lt_succ_of_lt hk, i, h1, h2⟩
    · have e : v = (v + F j) + F j := by rw [add_assoc, vec_add_self, add_zero]
      rcases hlow j hj with h0 | ⟨m, hm⟩
      · rw [h0, add_zero] at h
        rcases ih' v h with h | ⟨k, hk, i, h1, h2⟩
        · exact Or.inl h
        · exact Or.inr ⟨k, Nat.lt_succ_of_lt hk, i, h1, h2⟩
      · rcases ih' _ h with h0 | ⟨k, hk, i, h1, h2⟩
        · right; refine ⟨j, Nat.lt_succ_self j, m, hm, ?_⟩
          rw [e, h0, zero_add]; exact hm
        · right
          rcases lt_trichotomy i m with hlt | rfl | hlt
          · exact ⟨j, Nat.lt_succ_self j, m, hm, by rw [e]; exact h2.add_of_lt hm hlt⟩
          · have := hdist k (hk.trans hj) j hj i h1 hm
            omega
          · exact ⟨k, Nat.lt_succ_of_lt hk, i, h1, by
              rw [e, add_comm]; exact hm.add_of_lt h2 hlt⟩

/-- The lows of a reduced family are determined by the prefix spans. -/
theorem isLow_iff_of_span {F R : ℕ → Vec} {n : ℕ}
    (hspan : ∀ j ≤ n, spanLt R j = spanLt F j)
    (hlow : ∀ k < n, R k = 0 ∨ ∃ i, IsLow (R k) i)
    (hdist : ∀ k < n, ∀ l < n, ∀ i, IsLow (R k) i → IsLow (R l) i → k = l)
    {i j : ℕ} (hj : j < n) :
    IsLow (R j) i ↔
      (∃ v ∈ spanLt F (j + 1), IsLow v i) ∧ ¬ ∃ v ∈ spanLt F j, IsLow v i := by
  rw [← hspan (j + 1) hj, ← hspan j hj.le]
  constructor
  · intro h
    refine ⟨⟨R j, mem_spanLt_self R (Nat.lt_succ_self j), h⟩, ?_⟩
    rintro ⟨v, hv, hvi⟩
    rcases low_of_mem_spanLt hlow hdist j hj.le v hv with h0 | ⟨k, hk, i', h1, h2⟩
    · exact hvi.ne_zero h0
    · have := h2.unique hvi
      subst this
      have := hdist k (hk.trans hj) j hj _ h1 h
      omega
  · rintro ⟨⟨v, hv, hvi⟩, hno⟩
    rcases low_of_mem_spanLt hlow hdist (j + 1) hj v hv with h0 | ⟨k, hk, i', h1, h2⟩
    · exact absurd h0 hvi.ne_zero
    · have := h2.unique hvi
      subst this
      rcases Nat.lt_succ_iff_lt_or_eq.1 hk with h | rfl
      · exact absurd ⟨R k, mem_spanLt_self R h, h1⟩ hno
      · exact h1

/-! ### Vectors of finite sets -/

/-- Indicator vector of a finite set. -/
def ind (s : Finset ℕ) : Vec := fun i => if i ∈ s then 1 else 0

theorem ind_apply_ne {s : Finset ℕ} {i : ℕ} : ind s i ≠ 0 ↔ i ∈ s := by
  by_cases h : i ∈ s <;> simp [ind, h]

theorem ind_apply_eq {s : Finset ℕ} {i : ℕ} : ind s i = 0 ↔ i ∉ s := by
  by_cases h : i ∈ s <;> simp [ind, h]

theorem ind_inj {s t : Finset ℕ} (h : ind s = ind t) : s = t := by
  ext i; rw [← ind_apply_ne, h, ind_apply_ne]

theorem isLow_ind {s : Finset ℕ} {i : ℕ} : IsLow (ind s) i ↔ Spec.MaxIs s i := by
  unfold IsLow Spec.MaxIs
  rw [ind_apply_ne]
  refine and_congr_right fun _ => ?_
  constructor
  · intro h k hk
    by_contra hlt
    exact (ind_apply_eq.1 (h k (not_le.1 hlt))) hk
  · intro h z hz
    rw [ind_apply_eq]
    intro hmem
    exact absurd (h z hmem) (not_le.2 hz)

theorem ind_zero_or_low (s : Finset ℕ) : ind s = 0 ∨ ∃ i, IsLow (ind s) i := by
  rcases s.eq_empty_or_nonempty with rfl | h
  · left; funext i; simp [ind]
  · right
    exact ⟨s.max' h, isLow_ind.2 ⟨s.max'_mem h, fun k hk => s.le_max' k hk⟩⟩

theorem mem_chainBd {D : ℕ → Finset ℕ} {c : Finset ℕ} {i : ℕ} :
    i ∈ Spec.chainBd D c ↔ Odd #{k ∈ c | i ∈ D k} := by
  unfold Spec.chainBd
  rw [Finset.mem_filter, and_iff_right_iff_imp]
  intro h
  have hne : ({k ∈ c | i ∈ D k} : Finset ℕ).Nonempty := by
    rw [← Finset.card_pos]; exact h.pos
  obtain ⟨k, hk⟩ := hne
  rw [Finset.mem_filter] at hk
  exact Finset.mem_biUnion.2 ⟨k, hk.1, hk.2⟩

theorem ind_chainBd (D : ℕ → Finset ℕ) (c : Finset ℕ) :
    ind (Spec.chainBd D c) = ∑ k ∈ c, ind (D k) := by
  funext i
  rw [Finset.sum_apply]
  simp only [ind, Finset.sum_boole]
  by_cases h : i ∈ Spec.chainBd D c
  · rw [if_pos h]
    rw [mem_chainBd] at h
    exact ((ZMod.natCast_eq_one_iff_odd).2 h).symm
  · rw [if_neg h]
    rw [mem_chainBd, Nat.not_odd_iff_even] at h
    exact ((ZMod.natCast_eq_zero_iff_even).2 h).symm

/-- Vectors of a prefix span are the boundaries of chains on the prefix. -/
theorem mem_spanLt_iff_chain {D : ℕ → Finset ℕ} {j : ℕ} {v : Vec} :
    v ∈ spanLt (fun k => ind (D k)) j ↔ ∃ c ⊆ range j, v = ind (Spec.chainBd D c) := by
  induction j generalizing v with
  | zero =>
    rw [spanLt_zero, Submodule.mem_bot]
    constructor
    · rintro rfl; exact ⟨∅, by simp, by rw [ind_chainBd]; simp⟩
    · rintro ⟨c, hc, rfl⟩
      have : c = ∅ := by simpa using hc
      subst this; rw [ind_chainBd]; simp
  | succ j ih =>
    rw [mem_spanLt_succ, ih, ih]
    constructor
    · rintro (⟨c, hc, h⟩ | ⟨c, hc, h⟩)
      · exact ⟨c, hc.trans (range_mono (Nat.le_succ j)), h⟩
      · have hj : j ∉ c := fun hm => by simpa using hc hm
        refine ⟨insert j c, ?_, ?_⟩
        · intro x hx
          rcases mem_insert.1 hx with rfl | hx
          · simp
          · have := hc hx; simp at this ⊢; omega
        · rw [ind_chainBd, sum_insert hj, ← ind_chainBd D c, ← h, add_comm, add_assoc,
            vec_add_self, add_zero]
    · rintro ⟨c, hc, rfl⟩
      by_cases hj : j ∈ c
      · right
        refine ⟨c.erase j, ?_, ?_⟩
        · intro x hx
          have h1 := hc (mem_of_mem_erase hx)
          have h2 := ne_of_mem_erase hx
          simp at h1 ⊢; omega
        · rw [ind_chainBd, ind_chainBd, ← Finset.sum_erase_add _ _ hj, add_assoc, vec_add_self,
            add_zero]
      · left
        refine ⟨c, ?_, rfl⟩
        intro x hx
        have h1 := hc hx
        have h2 : x ≠ j := by rintro rfl; exact hj hx
        simp at h1 ⊢; omega

theorem persPair_iff {D : ℕ → Finset ℕ} {i j : ℕ} :
    Spec.PersPair D i j ↔
      (∃ v ∈ spanLt (fun k => ind (D k)) (j + 1), IsLow v i) ∧
        ¬ ∃ v ∈ spanLt (fun k => ind (D k)) j, IsLow v i := by
  have key : ∀ m, (∃ c ⊆ range m, Spec.MaxIs (Spec.chainBd D c) i) ↔
      ∃ v ∈ spanLt (fun k => ind (D k)) m, IsLow v i := by
    intro m
    constructor
    · rintro ⟨c, hc, h⟩
      exact ⟨_, mem_spanLt_iff_chain.2 ⟨c, hc, rfl⟩, isLow_ind.2 h⟩
    · rintro ⟨v, hv, h⟩
      obtain ⟨c, hc, rfl⟩ := mem_spanLt_iff_chain.1 hv
      exact ⟨c, hc, isLow_ind.1 h⟩
  unfold Spec.PersPair
  rw [key, key]

end Aleph
