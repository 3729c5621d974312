import Verif.Lemmas.TieBreak
import Verif.Props.Conversions

/-!
# C52: persistence diagrams do not depend on how ties are broken
-/

namespace Aleph

open Finset Spec

variable {α : Type}

/-- Data at a position, with a default value beyond the complex. -/
def dataD (inf : α) (K : Complex α) (i : ℕ) : α := ((K[i]?).map (·.data)).getD inf

theorem downward_eq_range {S : Finset ℕ} (h : ∀ a ∈ S, ∀ b ≤ a, b ∈ S) : ∃ m, S = range m := by
  by_cases hS : S.Nonempty
  · refine ⟨S.max' hS + 1, ?_⟩
    ext x
    rw [mem_range]
    constructor
    · intro hx; exact Nat.lt_succ_of_le (S.le_max' x hx)
    · intro hx; exact h _ (S.max'_mem hS) x (by omega)
  · rw [not_nonempty_iff_eq_empty] at hS
    exact ⟨0, by rw [hS]; rfl⟩

open Classical in
/-- The persistence pairs with a creator of dimension `d`. -/
noncomputable def pairSet (K : Complex α) (d : ℕ) : Finset (ℕ × ℕ) :=
  {ij ∈ range K.length ×ˢ range K.length | PersPair (facets K) ij.1 ij.2 ∧ dimAt K ij.1 = d}

open Classical in
theorem card_pairSet [LinearOrder α] (inf : α) {K : Complex α} (hK : IsFiltration K)
    (hn : K.length ≤ idxMax)
    (hs : K.Pairwise fun s t => s.data ≤ t.data) (d : ℕ) (P Q : α → Prop)
    (hP : ∀ a b, a ≤ b → P b → P a) (hQ : ∀ a b, a ≤ b → Q b → Q a) :
    #(bdIn (facets K) {k ∈ range K.length | Q (dataD inf K k) ∧ dimAt K k = d + 1}
        {k ∈ range K.length | P (dataD inf K k)}) =
      2 ^ #{ij ∈ pairSet K d | P (dataD inf K ij.1) ∧ Q (dataD inf K ij.2)} := by
  obtain ⟨r, h1, h2, h3, h4, h5⟩ := C11_is_boundary_matrix .vector K hK hn
  have hmono : ∀ a b, b ≤ a → a < K.length → dataD inf K b ≤ dataD inf K a := by
    intro a b hab ha
    have hb : b < K.length := by omega
    simp only [dataD, List.getElem?_eq_getElem ha, List.getElem?_eq_getElem hb, Option.map_some,
      Option.getD_some]
    rcases Nat.lt_or_ge b a with h | h
    · exact List.pairwise_iff_getElem.1 hs b a hb ha h
    · have : a = b := by omega
      subst this; exact le_rfl
  have hpre : ∀ P : α → Prop, (∀ a b, a ≤ b → P b → P a) →
      ∃ m ≤ K.length, ({k ∈ range K.length | P (dataD inf K k)} : Finset ℕ) = range m := by
    intro P hP
    obtain ⟨m, hm⟩ := downward_eq_range (S := {k ∈ range K.length | P (dataD inf K k)}) (by
      intro a ha b hb
      rw [mem_filter, mem_range] at ha ⊢
      exact ⟨by omega, hP _ _ (hmono a b hb ha.1) ha.2⟩)
    refine ⟨m, ?_, hm⟩
    by_contra hlt
    have : K.length ∈ range m := mem_range.2 (by omega)
    rw [← hm, mem_filter, mem_range] at this
    omega
  obtain ⟨s, hs1, hs2⟩ := hpre P hP
  obtain ⟨t, ht1, ht2⟩ := hpre Q hQ
  have hlen : r.data.length = K.length := h3
  have := card_bdIn h2.valid h2.graded d s t (by omega)
  rw [h4] at this
  simp only [h5] at this
  have e1 : ({k ∈ range K.length | Q (dataD inf K k) ∧ dimAt K k = d + 1} : Finset ℕ) =
      {k ∈ range t | dimAt K k = d + 1} := by rw [← ht2, filter_filter]
  rw [e1, hs2, this]
  congr 2
  ext ⟨i, j⟩
  simp only [pairSet, mem_filter, mem_product, ← hs2, ← ht2]
  tauto

/-- Positions of the simplices of one ordering in another. -/
theorem exists_renumbering {K L : Complex α} (hK : WF K) (hL : WF L) (hp : K.Perm L) :
    ∃ σ : ℕ → ℕ, (∀ k < K.length, σ k < L.length ∧ L[σ k]? = K[k]?) ∧
      (∀ a < K.length, ∀ b < K.length, σ a = σ b → a = b) ∧
      ∀ k < K.length, facets L (σ k) = (facets K k).image σ := by
  classical
  have hex : ∀ k < K.length, ∃ l, l < L.length ∧ L[l]? = K[k]? := by
    intro k hk
    obtain ⟨l, hl, he⟩ := List.getElem_of_mem (hp.subset (List.getElem_mem hk))
    exact ⟨l, hl, by rw [List.getElem?_eq_getElem hl, List.getElem?_eq_getElem hk, he]⟩
  choose! σ h1 using hex
  have hget : ∀ {M : Complex α}, WF M → ∀ a < M.length, ∀ b < M.length, M[a]? = M[b]? → a = b := by
    intro M hM a ha b hb h
    rw [List.getElem?_eq_getElem ha, List.getElem?_eq_getElem hb] at h
    exact (List.Nodup.getElem_inj_iff hM.nodup).1 (Option.some.inj h)
  have hinj : ∀ a < K.length, ∀ b < K.length, σ a = σ b → a = b := by
    intro a ha b hb h
    apply hget hK a ha b hb
    rw [← (h1 a ha).2, ← (h1 b hb).2, h]
  refine ⟨σ, h1, hinj, ?_⟩
  intro k hk
  have hv : ∀ k < K.length, vsetAt L (σ k) = vsetAt K k := by
    intro k hk; unfold vsetAt; rw [(h1 k hk).2]
  ext x
  simp only [facets, mem_filter, mem_range, mem_image]
  constructor
  · rintro ⟨hx, h2, h3⟩
    obtain ⟨i, hi, he⟩ := List.getElem_of_mem (hp.symm.subset (List.getElem_mem hx))
    have hxi : σ i = x := by
      apply hget hL _ (h1 i hi).1 _ hx
      rw [(h1 i hi).2, List.getElem?_eq_getElem hi, List.getElem?_eq_getElem hx, he]
    subst hxi
    rw [hv k hk, hv i hi] at h2 h3
    exact ⟨i, ⟨hi, h2, h3⟩, rfl⟩
  · rintro ⟨i, ⟨hi, h2, h3⟩, rfl⟩
    rw [hv k hk, hv i hi]
    exact ⟨(h1 i hi).1, h2, h3⟩

open Classical in
theorem card_pairSet_eq [LinearOrder α] (inf : α) {K L : Complex α} (hK : IsFiltration K)
    (hL : IsFiltration L) (hp : K.Perm L) (hn : K.length ≤ idxMax)
    (hs : K.Pairwise fun s t => s.data ≤ t.data) (hs' : L.Pairwise fun s t => s.data ≤ t.data)
    (d : ℕ) (P Q : α → Prop)
    (hP : ∀ a b, a ≤ b → P b → P a) (hQ : ∀ a b, a ≤ b → Q b → Q a) :
    #{ij ∈ pairSet K d | P (dataD inf K ij.1) ∧ Q (dataD inf K ij.2)} =
      #{ij ∈ pairSet L d | P (dataD inf L ij.1) ∧ Q (dataD inf L ij.2)} := by
  have main : ∀ K L : Complex α, IsFiltration K → IsFiltration L → K.Perm L →
      #(bdIn (facets K) {k ∈ range K.length | Q (dataD inf K k) ∧ dimAt K k = d + 1}
        {k ∈ range K.length | P (dataD inf K k)}) ≤
      #(bdIn (facets L) {k ∈ range L.length | Q (dataD inf L k) ∧ dimAt L k = d + 1}
        {k ∈ range L.length | P (dataD inf L k)}) := by
    intro K L hK hL hp
    obtain ⟨σ, h1, h2, h3⟩ := exists_renumbering hK.wf hL.wf hp
    have hd : ∀ k < K.length, dataD inf L (σ k) = dataD inf K k := by
      intro k hk; unfold dataD; rw [(h1 k hk).2]
    have hdim : ∀ k < K.length, dimAt L (σ k) = dimAt K k := by
      intro k hk; unfold dimAt vsetAt; rw [(h1 k hk).2]
    refine card_bdIn_le h2 ?_ h3 (filter_subset _ _) ?_ ?_
    · intro k _ i hi
      exact mem_range.1 (mem_filter.1 hi).1
    · intro k hk
      rw [mem_filter, mem_range] at hk ⊢
      rw [hd k hk.1, hdim k hk.1]
      exact ⟨(h1 k hk.1).1, hk.2⟩
    · intro k hk hkR
      rw [mem_filter, mem_range] at hkR ⊢
      rw [hd k hk]
      exact ⟨(h1 k hk).1, hkR.2⟩
  have := le_antisymm (main K L hK hL hp) (main L K hL hK hp.symm)
  rw [card_pairSet inf hK hn hs d P Q hP hQ,
    card_pairSet inf hL (by rw [← hp.length_eq]; exact hn) hs' d P Q hP hQ] at this
  exact Nat.pow_right_injective le_rfl this

open Classical in
theorem card_corner [LinearOrder α] {β : Type} (S : Finset β) (f g : β → α) (x y : α) :
    #{e ∈ S | f e ≤ x ∧ g e ≤ y} + #{e ∈ S | f e < x ∧ g e < y} =
      #{e ∈ S | f e < x ∧ g e ≤ y} + #{e ∈ S | f e ≤ x ∧ g e < y} + #{e ∈ S | f e = x ∧ g e = y} := by
  simp only [card_filter]
  rw [← sum_add_distrib, ← sum_add_distrib, ← sum_add_distrib]
  refine sum_congr rfl fun e _ => ?_
  have hx := le_iff_lt_or_eq (a := f e) (b := x)
  have hy := le_iff_lt_or_eq (a := g e) (b := y)
  have hx' : f e = x → ¬ f e < x := fun h => by rw [h]; exact lt_irrefl _
  have hy' : g e = y → ¬ g e < y := fun h => by rw [h]; exact lt_irrefl _
  by_cases a : f e < x <;> by_cases b : f e = x <;> by_cases c : g e < y <;> by_cases d : g e = y <;>
    simp only [hx, hy, a, b, c, d] <;> simp_all only [not_true] <;> simp

open Classical in
theorem card_edge [LinearOrder α] {β : Type} (S : Finset β) (f : β → α) (x : α) :
    #{e ∈ S | f e ≤ x} = #{e ∈ S | f e < x} + #{e ∈ S | f e = x} := by
  simp only [card_filter]
  rw [← sum_add_distrib]
  refine sum_congr rfl fun e _ => ?_
  have hx := le_iff_lt_or_eq (a := f e) (b := x)
  have hx' : f e = x → ¬ f e < x := fun h => by rw [h]; exact lt_irrefl _
  by_cases a : f e < x <;> by_cases b : f e = x <;> simp only [hx, a, b] <;>
    simp_all only [not_true] <;> simp

section Counts

variable [LinearOrder α] (inf : α) {K L : Complex α} (hK : IsFiltration K)
    (hL : IsFiltration L) (hp : K.Perm L) (hn : K.length ≤ idxMax)
    (hs : K.Pairwise fun s t => s.data ≤ t.data) (hs' : L.Pairwise fun s t => s.data ≤ t.data)

open Classical

include hK hL hp hn hs hs' in
theorem card_pairs_at (d : ℕ) (x y : α) :
    #{ij ∈ pairSet K d | dataD inf K ij.1 = x ∧ dataD inf K ij.2 = y} =
      #{ij ∈ pairSet L d | dataD inf L ij.1 = x ∧ dataD inf L ij.2 = y} := by
  have le_low : ∀ x : α, ∀ a b, a ≤ b → b ≤ x → a ≤ x := fun x a b h h' => le_trans h h'
  have lt_low : ∀ x : α, ∀ a b, a ≤ b → b < x → a < x := fun x a b h h' => lt_of_le_of_lt h h'
  have e1 : #{ij ∈ pairSet K d | dataD inf K ij.1 ≤ x ∧ dataD inf K ij.2 ≤ y} =
      #{ij ∈ pairSet L d | dataD inf L ij.1 ≤ x ∧ dataD inf L ij.2 ≤ y} := by
    convert card_pairSet_eq inf hK hL hp hn hs hs' d (· ≤ x) (· ≤ y) (le_low x) (le_low y)
  have e2 : #{ij ∈ pairSet K d | dataD inf K ij.1 < x ∧ dataD inf K ij.2 < y} =
      #{ij ∈ pairSet L d | dataD inf L ij.1 < x ∧ dataD inf L ij.2 < y} := by
    convert card_pairSet_eq inf hK hL hp hn hs hs' d (· < x) (· < y) (lt_low x) (lt_low y)
  have e3 : #{ij ∈ pairSet K d | dataD inf K ij.1 < x ∧ dataD inf K ij.2 ≤ y} =
      #{ij ∈ pairSet L d | dataD inf L ij.1 < x ∧ dataD inf L ij.2 ≤ y} := by
    convert card_pairSet_eq inf hK hL hp hn hs hs' d (· < x) (· ≤ y) (lt_low x) (le_low y)
  have e4 : #{ij ∈ pairSet K d | dataD inf K ij.1 ≤ x ∧ dataD inf K ij.2 < y} =
      #{ij ∈ pairSet L d | dataD inf L ij.1 ≤ x ∧ dataD inf L ij.2 < y} := by
    convert card_pairSet_eq inf hK hL hp hn hs hs' d (· ≤ x) (· < y) (le_low x) (lt_low y)
  have c1 := card_corner (pairSet K d) (fun ij => dataD inf K ij.1) (fun ij => dataD inf K ij.2) x y
  have c2 := card_corner (pairSet L d) (fun ij => dataD inf L ij.1) (fun ij => dataD inf L ij.2) x y
  beta_reduce at c1 c2
  rw [e1, e2, e3, e4] at c1
  omega

include hK hL hp hn hs hs' in
theorem card_creators_at (d : ℕ) (x : α) :
    #{ij ∈ pairSet K d | dataD inf K ij.1 = x} = #{ij ∈ pairSet L d | dataD inf L ij.1 = x} := by
  have e := fun P hP => card_pairSet_eq inf hK hL hp hn hs hs' d P (fun _ => True) hP
    (fun _ _ _ _ => trivial)
  have e1 := e (· ≤ x) (fun a b h h' => le_trans h h')
  have e2 := e (· < x) (fun a b h h' => lt_of_le_of_lt h h')
  have c1 := card_edge (pairSet K d) (fun ij => dataD inf K ij.1) x
  have c2 := card_edge (pairSet L d) (fun ij => dataD inf L ij.1) x
  simp only [and_true] at e1 e2 c1 c2
  omega

include hK hL hp hn hs hs' in
theorem card_destroyers_at (d : ℕ) (x : α) :
    #{ij ∈ pairSet K d | dataD inf K ij.2 = x} = #{ij ∈ pairSet L d | dataD inf L ij.2 = x} := by
  have e := fun P hP => card_pairSet_eq inf hK hL hp hn hs hs' d (fun _ => True) P
    (fun _ _ _ _ => trivial) hP
  have e1 := e (· ≤ x) (fun a b h h' => le_trans h h')
  have e2 := e (· < x) (fun a b h h' => lt_of_le_of_lt h h')
  have c1 := card_edge (pairSet K d) (fun ij => dataD inf K ij.2) x
  have c2 := card_edge (pairSet L d) (fun ij => dataD inf L ij.2) x
  simp only [true_and] at e1 e2 c1 c2
  omega

include hK hL hp in
theorem card_simplices_at (d : ℕ) (x : α) :
    #{u ∈ range K.length | dimAt K u = d ∧ dataD inf K u = x} =
      #{u ∈ range L.length | dimAt L u = d ∧ dataD inf L u = x} := by
  have main : ∀ K L : Complex α, IsFiltration K → IsFiltration L → K.Perm L →
      #{u ∈ range K.length | dimAt K u = d ∧ dataD inf K u = x} ≤
      #{u ∈ range L.length | dimAt L u = d ∧ dataD inf L u = x} := by
    intro K L hK hL hp
    obtain ⟨σ, h1, h2, h3⟩ := exists_renumbering hK.wf hL.wf hp
    refine card_le_card_of_injOn σ ?_ ?_
    · intro k hk
      rw [mem_coe, mem_filter, mem_range] at hk ⊢
      have hd : dataD inf L (σ k) = dataD inf K k := by
        unfold dataD; rw [(h1 k hk.1).2]
      have hdim : dimAt L (σ k) = dimAt K k := by
        unfold dimAt vsetAt; rw [(h1 k hk.1).2]
      rw [hd, hdim]
      exact ⟨(h1 k hk.1).1, hk.2⟩
    · intro a ha b hb hab
      rw [mem_coe, mem_filter, mem_range] at ha hb
      exact h2 a ha.1 b hb.1 hab
  exact le_antisymm (main K L hK hL hp) (main L K hL hK hp.symm)

end Counts

/-- Facts about the persistence pairs of a filtered complex. -/
structure PairFacts (K : Complex α) : Prop where
  lt : ∀ i j, PersPair (facets K) i j → i < K.length ∧ j < K.length ∧ dimAt K i + 1 = dimAt K j
  fst : ∀ i i' j, PersPair (facets K) i j → PersPair (facets K) i' j → i = i'
  snd : ∀ i j j', PersPair (facets K) i j → PersPair (facets K) i j' → j = j'
  excl : ∀ u i j, PersPair (facets K) u j → ¬ PersPair (facets K) i u

theorem pairFacts {K : Complex α} (hK : IsFiltration K) (hn : K.length ≤ idxMax) : PairFacts K := by
  obtain ⟨r, h1, h2, h3, h4, h5⟩ := C11_is_boundary_matrix .vector K hK hn
  obtain ⟨R, _, hR⟩ := standard_isReduction .vector h2.valid
  have hlen : r.data.length = K.length := h3
  refine ⟨?_, ?_, ?_, ?_⟩
  · intro i j h
    rw [← h4] at h
    have := persPair_dim h2.graded h
    rw [h5, h5] at this
    exact ⟨hlen ▸ persPair_fst_lt h2.valid h, hlen ▸ persPair_lt_length h, this⟩
  · intro i i' j h h'
    rw [← h4] at h h'
    have e1 := hR.low_iff.2 h
    have e2 := hR.low_iff.2 h'
    rw [e1] at e2
    exact Option.some.inj e2
  · intro i j j' h h'
    rw [← h4] at h h'
    exact hR.distinct j j' i (hR.low_iff.2 h) (hR.low_iff.2 h')
  · intro u i j h h'
    rw [← h4] at h h'
    exact persPair_exclusive h2.valid h2.differential h h'

open Classical in
/-- Simplices are unpaired, creators or destroyers. -/
theorem card_unpaired [LinearOrder α] (inf : α) {K : Complex α} (hK : IsFiltration K)
    (hn : K.length ≤ idxMax) (d : ℕ) (x : α) :
    #{u ∈ range K.length | dimAt K u = d ∧ dataD inf K u = x} =
      #{u ∈ range K.length | Unpaired (facets K) K.length u ∧ dimAt K u = d ∧ dataD inf K u = x} +
      (#{ij ∈ pairSet K d | dataD inf K ij.1 = x} +
        if d = 0 then 0 else #{ij ∈ pairSet K (d - 1) | dataD inf K ij.2 = x}) := by
  obtain ⟨f1, f2, f3, f4⟩ := pairFacts hK hn
  have hc : #{ij ∈ pairSet K d | dataD inf K ij.1 = x} =
      #{u ∈ range K.length | (∃ j, PersPair (facets K) u j) ∧ dimAt K u = d ∧ dataD inf K u = x} := by
    refine card_bij (fun ij _ => ij.1) ?_ ?_ ?_
    · rintro ⟨i, j⟩ hij
      simp only [pairSet, mem_filter, mem_product, mem_range] at hij ⊢
      exact ⟨hij.1.1.1, ⟨j, hij.1.2.1⟩, hij.1.2.2, hij.2⟩
    · rintro ⟨i, j⟩ hij ⟨i', j'⟩ hij' he
      simp only [pairSet, mem_filter, mem_product, mem_range] at hij hij' he
      subst he
      rw [f3 _ _ _ hij.1.2.1 hij'.1.2.1]
    · intro u hu
      simp only [mem_filter, mem_range] at hu
      obtain ⟨h1, ⟨j, hj⟩, h2, h3⟩ := hu
      refine ⟨(u, j), ?_, rfl⟩
      simp only [pairSet, mem_filter, mem_product, mem_range]
      exact ⟨⟨⟨h1, (f1 _ _ hj).2.1⟩, hj, h2⟩, h3⟩
  have hd : (if d = 0 then 0 else #{ij ∈ pairSet K (d - 1) | dataD inf K ij.2 = x}) =
      #{u ∈ range K.length | (∃ i, PersPair (facets K) i u) ∧ dimAt K u = d ∧ dataD inf K u = x} := by
    split
    · next h =>
      symm
      rw [card_eq_zero, filter_eq_empty_iff]
      rintro u _ ⟨⟨i, hi⟩, h2, _⟩
      have := (f1 _ _ hi).2.2
      omega
    · next h =>
      refine card_bij (fun ij _ => ij.2) ?_ ?_ ?_
      · rintro ⟨i, j⟩ hij
        simp only [pairSet, mem_filter, mem_product, mem_range] at hij ⊢
        have := (f1 _ _ hij.1.2.1).2.2
        exact ⟨hij.1.1.2, ⟨i, hij.1.2.1⟩, by omega, hij.2⟩
      · rintro ⟨i, j⟩ hij ⟨i', j'⟩ hij' he
        simp only [pairSet, mem_filter, mem_product, mem_range] at hij hij' he
        subst he
        rw [f2 _ _ _ hij.1.2.1 hij'.1.2.1]
      · intro u hu
        simp only [mem_filter, mem_range] at hu
        obtain ⟨h1, ⟨i, hi⟩, h2, h3⟩ := hu
        refine ⟨(i, u), ?_, rfl⟩
        simp only [pairSet, mem_filter, mem_product, mem_range]
        have := f1 _ _ hi
        exact ⟨⟨⟨this.1, h1⟩, hi, by omega⟩, h3⟩
  rw [hc, hd]
  simp only [card_filter]
  rw [← sum_add_distrib, ← sum_add_distrib]
  refine sum_congr rfl fun u hu => ?_
  have hu' := mem_range.1 hu
  by_cases a : dimAt K u = d ∧ dataD inf K u = x
  · by_cases b : ∃ j, PersPair (facets K) u j
    · obtain ⟨j, hj⟩ := b
      have h1 : ¬ ∃ i, PersPair (facets K) i u := fun ⟨i, hi⟩ => f4 u i j hj hi
      have h2 : ¬ Unpaired (facets K) K.length u := fun h => (h.2 j).1 hj
      rw [if_pos a, if_neg (fun h => h2 h.1), if_pos ⟨⟨j, hj⟩, a⟩, if_neg (fun h => h1 h.1)]
      try omega
    · by_cases c : ∃ i, PersPair (facets K) i u
      · have h2 : ¬ Unpaired (facets K) K.length u := fun h => by
          obtain ⟨i, hi⟩ := c; exact (h.2 i).2 hi
        rw [if_pos a, if_neg (fun h => h2 h.1), if_neg (fun h => b h.1), if_pos ⟨c, a⟩]
        try omega
      · have h2 : Unpaired (facets K) K.length u :=
          ⟨hu', fun j => ⟨fun h => b ⟨j, h⟩, fun h => c ⟨j, h⟩⟩⟩
        rw [if_pos a, if_pos ⟨h2, a⟩, if_neg (fun h => b h.1), if_neg (fun h => c h.1)]
        try omega
  · rw [if_neg a, if_neg (fun h => a h.2), if_neg (fun h => a h.2), if_neg (fun h => a h.2)]
    try omega

open Classical in
/-- Multiplicity of a point. -/
theorem count_diagramPoints [LinearOrder α] (inf : α) {K : Complex α} (hK : IsFiltration K)
    (hn : K.length ≤ idxMax) {inc : Bool} {p : List (ℕ × ℕ)} (hp : IsComplexPairing K inc p)
    (d : ℕ) (x y : α) :
    (diagramPoints inf K d p).count (x, y) =
      #{ij ∈ pairSet K d | dataD inf K ij.1 = x ∧ dataD inf K ij.2 = y} +
      if y = inf then #{u ∈ range K.length | Unpaired (facets K) K.length u ∧
        (inc = true ∨ ∃ t < K.length, dimAt K u < dimAt K t) ∧ dimAt K u = d ∧ dataD inf K u = x}
      else 0 := by
  obtain ⟨f1, f2, f3, f4⟩ := pairFacts hK hn
  have hlt : ∀ ij ∈ p, ij.1 < K.length := by
    rintro ⟨i, j⟩ hij
    rcases (hp.2.2 i j).1 hij with h | ⟨_, h, _⟩
    · exact (f1 _ _ h).1
    · exact h.1
  have h1 : diagramPoints inf K d p =
      (p.filter fun ij => dimAt K ij.1 = d).map fun ij => (dataD inf K ij.1, dataD inf K ij.2) := by
    unfold diagramPoints
    rw [← List.filterMap_eq_map]
    refine List.filterMap_congr ?_
    rintro ⟨i, j⟩ hij
    have := hlt _ (List.mem_filter.1 hij).1
    simp only at this
    simp [dataD, List.getElem?_eq_getElem this]
  have h2 : (diagramPoints inf K d p).count (x, y) =
      #{ij ∈ p.toFinset | dimAt K ij.1 = d ∧ dataD inf K ij.1 = x ∧ dataD inf K ij.2 = y} := by
    rw [h1, List.count_eq_countP, List.countP_map, List.countP_filter, List.countP_eq_length_filter,
      ← List.toFinset_card_of_nodup (hp.1.filter _)]
    congr 1
    ext ⟨i, j⟩
    rw [List.mem_toFinset, List.mem_filter, mem_filter, List.mem_toFinset]
    simp only [Function.comp, Bool.and_eq_true, beq_iff_eq, Prod.mk.injEq, decide_eq_true_eq]
    tauto
  rw [h2]
  have h3 : ({ij ∈ p.toFinset | dimAt K ij.1 = d ∧ dataD inf K ij.1 = x ∧ dataD inf K ij.2 = y} : Finset (ℕ × ℕ)) =
      ({ij ∈ pairSet K d | dataD inf K ij.1 = x ∧ dataD inf K ij.2 = y} : Finset (ℕ × ℕ)) ∪
      (if y = inf then ({u ∈ range K.length | Unpaired (facets K) K.length u ∧
        (inc = true ∨ ∃ t < K.length, dimAt K u < dimAt K t) ∧ dimAt K u = d ∧ dataD inf K u = x} : Finset ℕ).image
          (fun u => (u, idxMax)) else ∅) := by
    ext ⟨i, j⟩
    have hbig : dataD inf K idxMax = inf := by simp [dataD, List.getElem?_eq_none hn]
    rw [mem_filter, List.mem_toFinset, hp.2.2, mem_union, mem_filter, pairSet, mem_filter]
    simp only [mem_product, mem_range]
    constructor
    · rintro ⟨h | ⟨rfl, h, h'⟩, e1, e2, e3⟩
      · have := f1 _ _ h
        exact Or.inl ⟨⟨⟨this.1, this.2.1⟩, h, e1⟩, e2, e3⟩
      · right
        rw [hbig] at e3
        rw [if_pos e3.symm, mem_image]
        refine ⟨i, ?_, rfl⟩
        rw [mem_filter, mem_range]
        exact ⟨h.1, h, h', e1, e2⟩
    · rintro (⟨⟨_, h, e1⟩, e2, e3⟩ | h)
      · exact ⟨Or.inl h, e1, e2, e3⟩
      · split at h
        · next hy =>
          obtain ⟨u, hu, he⟩ := mem_image.1 h
          cases he
          rw [mem_filter, mem_range] at hu
          refine ⟨Or.inr ⟨rfl, hu.2.1, hu.2.2.1⟩, hu.2.2.2.1, hu.2.2.2.2, ?_⟩
          rw [hbig, hy]
        · simp at h
  rw [h3, card_union_of_disjoint]
  · congr 1
    split
    · rw [card_image_of_injective]
      intro a b h; simpa using h
    · rfl
  · rw [disjoint_left]
    rintro ⟨i, j⟩ h h'
    simp only [pairSet, mem_filter, mem_product, mem_range] at h
    split at h'
    · obtain ⟨u, _, he⟩ := mem_image.1 h'
      cases he
      have := h.1.1.2
      omega
    · simp at h'

theorem perm_exists_dim {K L : Complex α} (hp : K.Perm L) {n : ℕ} :
    (∃ t < K.length, n < dimAt K t) → ∃ t < L.length, n < dimAt L t := by
  rintro ⟨t, ht, h⟩
  obtain ⟨l, hl, he⟩ := List.getElem_of_mem (hp.subset (List.getElem_mem ht))
  refine ⟨l, hl, ?_⟩
  unfold dimAt at h ⊢
  rw [vsetAt_some (List.getElem?_eq_getElem ht)] at h
  rw [vsetAt_some (List.getElem?_eq_getElem hl), he]
  exact h

open Classical in
theorem diagramPoints_perm [LinearOrder α] (inf : α) {K L : Complex α} (hK : IsFiltration K)
    (hL : IsFiltration L) (hp : K.Perm L) (hn : K.length ≤ idxMax)
    (hs : K.Pairwise fun s t => s.data ≤ t.data) (hs' : L.Pairwise fun s t => s.data ≤ t.data)
    {inc : Bool} {p q : List (ℕ × ℕ)} (hpK : IsComplexPairing K inc p)
    (hqL : IsComplexPairing L inc q) (d : ℕ) :
    (diagramPoints inf K d p).Perm (diagramPoints inf L d q) := by
  have hn' : L.length ≤ idxMax := by rw [← hp.length_eq]; exact hn
  rw [List.perm_iff_count]
  rintro ⟨x, y⟩
  rw [count_diagramPoints inf hK hn hpK, count_diagramPoints inf hL hn' hqL,
    card_pairs_at inf hK hL hp hn hs hs']
  congr 1
  split
  · have e1 := card_unpaired inf hK hn d x
    have e2 := card_unpaired inf hL hn' d x
    have e3 := card_creators_at inf hK hL hp hn hs hs' d x
    have e4 := card_destroyers_at inf hK hL hp hn hs hs' (d - 1) x
    have e5 := card_simplices_at inf hK hL hp d x
    have e6 : #{u ∈ range K.length | Unpaired (facets K) K.length u ∧ dimAt K u = d ∧ dataD inf K u = x} =
        #{u ∈ range L.length | Unpaired (facets L) L.length u ∧ dimAt L u = d ∧ dataD inf L u = x} := by
      rw [e3, e4, e5] at e1
      omega
    have key : ∀ M : Complex α, ({u ∈ range M.length | Unpaired (facets M) M.length u ∧
        (inc = true ∨ ∃ t < M.length, dimAt M u < dimAt M t) ∧ dimAt M u = d ∧ dataD inf M u = x} : Finset ℕ) =
        if inc = true ∨ ∃ t < M.length, d < dimAt M t then
          {u ∈ range M.length | Unpaired (facets M) M.length u ∧ dimAt M u = d ∧ dataD inf M u = x} else ∅ := by
      intro M
      split
      · next h =>
        refine filter_congr fun u _ => ?_
        constructor
        · rintro ⟨h1, _, h2, h3⟩; exact ⟨h1, h2, h3⟩
        · rintro ⟨h1, h2, h3⟩; exact ⟨h1, by rw [h2]; exact h, h2, h3⟩
      · next h =>
        rw [filter_eq_empty_iff]
        rintro u _ ⟨_, h1, h2, _⟩
        rw [h2] at h1
        exact h h1
    rw [key K, key L]
    have hiff : (inc = true ∨ ∃ t < K.length, d < dimAt K t) ↔
        (inc = true ∨ ∃ t < L.length, d < dimAt L t) :=
      ⟨fun h => h.imp id (perm_exists_dim hp), fun h => h.imp id (perm_exists_dim hp.symm)⟩
    simp only [hiff]
    split
    · exact e6
    · rfl
  · rfl

/-- C52. If two orders of the same filtered complex both sort it by data, then the diagrams computed
from them agree as multisets, in every dimension and including points on the diagonal: the
result does not depend on how ties between equal data values are broken. -/
theorem C52_tie_breaking [LinearOrder α] (inf : α) (K L : Complex α) (hK : IsFiltration K)
    (hL : IsFiltration L) (hp : K.Perm L) (hn : K.length ≤ idxMax)
    (hs : K.Pairwise fun s t => s.data ≤ t.data) (hs' : L.Pairwise fun s t => s.data ≤ t.data)
    (inc : Bool) (a a' : Algorithm) (k k' : Kind) (dualize dualize' : Bool) :
    ∃ Ds Es, calculatePersistenceDiagrams a k inf K dualize inc = some Ds ∧
      calculatePersistenceDiagrams a' k' inf L dualize' inc = some Es ∧
      List.Forall₂ (fun D E => D.dimension = E.dimension ∧ D.points.Perm E.points) Ds Es := by
  obtain ⟨p, Ds, h1, h2, h3⟩ := C51_pipeline inf K hK hn inc
  obtain ⟨q, Es, g1, g2, g3⟩ := C51_pipeline inf L hL (by rw [← hp.length_eq]; exact hn) inc
  refine ⟨Ds, Es, h3 _ _ _, g3 _ _ _, ?_⟩
  have hperm := fun d => diagramPoints_perm inf hK hL hp hn hs hs' h1 g1 d
  have hdims : ∀ d, d ∈ Ds.map (·.dimension) ↔ d ∈ Es.map (·.dimension) := by
    intro d
    have key : ∀ {M : Complex α} {r Fs}, IsDiagramsOf inf M r Fs →
        (d ∈ Fs.map (·.dimension) ↔ diagramPoints inf M d r ≠ []) := by
      intro M r Fs hF
      rw [List.mem_map]
      constructor
      · rintro ⟨D, hD, rfl⟩
        obtain ⟨e1, e2⟩ := (hF.2 D).1 hD
        rwa [← e2]
      · intro hne
        exact ⟨⟨d, diagramPoints inf M d r⟩, (hF.2 _).2 ⟨hne, rfl⟩, rfl⟩
    rw [key h2, key g2, Ne, Ne, ← List.length_eq_zero_iff, ← List.length_eq_zero_iff, (hperm d).length_eq]
  have hdeq : Ds.map (·.dimension) = Es.map (·.dimension) := by
    refine List.Perm.eq_of_pairwise (le := (· < ·)) (fun a b _ _ h h' => absurd (lt_trans h h') (lt_irrefl _)) h2.1 g2.1 ?_
    exact (List.perm_ext_iff_of_nodup (h2.1.imp fun h => ne_of_lt h) (g2.1.imp fun h => ne_of_lt h)).2 hdims
  have hall : ∀ D ∈ Ds, ∀ E ∈ Es, D.dimension = E.dimension → D.points.Perm E.points := by
    intro D hD E hE he
    rw [((h2.2 D).1 hD).2, ((g2.2 E).1 hE).2, he]
    exact hperm _
  clear h2 g2 h3 g3 hdims
  induction Ds generalizing Es with
  | nil =>
    cases Es with
    | nil => exact List.Forall₂.nil
    | cons E Es => simp at hdeq
  | cons D Ds ih =>
    cases Es with
    | nil => simp at hdeq
    | cons E Es =>
      simp only [List.map_cons, List.cons.injEq] at hdeq
      exact List.Forall₂.cons ⟨hdeq.1, hall D List.mem_cons_self E List.mem_cons_self hdeq.1⟩
        (ih Es hdeq.2 fun D hD E hE => hall D (List.mem_cons_of_mem _ hD) E (List.mem_cons_of_mem _ hE))

/-- Two different orders of a path with equal data. -/
def tieA : Complex ℕ := [⟨[0], 1⟩, ⟨[1], 1⟩, ⟨[1, 0], 2⟩, ⟨[2], 2⟩, ⟨[2, 1], 2⟩]

/-- The same simplices with ties broken differently. -/
def tieB : Complex ℕ := [⟨[1], 1⟩, ⟨[0], 1⟩, ⟨[2], 2⟩, ⟨[2, 1], 2⟩, ⟨[1, 0], 2⟩]

example : IsFiltration tieA ∧ IsFiltration tieB ∧ tieA.Perm tieB ∧ tieA.length ≤ idxMax ∧
    tieA.Pairwise (fun s t => s.data ≤ t.data) ∧ tieB.Pairwise (fun s t => s.data ≤ t.data) ∧ tieA ≠ tieB :=
  ⟨⟨⟨by decide, by decide, by decide⟩, Closed1.faceClosed (by decide) (by unfold Closed1; decide),
    by unfold FacesFirst; decide⟩,
   ⟨⟨by decide, by decide, by decide⟩, Closed1.faceClosed (by decide) (by unfold Closed1; decide),
    by unfold FacesFirst; decide⟩, by decide, by decide, by decide, by decide, by decide⟩

end Aleph
