import Verif.Spec.PersistentBetti
import Verif.Props.TieBreak
import Verif.Props.ZeroDim
import Verif.Lemmas.Homology

/-!
# C51: the diagrams give the persistent Betti numbers
-/

namespace Aleph.PersistentBetti

open Finset Spec

variable {α : Type}

theorem facets_lt {K : Complex α} : ∀ k, ∀ i ∈ facets K k, i < K.length := by
  intro k i hi
  simp only [facets, mem_filter, mem_range] at hi
  exact hi.1

theorem chainBd_sub {K : Complex α} (c : Finset ℕ) : chainBd (facets K) c ⊆ range K.length := by
  intro i hi
  unfold chainBd at hi
  rw [mem_filter] at hi
  obtain ⟨k, _, hik⟩ := mem_biUnion.1 hi.1
  exact mem_range.2 (facets_lt k i hik)

/-- Chains of simplices at positions. -/
theorem exists_of_subset {K : Complex α} {C : Finset ℕ} {c : Finset (Finset ℕ)} (h : c ⊆ atPositions K C) :
    ∃ c' ⊆ C, atPositions K c' = c := by
  refine ⟨{k ∈ C | vsetAt K k ∈ c}, filter_subset _ _, ?_⟩
  ext σ
  simp only [atPositions, mem_image, mem_filter]
  constructor
  · rintro ⟨k, ⟨_, h⟩, rfl⟩; exact h
  · intro hσ
    obtain ⟨k, hk, rfl⟩ := mem_image.1 (h hσ)
    exact ⟨k, ⟨hk, hσ⟩, rfl⟩

theorem atPositions_subset {K : Complex α} (hK : WF K) {C R : Finset ℕ} (hC : C ⊆ range K.length) (hR : R ⊆ range K.length) :
    atPositions K C ⊆ atPositions K R ↔ C ⊆ R := by
  constructor
  · intro h k hk
    obtain ⟨j, hj, e⟩ := mem_image.1 (h (mem_image_of_mem _ hk))
    rw [← vsetAt_inj hK (mem_range.1 (hR hj)) (mem_range.1 (hC hk)) e]
    exact hj
  · intro h; exact image_subset_image h

theorem card_cycles_at {K : Complex α} (hK : WF K) (hc : FaceClosed K) {C : Finset ℕ} (hC : C ⊆ range K.length) :
    #{c ∈ C.powerset | chainBd (facets K) c = ∅} = #{c ∈ (atPositions K C).powerset | setBd c = ∅} := by
  refine card_bij (fun c _ => atPositions K c) ?_ ?_ ?_
  · intro c h
    obtain ⟨h1, h2⟩ := mem_filter.1 h
    rw [mem_powerset] at h1
    refine mem_filter.2 ⟨mem_powerset.2 (image_subset_image h1), ?_⟩
    rw [setBd_atPositions hK hc (h1.trans hC), h2]
    simp [atPositions]
  · intro c h c' h' he
    exact atPositions_injOn hK ((mem_powerset.1 (mem_filter.1 h).1).trans hC) ((mem_powerset.1 (mem_filter.1 h').1).trans hC) he
  · intro c h
    obtain ⟨h1, h2⟩ := mem_filter.1 h
    obtain ⟨c', hc', rfl⟩ := exists_of_subset (mem_powerset.1 h1)
    refine ⟨c', mem_filter.2 ⟨mem_powerset.2 hc', ?_⟩, rfl⟩
    rw [setBd_atPositions hK hc (hc'.trans hC)] at h2
    exact image_eq_empty.1 h2

theorem card_bdIn_at {K : Complex α} (hK : WF K) (hc : FaceClosed K) {C R : Finset ℕ} (hC : C ⊆ range K.length) (hR : R ⊆ range K.length) :
    #(bdIn (facets K) C R) = #{b ∈ (atPositions K C).powerset.image setBd | b ⊆ atPositions K R} := by
  refine card_bij (fun c _ => atPositions K c) ?_ ?_ ?_
  · intro b h
    obtain ⟨h1, h2⟩ := mem_filter.1 h
    obtain ⟨c, h3, rfl⟩ := mem_image.1 h1
    rw [mem_powerset] at h3
    refine mem_filter.2 ⟨?_, image_subset_image h2⟩
    rw [← setBd_atPositions hK hc (h3.trans hC)]
    exact mem_image_of_mem _ (mem_powerset.2 (image_subset_image h3))
  · intro b h b' h' he
    obtain ⟨c, _, rfl⟩ := mem_image.1 (mem_filter.1 h).1
    obtain ⟨c', _, rfl⟩ := mem_image.1 (mem_filter.1 h').1
    exact atPositions_injOn hK (chainBd_sub c) (chainBd_sub c') he
  · intro b h
    obtain ⟨h1, h2⟩ := mem_filter.1 h
    obtain ⟨c, h3, rfl⟩ := mem_image.1 h1
    obtain ⟨c', hc', rfl⟩ := exists_of_subset (mem_powerset.1 h3)
    rw [setBd_atPositions hK hc (hc'.trans hC)] at h2 ⊢
    exact ⟨_, mem_filter.2 ⟨mem_image_of_mem _ (mem_powerset.2 hc'), (atPositions_subset hK (chainBd_sub c') hR).1 h2⟩, rfl⟩

section Level

variable [LinearOrder α]

theorem mem_sublevel {K : Complex α} {inf x : α} {σ : Finset ℕ} :
    σ ∈ sublevel K x ↔ ∃ k < K.length, dataD inf K k ≤ x ∧ vsetAt K k = σ := by
  unfold sublevel
  rw [mem_sets]
  constructor
  · rintro ⟨s, hs, rfl⟩
    obtain ⟨h1, h2⟩ := List.mem_filter.1 hs
    obtain ⟨k, hk, e⟩ := List.getElem_of_mem h1
    refine ⟨k, hk, ?_, ?_⟩
    · simp only [dataD, List.getElem?_eq_getElem hk, e, Option.map_some, Option.getD_some]
      simpa using h2
    · simp only [vsetAt, List.getElem?_eq_getElem hk, e]
  · rintro ⟨k, hk, h, rfl⟩
    simp only [dataD, List.getElem?_eq_getElem hk, Option.map_some, Option.getD_some] at h
    refine ⟨K[k], List.mem_filter.2 ⟨List.getElem_mem hk, by simpa using h⟩, ?_⟩
    simp only [vsetAt, List.getElem?_eq_getElem hk]

theorem sublevel_eq (K : Complex α) (inf x : α) :
    sublevel K x = atPositions K {k ∈ range K.length | dataD inf K k ≤ x} := by
  ext σ
  rw [mem_sublevel (inf := inf)]
  simp only [atPositions, mem_image, mem_filter, mem_range, and_assoc]

theorem setChains_sublevel {K : Complex α} (hK : WF K) (inf x : α) (d : ℕ) :
    setChains (sublevel K x) d = (atPositions K {k ∈ range K.length | dataD inf K k ≤ x ∧ dimAt K k = d}).powerset := by
  unfold setChains
  congr 1
  ext σ
  rw [mem_filter, mem_sublevel (inf := inf)]
  simp only [atPositions, mem_image, mem_filter, mem_range]
  constructor
  · rintro ⟨⟨k, hk, h, rfl⟩, h2⟩
    exact ⟨k, ⟨hk, h, by unfold dimAt; omega⟩, rfl⟩
  · rintro ⟨k, ⟨hk, h, h2⟩, rfl⟩
    have := (vsetAt_nonempty hK hk).card_pos
    exact ⟨⟨k, hk, h, rfl⟩, by unfold dimAt at h2; omega⟩

open Classical in
/-- The number of boundaries of the chains at the positions of dimension `d` up to `x`. -/
theorem card_image_level (inf : α) {K : Complex α} (hK : IsFiltration K) (hn : K.length ≤ idxMax)
    (hs : K.Pairwise fun s t => s.data ≤ t.data) (d : ℕ) (x : α) :
    #(({k ∈ range K.length | dataD inf K k ≤ x ∧ dimAt K k = d} : Finset ℕ).powerset.image (chainBd (facets K))) =
      2 ^ #{j ∈ range K.length | (dataD inf K j ≤ x ∧ dimAt K j = d) ∧ ∃ i, PersPair (facets K) i j} := by
  obtain ⟨f1, f2, f3, f4⟩ := pairFacts hK hn
  cases d with
  | zero =>
    have h1 : ∀ k, dimAt K k = 0 → facets K k = ∅ := by
      intro k hk
      unfold facets
      rw [filter_eq_empty_iff]
      rintro i hi ⟨_, h⟩
      have := (vsetAt_nonempty hK.wf (mem_range.1 hi)).card_pos
      unfold dimAt at hk
      omega
    have e1 : ({j ∈ range K.length | (dataD inf K j ≤ x ∧ dimAt K j = 0) ∧ ∃ i, PersPair (facets K) i j} : Finset ℕ) = ∅ := by
      rw [filter_eq_empty_iff]
      rintro j _ ⟨⟨_, h⟩, i, hi⟩
      have := (f1 _ _ hi).2.2
      omega
    have e2 : (({k ∈ range K.length | dataD inf K k ≤ x ∧ dimAt K k = 0} : Finset ℕ).powerset.image (chainBd (facets K))) = {∅} := by
      ext b
      rw [mem_singleton]
      constructor
      · intro h
        obtain ⟨c, hc, rfl⟩ := mem_image.1 h
        rw [mem_powerset] at hc
        unfold chainBd
        rw [filter_eq_empty_iff]
        intro i hi
        obtain ⟨k, hk, hik⟩ := mem_biUnion.1 hi
        rw [h1 k (mem_filter.1 (hc hk)).2.2] at hik
        simp at hik
      · rintro rfl
        exact mem_image.2 ⟨∅, by simp, by simp [chainBd]⟩
    rw [e1, e2]; rfl
  | succ d =>
    have h : #(bdIn (facets K) {k ∈ range K.length | dataD inf K k ≤ x ∧ dimAt K k = d + 1} (range K.length)) =
        2 ^ #{ij ∈ pairSet K d | True ∧ dataD inf K ij.2 ≤ x} := by
      have h := card_pairSet inf hK hn hs d (fun _ => True) (· ≤ x) (fun _ _ _ _ => trivial) (fun a b h h' => le_trans h h')
      rw [filter_true] at h
      convert h
    have e : bdIn (facets K) {k ∈ range K.length | dataD inf K k ≤ x ∧ dimAt K k = d + 1} (range K.length) =
        ({k ∈ range K.length | dataD inf K k ≤ x ∧ dimAt K k = d + 1} : Finset ℕ).powerset.image (chainBd (facets K)) := by
      unfold bdIn
      rw [filter_true_of_mem]
      intro b hb
      obtain ⟨c, _, rfl⟩ := mem_image.1 hb
      exact chainBd_sub c
    rw [← e, h]
    congr 1
    refine card_bij (fun ij _ => ij.2) ?_ ?_ ?_
    · rintro ⟨i, j⟩ hij
      simp only [pairSet, mem_filter, mem_product, mem_range] at hij ⊢
      have := (f1 _ _ hij.1.2.1).2.2
      exact ⟨hij.1.1.2, ⟨hij.2.2, by omega⟩, i, hij.1.2.1⟩
    · rintro ⟨i, j⟩ hij ⟨i', j'⟩ hij' he
      simp only [pairSet, mem_filter, mem_product, mem_range] at hij hij' he
      subst he
      rw [f2 _ _ _ hij.1.2.1 hij'.1.2.1]
    · intro u hu
      simp only [mem_filter, mem_range] at hu
      obtain ⟨h1, ⟨h2, h3⟩, i, hi⟩ := hu
      have := f1 _ _ hi
      refine ⟨(i, u), ?_, rfl⟩
      simp only [pairSet, mem_filter, mem_product, mem_range]
      exact ⟨⟨⟨this.1, h1⟩, hi, by omega⟩, trivial, h2⟩

open Classical in
/-- The creators up to `x` without a partner up to `y` count the cycles up to `x` modulo boundaries up to `y`. -/
theorem positions_betti (inf : α) {K : Complex α} (hK : IsFiltration K) (hn : K.length ≤ idxMax)
    (hs : K.Pairwise fun s t => s.data ≤ t.data) (d : ℕ) (x y : α) :
    IsPersistentBetti (sublevel K x) (sublevel K y) d
      #{u ∈ range K.length | (dataD inf K u ≤ x ∧ dimAt K u = d) ∧ (∀ i, ¬ PersPair (facets K) i u) ∧
        ∀ j, PersPair (facets K) u j → ¬ dataD inf K j ≤ y} := by
  obtain ⟨f1, f2, f3, f4⟩ := pairFacts hK hn
  unfold IsPersistentBetti setCycles setBoundaries
  have hsub : ∀ P : ℕ → Prop, [DecidablePred P] → ({k ∈ range K.length | P k} : Finset ℕ) ⊆ range K.length := fun P _ => filter_subset _ _
  rw [setChains_sublevel hK.wf inf, setChains_sublevel hK.wf inf, sublevel_eq K inf x,
    ← card_cycles_at hK.wf hK.closed (hsub _), ← card_bdIn_at hK.wf hK.closed (hsub _) (hsub _)]
  have hB : #(bdIn (facets K) {k ∈ range K.length | dataD inf K k ≤ y ∧ dimAt K k = d + 1} {k ∈ range K.length | dataD inf K k ≤ x}) =
      2 ^ #{ij ∈ pairSet K d | dataD inf K ij.1 ≤ x ∧ dataD inf K ij.2 ≤ y} := by
    have h := card_pairSet inf hK hn hs d (· ≤ x) (· ≤ y) (fun a b h h' => le_trans h h') (fun a b h h' => le_trans h h')
    convert h
  rw [hB]
  set S : Finset ℕ := {k ∈ range K.length | dataD inf K k ≤ x ∧ dimAt K k = d} with hS
  have hZ : #{c ∈ S.powerset | chainBd (facets K) c = ∅} * #(S.powerset.image (chainBd (facets K))) = 2 ^ #S := by
    rw [card_cycles facets_lt, card_boundaries facets_lt, ← pow_add, ← rank_nullity K.length (facets K) S, add_comm]
  rw [hS, card_image_level inf hK hn hs, ← hS] at hZ
  have hc : #{ij ∈ pairSet K d | dataD inf K ij.1 ≤ x ∧ dataD inf K ij.2 ≤ y} =
      #{u ∈ S | ∃ j, PersPair (facets K) u j ∧ dataD inf K j ≤ y} := by
    refine card_bij (fun ij _ => ij.1) ?_ ?_ ?_
    · rintro ⟨i, j⟩ hij
      simp only [hS, pairSet, mem_filter, mem_product, mem_range] at hij ⊢
      exact ⟨⟨hij.1.1.1, hij.2.1, hij.1.2.2⟩, j, hij.1.2.1, hij.2.2⟩
    · rintro ⟨i, j⟩ hij ⟨i', j'⟩ hij' he
      simp only [pairSet, mem_filter, mem_product, mem_range] at hij hij' he
      subst he
      rw [f3 _ _ _ hij.1.2.1 hij'.1.2.1]
    · intro u hu
      simp only [hS, mem_filter, mem_range] at hu
      obtain ⟨⟨h1, h2, h3⟩, j, hj, h4⟩ := hu
      refine ⟨(u, j), ?_, rfl⟩
      simp only [pairSet, mem_filter, mem_product, mem_range]
      exact ⟨⟨⟨h1, (f1 _ _ hj).2.1⟩, hj, h3⟩, h2, h4⟩
  rw [hc]
  have hpart : #S = #{u ∈ range K.length | (dataD inf K u ≤ x ∧ dimAt K u = d) ∧ (∀ i, ¬ PersPair (facets K) i u) ∧
        ∀ j, PersPair (facets K) u j → ¬ dataD inf K j ≤ y} +
      #{u ∈ S | ∃ j, PersPair (facets K) u j ∧ dataD inf K j ≤ y} +
      #{j ∈ range K.length | (dataD inf K j ≤ x ∧ dimAt K j = d) ∧ ∃ i, PersPair (facets K) i j} := by
    rw [hS, filter_filter]
    simp only [card_filter]
    rw [← sum_add_distrib, ← sum_add_distrib]
    refine sum_congr rfl fun u hu => ?_
    by_cases a : dataD inf K u ≤ x ∧ dimAt K u = d
    · by_cases c : ∃ i, PersPair (facets K) i u
      · obtain ⟨i, hi⟩ := c
        have h1 : ¬ ∃ j, PersPair (facets K) u j ∧ dataD inf K j ≤ y := fun ⟨j, hj, _⟩ => f4 u i j hj hi
        rw [if_pos a, if_neg (fun h => h.2.1 i hi), if_neg (fun h => h1 h.2), if_pos ⟨a, i, hi⟩]
      · by_cases b : ∃ j, PersPair (facets K) u j ∧ dataD inf K j ≤ y
        · rw [if_pos a, if_neg (fun h => by obtain ⟨j, hj, hy⟩ := b; exact h.2.2 j hj hy), if_pos ⟨a, b⟩, if_neg (fun h => c h.2)]
        · rw [if_pos a, if_pos ⟨a, fun i hi => c ⟨i, hi⟩, fun j hj hy => b ⟨j, hj, hy⟩⟩, if_neg (fun h => b h.2), if_neg (fun h => c h.2)]
    · rw [if_neg a, if_neg (fun h => a h.1), if_neg (fun h => a h.1), if_neg (fun h => a h.1)]
  rw [hpart, pow_add, pow_add] at hZ
  exact Nat.eq_of_mul_eq_mul_right (pow_pos (by norm_num) _) hZ

/-- C51. The diagrams of a complex sorted by its data give its persistent Betti numbers: for all thresholds `x` and `y` the number of points of
dimension `d` that are created at `x` at the latest and not destroyed at `y` is the dimension of the space of the cycles
present at `x` modulo the boundaries present at `y`.  Both thresholds are arbitrary. -/
theorem _root_.Aleph.C51_persistent_betti (inf : α) (K : Complex α) (hK : IsFiltration K) (hn : K.length ≤ idxMax)
    (hs : K.Pairwise fun s t => s.data ≤ t.data) (hinf : ∀ s ∈ K, s.data ≠ inf) (a : Algorithm) (k : Kind) (dualize : Bool)
    (Ds : List (Diagram α)) (h : calculatePersistenceDiagrams a k inf K dualize true = some Ds) (d : ℕ) (x y : α) :
    IsPersistentBetti (sublevel K x) (sublevel K y) d
      ((pointsOfDimension d Ds).countP fun p => p.1 ≤ x ∧ (p.2 = inf ∨ y < p.2)) := by
  classical
  have hb := positions_betti inf hK hn hs d x y
  obtain ⟨p, Ds', h1, h2, h3⟩ := C51_pipeline inf K hK hn true
  rw [h3 a k dualize] at h
  obtain rfl : Ds' = Ds := Option.some.inj h
  obtain ⟨f1, f2, f3, f4⟩ := pairFacts hK hn
  have hlt : ∀ ij ∈ p, ij.1 < K.length := by
    rintro ⟨i, j⟩ hij
    rcases (h1.2.2 i j).1 hij with h | ⟨_, h, _⟩
    · exact (f1 _ _ h).1
    · exact h.1
  have hbig : dataD inf K idxMax = inf := by simp [dataD, List.getElem?_eq_none hn]
  have hdata : ∀ j < K.length, dataD inf K j ≠ inf := by
    intro j hj
    simp only [dataD, List.getElem?_eq_getElem hj, Option.map_some, Option.getD_some]
    exact hinf _ (List.getElem_mem hj)
  have hcount : (pointsOfDimension d Ds').countP (fun p => p.1 ≤ x ∧ (p.2 = inf ∨ y < p.2)) =
      #{u ∈ range K.length | (dataD inf K u ≤ x ∧ dimAt K u = d) ∧ (∀ i, ¬ PersPair (facets K) i u) ∧
        ∀ j, PersPair (facets K) u j → ¬ dataD inf K j ≤ y} := by
    rw [pointsOfDimension_eq h2, diagramPoints_eq_map inf hlt, List.countP_map, List.countP_filter, List.countP_eq_length_filter,
      ← List.toFinset_card_of_nodup (h1.1.filter _)]
    refine card_bij (fun ij _ => ij.1) ?_ ?_ ?_
    · rintro ⟨i, j⟩ hij
      simp only [List.mem_toFinset, List.mem_filter, Function.comp, Bool.and_eq_true, decide_eq_true_eq] at hij
      obtain ⟨hij, ⟨hx, hy⟩, hd⟩ := hij
      rw [mem_filter, mem_range]
      refine ⟨hlt _ hij, ⟨hx, hd⟩, ?_⟩
      rcases (h1.2.2 i j).1 hij with h | ⟨rfl, h, _⟩
      · refine ⟨fun i' hi' => f4 i i' j h hi', fun j' hj' => ?_⟩
        rw [← f3 _ _ _ h hj']
        rcases hy with hy | hy
        · exact absurd hy (hdata j (f1 _ _ h).2.1)
        · exact not_le.2 hy
      · exact ⟨fun i' hi' => (h.2 i').2 hi', fun j' hj' => absurd hj' (h.2 j').1⟩
    · rintro ⟨i, j⟩ hij ⟨i', j'⟩ hij' he
      simp only [List.mem_toFinset, List.mem_filter] at hij hij' he
      subst he
      congr 1
      rcases (h1.2.2 i j).1 hij.1 with h | ⟨rfl, h, _⟩ <;> rcases (h1.2.2 i j').1 hij'.1 with h' | ⟨rfl, h', _⟩
      · exact f3 _ _ _ h h'
      · exact absurd h (h'.2 j).1
      · exact absurd h' (h.2 j').1
      · rfl
    · intro u hu
      rw [mem_filter, mem_range] at hu
      obtain ⟨hu, ⟨hx, hd⟩, hno, hj⟩ := hu
      by_cases b : ∃ j, PersPair (facets K) u j
      · obtain ⟨j, hp⟩ := b
        refine ⟨(u, j), ?_, rfl⟩
        simp only [List.mem_toFinset, List.mem_filter, Function.comp, Bool.and_eq_true, decide_eq_true_eq]
        exact ⟨(h1.2.2 u j).2 (Or.inl hp), ⟨hx, Or.inr (not_le.1 (hj j hp))⟩, hd⟩
      · refine ⟨(u, idxMax), ?_, rfl⟩
        simp only [List.mem_toFinset, List.mem_filter, Function.comp, Bool.and_eq_true, decide_eq_true_eq]
        exact ⟨(h1.2.2 u idxMax).2 (Or.inr ⟨rfl, ⟨hu, fun j => ⟨fun h => b ⟨j, h⟩, hno j⟩⟩, Or.inl rfl⟩), ⟨hx, Or.inl hbig⟩, hd⟩
  rw [hcount]
  exact hb

/-- C51. The same for complexes sorted by descending data, whose thresholds keep the large values. -/
theorem _root_.Aleph.C51_persistent_betti_superlevel (inf : α) (K : Complex α) (hK : IsFiltration K) (hn : K.length ≤ idxMax)
    (hs : K.Pairwise fun s t => t.data ≤ s.data) (hinf : ∀ s ∈ K, s.data ≠ inf) (a : Algorithm) (k : Kind) (dualize : Bool)
    (Ds : List (Diagram α)) (h : calculatePersistenceDiagrams a k inf K dualize true = some Ds) (d : ℕ) (x y : α) :
    IsPersistentBetti (superlevel K x) (superlevel K y) d
      ((pointsOfDimension d Ds).countP fun p => x ≤ p.1 ∧ (p.2 = inf ∨ p.2 < y)) := by
  have := C51_persistent_betti (α := αᵒᵈ) inf K hK hn hs hinf a k dualize Ds h d x y
  have e : ∀ z, superlevel K z = sublevel (α := αᵒᵈ) K z := fun _ => rfl
  rw [e, e]
  exact this

end Level

/-- The filled triangle: at 3 the three edges form a cycle that is not a boundary until 5. -/
example : ∃ Ds, calculatePersistenceDiagrams .twist .vector 9 filledTriangle = some Ds ∧
    (pointsOfDimension 1 Ds).countP (fun p => p.1 ≤ 3 ∧ (p.2 = 9 ∨ 4 < p.2)) = 1 ∧
    (pointsOfDimension 1 Ds).countP (fun p => p.1 ≤ 3 ∧ (p.2 = 9 ∨ 5 < p.2)) = 0 ∧
    (pointsOfDimension 0 Ds).countP (fun p => p.1 ≤ 0 ∧ (p.2 = 9 ∨ 1 < p.2)) = 2 ∧
    filledTriangle.Pairwise (fun s t => s.data ≤ t.data) ∧ ∀ s ∈ filledTriangle, s.data ≠ 9 :=
  ⟨_, rfl, by decide, by decide, by decide, by decide, by decide⟩

/-- A path with the values 5, 2 and 4 in descending order. -/
def descendingPath : Complex ℕ := [⟨[0], 5⟩, ⟨[2], 4⟩, ⟨[1], 2⟩, ⟨[1, 0], 2⟩, ⟨[2, 1], 2⟩]

example : IsFiltration descendingPath ∧ descendingPath.Pairwise (fun s t => t.data ≤ s.data) ∧ (∀ s ∈ descendingPath, s.data ≠ 9) ∧
    ∃ Ds, calculatePersistenceDiagrams .twist .vector 9 descendingPath true true = some Ds ∧
      (pointsOfDimension 0 Ds).countP (fun p => 4 ≤ p.1 ∧ (p.2 = 9 ∨ p.2 < 3)) = 2 :=
  ⟨⟨⟨by decide, by decide, by decide⟩, Closed1.faceClosed (by decide) (by unfold Closed1; decide), by unfold FacesFirst; decide⟩,
    by decide, by decide, _, rfl, by decide⟩

end Aleph.PersistentBetti
