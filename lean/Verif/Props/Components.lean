import Verif.Props.PersistentBetti
import Verif.Spec.Components

/-!
# Points of dimension zero and components of sublevel sets
-/

namespace Aleph.Components

open Finset Aleph.Spec Aleph.PersistentBetti

/-- The number of classes is well-defined. -/
theorem IsClassCount.unique {V : Set ℕ} {r : ℕ → ℕ → Prop} (hr : Equivalence r) {m n : ℕ} (hm : IsClassCount V r m)
    (hn : IsClassCount V r n) : m = n := by
  have key : ∀ {m n : ℕ}, IsClassCount V r m → IsClassCount V r n → m ≤ n := by
    rintro m n ⟨R, rfl, hR, hR'⟩ ⟨S, rfl, hS, hS'⟩
    have hf : ∀ a ∈ R, ∃ b ∈ S, r a b := fun a ha => (hS' a (hR a ha)).exists
    choose! f hf1 hf2 using hf
    refine card_le_card_of_injOn f hf1 ?_
    intro a ha b hb hab
    refine (hR' a (hR a ha)).unique ⟨ha, hr.refl a⟩ ⟨hb, ?_⟩
    refine hr.trans (hf2 a ha) ?_
    rw [hab]
    exact hr.symm (hf2 b hb)
  exact le_antisymm (key hm hn) (key hn hm)

variable {α : Type} [LinearOrder α]

omit [LinearOrder α] in
theorem dataD_eq {inf : α} {K : Complex α} {i : ℕ} (hi : i < K.length) : dataD inf K i = K[i].data := by
  simp [dataD, List.getElem?_eq_getElem hi]

/-- In a complex sorted by data, the simplices with values up to `y` are an initial segment. -/
theorem exists_level {inf : α} {K : Complex α} (hs : K.Pairwise fun s t => s.data ≤ t.data) (y : α) :
    ∃ m ≤ K.length, ∀ i < K.length, dataD inf K i ≤ y ↔ i < m := by
  induction K with
  | nil => exact ⟨0, le_rfl, fun i hi => by simp at hi⟩
  | cons s K ih =>
    rw [List.pairwise_cons] at hs
    obtain ⟨m, hm, h⟩ := ih hs.2
    by_cases hy : s.data ≤ y
    · refine ⟨m + 1, by simpa using hm, ?_⟩
      rintro (_ | i) hi
      · simpa [dataD] using hy
      · have := h i (by simpa using hi)
        simpa [dataD] using this
    · refine ⟨0, by simp, ?_⟩
      rintro (_ | i) hi
      · simpa [dataD] using hy
      · have hi' : i < K.length := by simpa using hi
        have := hs.1 _ (List.getElem_mem hi')
        simp only [dataD_eq hi, List.getElem_cons_succ, not_lt_zero, iff_false, not_le]
        exact lt_of_lt_of_le (not_le.1 hy) this

theorem connectedUpTo_iff {inf : α} {K : Complex α} {y : α} {m : ℕ} (hm : m ≤ K.length)
    (h : ∀ i < K.length, dataD inf K i ≤ y ↔ i < m) (a b : ℕ) : ConnectedUpTo K y a b ↔ Joined K m a b := by
  unfold ConnectedUpTo Joined
  have : (fun a b => a ≠ b ∧ ∃ s ∈ K, s.vset = {a, b} ∧ s.data ≤ y) = fun a b => a ≠ b ∧ ∃ k < m, vsetAt K k = ({a, b} : Finset ℕ) := by
    funext a b
    refine propext (and_congr_right fun hab => ⟨?_, ?_⟩)
    · rintro ⟨s, hs, hv, hd⟩
      obtain ⟨i, hi, rfl⟩ := List.getElem_of_mem hs
      refine ⟨i, (h i hi).1 ?_, ?_⟩
      · rw [dataD_eq hi]; exact hd
      · rw [vsetAt_some (List.getElem?_eq_getElem hi)]; exact hv
    · rintro ⟨k, hk, hv⟩
      have hk' : k < K.length := by omega
      refine ⟨K[k], List.getElem_mem hk', ?_, ?_⟩
      · rw [← vsetAt_some (List.getElem?_eq_getElem hk')]; exact hv
      · rw [← dataD_eq (inf := inf) hk']; exact (h k hk').2 hk
  rw [this]

omit [LinearOrder α] in
/-- A vertex is the oldest one of its component at time `m` if it has not been destroyed until then. -/
theorem oldest_iff_not_destroyed {K : Complex α} (hK : IsFiltration K) {i v : ℕ} (hv : vsetAt K i = {v}) (m : ℕ) :
    OldestAt K m i ↔ ∀ j < m, ¬ PersPair (facets K) i j := by
  have hp := fun j => persPair_vertex_iff hK.wf hK.closed (j := j) hv
  constructor
  · intro ho j hj h
    exact ((hp j).1 h).2 (ho.mono (by omega))
  · intro h
    induction m with
    | zero => exact oldest_zero hK.wf hv
    | succ m ih =>
      have := ih fun j hj => h j (by omega)
      by_contra hno
      exact h m (by omega) ((hp m).2 ⟨this, hno⟩)

/-- C17. The points of dimension zero of a complex sorted by its data count components: for all thresholds `x` and `y` the number
of points that are created at `x` at the latest and not destroyed at `y` is the number of components at `y` – with respect to paths
of edges – that contain a vertex present at `x`.  Without the unpaired creators of the largest dimension, there has to be an edge. -/
theorem _root_.Aleph.C17_persistent_components (inf : α) (K : Complex α) (hK : IsFiltration K) (hn : K.length ≤ idxMax)
    (hs : K.Pairwise fun s t => s.data ≤ t.data) (hinf : ∀ s ∈ K, s.data ≠ inf) (a : Algorithm) (k : Kind) (dualize inc : Bool)
    (hinc : inc = true ∨ ∃ s ∈ K, 2 ≤ #s.vset)
    (Ds : List (Diagram α)) (h : calculatePersistenceDiagrams a k inf K dualize inc = some Ds) (x y : α) :
    IsClassCount (verticesUpTo K x) (ConnectedUpTo K y)
      ((pointsOfDimension 0 Ds).countP fun p => p.1 ≤ x ∧ (p.2 = inf ∨ y < p.2)) := by
  classical
  obtain ⟨p, Ds', h1, h2, h3⟩ := C51_pipeline inf K hK hn inc
  rw [h3 a k dualize] at h
  obtain rfl : Ds' = Ds := Option.some.inj h
  obtain ⟨f1, f2, f3, f4⟩ := pairFacts hK hn
  have hlt : ∀ ij ∈ p, ij.1 < K.length := by
    rintro ⟨i, j⟩ hij
    rcases (h1.2.2 i j).1 hij with h | ⟨_, h, _⟩
    · exact (f1 _ _ h).1
    · exact h.1
  have hbig : dataD inf K idxMax = inf := by simp [dataD, List.getElem?_eq_none hn]
  have hdata : ∀ j < K.length, dataD inf K j ≠ inf := by
    intro j hj
    rw [dataD_eq hj]
    exact hinf _ (List.getElem_mem hj)
  have hdim : ∀ i < K.length, dimAt K i = 0 → inc = true ∨ ∃ t < K.length, dimAt K i < dimAt K t := by
    intro i hi h0
    refine hinc.imp_right ?_
    rintro ⟨s, hs, hc⟩
    obtain ⟨t, ht, rfl⟩ := List.getElem_of_mem hs
    refine ⟨t, ht, ?_⟩
    have : vsetAt K t = K[t].vset := vsetAt_some (List.getElem?_eq_getElem ht)
    rw [h0, dimAt, this]
    omega
  obtain ⟨m, hm, hlev⟩ := exists_level (inf := inf) hs y
  obtain ⟨n, hn', hlevx⟩ := exists_level (inf := inf) hs x
  have hcon := connectedUpTo_iff hm hlev
  -- the creators
  let C : Finset ℕ := {i ∈ range K.length | dataD inf K i ≤ x ∧ OldestAt K m i}
  have hcount : (pointsOfDimension 0 Ds').countP (fun p => p.1 ≤ x ∧ (p.2 = inf ∨ y < p.2)) = #C := by
    rw [pointsOfDimension_eq h2, diagramPoints_eq_map inf hlt, List.countP_map, List.countP_filter, List.countP_eq_length_filter,
      ← List.toFinset_card_of_nodup (h1.1.filter _)]
    refine card_bij (fun ij _ => ij.1) ?_ ?_ ?_
    · rintro ⟨i, j⟩ hij
      simp only [List.mem_toFinset, List.mem_filter, Function.comp, Bool.and_eq_true, decide_eq_true_eq] at hij
      obtain ⟨hij, ⟨hx, hy⟩, hd⟩ := hij
      obtain ⟨v, hv⟩ := (dimAt_zero_iff hK.wf).1 ⟨hlt _ hij, hd⟩
      rw [mem_filter, mem_range]
      refine ⟨hlt _ hij, hx, (oldest_iff_not_destroyed hK hv m).2 fun j' hj' hp => ?_⟩
      rcases (h1.2.2 i j).1 hij with h | ⟨rfl, h, _⟩
      · rw [← f3 _ _ _ h hp] at hj'
        rcases hy with hy | hy
        · exact hdata j (f1 _ _ h).2.1 hy
        · exact absurd ((hlev j (f1 _ _ h).2.1).2 hj') (not_le.2 hy)
      · exact (h.2 j').1 hp
    · rintro ⟨i, j⟩ hij ⟨i', j'⟩ hij' he
      simp only [List.mem_toFinset, List.mem_filter] at hij hij' he
      subst he
      congr 1
      rcases (h1.2.2 i j).1 hij.1 with h | ⟨rfl, h, _⟩ <;> rcases (h1.2.2 i j').1 hij'.1 with h' | ⟨rfl, h', _⟩
      · exact f3 _ _ _ h h'
      · exact absurd h (h'.2 j).1
      · exact absurd h' (h.2 j').1
      · rfl
    · intro u hu
      rw [mem_filter, mem_range] at hu
      obtain ⟨hu, hx, ho⟩ := hu
      obtain ⟨v, hv, -⟩ := id ho
      have hd := ((dimAt_zero_iff hK.wf).2 ⟨v, hv⟩).2
      rw [oldest_iff_not_destroyed hK hv] at ho
      by_cases b : ∃ j, PersPair (facets K) u j
      · obtain ⟨j, hp⟩ := b
        refine ⟨(u, j), ?_, rfl⟩
        simp only [List.mem_toFinset, List.mem_filter, Function.comp, Bool.and_eq_true, decide_eq_true_eq]
        refine ⟨(h1.2.2 u j).2 (Or.inl hp), ⟨hx, Or.inr ?_⟩, hd⟩
        by_contra hy
        exact ho j ((hlev j (f1 _ _ hp).2.1).1 (not_lt.1 hy)) hp
      · have hno : ∀ i, ¬ PersPair (facets K) i u := by
          intro i hi
          have := (f1 _ _ hi).2.2
          omega
        refine ⟨(u, idxMax), ?_, rfl⟩
        simp only [List.mem_toFinset, List.mem_filter, Function.comp, Bool.and_eq_true, decide_eq_true_eq]
        exact ⟨(h1.2.2 u idxMax).2 (Or.inr ⟨rfl, ⟨hu, fun j => ⟨fun h => b ⟨j, h⟩, hno j⟩⟩, hdim u hu hd⟩), ⟨hx, Or.inl hbig⟩, hd⟩
  rw [hcount]
  -- the vertices of the creators
  have hvert : ∀ i ∈ C, ∃ v, vsetAt K i = {v} := by
    intro i hi
    obtain ⟨v, hv, -⟩ := (mem_filter.1 hi).2.2
    exact ⟨v, hv⟩
  choose! f hf using hvert
  have hinj : ∀ i ∈ C, ∀ j ∈ C, f i = f j → i = j := by
    intro i hi j hj hij
    refine vsetAt_unique hK.wf (singleton_nonempty (f i)) (hf i hi) ?_
    rw [hf j hj, hij]
  refine ⟨C.image f, card_image_of_injOn fun i hi j hj => hinj i hi j hj, ?_, ?_⟩
  · intro v hv
    obtain ⟨i, hi, rfl⟩ := mem_image.1 hv
    have hl := mem_range.1 (mem_filter.1 hi).1
    refine ⟨K[i], List.getElem_mem hl, ?_, ?_⟩
    · rw [← vsetAt_some (List.getElem?_eq_getElem hl)]; exact hf i hi
    · rw [← dataD_eq (inf := inf) hl]; exact (mem_filter.1 hi).2.1
  · rintro v ⟨s, hs', hv, hd⟩
    obtain ⟨i, hi, rfl⟩ := List.getElem_of_mem hs'
    rw [← vsetAt_some (List.getElem?_eq_getElem hi)] at hv
    -- the oldest vertex of the component
    have hex : ∃ i, ∃ w, vsetAt K i = {w} ∧ Joined K m v w := ⟨i, v, hv, Relation.EqvGen.refl _⟩
    obtain ⟨w, hw, hj⟩ := Nat.find_spec hex
    have hmin := fun i' => Nat.find_min' hex (m := i')
    generalize Nat.find hex = i0 at hw hmin
    have hl0 := lt_of_vsetAt (singleton_nonempty w) hw
    have hC0 : i0 ∈ C := by
      rw [mem_filter, mem_range]
      refine ⟨hl0, ?_, w, hw, fun i' w' hi' hj' => hmin i' ⟨w', hi', hj.trans _ _ _ hj'⟩⟩
      have hle : i0 ≤ i := hmin i ⟨v, hv, Relation.EqvGen.refl _⟩
      rw [hlevx i0 hl0]
      rw [← dataD_eq (inf := inf) hi] at hd
      exact lt_of_le_of_lt hle ((hlevx i hi).1 hd)
    have hfw : f i0 = w := singleton_injective ((hf i0 hC0).symm.trans hw)
    refine ⟨w, ⟨mem_image.2 ⟨i0, hC0, hfw⟩, (hcon v w).2 hj⟩, ?_⟩
    rintro u ⟨hu, hju⟩
    obtain ⟨i1, hi1, rfl⟩ := mem_image.1 hu
    rw [hcon] at hju
    have e1 : i0 ≤ i1 := hmin i1 ⟨_, hf i1 hi1, hju⟩
    obtain ⟨w', hw', ho⟩ := (mem_filter.1 hi1).2.2
    obtain rfl : f i1 = w' := singleton_injective ((hf i1 hi1).symm.trans hw')
    have e2 : i1 ≤ i0 := ho i0 w hw ((hju.symm _ _).trans _ _ _ hj)
    obtain rfl : i0 = i1 := le_antisymm e1 e2
    exact hfw

/-- C17. The same for complexes sorted by descending data, whose thresholds keep the large values. -/
theorem _root_.Aleph.C17_persistent_components_superlevel (inf : α) (K : Complex α) (hK : IsFiltration K) (hn : K.length ≤ idxMax)
    (hs : K.Pairwise fun s t => t.data ≤ s.data) (hinf : ∀ s ∈ K, s.data ≠ inf) (a : Algorithm) (k : Kind) (dualize inc : Bool)
    (hinc : inc = true ∨ ∃ s ∈ K, 2 ≤ #s.vset)
    (Ds : List (Diagram α)) (h : calculatePersistenceDiagrams a k inf K dualize inc = some Ds) (x y : α) :
    IsClassCount {v | ∃ s ∈ K, s.vset = {v} ∧ x ≤ s.data}
      (Relation.EqvGen fun a b => a ≠ b ∧ ∃ s ∈ K, s.vset = {a, b} ∧ y ≤ s.data)
      ((pointsOfDimension 0 Ds).countP fun p => x ≤ p.1 ∧ (p.2 = inf ∨ p.2 < y)) :=
  C17_persistent_components (α := αᵒᵈ) inf K hK hn hs hinf a k dualize inc hinc Ds h x y

/-- The path with the values 0, 3, 1: between 1 and 3 there are two components, one of which contains a vertex with value 0. -/
def valley : Complex ℕ := [⟨[0], 0⟩, ⟨[2], 1⟩, ⟨[1], 3⟩, ⟨[1, 0], 3⟩, ⟨[2, 1], 3⟩]

example : ∃ Ds, calculatePersistenceDiagrams .twist .vector 9 valley = some Ds ∧
    (pointsOfDimension 0 Ds).countP (fun p => p.1 ≤ 1 ∧ (p.2 = 9 ∨ 2 < p.2)) = 2 ∧
    (pointsOfDimension 0 Ds).countP (fun p => p.1 ≤ 0 ∧ (p.2 = 9 ∨ 2 < p.2)) = 1 ∧
    (pointsOfDimension 0 Ds).countP (fun p => p.1 ≤ 1 ∧ (p.2 = 9 ∨ 3 < p.2)) = 1 ∧
    valley.Pairwise (fun s t => s.data ≤ t.data) ∧ (∀ s ∈ valley, s.data ≠ 9) ∧ IsFiltration valley ∧ ∃ s ∈ valley, 2 ≤ #s.vset := by
  refine ⟨_, rfl, by decide, by decide, by decide, by decide, by decide, ⟨⟨?_, by decide, by decide⟩, ?_, by unfold FacesFirst; decide⟩, by decide⟩
  · unfold Normal; decide
  · exact Closed1.faceClosed (by unfold Normal; decide) (by unfold Closed1; decide)

end Aleph.Components
