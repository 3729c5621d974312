import Verif.Model.Euler
import Verif.Spec.Euler
import Verif.Props.Conversions
import Mathlib.Algebra.BigOperators.Fin
import Mathlib.Algebra.BigOperators.Group.List.Basic

/-!
# C34 and C57: Euler characteristics
-/

namespace Aleph

open Finset Spec

variable {α : Type}

theorem alternatingLoop_eq (f : ℕ → ℕ) (n : ℕ) :
    alternatingLoop f n = ∑ d ∈ range n, (-1) ^ d * (f d : ℤ) := by
  have key : (List.range n).foldl (fun (st : ℤ × ℤ) d => (st.1 + st.2 * (f d : ℤ), st.2 * -1)) (0, 1) =
      (∑ d ∈ range n, (-1) ^ d * (f d : ℤ), (-1) ^ n) := by
    induction n with
    | zero => rfl
    | succ n ih =>
      rw [List.range_succ, List.foldl_append, ih, sum_range_succ]
      simp [pow_succ]
  rw [alternatingLoop, key]

theorem mem_sets {K : Complex α} {t : Finset ℕ} : t ∈ sets K ↔ ∃ s ∈ K, s.vset = t := by
  simp [sets]

theorem sets_nodup {K : Complex α} (hK : WF K) : (K.map Simplex.vset).Nodup := by
  refine List.Nodup.map_on ?_ hK.nodup
  intro s hs t ht h
  exact hK.eq_of_vset hs ht h

theorem cardinality_eq {K : Complex α} (hK : WF K) (d : ℕ) :
    cardinality K d = #{t ∈ sets K | #t = d + 1} := by
  unfold cardinality sets
  have e : ({t ∈ (K.map Simplex.vset).toFinset | #t = d + 1} : Finset (Finset ℕ)) =
      ((K.map Simplex.vset).filter fun t => #t = d + 1).toFinset := by
    rw [List.toFinset_filter]
    simp
  rw [e, List.toFinset_card_of_nodup ((sets_nodup hK).filter _), List.count_eq_countP,
    List.countP_map, List.filter_map, List.length_map, List.countP_eq_length_filter]
  congr 1
  apply List.filter_congr
  intro s hs
  have h1 := (hK.normal s hs).length_eq
  have h2 := List.length_pos_iff.2 (hK.nonempty s hs)
  simp only [Function.comp, Complex.dim, beq_eq_decide]
  rw [decide_eq_decide]
  unfold Simplex.vset
  omega

theorem dimension_eq {K : Complex α} (hK : WF K) {D : ℕ} (hD : IsTopDimension K D) : K.dimension = some D := by
  obtain ⟨⟨s, hs, hs'⟩, h⟩ := hD
  unfold Complex.dimension
  have hne : K.isEmpty = false := by
    cases K with
    | nil => simp at hs
    | cons => rfl
  rw [hne]
  simp only [Bool.false_eq_true, if_false, Option.some.injEq]
  have hdim : ∀ t ∈ K, Complex.dim t + 1 = #t.vset := by
    intro t ht
    have h1 := (hK.normal t ht).length_eq
    have h2 := List.length_pos_iff.2 (hK.nonempty t ht)
    unfold Complex.dim Simplex.vset
    omega
  have hle : ∀ l : List ℕ, (∀ x ∈ l, x ≤ D) → l.foldr max 0 ≤ D := by
    intro l
    induction l with
    | nil => intro _; simp
    | cons x l ih =>
      intro hl
      rw [List.foldr_cons]
      exact max_le (hl x List.mem_cons_self) (ih fun y hy => hl y (List.mem_cons_of_mem _ hy))
  have hge : ∀ l : List ℕ, ∀ x ∈ l, x ≤ l.foldr max 0 := by
    intro l
    induction l with
    | nil => intro x hx; simp at hx
    | cons y l ih =>
      intro x hx
      rw [List.foldr_cons]
      rcases List.mem_cons.1 hx with rfl | hx
      · exact le_max_left _ _
      · exact (ih x hx).trans (le_max_right _ _)
  apply le_antisymm
  · apply hle
    intro x hx
    obtain ⟨t, ht, rfl⟩ := List.mem_map.1 hx
    have := h t ht
    have := hdim t ht
    omega
  · have := hge (K.map Complex.dim) (Complex.dim s) (List.mem_map_of_mem hs)
    have := hdim s hs
    omega

theorem euler_eq {K : Complex α} (hK : WF K) {D : ℕ} (hD : ∀ s ∈ K, #s.vset ≤ D + 1) :
    euler K = ∑ d ∈ range (D + 1), (-1) ^ d * ((#{t ∈ sets K | #t = d + 1} : ℕ) : ℤ) := by
  unfold euler
  rw [← Finset.sum_fiberwise_of_maps_to (s := sets K) (t := range (D + 1)) (g := fun t => #t - 1)]
  · refine Finset.sum_congr rfl fun d _ => ?_
    have hf : {t ∈ sets K | #t - 1 = d} = {t ∈ sets K | #t = d + 1} := by
      apply Finset.filter_congr
      intro t ht
      obtain ⟨s, hs, rfl⟩ := mem_sets.1 ht
      have := card_pos.2 (hK.vset_nonempty hs)
      omega
    rw [hf, Finset.sum_congr rfl (g := fun _ => (-1 : ℤ) ^ d)]
    · rw [Finset.sum_const, nsmul_eq_mul, mul_comm]
    · intro t ht
      rw [(mem_filter.1 ht).2, Nat.add_sub_cancel]
  · intro t ht
    obtain ⟨s, hs, rfl⟩ := mem_sets.1 ht
    have := hD s hs
    rw [mem_range]
    omega

/-- C34 (what the code computes). `eulerCharacteristic(K)` is the Euler characteristic without the contribution of the
simplices of the largest dimension `D`. -/
theorem C34_euler_partial (K : Complex α) (hK : WF K) (D : ℕ) (hD : IsTopDimension K D) :
    eulerCharacteristic K = euler K - (-1) ^ D * ((#{t ∈ sets K | #t = D + 1} : ℕ) : ℤ) := by
  unfold eulerCharacteristic
  rw [dimension_eq hK hD]
  simp only
  rw [alternatingLoop_eq, euler_eq hK hD.2, sum_range_succ]
  simp only [cardinality_eq hK]
  ring

/-- C34 (disagreement with the documentation). `eulerCharacteristic(K)` differs from the Euler characteristic of `K` for
every non-empty complex. -/
theorem C34_euler_wrong (K : Complex α) (hK : WF K) : eulerCharacteristic K = euler K ↔ K = [] := by
  constructor
  · intro h
    by_contra hne
    obtain ⟨s, hs, hmax⟩ : ∃ s ∈ K, ∀ t ∈ K, #t.vset ≤ #s.vset := by
      obtain ⟨t, ht, hmax⟩ := (sets K).exists_max_image (fun t => #t) (by
        obtain ⟨s, hs⟩ := List.exists_mem_of_ne_nil K hne
        exact ⟨s.vset, mem_sets.2 ⟨s, hs, rfl⟩⟩)
      obtain ⟨s, hs, rfl⟩ := mem_sets.1 ht
      exact ⟨s, hs, fun t ht => hmax _ (mem_sets.2 ⟨t, ht, rfl⟩)⟩
    have hpos := card_pos.2 (hK.vset_nonempty hs)
    have hD : IsTopDimension K (#s.vset - 1) :=
      ⟨⟨s, hs, by omega⟩, fun t ht => by have := hmax t ht; omega⟩
    have := C34_euler_partial K hK _ hD
    rw [h] at this
    have hz : (-1 : ℤ) ^ (#s.vset - 1) * ((#{t ∈ sets K | #t = #s.vset - 1 + 1} : ℕ) : ℤ) = 0 := by omega
    rcases mul_eq_zero.1 hz with hz | hz
    · have := pow_ne_zero (#s.vset - 1) (show (-1 : ℤ) ≠ 0 by decide)
      exact this hz
    · have hz' : #{t ∈ sets K | #t = #s.vset - 1 + 1} = 0 := by exact_mod_cast hz
      rw [card_eq_zero] at hz'
      have : s.vset ∈ ({t ∈ sets K | #t = #s.vset - 1 + 1} : Finset (Finset ℕ)) :=
        mem_filter.2 ⟨mem_sets.2 ⟨s, hs, rfl⟩, by omega⟩
      rw [hz'] at this
      simp at this
  · rintro rfl
    rfl

/-- A concrete case: a filled triangle has Euler characteristic 1, the code computes 3 - 3 = 0. -/
example : eulerCharacteristic filledTriangle = 0 ∧ euler filledTriangle = 1 ∧ IsTopDimension filledTriangle 2 ∧
    WF filledTriangle := by
  refine ⟨by decide, by decide, ⟨⟨⟨[2, 1, 0], 5⟩, by decide, by decide⟩, by decide⟩, filledTriangle_filtration.wf⟩

/-! ### Diagrams -/

theorem bettiMap_eq [DecidableEq α] (inf : α) (Ds : List (Diagram α))
    (h : (Ds.map (·.dimension)).Pairwise (· < ·)) (d : ℕ) :
    bettiMap inf Ds d = ((Ds.filter fun D => D.dimension = d).map (Diagram.betti inf)).sum := by
  unfold bettiMap
  induction Ds with
  | nil => rfl
  | cons D Ds ih =>
    rw [List.map_cons, List.pairwise_cons] at h
    rw [List.reverse_cons, List.find?_append]
    specialize ih h.2
    by_cases hd : D.dimension = d
    · have hnone : ∀ E ∈ Ds, E.dimension ≠ d := by
        intro E hE
        have := h.1 E.dimension (List.mem_map_of_mem (f := fun D : Diagram α => D.dimension) hE)
        omega
      have h1 : Ds.reverse.find? (fun D => D.dimension == d) = none := by
        rw [List.find?_eq_none]
        intro E hE
        simpa using hnone E (List.mem_reverse.1 hE)
      have h2 : (Ds.filter fun D => D.dimension = d) = [] := by
        rw [List.filter_eq_nil_iff]
        intro E hE
        simpa using hnone E hE
      rw [h1, List.filter_cons, h2]
      simp [hd]
    · rw [List.filter_cons, if_neg (by simpa using hd), ← ih]
      cases Ds.reverse.find? (fun D => D.dimension == d) with
      | none => simp [hd]
      | some E => simp

theorem le_foldr_max_mem : ∀ l : List ℕ, ∀ x ∈ l, x ≤ l.foldr max 0 := by
  intro l
  induction l with
  | nil => intro x hx; simp at hx
  | cons y l ih =>
    intro x hx
    rw [List.foldr_cons]
    rcases List.mem_cons.1 hx with rfl | hx
    · exact le_max_left _ _
    · exact (ih x hx).trans (le_max_right _ _)

theorem foldr_max_getLast : ∀ (l : List ℕ), l.Pairwise (· < ·) → ∀ x, l.getLast? = some x → l.foldr max 0 = x := by
  intro l h x hx
  have hm : x ∈ l := List.mem_of_getLast? hx
  apply le_antisymm _ (le_foldr_max_mem l x hm)
  have hle : ∀ y ∈ l, y ≤ x := by
    intro y hy
    obtain ⟨l', rfl⟩ : ∃ l', l = l' ++ [x] := by
      rw [List.getLast?_eq_some_iff] at hx
      exact hx
    rw [List.pairwise_append] at h
    rcases List.mem_append.1 hy with hy | hy
    · exact (h.2.2 y hy x (by simp)).le
    · simp at hy; omega
  clear h hx hm
  induction l with
  | nil => simp
  | cons y l ih =>
    rw [List.foldr_cons]
    exact max_le (hle y List.mem_cons_self) (ih fun z hz => hle z (List.mem_cons_of_mem _ hz))

theorem sum_by_key {β : Type} (l : List β) (g : β → ℕ) (w : β → ℕ) (n : ℕ) (h : ∀ x ∈ l, g x < n) :
    ∑ d ∈ range n, (-1 : ℤ) ^ d * ((((l.filter fun x => g x = d).map w).sum : ℕ) : ℤ) =
      (l.map fun x => (-1) ^ g x * (w x : ℤ)).sum := by
  induction l with
  | nil => simp
  | cons x l ih =>
    specialize ih fun y hy => h y (List.mem_cons_of_mem _ hy)
    rw [List.map_cons, List.sum_cons, ← ih]
    have hx := h x List.mem_cons_self
    have h1 : ∀ d ∈ range n, (-1 : ℤ) ^ d * (((((x :: l).filter fun x => g x = d).map w).sum : ℕ) : ℤ) =
        (if d = g x then (-1 : ℤ) ^ d * (w x : ℤ) else 0) +
          (-1 : ℤ) ^ d * ((((l.filter fun x => g x = d).map w).sum : ℕ) : ℤ) := by
      intro d _
      rw [List.filter_cons]
      by_cases hd : d = g x
      · subst hd
        simp [mul_add]
      · rw [if_neg (by simpa using fun e => hd e.symm), if_neg hd, zero_add]
    rw [Finset.sum_congr rfl h1, Finset.sum_add_distrib, Finset.sum_ite_eq', if_pos (mem_range.2 hx)]

/-- C34 (diagrams, what the code computes). For a sequence of diagrams of ascending dimensions, as returned by
`calculatePersistenceDiagrams`, the function returns the alternating sum of the Betti numbers of all diagrams but the
last one. -/
theorem C34_diagrams_partial [DecidableEq α] (inf : α) (Ds : List (Diagram α)) (E : Diagram α)
    (h : ((Ds ++ [E]).map (·.dimension)).Pairwise (· < ·)) :
    eulerCharacteristicOfDiagrams inf (Ds ++ [E]) =
      (Ds.map fun D => (-1) ^ D.dimension * (D.betti inf : ℤ)).sum := by
  unfold eulerCharacteristicOfDiagrams
  have hne : (Ds ++ [E]).isEmpty = false := by cases Ds <;> rfl
  rw [hne, foldr_max_getLast _ h E.dimension (by simp)]
  simp only [Bool.false_eq_true, if_false]
  rw [alternatingLoop_eq]
  have hlt : ∀ D ∈ Ds, D.dimension < E.dimension := by
    intro D hD
    rw [List.map_append, List.pairwise_append] at h
    exact h.2.2 _ (List.mem_map_of_mem (f := fun D : Diagram α => D.dimension) hD) _ (by simp)
  rw [← sum_by_key Ds (·.dimension) (Diagram.betti inf) E.dimension hlt]
  refine Finset.sum_congr rfl fun d hd => ?_
  rw [bettiMap_eq inf _ h, List.filter_append]
  have : ¬ E.dimension = d := by have := mem_range.1 hd; omega
  simp [this]

theorem euler_list {K : Complex α} (hK : WF K) :
    euler K = ((List.range K.length).map fun u => (-1 : ℤ) ^ dimAt K u).sum := by
  unfold euler sets
  rw [List.sum_toFinset _ (sets_nodup hK)]
  congr 1
  apply List.ext_getElem
  · simp
  · intro i h1 h2
    have hi : i < K.length := by simpa using h1
    simp [dimAt, vsetAt, List.getElem?_eq_getElem hi]

/-- C57 (Euler–Poincaré). The alternating sum of the Betti numbers read off the persistence diagrams (number of unpaired
points, all unpaired creators included) is the Euler characteristic of the complex. -/
theorem C57_euler_poincare [DecidableEq α] (inf : α) (K : Complex α) (hK : IsFiltration K)
    (hn : K.length ≤ idxMax) (hinf : ∀ s ∈ K, s.data ≠ inf) (a : Algorithm) (k : Kind) (dualize : Bool)
    (Ds : List (Diagram α)) (h : calculatePersistenceDiagrams a k inf K dualize true = some Ds) :
    (Ds.map fun D => (-1) ^ D.dimension * (D.betti inf : ℤ)).sum = euler K := by
  obtain ⟨r, q, g2, g3, g4, g5, q1, hDs, hcount⟩ := betti_count inf K hK hn hinf a k dualize Ds h
  obtain ⟨-, w2, w3, w4, w5, w6⟩ := C09_pairing_wellformed .standard .vector r g2 true idxMax q q1
  have w7 := C09_pairing_complete .standard .vector r g2 idxMax (by rw [g3]; exact hn) q q1
  rw [g3] at w3 w7
  set n := (Ds.map (·.dimension)).foldr max 0 + (range K.length).sup (dimAt K) + 1 with hndef
  have hnD : ∀ D ∈ Ds, D.dimension < n := by
    intro D hD
    have := le_foldr_max_mem _ _ (List.mem_map_of_mem (f := fun D : Diagram α => D.dimension) hD)
    omega
  have hnq : ∀ e ∈ q, dimAt K e.1 < n := by
    intro e he
    have h1 := (w3 e.1 e.2 he).1
    have : dimAt K e.1 ≤ (range K.length).sup (dimAt K) := Finset.le_sup (mem_range.2 h1)
    omega
  rw [← sum_by_key Ds (·.dimension) (Diagram.betti inf) n hnD]
  have h1 : ∀ d, ((Ds.filter fun D => D.dimension = d).map (Diagram.betti inf)).sum =
      ((q.filter fun e => dimAt K e.1 = d).map fun e => if e.2 = idxMax then 1 else 0).sum := by
    intro d
    rw [hcount]
    clear hcount hDs w2 w3 w4 w5 w6 w7 q1 hnq
    induction q with
    | nil => rfl
    | cons e q ih =>
      rw [List.countP_cons, List.filter_cons, ih]
      by_cases hd : dimAt K e.1 = d
      · by_cases he : e.2 = idxMax
        · simp [hd, he]; omega
        · simp [hd, he]
      · simp [hd]
  simp only [h1]
  rw [sum_by_key q (fun e => dimAt K e.1) (fun e => if e.2 = idxMax then 1 else 0) n hnq, euler_list hK.wf]
  -- every position occurs exactly once
  have hperm : (q.flatMap fun e => if e.2 = idxMax then [e.1] else [e.1, e.2]).Perm (List.range K.length) := by
    rw [List.perm_ext_iff_of_nodup _ List.nodup_range]
    · intro u
      rw [List.mem_range, List.mem_flatMap]
      constructor
      · rintro ⟨e, he, hu⟩
        have := w3 e.1 e.2 he
        split at hu
        · simp at hu; omega
        · simp at hu; omega
      · intro hu
        obtain ⟨i, j, hij, hu'⟩ := w7 u hu
        refine ⟨(i, j), hij, ?_⟩
        split
        · rename_i hj
          simp only at hj
          simp; omega
        · simp; omega
    · rw [List.nodup_flatMap]
      constructor
      · intro e he
        split
        · simp
        · rename_i hj
          have := (w3 e.1 e.2 he).2
          simp; omega
      · refine List.Pairwise.imp_of_mem (R := (· ≠ ·)) ?_ w2
        rintro ⟨i, j⟩ ⟨i', j'⟩ he he' hne
        have a1 : i ≠ i' := by
          rintro rfl
          exact hne (by rw [w4 i j j' he he'])
        have a2 : j ≠ idxMax → j ≠ j' := by
          rintro hj rfl
          exact hne (by rw [w5 i i' j hj he he'])
        have a3 : j ≠ i' := by rintro rfl; exact w6 _ _ _ he he'
        have a4 : i ≠ j' := by rintro rfl; exact w6 _ _ _ he' he
        simp only [Function.onFun, List.disjoint_left]
        intro u hu hu'
        split at hu <;> split at hu' <;> simp at hu hu' <;> omega
  rw [← (hperm.map fun u => (-1 : ℤ) ^ dimAt K u).sum_eq]
  have hdims : ∀ e ∈ q, e.2 = idxMax ∨ dimAt K e.2 = dimAt K e.1 + 1 := by
    intro e he
    rcases (w3 e.1 e.2 he).2 with h | ⟨_, _, h⟩
    · exact Or.inl h
    · right; rw [← g5, ← g5]; exact h
  clear hcount hDs w2 w3 w4 w5 w6 w7 q1 hnq h1 hperm
  induction q with
  | nil => rfl
  | cons e q ih =>
    rw [List.map_cons, List.sum_cons, List.flatMap_cons, List.map_append, List.sum_append,
      ih fun e he => hdims e (List.mem_cons_of_mem _ he)]
    congr 1
    by_cases he : e.2 = idxMax
    · simp [he]
    · rcases hdims e List.mem_cons_self with h | h
      · exact absurd h he
      · simp [he, h, pow_succ]

/-- A concrete case: the filled triangle. -/
example : ∃ Ds, calculatePersistenceDiagrams .twist .vector 9 filledTriangle true true = some Ds ∧
    (Ds.map fun D => (-1) ^ D.dimension * (D.betti 9 : ℤ)).sum = 1 ∧
    eulerCharacteristicOfDiagrams 9 Ds = 1 := ⟨_, rfl, by decide, by decide⟩

end Aleph
