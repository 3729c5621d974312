import Verif.Model.Combinations
import Verif.Lemmas.Rips
import Mathlib.Data.List.GetD
import Mathlib.Data.List.Chain

/-!
# Combinations
-/

namespace Aleph

/-- All splittings of a list into a sublist of length `k` and the remaining elements, in lexicographic order. -/
def combos : ℕ → List ℕ → List (List ℕ × List ℕ)
  | 0, U => [([], U)]
  | _ + 1, [] => []
  | k + 1, u :: U => (combos k U).map (fun p => (u :: p.1, p.2)) ++
      (combos (k + 1) U).map (fun p => (p.1, u :: p.2))

theorem rotateAt_append (A B D : List ℕ) {a m : ℕ} (ha : a = A.length) (hm : m = A.length + B.length) :
    rotateAt (A ++ (B ++ D)) a m = A ++ (D ++ B) := by
  unfold rotateAt
  subst ha; subst hm
  rw [List.take_left, ← List.append_assoc A B D, ← List.length_append, List.drop_left, List.take_left,
    List.drop_left]

/-- The successor of a combination in terms of the two parts. -/
theorem next_some {P S R1 R2 : List ℕ} {x y : ℕ} (hS : ∀ s ∈ S, ∀ r ∈ R1 ++ y :: R2, r < s)
    (hxy : x < y) (hR : (R1 ++ y :: R2).Pairwise (· < ·)) (hR1 : ∀ r ∈ R1, r ≤ x) :
    nextCombination (P ++ x :: S ++ (R1 ++ y :: R2)) (P.length + 1 + S.length) =
      (P ++ y :: (R2 ++ S).take S.length ++ (R1 ++ x :: (R2 ++ S).drop S.length), true) := by
  generalize hC : P ++ x :: S ++ (R1 ++ y :: R2) = C
  generalize hk : P.length + 1 + S.length = k
  have hlen : C.length = k + (R1.length + 1 + R2.length) := by
    rw [← hC, ← hk]; simp; omega
  have hlast : C.getD (C.length - 1) 0 ∈ R1 ++ y :: R2 ∧ x < C.getD (C.length - 1) 0 := by
    have h1 : C.getD (C.length - 1) 0 = (y :: R2).getLast (by simp) := by
      rw [List.getD_eq_getElem?_getD, ← List.getLast?_eq_getElem?, ← hC]
      rw [List.getLast?_append, List.getLast?_append, List.getLast?_eq_some_getLast (by simp : y :: R2 ≠ [])]
      rfl
    rw [h1]
    refine ⟨List.mem_append_right _ (List.getLast_mem _), ?_⟩
    have h2 := (List.pairwise_append.1 hR).2.1
    rcases List.mem_cons.1 (List.getLast_mem (l := y :: R2) (by simp)) with h | h
    · rw [h]; exact hxy
    · exact hxy.trans ((List.pairwise_cons.1 h2).1 _ h)
  have hgetx : C.getD P.length 0 = x := by
    rw [← hC]; simp [List.getD_eq_getElem?_getD]
  have hfind : ((List.range k).reverse.find? fun i => decide (C.getD i 0 < C.getD (C.length - 1) 0)) =
      some P.length := by
    have hsplit : List.range k = List.range (P.length + 1) ++
        (List.range S.length).map (P.length + 1 + ·) := by
      rw [← hk, List.range_add]
    rw [hsplit, List.reverse_append, List.find?_append]
    have hn : (((List.range S.length).map (P.length + 1 + ·)).reverse.find? fun i =>
        decide (C.getD i 0 < C.getD (C.length - 1) 0)) = none := by
      rw [List.find?_eq_none]
      intro i hi
      rw [List.mem_reverse, List.mem_map] at hi
      obtain ⟨a, ha, rfl⟩ := hi
      rw [List.mem_range] at ha
      have : C.getD (P.length + 1 + a) 0 = S[a] := by
        rw [← hC, List.getD_eq_getElem?_getD, List.append_assoc,
          List.getElem?_append_right (by omega)]
        have : P.length + 1 + a - P.length = a + 1 := by omega
        rw [this, List.cons_append, List.getElem?_cons_succ,
          List.getElem?_append_left ha, List.getElem?_eq_getElem ha]
        rfl
      rw [this, decide_eq_true_iff]
      exact lt_asymm (hS _ (List.getElem_mem ha) _ hlast.1)
    rw [hn, Option.none_or, List.range_succ, List.reverse_append]
    simp only [List.reverse_cons, List.reverse_nil, List.nil_append, List.singleton_append,
      List.find?_cons]
    rw [hgetx, decide_eq_true hlast.2]
  have hj : (C.drop k).findIdx (fun r => decide (C.getD P.length 0 < r)) = R1.length := by
    have : C.drop k = R1 ++ y :: R2 := by
      rw [← hC, ← hk]
      have : P.length + 1 + S.length = (P ++ x :: S).length := by simp; omega
      rw [this, List.drop_left]
    rw [this, hgetx, List.findIdx_append]
    have h1 : R1.findIdx (fun r => decide (x < r)) = R1.length := by
      rw [List.findIdx_eq_length]
      intro r hr
      simpa using hR1 r hr
    rw [h1]
    simp [List.findIdx_cons, hxy]
  unfold nextCombination
  rw [if_neg (by omega), if_neg (by omega)]
  rw [hfind]
  simp only [hj]
  -- the swap
  have hswap : swapAt C P.length (k + R1.length) = P ++ y :: (S ++ (R1 ++ x :: R2)) := by
    unfold swapAt
    have hgety : C.getD (k + R1.length) 0 = y := by
      rw [← hC, ← hk, List.getD_eq_getElem?_getD]
      rw [List.getElem?_append_right (by simp; omega)]
      have : P.length + 1 + S.length + R1.length - (P ++ x :: S).length = R1.length := by simp; omega
      rw [this]
      simp
    rw [hgetx, hgety, ← hC, ← hk]
    rw [List.append_assoc, List.set_append_right _ _ (le_refl _)]
    simp only [Nat.sub_self, List.cons_append, List.set_cons_zero]
    rw [List.set_append_right _ _ (by omega)]
    have : P.length + 1 + S.length + R1.length - P.length = (S.length + R1.length) + 1 := by omega
    rw [this, List.set_cons_succ, List.set_append_right _ _ (by omega),
      List.set_append_right _ _ (by omega)]
    have : S.length + R1.length - S.length - R1.length = 0 := by omega
    rw [this]
    simp
  rw [hswap]
  -- the first rotation
  have hrot1 : rotateAt (P ++ y :: (S ++ (R1 ++ x :: R2))) (P.length + 1) (k + R1.length + 1) =
      P ++ y :: (R2 ++ (S ++ (R1 ++ [x]))) := by
    have e1 : P ++ y :: (S ++ (R1 ++ x :: R2)) = (P ++ [y]) ++ ((S ++ (R1 ++ [x])) ++ R2) := by simp
    rw [e1, rotateAt_append _ _ _ (by simp) (by rw [← hk]; simp; omega)]
    simp
  rw [hrot1]
  -- the second rotation
  have hlen2 : (P ++ y :: (R2 ++ (S ++ (R1 ++ [x])))).length - (k + R1.length + 1) = R2.length := by
    rw [← hk]; simp; omega
  rw [hlen2]
  congr 1
  have e1 : P ++ y :: (R2 ++ (S ++ (R1 ++ [x]))) =
      (P ++ y :: (R2 ++ S).take S.length) ++ ((R2 ++ S).drop S.length ++ (R1 ++ [x])) := by
    rw [List.append_assoc, List.cons_append, ← List.append_assoc (List.take _ _), List.take_append_drop]
    simp
  rw [e1, rotateAt_append _ _ _ (by rw [← hk]; simp; omega) (by rw [← hk]; simp; omega)]
  simp

theorem next_none {L R : List ℕ} (h : ∀ l ∈ L, ∀ r ∈ R, r < l) :
    nextCombination (L ++ R) L.length = (R ++ L, false) := by
  unfold nextCombination
  by_cases hR : R = []
  · subst hR
    rw [if_pos (by simp)]; simp
  by_cases hL : L = []
  · subst hL
    rw [if_pos (by simp)]; simp
  have h1 := List.length_pos_iff.2 hR
  have h2 := List.length_pos_iff.2 hL
  rw [if_neg (by rw [List.length_append]; omega), if_neg (by rw [List.length_append]; omega)]
  have hlast : (L ++ R).getD ((L ++ R).length - 1) 0 ∈ R := by
    rw [List.getD_eq_getElem?_getD, ← List.getLast?_eq_getElem?, List.getLast?_append,
      List.getLast?_eq_some_getLast hR]
    exact List.getLast_mem hR
  have hfind : ((List.range L.length).reverse.find? fun i =>
      decide ((L ++ R).getD i 0 < (L ++ R).getD ((L ++ R).length - 1) 0)) = none := by
    rw [List.find?_eq_none]
    intro i hi
    rw [List.mem_reverse, List.mem_range] at hi
    have : (L ++ R).getD i 0 = L[i] := by
      rw [List.getD_eq_getElem?_getD, List.getElem?_append_left hi, List.getElem?_eq_getElem hi]; rfl
    rw [this, decide_eq_true_iff]
    exact lt_asymm (h _ (List.getElem_mem hi) _ hlast)
  rw [hfind]
  simp [rotateAt]

/-- A pair of parts together with its successor. -/
inductive Succ : List ℕ × List ℕ → List ℕ × List ℕ → Prop
  | mk (P S R1 R2 : List ℕ) (x y : ℕ) (hS : ∀ s ∈ S, ∀ r ∈ R1 ++ y :: R2, r < s)
      (hxy : x < y) (hR : (R1 ++ y :: R2).Pairwise (· < ·)) (hR1 : ∀ r ∈ R1, r ≤ x) :
    Succ (P ++ x :: S, R1 ++ y :: R2)
      (P ++ y :: (R2 ++ S).take S.length, R1 ++ x :: (R2 ++ S).drop S.length)

theorem Succ.next {p q : List ℕ × List ℕ} (h : Succ p q) :
    nextCombination (p.1 ++ p.2) p.1.length = (q.1 ++ q.2, true) ∧ q.1.length = p.1.length := by
  cases h with
  | mk P S R1 R2 x y hS hxy hR hR1 =>
    refine ⟨?_, by simp⟩
    have := next_some (P := P) hS hxy hR hR1
    simp only [List.length_append, List.length_cons]
    rw [show P.length + (S.length + 1) = P.length + 1 + S.length by omega]
    exact this

theorem Succ.cons_left {L R L' R' : List ℕ} (u : ℕ) (h : Succ (L, R) (L', R')) :
    Succ (u :: L, R) (u :: L', R') := by
  generalize hp : (L, R) = p at h
  generalize hq : (L', R') = q at h
  cases h with
  | mk P S R1 R2 x y hS hxy hR hR1 =>
    cases hp; cases hq
    exact Succ.mk (u :: P) S R1 R2 x y hS hxy hR hR1

theorem Succ.cons_right {L R L' R' : List ℕ} (u : ℕ) (hu : ∀ v ∈ L, u < v) (hr : ∀ v ∈ R, u < v)
    (h : Succ (L, R) (L', R')) : Succ (L, u :: R) (L', u :: R') := by
  generalize hp : (L, R) = p at h
  generalize hq : (L', R') = q at h
  cases h with
  | mk P S R1 R2 x y hS hxy hR hR1 =>
    cases hp; cases hq
    refine Succ.mk P S (u :: R1) R2 x y ?_ hxy ?_ ?_
    · intro s hs r hr'
      rcases List.mem_cons.1 hr' with rfl | hr'
      · exact hu s (by simp [hs])
      · exact hS s hs r hr'
    · exact List.pairwise_cons.2 ⟨hr, hR⟩
    · intro r hr'
      rcases List.mem_cons.1 hr' with rfl | hr'
      · exact (hu x (by simp)).le
      · exact hR1 r hr'

theorem combos_mem {k : ℕ} {U : List ℕ} {p : List ℕ × List ℕ} (h : p ∈ combos k U) :
    p.1.length = k ∧ p.1.Sublist U ∧ p.2.Sublist U ∧ (p.1 ++ p.2).Perm U := by
  induction U generalizing k p with
  | nil =>
    cases k with
    | zero => simp [combos] at h; subst h; simp
    | succ k => simp [combos] at h
  | cons u U ih =>
    cases k with
    | zero => simp [combos] at h; subst h; simp
    | succ k =>
      rw [combos, List.mem_append, List.mem_map, List.mem_map] at h
      rcases h with ⟨q, hq, rfl⟩ | ⟨q, hq, rfl⟩
      · obtain ⟨h1, h2, h3, h4⟩ := ih hq
        exact ⟨by simp [h1], h2.cons_cons u, h3.cons u, h4.cons u⟩
      · obtain ⟨h1, h2, h3, h4⟩ := ih hq
        refine ⟨h1, h2.cons u, h3.cons_cons u, ?_⟩
        exact (List.perm_middle).trans (h4.cons u)

theorem mem_combos_of_sublist {k : ℕ} {U L : List ℕ} (h : L.Sublist U) (hk : L.length = k) :
    ∃ R, (L, R) ∈ combos k U := by
  induction h generalizing k with
  | slnil => subst hk; exact ⟨[], by simp [combos]⟩
  | @cons l₁ l₂ u h ih =>
    cases k with
    | zero => rw [List.length_eq_zero_iff] at hk; subst hk; exact ⟨u :: l₂, by simp [combos]⟩
    | succ k =>
      obtain ⟨R, hR⟩ := ih hk
      exact ⟨u :: R, by
        rw [combos, List.mem_append]
        exact Or.inr (List.mem_map.2 ⟨_, hR, rfl⟩)⟩
  | @cons_cons l₁ l₂ u h ih =>
    cases k with
    | zero => simp at hk
    | succ k =>
      obtain ⟨R, hR⟩ := ih (k := k) (by simpa using hk)
      exact ⟨R, by
        rw [combos, List.mem_append]
        exact Or.inl (List.mem_map.2 ⟨_, hR, rfl⟩)⟩

theorem combos_length_le (k : ℕ) (U : List ℕ) : (combos k U).length ≤ 2 ^ U.length := by
  induction U generalizing k with
  | nil => cases k <;> simp [combos]
  | cons u U ih =>
    cases k with
    | zero => simp only [combos, List.length_singleton]; exact Nat.one_le_two_pow
    | succ k =>
      simp only [combos, List.length_append, List.length_map, List.length_cons, pow_succ]
      have := ih k
      have := ih (k + 1)
      omega

theorem combos_nodup {k : ℕ} {U : List ℕ} (hU : U.Pairwise (· < ·)) :
    ((combos k U).map Prod.fst).Nodup := by
  induction U generalizing k with
  | nil => cases k <;> simp [combos]
  | cons u U ih =>
    cases k with
    | zero => simp [combos]
    | succ k =>
      obtain ⟨hu, hU'⟩ := List.pairwise_cons.1 hU
      rw [combos, List.map_append, List.map_map, List.map_map, List.nodup_append]
      refine ⟨?_, ?_, ?_⟩
      · have := (ih (k := k) hU').map (f := fun l => u :: l) (fun a b h => by simpa using h)
        rw [List.map_map] at this
        exact this
      · exact ih hU'
      · intro a ha b hb hab
        obtain ⟨p, hp, rfl⟩ := List.mem_map.1 ha
        obtain ⟨q, hq, rfl⟩ := List.mem_map.1 hb
        have hsub := (combos_mem hq).2.1
        simp only [Function.comp] at hab
        have : u ∈ q.1 := by rw [← hab]; simp
        exact lt_irrefl u (hu u (hsub.subset this))

theorem combos_head {k : ℕ} {U : List ℕ} (h : k ≤ U.length) :
    (combos k U).head? = some (U.take k, U.drop k) := by
  induction U generalizing k with
  | nil => have : k = 0 := by simpa using h
           subst this; rfl
  | cons u U ih =>
    cases k with
    | zero => rfl
    | succ k =>
      have := ih (k := k) (by simpa using h)
      simp [combos, List.head?_append, this]

theorem combos_nil {k : ℕ} {U : List ℕ} (h : U.length < k) : combos k U = [] := by
  induction U generalizing k with
  | nil => cases k with
    | zero => simp at h
    | succ k => rfl
  | cons u U ih =>
    cases k with
    | zero => simp at h
    | succ k =>
      have h' : U.length < k := by simpa using h
      simp [combos, ih h', ih (k := k + 1) (by omega)]

theorem combos_last {k : ℕ} {U : List ℕ} (h : k ≤ U.length) :
    (combos k U).getLast? = some (U.drop (U.length - k), U.take (U.length - k)) := by
  induction U generalizing k with
  | nil => have : k = 0 := by simpa using h
           subst this; rfl
  | cons u U ih =>
    cases k with
    | zero => simp [combos]
    | succ k =>
      rw [combos, List.getLast?_append]
      by_cases hk : k + 1 ≤ U.length
      · simp only [List.getLast?_map, ih hk, Option.map_some, Option.some_or]
        have : (u :: U).length - (k + 1) = (U.length - (k + 1)) + 1 := by simp; omega
        rw [this]
        simp
      · have hk' : k = U.length := by simp at h; omega
        rw [combos_nil (by omega : U.length < k + 1)]
        simp only [List.map_nil, List.getLast?_nil, Option.none_or, List.getLast?_map]
        rw [ih (by omega)]
        subst hk'
        simp

theorem combos_chain {k : ℕ} {U : List ℕ} (hU : U.Pairwise (· < ·)) :
    List.IsChain Succ (combos k U) := by
  induction U generalizing k with
  | nil => cases k <;> simp [combos]
  | cons u U ih =>
    cases k with
    | zero => simp [combos]
    | succ k =>
      obtain ⟨hu, hU'⟩ := List.pairwise_cons.1 hU
      rw [combos, List.isChain_append]
      refine ⟨?_, ?_, ?_⟩
      · rw [List.isChain_map]
        exact (ih (k := k) hU').imp fun p q h => h.cons_left u
      · rw [List.isChain_map]
        have := ih (k := k + 1) hU'
        refine List.IsChain.imp_of_mem_imp ?_ this
        intro p q hp hq h
        exact Succ.cons_right u (fun v hv => hu v ((combos_mem hp).2.1.subset hv))
          (fun v hv => hu v ((combos_mem hp).2.2.1.subset hv)) h
      · intro p hp q hq
        rw [List.getLast?_map] at hp
        rw [List.head?_map] at hq
        by_cases hk : k + 1 ≤ U.length
        · rw [combos_last (by omega)] at hp
          rw [combos_head hk] at hq
          simp only [Option.map_some, Option.mem_def, Option.some.injEq] at hp hq
          subst hp; subst hq
          -- the rest is non-empty
          have hne : U.take (U.length - k) ≠ [] := by
            rw [← List.length_pos_iff]; simp; omega
          obtain ⟨y, R2, hy⟩ := List.exists_cons_of_ne_nil hne
          have hsplit : y :: (R2 ++ U.drop (U.length - k)) = U := by
            rw [← List.cons_append, ← hy, List.take_append_drop]
          have hlen : (U.drop (U.length - k)).length = k := by simp; omega
          have hsucc := Succ.mk [] (U.drop (U.length - k)) [] R2 u y (by
            intro s hs r hr
            rw [List.nil_append, ← hy] at hr
            have := hU'
            rw [← List.take_append_drop (U.length - k) U, List.pairwise_append] at this
            exact this.2.2 r hr s hs) (hu y (by rw [← hsplit]; simp)) (by
            rw [List.nil_append, ← hy]; exact hU'.sublist (List.take_sublist _ _)) (by simp)
          simp only [List.nil_append, hlen] at hsucc
          rw [hy]
          have e1 : U.take (k + 1) = y :: (R2 ++ U.drop (U.length - k)).take k := by
            conv_lhs => rw [← hsplit]
            rw [List.take_succ_cons]
          have e2 : U.drop (k + 1) = (R2 ++ U.drop (U.length - k)).drop k := by
            conv_lhs => rw [← hsplit]
            rw [List.drop_succ_cons]
          rw [e1, e2]
          exact hsucc
        · rw [combos_nil (by omega : U.length < k + 1)] at hq
          simp at hq

theorem loop_chain (k : ℕ) (ps : List (List ℕ × List ℕ)) (hne : ps ≠ []) (hk : ∀ p ∈ ps, p.1.length = k)
    (hc : List.IsChain Succ ps)
    (hlast : ∀ p, ps.getLast? = some p → ∀ l ∈ p.1, ∀ r ∈ p.2, r < l) (f : ℕ) (hf : ps.length ≤ f) :
    ∃ p q, ps.head? = some p ∧ ps.getLast? = some q ∧
      combinationLoop f (p.1 ++ p.2) k = some (ps.map Prod.fst, q.2 ++ q.1) := by
  induction ps generalizing f with
  | nil => exact absurd rfl hne
  | cons p ps ih =>
    obtain ⟨f, rfl⟩ : ∃ g, f = g + 1 := ⟨f - 1, by simp at hf; omega⟩
    have hpk := hk p List.mem_cons_self
    have htake : (p.1 ++ p.2).take k = p.1 := by rw [← hpk, List.take_left]
    cases ps with
    | nil =>
      refine ⟨p, p, rfl, rfl, ?_⟩
      have := next_none (L := p.1) (R := p.2) (hlast p rfl)
      rw [hpk] at this
      rw [combinationLoop, this]
      simp [htake]
    | cons q ps =>
      rw [List.isChain_cons_cons] at hc
      obtain ⟨hn, hql⟩ := hc.1.next
      obtain ⟨a, b, ha, hb, he⟩ := ih (by simp) (fun r hr => hk r (List.mem_cons_of_mem _ hr)) hc.2
        (fun r hr => hlast r (by rw [List.getLast?_cons_cons]; exact hr)) f (by simpa using hf)
      simp only [List.head?_cons, Option.some.injEq] at ha
      subst ha
      refine ⟨p, b, rfl, by rw [List.getLast?_cons_cons]; exact hb, ?_⟩
      rw [hpk] at hn
      rw [combinationLoop, hn]
      simp only [he, htake]
      rfl

/-- Starting from a sorted range the loop visits all combinations and leaves the range as it was. -/
theorem combinationLoop_spec {U : List ℕ} (hU : U.Pairwise (· < ·)) {k : ℕ} (hk : k ≤ U.length) :
    ∃ l, combinationLoop (2 ^ U.length) U k = some (l, U) ∧ l.Nodup ∧
      ∀ vs : List ℕ, vs ∈ l ↔ vs.Sublist U ∧ vs.length = k := by
  have hhead := combos_head hk
  have hlast := combos_last hk
  obtain ⟨p, q, hp, hq, h⟩ := loop_chain k (combos k U) (by intro h; rw [h] at hhead; simp at hhead)
    (fun p hp => (combos_mem hp).1) (combos_chain hU) (by
      intro p hp l hl r hr
      rw [hlast] at hp
      cases hp
      have := hU
      rw [← List.take_append_drop (U.length - k) U, List.pairwise_append] at this
      exact this.2.2 r hr l hl) _ (combos_length_le k U)
  rw [hhead] at hp
  rw [hlast] at hq
  cases hp; cases hq
  rw [List.take_append_drop, List.take_append_drop] at h
  refine ⟨_, h, combos_nodup hU, fun vs => ?_⟩
  rw [List.mem_map]
  constructor
  · rintro ⟨p, hp, rfl⟩
    exact ⟨(combos_mem hp).2.1, (combos_mem hp).1⟩
  · rintro ⟨h1, h2⟩
    obtain ⟨R, hR⟩ := mem_combos_of_sublist h1 h2
    exact ⟨_, hR, rfl⟩

end Aleph
