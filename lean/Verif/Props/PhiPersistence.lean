import Verif.Lemmas.LowCount
import Verif.Lemmas.Rips
import Verif.Props.Combine
import Verif.Props.Complex
import Verif.Props.Conversions
import Verif.Spec.PhiPersistence

/-!
# C47: persistent intersection homology
-/

namespace Aleph

open Finset Spec PhiPersistence

variable {α : Type}

/-! ### Partition -/

theorem partition_pass (phi : Simplex α → Option Bool) (b : Simplex α → Bool) (want : Bool) (l L : Complex α)
    (hphi : ∀ s ∈ l, phi s = some (b s)) (hne : ∀ s ∈ l, s.vertices ≠ [])
    (hn : ((L ++ l.filter fun s => b s == want).map (·.vertices)).Nodup) :
    l.foldlM (partitionStep phi want) L =
      some (L ++ l.filter fun s => b s == want) := by
  induction l generalizing L with
  | nil => simp
  | cons s l ih =>
    rw [List.foldlM_cons]
    simp only [partitionStep, hphi s List.mem_cons_self]
    by_cases hb : b s = want
    · have hf : (s :: l).filter (fun s => b s == want) = s :: l.filter fun s => b s == want := by
        rw [List.filter_cons, if_pos (by simpa using hb)]
      rw [hf] at hn ⊢
      have hnew : ∀ t ∈ L, t.vertices ≠ s.vertices := by
        intro t ht he
        rw [List.map_append, List.nodup_append] at hn
        exact hn.2.2 _ (List.mem_map.2 ⟨t, ht, rfl⟩) _ (List.mem_map.2 ⟨s, List.mem_cons_self, rfl⟩) he
      simp only [if_pos hb, pushBack_new (hne s List.mem_cons_self) hnew]
      change List.foldlM _ (L ++ [s]) l = _
      rw [ih (L ++ [s]) (fun t ht => hphi t (List.mem_cons_of_mem _ ht))
        (fun t ht => hne t (List.mem_cons_of_mem _ ht)) (by simpa using hn)]
      simp
    · have hf : (s :: l).filter (fun s => b s == want) = l.filter fun s => b s == want := by
        rw [List.filter_cons, if_neg (by simpa using hb)]
      rw [hf] at hn ⊢
      simp only [if_neg hb]
      exact ih L (fun t ht => hphi t (List.mem_cons_of_mem _ ht))
        (fun t ht => hne t (List.mem_cons_of_mem _ ht)) hn

theorem filter_split_perm (K : Complex α) (b : Simplex α → Bool) :
    (K.filter b ++ K.filter fun s => !b s).Perm K := List.filter_append_perm b K

/-- C47. `partition` lists the simplices satisfying the predicate in their original order, followed by the remaining
ones in their original order, and returns the number of the former. -/
theorem C47_partition (K : Complex α) (hK : WF K) (b : Simplex α → Bool) (f : Simplex α → Option Bool)
    (hf : ∀ s ∈ K, f s = some (b s)) :
    PhiPersistence.partition K f =
      some (K.filter b ++ K.filter (fun s => !b s), (K.filter b).length) := by
  have hd : ((K.filter b ++ K.filter fun s => !b s).map (·.vertices)).Nodup :=
    (hK.perm (filter_split_perm K b)).distinct
  have e1 := partition_pass f b true K [] hf hK.nonempty
    (by simpa using (hK.sublist (List.filter_sublist (l := K) (p := b))).distinct)
  have ht : (K.filter fun s => b s == true) = K.filter b := by simp
  have hff : (K.filter fun s => b s == false) = K.filter fun s => !b s := by simp
  rw [ht, List.nil_append] at e1
  have e2 := partition_pass f b false K (K.filter b) hf hK.nonempty (by rw [hff]; exact hd)
  rw [hff] at e2
  simp only [PhiPersistence.partition, e1, e2]

/-! ### Perversities -/

/-- C47. A perversity satisfies `-1 ≤ p k ≤ k - 1` for each `k` of the given values, keeps each value already within
these bounds, and replaces each other value by the bound it violates; beyond the given values it is `0`. -/
theorem C47_perversity (vs : List ℤ) (k : ℕ) (hk : 1 ≤ k) :
    ∃ v, perversityAt (perversity vs) k = some v ∧
      (∀ w, vs[k - 1]? = some w → -1 ≤ v ∧ v ≤ (k : ℤ) - 1 ∧ (-1 ≤ w → w ≤ (k : ℤ) - 1 → v = w) ∧
        (w < -1 → v = -1) ∧ ((k : ℤ) - 1 < w → v = (k : ℤ) - 1)) ∧
      (vs.length < k → v = 0) := by
  obtain ⟨k, rfl⟩ : ∃ m, k = m + 1 := ⟨k - 1, by omega⟩
  unfold perversityAt perversity
  simp only [List.length_map, List.length_zipIdx, List.getElem?_map, List.getElem?_zipIdx, Nat.add_sub_cancel]
  by_cases hlt : k < vs.length
  · rw [if_pos (by omega), if_neg (by omega), List.getElem?_eq_getElem hlt]
    refine ⟨_, rfl, ?_, by omega⟩
    rintro w ⟨⟩
    simp only [zero_add]
    push_cast
    split_ifs <;> omega
  · rw [if_neg (by omega)]
    refine ⟨0, rfl, ?_, fun _ => rfl⟩
    intro w hw
    rw [List.getElem?_eq_none (by omega)] at hw
    cases hw

theorem perversityGMLoop_length (prev : ℕ) (vs : List ℕ) : (perversityGMLoop prev vs).length = vs.length := by
  induction vs generalizing prev with
  | nil => rfl
  | cons v vs ih => simp [perversityGMLoop, ih]

theorem perversityGMLoop_chain (prev : ℕ) (vs : List ℕ) :
    List.IsChain (fun a b => b = a ∨ b = (a + 1) % 2 ^ 32) (prev :: perversityGMLoop prev vs) := by
  induction vs generalizing prev with
  | nil => simp [perversityGMLoop]
  | cons v vs ih =>
    simp only [perversityGMLoop]
    refine List.IsChain.cons_cons ?_ (ih _)
    by_cases h : v ≠ prev ∧ v ≠ (prev + 1) % 2 ^ 32
    · exact Or.inr (if_pos h)
    · rw [if_neg h]; tauto

theorem perversityGMLoop_keep (prev : ℕ) (vs : List ℕ)
    (h : List.IsChain (fun a b => b = a ∨ b = (a + 1) % 2 ^ 32) (prev :: vs)) : perversityGMLoop prev vs = vs := by
  induction vs generalizing prev with
  | nil => rfl
  | cons v vs ih =>
    rw [List.isChain_cons_cons] at h
    have hv : ¬ (v ≠ prev ∧ v ≠ (prev + 1) % 2 ^ 32) := by tauto
    simp only [perversityGMLoop, if_neg hv, ih v h.2]

/-- C47. In a perversity of Goresky and MacPherson each value equals its predecessor or the successor of it
(up to the overflow of unsigned integers); values with this property are kept, and the first value is always kept.
The value at `k` is that of position `k - 2`, or `0` beyond the given values. -/
theorem C47_perversity_gm (vs : List ℕ) :
    List.IsChain (fun a b => b = a ∨ b = (a + 1) % 2 ^ 32) (perversityGM vs) ∧
      (perversityGM vs).length = vs.length ∧ (perversityGM vs).head? = vs.head? ∧
      (List.IsChain (fun a b => b = a ∨ b = (a + 1) % 2 ^ 32) vs → perversityGM vs = vs) ∧
      ∀ k, 2 ≤ k → perversityGMAt (perversityGM vs) k = some ((perversityGM vs).getD (k - 2) 0) := by
  refine ⟨?_, ?_, ?_, ?_, ?_⟩
  · cases vs with
    | nil => simp [perversityGM]
    | cons v vs => exact perversityGMLoop_chain v vs
  · cases vs with
    | nil => rfl
    | cons v vs => simp [perversityGM, perversityGMLoop_length]
  · cases vs <;> rfl
  · intro h
    cases vs with
    | nil => rfl
    | cons v vs => rw [perversityGM, perversityGMLoop_keep v vs h]
  · intro k hk
    unfold perversityGMAt
    split
    · rw [if_neg (by omega), List.getD_eq_getElem?_getD, List.getElem?_eq_getElem (by omega)]
      rfl
    · rw [List.getD_eq_getElem?_getD, List.getElem?_eq_none (by omega)]
      rfl

/-- C47. The documented normalisation `p 2 = 0` of perversities of Goresky and MacPherson is not enforced. -/
theorem C47_perversity_gm_not_normalised : perversityGMAt (perversityGM [3, 7]) 2 = some 3 := by decide

/-! ### Last lexicographical intersection -/

theorem probe_run (K : Complex α) (d0 : α) (l : List (List ℕ)) :
    (∃ pre c post t, l = pre ++ c :: post ∧ runUntil (probe K d0) none l = (some t, true) ∧
      K.find (Simplex.ofRange c d0).vertices = some t ∧
      ∀ c' ∈ pre, K.find (Simplex.ofRange c' d0).vertices = none) ∨
    (runUntil (probe K d0) none l = (none, false) ∧
      ∀ c ∈ l, K.find (Simplex.ofRange c d0).vertices = none) := by
  induction l with
  | nil => exact Or.inr ⟨rfl, by simp⟩
  | cons c l ih =>
    cases hc : K.find (Simplex.ofRange c d0).vertices with
    | some t =>
      refine Or.inl ⟨[], c, l, t, rfl, ?_, hc, by simp⟩
      simp [runUntil, probe, hc]
    | none =>
      have e : runUntil (probe K d0) none (c :: l) = runUntil (probe K d0) none l := by
        simp [runUntil, probe, hc]
      rw [e]
      rcases ih with ⟨pre, c', post, t, h1, h2, h3, h4⟩ | ⟨h1, h2⟩
      · refine Or.inl ⟨c :: pre, c', post, t, by rw [h1]; rfl, h2, h3, ?_⟩
        intro x hx
        rcases List.mem_cons.1 hx with rfl | hx
        · exact hc
        · exact h4 x hx
      · refine Or.inr ⟨h1, ?_⟩
        intro x hx
        rcases List.mem_cons.1 hx with rfl | hx
        · exact hc
        · exact h2 x hx

theorem ofRange_of_normal {c : List ℕ} (h : Normal c) (d0 : α) : (Simplex.ofRange c d0).vertices = c := by
  simp only [Simplex.ofRange]
  rw [sortDesc_of_normal h, uniq_of_normal h]

theorem find_none_iff {K : Complex α} {c : List ℕ} : K.find c = none ↔ ∀ t ∈ K, t.vertices ≠ c := by
  simp [Complex.find, List.find?_eq_none]

theorem lastIntersectionLoop_spec (K : Complex α) (d0 : α) (vs : List ℕ) (hv : Normal vs) (d : ℕ)
    (hd : d ≤ vs.length) :
    (lastIntersectionLoop K d0 d vs = none ∧
      ∀ u ∈ K, u.vertices.Sublist vs → u.vertices ≠ [] → d < u.vertices.length) ∨
    ∃ t ∈ K, lastIntersectionLoop K d0 d vs = some t ∧ t.vertices.Sublist vs ∧
      ∀ u ∈ K, u.vertices.Sublist vs → u.vertices.length ≤ d →
        u.vertices.length < t.vertices.length ∨
          (u.vertices.length = t.vertices.length ∧
            (u.vertices = t.vertices ∨ List.Lex (· > ·) t.vertices u.vertices)) := by
  induction d with
  | zero =>
    refine Or.inl ⟨rfl, fun u _ _ h => List.length_pos_iff.2 h⟩
  | succ d ih =>
    obtain ⟨l', h1, h2, h3⟩ := C59_for_each_combination (probe K d0) (d + 1) vs hd none
    obtain ⟨c1, c2, c3, _⟩ := C59_combinations (τ := ℕ) (· > ·) (d + 1) vs
    have hnorm : ∀ c ∈ (vs.sublistsLen (d + 1)).reverse, (Simplex.ofRange c d0).vertices = c := by
      intro c hc
      exact ofRange_of_normal (List.Pairwise.sublist ((c1 c).1 hc).1 hv) d0
    rcases probe_run K d0 (vs.sublistsLen (d + 1)).reverse with ⟨pre, c, post, t, e1, e2, e3, e4⟩ | ⟨e1, e2⟩
    · right
      rw [e2] at h1 h3
      have hcm : c ∈ (vs.sublistsLen (d + 1)).reverse := by rw [e1]; simp
      rw [hnorm c hcm] at e3
      obtain ⟨ht, htv⟩ := find_some e3
      have hcs := (c1 c).1 hcm
      refine ⟨t, ht, ?_, by rw [htv]; exact hcs.1, ?_⟩
      · rw [lastIntersectionLoop, h1]
      · intro u hu hus hul
        rw [htv, hcs.2]
        rcases Nat.lt_or_ge u.vertices.length (d + 1) with h | h
        · exact Or.inl h
        · right
          refine ⟨by omega, ?_⟩
          have hum : u.vertices ∈ (vs.sublistsLen (d + 1)).reverse := (c1 _).2 ⟨hus, by omega⟩
          have hlex := c3 hv
          rw [e1] at hum hlex
          rcases List.mem_append.1 hum with hp | hp
          · exfalso
            have := e4 _ hp
            rw [hnorm _ (by rw [e1]; exact hum), find_none_iff] at this
            exact this u hu rfl
          · rcases List.mem_cons.1 hp with hp | hp
            · exact Or.inl hp
            · right
              rw [List.pairwise_append, List.pairwise_cons] at hlex
              exact hlex.2.1.1 _ hp
    · rw [e1] at h1 h3
      have : lastIntersectionLoop K d0 (d + 1) vs = lastIntersectionLoop K d0 d vs := by
        rw [lastIntersectionLoop, h1, h3 rfl]
      rw [this]
      have hno : ∀ u ∈ K, u.vertices.Sublist vs → u.vertices.length ≠ d + 1 := by
        intro u hu hus hul
        have hum := (c1 u.vertices).2 ⟨hus, hul⟩
        have := e2 _ hum
        rw [hnorm _ hum, find_none_iff] at this
        exact this u hu rfl
      rcases ih (by omega) with ⟨g1, g2⟩ | ⟨t, g1, g2, g3, g4⟩
      · refine Or.inl ⟨g1, fun u hu hus hne => ?_⟩
        have := g2 u hu hus hne
        have := hno u hu hus
        omega
      · refine Or.inr ⟨t, g1, g2, g3, fun u hu hus hul => g4 u hu hus ?_⟩
        have := hno u hu hus
        omega

theorem lexLt_of_lex {a b : List ℕ} (hl : a.length = b.length) (h : List.Lex (· > ·) a b) :
    Simplex.lexLt b a = true := by
  induction h with
  | nil => simp at hl
  | cons _ ih =>
    simp only [Simplex.lexLt, lt_irrefl, if_false]
    exact ih (by simpa using hl)
  | rel h => simp [Simplex.lexLt, h]

/-- C47. `lastLexicographicalIntersection(K, s)` is empty if and only if no face of `s` (including `s` itself) is stored
in `K`; otherwise it is a stored face of `s` of maximal size, the largest one in the order of simplices among those of
the same size. -/
theorem C47_last_intersection (K : Complex α) (hK : WF K) (s : Simplex α) (hs : Normal s.vertices) :
    (lastIntersection K s = none ↔ ∀ t ∈ K, ¬ t.vset ⊆ s.vset) ∧
      ∀ t, lastIntersection K s = some t → t ∈ K ∧ t.vset ⊆ s.vset ∧
        ∀ u ∈ K, u.vset ⊆ s.vset → #u.vset ≤ #t.vset ∧
          (#u.vset = #t.vset → u = t ∨ u.lt t = true) := by
  have hsub : ∀ u ∈ K, (u.vertices.Sublist s.vertices ↔ u.vset ⊆ s.vset) := by
    intro u hu
    constructor
    · intro h x hx
      exact List.mem_toFinset.2 (h.subset (List.mem_toFinset.1 hx))
    · intro h
      exact Normal.sublist_of_subset (hK.normal u hu) hs
        h
  have hlen : ∀ u ∈ K, u.vertices.length = #u.vset := fun u hu => (hK.normal u hu).length_eq
  have hle : ∀ u ∈ K, u.vset ⊆ s.vset → u.vertices.length ≤ s.vertices.length := by
    intro u hu h
    exact ((hsub u hu).2 h).length_le
  rcases lastIntersectionLoop_spec K s.data s.vertices hs s.vertices.length le_rfl with
    ⟨h1, h2⟩ | ⟨t, ht, h1, h2, h3⟩
  · have h1' : lastIntersection K s = none := h1
    rw [h1']
    refine ⟨⟨fun _ t ht hts => ?_, fun _ => rfl⟩, by simp⟩
    have := h2 t ht ((hsub t ht).2 hts) (hK.nonempty t ht)
    have := hle t ht hts
    omega
  · have h1' : lastIntersection K s = some t := h1
    rw [h1']
    refine ⟨⟨fun h => by simp at h, fun h => absurd ((hsub t ht).1 h2) (h t ht)⟩, ?_⟩
    rintro t' ⟨⟩
    refine ⟨ht, (hsub t ht).1 h2, fun u hu hus => ?_⟩
    rw [← hlen u hu, ← hlen t ht]
    rcases h3 u hu ((hsub u hu).2 hus) (hle u hu hus) with h | ⟨h, h'⟩
    · exact ⟨h.le, fun e => by omega⟩
    · refine ⟨h.le, fun _ => ?_⟩
      rcases h' with h' | h'
      · exact Or.inl (hK.eq_of_vertices hu ht h')
      · exact Or.inr (lexLt_of_lex h.symm h')

/-! ### Allowable simplices -/

theorem perv_start (p : Perv) : p.start = firstCodim p := by cases p <;> rfl

theorem perv_at (p : Perv) (k : ℕ) (hk : firstCodim p ≤ k) : p.at k = some (pervValue p k) := by
  cases p with
  | general vs =>
    simp only [firstCodim] at hk
    simp only [Perv.at, perversityAt, pervValue]
    rw [List.getD_eq_getElem?_getD]
    split
    · rw [if_neg (by omega), List.getElem?_eq_getElem (by omega)]; rfl
    · rw [List.getElem?_eq_none (by omega)]; rfl
  | gm vs =>
    simp only [firstCodim] at hk
    simp only [Perv.at, perversityGMAt, pervValue]
    rw [List.getD_eq_getElem?_getD]
    split
    · rw [if_neg (by omega), List.getElem?_eq_getElem (by omega)]; rfl
    · rw [List.getElem?_eq_none (by omega)]; rfl

theorem allowed_spec (X : List (Complex α)) (p : Perv) (d : ℕ) (hX : ∀ x ∈ X, WF x) (hl : d ≤ X.length)
    (s : Simplex α) (hs : Normal s.vertices) (hne : s.vertices ≠ []) (ks : List ℕ)
    (hk : ∀ k ∈ ks, firstCodim p ≤ k ∧ k ≤ d) :
    ∃ b, allowed X p d s ks = some b ∧ (b = true ↔ ∀ k ∈ ks, ∀ v x, p.at k = some v → X[d - k]? = some x →
      ∀ τ ∈ x, τ.vset ⊆ s.vset → (#τ.vset : ℤ) - 1 ≤ (#s.vset : ℤ) - 1 - k + v) := by
  have hdim : ∀ t : Simplex α, Normal t.vertices → t.vertices ≠ [] → (Complex.dim t : ℤ) = (#t.vset : ℤ) - 1 := by
    intro t hn hne
    have h1 : t.vertices.length = #t.vset := hn.length_eq
    have h2 := List.length_pos_iff.2 hne
    unfold Complex.dim
    omega
  induction ks with
  | nil => exact ⟨true, rfl, by simp⟩
  | cons k ks ih =>
    obtain ⟨b, hb, hb'⟩ := ih fun k' h => hk k' (List.mem_cons_of_mem _ h)
    obtain ⟨hk1, hk2⟩ := hk k List.mem_cons_self
    have hk3 : 1 ≤ firstCodim p := by cases p <;> simp [firstCodim]
    have hv := perv_at p k hk1
    set v := pervValue p k with hvdef
    have hi : d - k < X.length := by omega
    set x := X[d - k] with hx
    have hxe : X[d - k]? = some x := List.getElem?_eq_getElem hi
    have hxw : WF x := hX x (List.getElem_mem hi)
    obtain ⟨g1, g2⟩ := C47_last_intersection x hxw s hs
    have hreduce : ∀ b' : Bool, (b' = true ↔ (∀ τ ∈ x, τ.vset ⊆ s.vset →
        (#τ.vset : ℤ) - 1 ≤ (#s.vset : ℤ) - 1 - k + v) ∧ b = true) →
        (b' = true ↔ ∀ k' ∈ k :: ks, ∀ v x, p.at k' = some v → X[d - k']? = some x →
      ∀ τ ∈ x, τ.vset ⊆ s.vset → (#τ.vset : ℤ) - 1 ≤ (#s.vset : ℤ) - 1 - k' + v) := by
      intro b' h
      rw [h, hb']
      constructor
      · rintro ⟨h1, h2⟩ k' hk' v' x' hv' hx'
        rcases List.mem_cons.1 hk' with rfl | hk'
        · rw [hv] at hv'; rw [hxe] at hx'
          rw [← Option.some.inj hx', ← Option.some.inj hv']
          exact h1
        · exact h2 k' hk' v' x' hv' hx'
      · intro h
        exact ⟨h k List.mem_cons_self v x hv hxe, fun k' hk' => h k' (List.mem_cons_of_mem _ hk')⟩
    have hcard : ∀ τ : Simplex α, τ.vset ⊆ s.vset → #τ.vset ≤ #s.vset := fun τ h => card_le_card h
    by_cases hge : v - (k : ℤ) ≥ 0
    · refine ⟨b, by simp only [allowed, hv, if_pos hge, hb], hreduce b ?_⟩
      refine ⟨fun h => ⟨fun τ _ hτ => ?_, h⟩, fun h => h.2⟩
      have := hcard τ hτ
      omega
    · cases hli : lastIntersection x s with
      | none =>
        refine ⟨b, by simp only [allowed, hv, if_neg hge, hxe, hli, hb], hreduce b ?_⟩
        refine ⟨fun h => ⟨fun τ hτ hτs => absurd hτs (g1.1 hli τ hτ), h⟩, fun h => h.2⟩
      | some t =>
        obtain ⟨f1, f2, f3⟩ := g2 t hli
        have e1 := hdim t (hxw.normal t f1) (hxw.nonempty t f1)
        have e2 := hdim s hs hne
        by_cases hc : (Complex.dim t : ℤ) ≤ (Complex.dim s : ℤ) - (k : ℤ) + v
        · refine ⟨b, by simp only [allowed, hv, if_neg hge, hxe, hli, if_pos hc, hb], hreduce b ?_⟩
          refine ⟨fun h => ⟨fun τ hτ hτs => ?_, h⟩, fun h => h.2⟩
          have := (f3 τ hτ hτs).1
          omega
        · refine ⟨false, by simp only [allowed, hv, if_neg hge, hxe, hli, if_neg hc], hreduce false ?_⟩
          refine ⟨fun h => by simp at h, fun h => ?_⟩
          have := h.1 t f1 f2
          omega

theorem phi_spec (X : List (Complex α)) (p : Perv) (d : ℕ) (hX : ∀ x ∈ X, WF x) (hl : d ≤ X.length)
    (s : Simplex α) (hs : Normal s.vertices) (hne : s.vertices ≠ []) :
    ∃ b, phi X p d s = some b ∧ (b = true ↔ Allowable X p d s.vset) := by
  obtain ⟨b, h1, h2⟩ := allowed_spec X p d hX hl s hs hne (List.range' p.start (d + 1 - p.start)) (by
    intro k hk
    rw [List.mem_range'_1, perv_start] at hk
    omega)
  refine ⟨b, h1, h2.trans ?_⟩
  simp only [List.mem_range'_1, perv_start]
  constructor
  · intro h k x k1 k2
    exact h k (by omega) _ x (perv_at p k k1)
  · intro h k hk v x hv
    rw [perv_at p k hk.1] at hv
    cases hv
    exact h k x (by omega) (by omega)

theorem lookup_vertices {K : Complex α} (hK : (K.map (·.vertices)).Nodup) (b : Simplex α → Bool) {s : Simplex α}
    (hs : s ∈ K) : (K.map fun s => (s.vertices, b s)).lookup s.vertices = some (b s) := by
  induction K with
  | nil => simp at hs
  | cons t K ih =>
    rw [List.map_cons, List.nodup_cons] at hK
    rcases List.mem_cons.1 hs with rfl | hs
    · simp
    · have hne : s.vertices ≠ t.vertices := by
        intro he
        exact hK.1 (he ▸ List.mem_map.2 ⟨s, hs, rfl⟩)
      simp only [List.map_cons, List.lookup]
      rw [show (s.vertices == t.vertices) = false by simpa using hne]
      exact ih hK.2 hs

theorem mapM_all_some {β γ : Type} (f : β → Option γ) (g : β → γ) (l : List β) (h : ∀ x ∈ l, f x = some (g x)) :
    l.mapM f = some (l.map g) := by
  induction l with
  | nil => rfl
  | cons x l ih =>
    rw [List.mapM_cons, h x List.mem_cons_self, ih fun y hy => h y (List.mem_cons_of_mem _ hy)]
    rfl

theorem foldl_max_eq (l : List ℕ) (a : ℕ) :
    a ≤ l.foldl max a ∧ (∀ x ∈ l, x ≤ l.foldl max a) ∧ (l.foldl max a = a ∨ l.foldl max a ∈ l) := by
  induction l generalizing a with
  | nil => simp
  | cons x l ih =>
    obtain ⟨h1, h2, h3⟩ := ih (max a x)
    simp only [List.foldl_cons]
    refine ⟨le_trans (le_max_left _ _) h1, ?_, ?_⟩
    · intro y hy
      rcases List.mem_cons.1 hy with rfl | hy
      · exact le_trans (le_max_right _ _) h1
      · exact h2 y hy
    · rcases h3 with h3 | h3
      · rw [h3]
        rcases max_choice a x with h | h
        · exact Or.inl h
        · exact Or.inr (by rw [h]; exact List.mem_cons_self)
      · exact Or.inr (List.mem_cons_of_mem _ h3)

theorem map_vertices_eq {C : Complex α} (hC : WF C) : C.map (·.vertices) = (C.map Simplex.vset).map vlist := by
  rw [List.map_map]
  apply List.map_congr_left
  intro s hs
  exact (vlist_of_normal (hC.normal s hs)).symm

theorem consistent_spec {K : Complex α} {X : List (Complex α)} {p : Perv} {d : ℕ}
    (hd : K.dimension = some d) (hX : Stratification X p d) : consistent K X p = some d := by
  have horig : originalOK X p = true := by
    cases p with
    | general vs => rfl
    | gm vs =>
      obtain ⟨Y, A, B, C, hXe, hAB⟩ := hX.original ⟨vs, rfl⟩
      have hr : X.reverse = C :: B :: A :: Y.reverse := by rw [hXe]; simp
      simp only [originalOK, hr, sameComplex, beq_iff_eq]
      have hA := (hX.wf A (by rw [hXe]; simp)).1
      have hB := (hX.wf B (by rw [hXe]; simp)).1
      rw [map_vertices_eq hA, map_vertices_eq hB, hAB]
  choose! g hg using fun (x : Complex α) (hx : x ∈ X) => Option.isSome_iff_exists.1
    (Option.isSome_iff_ne_none.2 fun h => (hX.wf x hx).2 ((C22_dimension x (hX.wf x hx).1).1.1 h))
  have hm := mapM_all_some Complex.dimension g X hg
  unfold consistent
  simp only [horig, if_true, hd, hm]
  have hgd : ∀ x ∈ X, (∃ s ∈ x, #s.vset = g x + 1) ∧ ∀ s ∈ x, #s.vset ≤ g x + 1 := fun x hx =>
    ((C22_dimension x (hX.wf x hx).1).2.1 (g x)).1 (hg x hx)
  obtain ⟨h1, h2, h3⟩ := foldl_max_eq (X.map g) 0
  have hub : ∀ y ∈ X.map g, y ≤ d := by
    intro y hy
    obtain ⟨x, hx, rfl⟩ := List.mem_map.1 hy
    obtain ⟨⟨s, hs, e⟩, _⟩ := hgd x hx
    have := hX.le x hx s hs
    omega
  have hfin : (X.map g).foldl max 0 = d := by
    apply le_antisymm
    · rcases h3 with h3 | h3
      · omega
      · exact hub _ h3
    · rcases hX.ex with h | ⟨x, hx, s, hs, e⟩
      · omega
      · have := (hgd x hx).2 s hs
        have := h2 (g x) (List.mem_map.2 ⟨x, hx, rfl⟩)
        omega
  rw [if_pos hfin]

theorem facets_lt_of_order {K : Complex α} {i j : ℕ} (hi : i < K.length) (hj : j < K.length)
    (ho : j < i → ¬ (K[i]).vset ⊂ (K[j]).vset) (h : i ∈ facets K j) : i < j := by
  simp only [facets, mem_filter, mem_range] at h
  obtain ⟨_, h2, h3⟩ := h
  by_contra hge
  have hne : j ≠ i := by rintro rfl; omega
  rw [vsetAt_some (List.getElem?_eq_getElem hi), vsetAt_some (List.getElem?_eq_getElem hj)] at h2 h3
  exact ho (by omega) ⟨h2, fun h => by have := card_le_card h; omega⟩

theorem truncated_of_split {P Q : Complex α} (hL : WF (P ++ Q)) (hc : FaceClosed (P ++ Q))
    {r : Rep} (hr : ∀ j, cols r j = if j < P.length then facets (P ++ Q) j else ∅) :
    Truncated r (facets (P ++ Q)) P.length where
  cols := hr
  diff := C11_boundary_of_boundary _ hL hc

theorem ordered_of_split {P Q : Complex α} (ho : FacesFirst P) : Ordered (facets (P ++ Q)) P.length := by
  intro j hj i hi his
  apply facets_lt_of_order (by simp; omega) (by simp; omega) _ hi
  intro hji
  rw [List.getElem_append_left his, List.getElem_append_left hj]
  exact List.pairwise_iff_getElem.1 ho j i hj his hji

theorem isIntersectionPairing_of {P Q : Complex α} {r : Rep} (ht : Truncated r (facets (P ++ Q)) P.length)
    (h3 : r.numColumns = (P ++ Q).length) {p : List (ℕ × ℕ)} (hp : IsPairingOf r true P.length p) :
    IsIntersectionPairing (P ++ Q) P.length p := by
  refine ⟨hp.1, hp.2.1, fun i j => ?_⟩
  rw [hp.2.2, h3]
  have hlt : ¬ (P ++ Q).length < P.length := by simp
  have e : ∀ i j, PersPair (cols r) i j ↔ j < P.length ∧ PersPair (facets (P ++ Q)) i j := fun i j => ht.persPair
  constructor
  · rintro ⟨h, hi⟩
    have hi : i < P.length := hi.resolve_left hlt
    refine ⟨hi, h.imp (e i j).1 ?_⟩
    rintro ⟨g1, g2, -⟩
    refine ⟨g1, fun i' hp' => (g2.2 i').2 ((e i' i).2 ⟨hi, hp'⟩), fun j' hj' hp' => (g2.2 j').1 ((e i j').2 ⟨hj', hp'⟩)⟩
  · rintro ⟨hi, h⟩
    refine ⟨h.imp (e i j).2 ?_, Or.inr hi⟩
    rintro ⟨g1, g2, g3⟩
    refine ⟨g1, ⟨by simp; omega, fun k => ⟨fun hp' => ?_, fun hp' => ?_⟩⟩, Or.inl rfl⟩
    · obtain ⟨a1, a2⟩ := (e i k).1 hp'
      exact g3 k a1 a2
    · exact g2 k ((e k i).1 hp').2

theorem graded_of_facets {L : Complex α} (hL : WF L) {r : Rep} (h5 : ∀ j, r.dims.getD j 0 = dimAt L j)
    (h4 : ∀ j, cols r j ⊆ facets L j) : Graded r := by
  intro j i hi
  have hi := h4 j hi
  simp only [facets, mem_filter, mem_range] at hi
  have := (vsetAt_nonempty hL hi.1).card_pos
  rw [h5, h5, dimAt, dimAt]; omega

/-- The pairing of the dualized matrix for simplices in any order. -/
theorem pairing_split_dualized {P Q : Complex α} (hL : WF (P ++ Q)) (hc : FaceClosed (P ++ Q))
    (hn : (P ++ Q).length ≤ idxMax) :
    ∃ p, IsIntersectionPairing (P ++ Q) P.length p ∧ ∀ (a : Algorithm) (k : Kind), ∃ M M',
      makeBoundaryMatrix k (P ++ Q) P.length = some M ∧ M.dualize = some M' ∧
      calculatePersistencePairing a k M' true P.length = some p := by
  obtain ⟨r, h1, h2, h3, h4, h5⟩ := C11_boundary_matrix .vector (P ++ Q) hL hc P.length
  have hall : ∀ k, makeBoundaryMatrix k (P ++ Q) P.length = some ⟨r, false⟩ := by
    intro k
    rw [← h1, makeBoundaryMatrix_eq k hL hc, makeBoundaryMatrix_eq .vector hL hc]
  have hg : Graded r := by
    refine graded_of_facets hL h5 fun j => ?_
    rw [h4]
    split
    · exact Subset.refl _
    · exact empty_subset _
  by_cases hP : P = []
  · have h4' : ∀ j, cols r j = if j < (P ++ Q).length then facets (P ++ Q) j else ∅ := by
      intro j
      rw [h4]
      subst hP
      simp only [List.length_nil, true_or, if_true]
      split
      · rfl
      · rename_i hj
        unfold facets
        rw [Finset.filter_eq_empty_iff]
        rintro i - ⟨-, h⟩
        have hnone : (([] : Complex α) ++ Q)[j]? = none := List.getElem?_eq_none (Nat.le_of_not_lt hj)
        have he : vsetAt (([] : Complex α) ++ Q) j = ∅ := by unfold vsetAt; rw [hnone]
        rw [he] at h
        simp at h
    have ht : Truncated r (facets (P ++ Q)) (P ++ Q).length := ⟨h4', C11_boundary_of_boundary _ hL hc⟩
    obtain ⟨p, hp, M, m1, m2⟩ := ht.pairing_dualized h2 hg (m := P.length) (by rw [h3]; simp) (by rw [h3]; exact hn)
    have hlt : ¬ r.numColumns < P.length := by rw [h3]; simp
    refine ⟨p, ⟨hp.1, hp.2.1, fun i j => ?_⟩, fun a k => ⟨_, M, hall k, m1, m2 a k⟩⟩
    rw [hp.2.2]
    subst hP
    simp
  · have hpos : 0 < P.length := List.length_pos_iff.2 hP
    have h4' : ∀ j, cols r j = if j < P.length then facets (P ++ Q) j else ∅ := by
      intro j; rw [h4]; congr 1
      simp only [eq_iff_iff, or_iff_right_iff_imp]; omega
    have ht := truncated_of_split hL hc h4'
    obtain ⟨p, hp, M, m1, m2⟩ := ht.pairing_dualized h2 hg (m := P.length) (by rw [h3]; simp) (by rw [h3]; exact hn)
    exact ⟨p, isIntersectionPairing_of ht h3 hp, fun a k => ⟨_, M, hall k, m1, m2 a k⟩⟩

theorem pairing_split {P Q : Complex α} (hL : WF (P ++ Q)) (hc : FaceClosed (P ++ Q)) (ho : FacesFirst P)
    (hQ : P = [] → FacesFirst Q) (hn : (P ++ Q).length ≤ idxMax) :
    ∃ p, IsIntersectionPairing (P ++ Q) P.length p ∧ ∀ (a : Algorithm) (k : Kind) (dual : Bool), ∃ M M',
      makeBoundaryMatrix k (P ++ Q) P.length = some M ∧ (if dual then M.dualize else some M) = some M' ∧
      calculatePersistencePairing a k M' true P.length = some p := by
  by_cases hP : P = []
  · subst hP
    simp only [List.nil_append, List.length_nil] at *
    obtain ⟨r, h1, h2, h3, h4, h5⟩ := C11_is_boundary_matrix .vector Q ⟨hL, hc, hQ trivial⟩ hn
    have hall : ∀ k, makeBoundaryMatrix k Q = some ⟨r, false⟩ := by
      intro k
      rw [← h1, makeBoundaryMatrix_eq k hL hc, makeBoundaryMatrix_eq .vector hL hc]
    obtain ⟨p, g1, g2⟩ := C05_pairing_all_algorithms .standard .vector r h2 true 0
    refine ⟨p, ⟨g2.1, g2.2.1, fun i j => ?_⟩, fun a k dual => ?_⟩
    · rw [g2.2.2]; simp
    · cases dual with
      | false =>
        obtain ⟨q, q1, q2⟩ := C05_pairing_all_algorithms a k r h2 true 0
        have : q = p := isPairingOf_unique q2 g2
        subst this
        exact ⟨_, _, hall k, rfl, q1⟩
      | true =>
        obtain ⟨M', q, m1, m2, m3⟩ := C08_dual_pairing a .standard k .vector r h2 true 0
        rw [g1] at m3; cases m3
        exact ⟨_, M', hall k, m1, m2⟩
  · have hpos : 0 < P.length := List.length_pos_iff.2 hP
    obtain ⟨r, h1, h2, h3, h4, h5⟩ := C11_boundary_matrix .vector (P ++ Q) hL hc P.length
    have hall : ∀ k, makeBoundaryMatrix k (P ++ Q) P.length = some ⟨r, false⟩ := by
      intro k
      rw [← h1, makeBoundaryMatrix_eq k hL hc, makeBoundaryMatrix_eq .vector hL hc]
    have h4' : ∀ j, cols r j = if j < P.length then facets (P ++ Q) j else ∅ := by
      intro j; rw [h4]; congr 1
      simp only [eq_iff_iff, or_iff_right_iff_imp]; omega
    have ht := truncated_of_split hL hc h4'
    have hg : Graded r := by
      intro j i hi
      rw [h4'] at hi
      split at hi
      · simp only [facets, mem_filter, mem_range] at hi
        have := (vsetAt_nonempty hL hi.1).card_pos
        rw [h5, h5, dimAt, dimAt]; omega
      · simp at hi
    obtain ⟨p, hp, hcalc⟩ := ht.pairing (ordered_of_split ho) h2 hg (by rw [h3]; simp) (by rw [h3]; exact hn)
    refine ⟨p, isIntersectionPairing_of ht h3 hp, fun a k dual => ?_⟩
    obtain ⟨M', m1, m2⟩ := hcalc a k dual
    exact ⟨_, M', hall k, m1, m2⟩

open Classical in
/-- The steps of `calculateIntersectionHomology` around the calculation of the pairing. -/
theorem intersection_homology_of (inf : α) (K : Complex α) (hw : WF K) (hcl : FaceClosed K)
    (d : ℕ) (hd : K.dimension = some d) (X : List (Complex α)) (pv : Perv) (hX : Stratification X pv d)
    (duals : Bool → Prop)
    (hpair : ∀ P Q, P = K.filter (fun s => decide (Allowable X pv d s.vset)) →
      Q = K.filter (fun s => !decide (Allowable X pv d s.vset)) → WF (P ++ Q) → FaceClosed (P ++ Q) →
      ∃ p, IsIntersectionPairing (P ++ Q) P.length p ∧ ∀ (a : Algorithm) (k : Kind) (dual : Bool), duals dual → ∃ M M',
      makeBoundaryMatrix k (P ++ Q) P.length = some M ∧ (if dual then M.dualize else some M) = some M' ∧
      calculatePersistencePairing a k M' true P.length = some p) :
    ∃ P Q p Ds, P = K.filter (fun s => decide (Allowable X pv d s.vset)) ∧
      Q = K.filter (fun s => !decide (Allowable X pv d s.vset)) ∧
      IsIntersectionPairing (P ++ Q) P.length p ∧ IsDiagramsOf inf (P ++ Q) p Ds ∧
      ∀ a k dualize, duals dualize → calculateIntersectionHomology a k inf K X pv dualize = some Ds := by
  set b : Simplex α → Bool := fun s => decide (Allowable X pv d s.vset) with hb
  have hphi : ∀ s ∈ K, phi X pv d s = some (b s) := by
    intro s hs
    obtain ⟨c, h1, h2⟩ := phi_spec X pv d (fun x hx => (hX.wf x hx).1) hX.length s (hw.normal s hs)
      (hw.nonempty s hs)
    rw [h1]
    congr 1
    rw [Bool.eq_iff_iff, h2, hb]
    simp
  have hmap : phiMap X pv d K = some (K.map fun s => (s.vertices, b s)) :=
    mapM_all_some _ _ K fun s hs => by simp only [hphi s hs]
  have hpart := C47_partition K hw b (fun s => (K.map fun s => (s.vertices, b s)).lookup s.vertices)
    fun s hs => lookup_vertices hw.distinct b hs
  have hperm := filter_split_perm K b
  set P := K.filter b with hP
  set Q := K.filter (fun s => !b s) with hQ
  have hL : WF (P ++ Q) := hw.perm hperm
  have hc : FaceClosed (P ++ Q) := by
    intro s hs t ht hne
    obtain ⟨u, hu, he⟩ := hcl s (hperm.subset hs) t ht hne
    exact ⟨u, hperm.symm.subset hu, he⟩
  obtain ⟨p, h1, h2⟩ := hpair P Q hP hQ hL hc
  have hcr : ∀ ij ∈ p, ij.1 < (P ++ Q).length := by
    rintro ⟨i, j⟩ hij
    have := ((h1.2.2 i j).1 hij).1
    rw [List.length_append]
    change i < _
    omega
  obtain ⟨Ds, d1, d2⟩ := (C12_diagrams inf (P ++ Q) hL p).1 hcr
  refine ⟨P, Q, p, Ds, rfl, rfl, h1, d2, fun a k dualize hdl => ?_⟩
  obtain ⟨M, M', m1, m2, m3⟩ := h2 a k dualize hdl
  unfold calculateIntersectionHomology
  simp only [consistent_spec hd hX, hmap, hpart, m1, m2, m3, d1]

open Classical in
/-- C47. For a filtered complex `K` of dimension `d` with a stratification `X` and a perversity,
`calculateIntersectionHomology` succeeds with the same diagrams for every reduction algorithm, every column container and
with or without dualization.  They belong to the pairs of the boundary operator restricted to the allowable simplices,
which are moved to the front without changing their order. -/
theorem C47_intersection_homology (inf : α) (K : Complex α) (hK : IsFiltration K) (hn : K.length ≤ idxMax)
    (d : ℕ) (hd : K.dimension = some d) (X : List (Complex α)) (pv : Perv) (hX : Stratification X pv d) :
    ∃ P Q p Ds, P = K.filter (fun s => decide (Allowable X pv d s.vset)) ∧
      Q = K.filter (fun s => !decide (Allowable X pv d s.vset)) ∧
      IsIntersectionPairing (P ++ Q) P.length p ∧ IsDiagramsOf inf (P ++ Q) p Ds ∧
      ∀ a k dualize, calculateIntersectionHomology a k inf K X pv dualize = some Ds := by
  obtain ⟨P, Q, p, Ds, h1, h2, h3, h4, h5⟩ := intersection_homology_of inf K hK.wf hK.closed d hd X pv hX (fun _ => True) (by
    rintro P Q rfl rfl hL hc
    obtain ⟨p, g1, g2⟩ := pairing_split hL hc (List.Pairwise.sublist List.filter_sublist hK.order)
      (fun _ => List.Pairwise.sublist List.filter_sublist hK.order) (by rw [(filter_split_perm K _).length_eq]; exact hn)
    exact ⟨p, g1, fun a k dual _ => g2 a k dual⟩)
  exact ⟨P, Q, p, Ds, h1, h2, h3, h4, fun a k dualize => h5 a k dualize trivial⟩

open Classical in
/-- C47. With dualization, which is the default, the simplices need not be sorted: `calculateIntersectionHomology` succeeds
for every complex that contains the faces of its simplices, listed in any order, with the same diagrams for every reduction
algorithm and every column container. -/
theorem C47_any_order (inf : α) (K : Complex α) (hK : WF K) (hc : FaceClosed K) (hn : K.length ≤ idxMax)
    (d : ℕ) (hd : K.dimension = some d) (X : List (Complex α)) (pv : Perv) (hX : Stratification X pv d) :
    ∃ P Q p Ds, P = K.filter (fun s => decide (Allowable X pv d s.vset)) ∧
      Q = K.filter (fun s => !decide (Allowable X pv d s.vset)) ∧
      IsIntersectionPairing (P ++ Q) P.length p ∧ IsDiagramsOf inf (P ++ Q) p Ds ∧
      ∀ a k, calculateIntersectionHomology a k inf K X pv = some Ds := by
  obtain ⟨P, Q, p, Ds, h1, h2, h3, h4, h5⟩ := intersection_homology_of inf K hK hc d hd X pv hX (fun b => b = true) (by
    rintro P Q rfl rfl hL hc
    obtain ⟨p, g1, g2⟩ := pairing_split_dualized hL hc (by rw [(filter_split_perm K _).length_eq]; exact hn)
    refine ⟨p, g1, ?_⟩
    rintro a k dual rfl
    exact g2 a k)
  exact ⟨P, Q, p, Ds, h1, h2, h3, h4, fun a k => h5 a k true rfl⟩

theorem persPair_right_unique {D : ℕ → Finset ℕ} {i j j' : ℕ} (h : PersPair D i j) (h' : PersPair D i j') :
    j = j' := by
  rcases Nat.lt_trichotomy j j' with hlt | he | hlt
  · obtain ⟨⟨c, hc, hm⟩, _⟩ := h
    exact absurd ⟨c, fun x hx => by have := mem_range.1 (hc hx); rw [mem_range]; omega, hm⟩ h'.2
  · exact he
  · obtain ⟨⟨c, hc, hm⟩, _⟩ := h'
    exact absurd ⟨c, fun x hx => by have := mem_range.1 (hc hx); rw [mem_range]; omega, hm⟩ h.2

theorem betti_split (P Q : Complex α) (hL : WF (P ++ Q)) (hc : FaceClosed (P ++ Q)) (hn : (P ++ Q).length ≤ idxMax) (p : List (ℕ × ℕ)) (hp : IsIntersectionPairing (P ++ Q) P.length p)
    (t : ℕ) (ht' : t = P.length ∨ t ≤ P.length ∧ FacesFirst P) (d : ℕ) :
    #{c ∈ chainsBelow (P ++ Q) t d | chainBd (facets (P ++ Q)) c = ∅} =
      2 ^ #{e ∈ p.toFinset | e.1 < t ∧ t ≤ e.2 ∧ dimAt (P ++ Q) e.1 = d} *
        #(({c ∈ chainsBelow (P ++ Q) t (d + 1) |
          chainBd (facets (P ++ Q)) c ⊆ range P.length} : Finset (Finset ℕ)).image (chainBd (facets (P ++ Q)))) := by
  have ht : t ≤ P.length := by omega
  by_cases hP : P = []
  · subst hP
    have ht0 : t = 0 := by simpa using ht
    subst ht0
    have e : chainBd (facets ([] ++ Q)) ∅ = ∅ := by simp [chainBd]
    have e0 : ∀ d, chainsBelow ([] ++ Q) 0 d = {∅} := by intro d; simp [chainsBelow]
    rw [e0, e0, filter_singleton, filter_singleton, if_pos e, if_pos (by rw [e]; simp)]
    simp
  have hpos : 0 < P.length := List.length_pos_iff.2 hP
  obtain ⟨r, -, h2, h3, h4, h5⟩ := C11_boundary_matrix .vector (P ++ Q) hL hc P.length
  have h4' : ∀ j, cols r j = if j < P.length then facets (P ++ Q) j else ∅ := by
    intro j; rw [h4]; congr 1
    simp only [eq_iff_iff, or_iff_right_iff_imp]; omega
  have htr := truncated_of_split hL hc h4'
  have hδ : ∀ j, ∀ i ∈ facets (P ++ Q) j, r.dims.getD i 0 + 1 = r.dims.getD j 0 := by
    intro j i hi
    simp only [facets, mem_filter, mem_range] at hi
    have := (vsetAt_nonempty hL hi.1).card_pos
    rw [h5, h5, dimAt, dimAt]; omega
  have hg : Graded r := by
    intro j i hi
    rw [h4'] at hi
    split at hi
    · exact hδ j i hi
    · simp at hi
  have hD : ∀ k, ∀ i ∈ facets (P ++ Q) k, i < (P ++ Q).length := by
    intro k i hi
    simp only [facets, mem_filter, mem_range] at hi
    exact hi.1
  have hb := htr.betti h2 hg hδ hD (by simp) (ht'.imp_right fun h => ⟨h.1, ordered_of_split h.2⟩) d
  simp only [h5] at hb
  unfold chainsBelow
  rw [hb]
  congr 2
  have hlen : P.length ≤ (P ++ Q).length := by simp
  have hex : ∀ u i j, j < P.length → u < P.length → PersPair (facets (P ++ Q)) u j →
      ¬ PersPair (facets (P ++ Q)) i u := by
    intro u i j hj hu h1 h2'
    exact persPair_exclusive_of_clearOK h2 htr.clearOK (htr.persPair.2 ⟨hj, h1⟩) (htr.persPair.2 ⟨hu, h2'⟩)
  symm
  apply Finset.card_bij (fun (e : ℕ × ℕ) _ => e.1)
  · rintro ⟨u, j⟩ he
    simp only [mem_filter, List.mem_toFinset, hp.2.2, mem_range] at he ⊢
    obtain ⟨⟨h6, h7⟩, h8, h9, h10⟩ := he
    refine ⟨⟨h8, h10⟩, ?_⟩
    rcases h7 with ⟨h7, h11⟩ | ⟨h7, h11, h12⟩
    · refine ⟨fun i => hex u i j h7 h6 h11, fun j' hj' hp' => ?_⟩
      have := persPair_right_unique h11 hp'
      omega
    · exact ⟨h11, fun j' hj' => h12 j' (by omega)⟩
  · rintro ⟨u, j⟩ he ⟨u', j'⟩ he' (rfl : u = u')
    simp only [mem_filter, List.mem_toFinset, hp.2.2] at he he'
    obtain ⟨⟨_, h7⟩, _⟩ := he
    obtain ⟨⟨_, h7'⟩, _⟩ := he'
    rcases h7 with ⟨h7, h11⟩ | ⟨h7, h11, h12⟩
    · rcases h7' with ⟨h7', h11'⟩ | ⟨h7', h11', h12'⟩
      · rw [persPair_right_unique h11 h11']
      · exact absurd h11 (h12' j h7)
    · rcases h7' with ⟨h7', h11'⟩ | ⟨h7', h11', h12'⟩
      · exact absurd h11' (h12 j' h7')
      · rw [h7, h7']
  · intro u hu
    simp only [mem_filter, mem_range] at hu
    obtain ⟨⟨hu1, hu2⟩, hu3, hu4⟩ := hu
    by_cases hj : ∃ j < P.length, PersPair (facets (P ++ Q)) u j
    · obtain ⟨j, hj, hp'⟩ := hj
      refine ⟨(u, j), ?_, rfl⟩
      simp only [mem_filter, List.mem_toFinset, hp.2.2]
      refine ⟨⟨by omega, Or.inl ⟨hj, hp'⟩⟩, hu1, ?_, hu2⟩
      by_contra hlt
      exact hu4 j (by omega) hp'
    · refine ⟨(u, idxMax), ?_, rfl⟩
      simp only [mem_filter, List.mem_toFinset, hp.2.2]
      refine ⟨⟨by omega, Or.inr ⟨trivial, hu3, fun j hj1 hj2 => hj ⟨j, hj1, hj2⟩⟩⟩, hu1, by omega, hu2⟩

/-- C47. The pairs compute persistent intersection homology: let the allowable simplices `P` be followed by the other ones
`Q`.  For each `t`, the number of chains of `d`-simplices without boundary among the first `t` allowable simplices is
`2 ^ β` times the number of boundaries of chains of allowable `(d+1)`-simplices whose boundary
consists of allowable simplices, where `β` is the number of pairs that are created before `t` and not yet
destroyed at `t`. -/
theorem C47_betti (P Q : Complex α) (hL : WF (P ++ Q)) (hc : FaceClosed (P ++ Q)) (ho : FacesFirst P)
    (hn : (P ++ Q).length ≤ idxMax) (p : List (ℕ × ℕ)) (hp : IsIntersectionPairing (P ++ Q) P.length p)
    (t : ℕ) (ht : t ≤ P.length) (d : ℕ) :
    #{c ∈ chainsBelow (P ++ Q) t d | chainBd (facets (P ++ Q)) c = ∅} =
      2 ^ #{e ∈ p.toFinset | e.1 < t ∧ t ≤ e.2 ∧ dimAt (P ++ Q) e.1 = d} *
        #(({c ∈ chainsBelow (P ++ Q) t (d + 1) |
          chainBd (facets (P ++ Q)) c ⊆ range P.length} : Finset (Finset ℕ)).image (chainBd (facets (P ++ Q)))) := by
  exact betti_split P Q hL hc hn p hp t (Or.inr ⟨ht, ho⟩) d

/-- C47. Without a condition on the order of the simplices, the pairs with infinite persistence still give the Betti numbers of
intersection homology. -/
theorem C47_betti_any_order (P Q : Complex α) (hL : WF (P ++ Q)) (hc : FaceClosed (P ++ Q))
    (hn : (P ++ Q).length ≤ idxMax) (p : List (ℕ × ℕ)) (hp : IsIntersectionPairing (P ++ Q) P.length p) (d : ℕ) :
    #{c ∈ chainsBelow (P ++ Q) P.length d | chainBd (facets (P ++ Q)) c = ∅} =
      2 ^ (p.countP fun e => e.2 == idxMax && dimAt (P ++ Q) e.1 == d) *
        #(({c ∈ chainsBelow (P ++ Q) P.length (d + 1) |
          chainBd (facets (P ++ Q)) c ⊆ range P.length} : Finset (Finset ℕ)).image (chainBd (facets (P ++ Q)))) := by
  rw [betti_split P Q hL hc hn p hp P.length (Or.inl rfl) d]
  congr 2
  rw [List.countP_eq_length_filter, ← List.toFinset_card_of_nodup (hp.1.filter _)]
  congr 1
  ext ⟨i, j⟩
  simp only [mem_filter, List.mem_toFinset, List.mem_filter, Bool.and_eq_true, beq_iff_eq]
  constructor
  · rintro ⟨h1, h2, h3, h4⟩
    refine ⟨h1, ?_, h4⟩
    obtain ⟨_, ⟨h5, _⟩ | ⟨h5, _⟩⟩ := (hp.2.2 i j).1 h1
    · omega
    · exact h5
  · rintro ⟨h1, h2, h4⟩
    have := ((hp.2.2 i j).1 h1).1
    simp only [List.length_append] at hn
    exact ⟨h1, this, by omega, h4⟩

/-- C47. The consistency checks: an exception is thrown if the complex or a stratum is empty, if the largest dimension of
the strata is not that of the complex, or if a perversity of Goresky and MacPherson comes with less than three strata or
with different strata before the last one. -/
theorem C47_inconsistent (a : Algorithm) (k : Kind) (inf : α) (K : Complex α) (X : List (Complex α)) (pv : Perv)
    (dualize : Bool) (hK : WF K) (hX : ∀ x ∈ X, WF x)
    (h : K = [] ∨ [] ∈ X ∨ (∃ s ∈ K, 1 < #s.vset ∧ ∀ x ∈ X, ∀ t ∈ x, #t.vset < #s.vset) ∨
      (∃ x ∈ X, ∃ t ∈ x, ∀ s ∈ K, #s.vset < #t.vset) ∨
      ((∃ vs, pv = .gm vs) ∧ (X.length ≤ 2 ∨ ∃ Y A B C, X = Y ++ [A, B, C] ∧ A.map Simplex.vset ≠ B.map Simplex.vset))) :
    calculateIntersectionHomology a k inf K X pv dualize = none := by
  have : consistent K X pv = none := by
    by_contra hne
    obtain ⟨d, hd⟩ := Option.ne_none_iff_exists'.1 hne
    unfold consistent at hd
    split at hd
    case isFalse => cases hd
    rename_i horig
    split at hd
    case h_2 => cases hd
    rename_i e ds he hds
    split at hd
    case isFalse => cases hd
    rename_i hmax
    have hKd := ((C22_dimension K hK).2.1 e).1 he
    have hmem : ∀ (Z : List (Complex α)) (es : List ℕ), Z.mapM Complex.dimension = some es →
        (∀ x ∈ Z, ∃ y ∈ es, x.dimension = some y) ∧ ∀ y ∈ es, ∃ x ∈ Z, x.dimension = some y := by
      intro Z
      induction Z with
      | nil => intro es h; simp at h; subst h; simp
      | cons z Z ih =>
        intro es h
        rw [List.mapM_cons] at h
        cases hz : z.dimension with
        | none => rw [hz] at h; cases h
        | some y =>
          cases hZ : Z.mapM Complex.dimension with
          | none => rw [hz, hZ] at h; cases h
          | some ys =>
            rw [hz, hZ] at h
            cases h
            obtain ⟨i1, i2⟩ := ih ys hZ
            refine ⟨fun x hx => ?_, fun w hw => ?_⟩
            · rcases List.mem_cons.1 hx with rfl | hx
              · exact ⟨y, List.mem_cons_self, hz⟩
              · obtain ⟨w, hw, h⟩ := i1 x hx
                exact ⟨w, List.mem_cons_of_mem _ hw, h⟩
            · rcases List.mem_cons.1 hw with rfl | hw
              · exact ⟨z, List.mem_cons_self, hz⟩
              · obtain ⟨x, hx, h⟩ := i2 w hw
                exact ⟨x, List.mem_cons_of_mem _ hx, h⟩
    obtain ⟨m1, m2⟩ := hmem X ds hds
    obtain ⟨f1, f2, f3⟩ := foldl_max_eq ds 0
    rcases h with rfl | h | ⟨s, hs, hs1, hs2⟩ | ⟨x, hx, t, ht, hlt⟩ | ⟨⟨vs, rfl⟩, h⟩
    · simp [Complex.dimension] at he
    · obtain ⟨y, _, hy⟩ := m1 [] h
      simp [Complex.dimension] at hy
    · have := hKd.2 s hs
      rcases f3 with f3 | f3
      · omega
      · obtain ⟨x, hx, hxd⟩ := m2 _ f3
        obtain ⟨⟨t, ht, he'⟩, _⟩ := ((C22_dimension x (hX x hx)).2.1 _).1 hxd
        have := hs2 x hx t ht
        omega
    · obtain ⟨y, hy, hxd⟩ := m1 x hx
      have h6 := (((C22_dimension x (hX x hx)).2.1 _).1 hxd).2 t ht
      obtain ⟨s, hs, hse⟩ := hKd.1
      have := hlt s hs
      have := f2 y hy
      omega
    · rcases h with h | ⟨Y, A, B, C, hXe, hAB⟩
      · match X, h, horig with
        | [], _, horig => simp [originalOK] at horig
        | [A], _, horig => simp [originalOK] at horig
        | [A, B], _, horig => simp [originalOK] at horig
        | A :: B :: C :: Y, h, _ => simp at h
      · have hr : X.reverse = C :: B :: A :: Y.reverse := by rw [hXe]; simp
        simp only [originalOK, hr, sameComplex, beq_iff_eq] at horig
        apply hAB
        have hA := hX A (by rw [hXe]; simp)
        have hB := hX B (by rw [hXe]; simp)
        have key : ∀ C : Complex α, C.map Simplex.vset = (C.map (·.vertices)).map List.toFinset := by
          intro C; rw [List.map_map]; rfl
        rw [key A, key B, horig]
  unfold calculateIntersectionHomology
  rw [this]

/-! ### Examples -/

/-- A filled triangle; the vertex `0` is the singular stratum. -/
def coneEx : Complex ℕ :=
  [⟨[0], 0⟩, ⟨[1], 1⟩, ⟨[2], 2⟩, ⟨[1, 0], 3⟩, ⟨[2, 0], 4⟩, ⟨[2, 1], 5⟩, ⟨[2, 1, 0], 6⟩]

/-- The strata `X 0 = {0}`, `X 1 = {0}`, `X 2 = K`. -/
def coneStrata : List (Complex ℕ) := [[⟨[0], 0⟩], [⟨[0], 0⟩], coneEx]

theorem coneEx_filtration : IsFiltration coneEx :=
  ⟨⟨by decide, by decide, by decide⟩, Closed1.faceClosed (by decide) (by unfold Closed1; decide),
    by unfold FacesFirst; decide⟩

theorem coneStrata_ok (p : Perv) : Stratification coneStrata p 2 := by
  refine ⟨?_, by decide, by decide, Or.inr ⟨coneEx, by decide, ⟨[2, 1, 0], 6⟩, by decide, by decide⟩, fun _ =>
    ⟨[], [⟨[0], 0⟩], [⟨[0], 0⟩], coneEx, rfl, rfl⟩⟩
  intro x hx
  simp only [coneStrata, List.mem_cons, List.not_mem_nil, or_false] at hx
  rcases hx with rfl | rfl | rfl
  · exact ⟨⟨by decide, by decide, by decide⟩, by decide⟩
  · exact ⟨⟨by decide, by decide, by decide⟩, by decide⟩
  · exact ⟨coneEx_filtration.wf, by decide⟩

/-- The hypotheses of `C47_intersection_homology` are satisfiable, for both kinds of perversities. -/
example (p : Perv) : IsFiltration coneEx ∧ coneEx.length ≤ idxMax ∧ coneEx.dimension = some 2 ∧
    Stratification coneStrata p 2 := ⟨coneEx_filtration, by decide, by decide, coneStrata_ok p⟩

/-- Three simplices are not allowable, and the result differs from ordinary persistent homology. -/
example : PhiPersistence.partition coneEx (phi coneStrata (.general (perversity [-1, 0])) 2) =
    some ([⟨[1], 1⟩, ⟨[2], 2⟩, ⟨[2, 1], 5⟩, ⟨[2, 1, 0], 6⟩, ⟨[0], 0⟩, ⟨[1, 0], 3⟩, ⟨[2, 0], 4⟩], 4) := by decide

example : calculateIntersectionHomology .twist .vector 99 coneEx coneStrata (.general (perversity [-1, 0])) =
    some [⟨0, [(1, 99), (2, 5)]⟩] := by decide +kernel

example : calculateIntersectionHomology .standard .set 99 coneEx coneStrata (.gm (perversityGM [0])) false =
    some [⟨0, [(1, 99), (2, 5)]⟩] := by decide +kernel

/-- An edge that is listed before its vertices. -/
def edgeFirst : Complex ℕ := [⟨[1, 0], 0⟩, ⟨[0], 0⟩, ⟨[1], 0⟩]

/-- A stratum that does not meet `edgeFirst`, followed by the complex itself. -/
def edgeStrata : List (Complex ℕ) := [[⟨[7], 0⟩], edgeFirst]

/-- The hypotheses of `C47_any_order` are satisfiable by a complex that is not a filtration. -/
example (vs : List ℤ) : WF edgeFirst ∧ FaceClosed edgeFirst ∧ ¬ FacesFirst edgeFirst ∧ edgeFirst.dimension = some 1 ∧
    Stratification edgeStrata (.general vs) 1 := by
  refine ⟨⟨by decide, by decide, by decide⟩, Closed1.faceClosed (by decide) (by unfold Closed1; decide),
    by unfold FacesFirst; decide, by decide, ?_, by decide, by decide, Or.inr ⟨edgeFirst, by decide, ⟨[1, 0], 0⟩, by decide, by decide⟩,
    by rintro ⟨_, h⟩; cases h⟩
  intro x hx
  simp only [edgeStrata, List.mem_cons, List.not_mem_nil, or_false] at hx
  rcases hx with rfl | rfl
  · exact ⟨⟨by decide, by decide, by decide⟩, by decide⟩
  · exact ⟨⟨by decide, by decide, by decide⟩, by decide⟩

/-- C47. Without dualization the order of the simplices matters: for an edge that is listed before its vertices, two
connected components are reported instead of one. -/
theorem C47_unsorted_wrong :
    (calculateIntersectionHomology .twist .vector 99 edgeFirst edgeStrata (.general [0]) true).map
        (fun Ds => Ds.map (Diagram.betti 99)) = some [1] ∧
      (calculateIntersectionHomology .twist .vector 99 edgeFirst edgeStrata (.general [0]) false).map
        (fun Ds => Ds.map (Diagram.betti 99)) = some [2] := by
  decide +kernel

end Aleph
