import Verif.Lemmas.Combinations
import Verif.Props.Cliques

/-!
# C54: combinations; C55: top-down Rips expansion
-/

namespace Aleph

open Finset Spec Rips Cliques

variable {α : Type}

/-- C54. Starting from a range with strictly ascending elements, the loop `do … while( next_combination )` uses every
sub-collection of `k` elements exactly once, terminates, and leaves the range as it was. -/
theorem C54_combinations (U : List ℕ) (hU : U.Pairwise (· < ·)) (k : ℕ) (hk : k ≤ U.length) :
    ∃ l, combinationLoop (2 ^ U.length) U k = some (l, U) ∧ (l.map List.toFinset).Nodup ∧
      (∀ vs ∈ l, vs.Pairwise (· < ·)) ∧
      ∀ t : Finset ℕ, (∃ vs ∈ l, vs.toFinset = t) ↔ t ⊆ U.toFinset ∧ #t = k := by
  obtain ⟨l, h1, h2, h3⟩ := combinationLoop_spec hU hk
  have hsort : ∀ vs ∈ l, vs.Pairwise (· < ·) := fun vs hvs => hU.sublist ((h3 vs).1 hvs).1
  refine ⟨l, h1, ?_, hsort, fun t => ?_⟩
  · rw [List.nodup_map_iff_inj_on h2]
    intro a ha b hb hab
    exact eq_of_toFinset_sorted (hsort a ha) (hsort b hb) hab
  · constructor
    · rintro ⟨vs, hvs, rfl⟩
      obtain ⟨g1, g2⟩ := (h3 vs).1 hvs
      refine ⟨fun v hv => ?_, ?_⟩
      · rw [List.mem_toFinset] at hv ⊢; exact g1.subset hv
      · rw [List.toFinset_card_of_nodup ((hsort vs hvs).imp fun h => ne_of_lt h), g2]
    · rintro ⟨hsub, hcard⟩
      have hset : (U.filter (· ∈ t)).toFinset = t := by
        ext v
        rw [List.mem_toFinset, List.mem_filter, decide_eq_true_iff]
        exact ⟨fun h => h.2, fun h => ⟨by simpa using hsub h, h⟩⟩
      refine ⟨U.filter (· ∈ t), (h3 _).2 ⟨List.filter_sublist, ?_⟩, hset⟩
      have hnd : (U.filter (· ∈ t)).Nodup := (hU.imp fun h => ne_of_lt h).filter _
      rw [← List.toFinset_card_of_nodup hnd, hset, hcard]

example : combinationLoop 16 [2, 3, 5, 7] 2 =
    some ([[2, 3], [2, 5], [2, 7], [3, 5], [3, 7], [5, 7]], [2, 3, 5, 7]) := by decide

theorem cliqueSimplices_spec (d0 : α) (U : List ℕ) (hU : U.Pairwise (· < ·)) (ks : List ℕ)
    (hks : ∀ k ∈ ks, k ≤ U.length) :
    ∃ l, TopDown.cliqueSimplices d0 U ks = some l ∧
      (∀ s ∈ l, s.data = d0 ∧ ∃ vs, s = Simplex.ofRange vs d0) ∧
      ∀ t : Finset ℕ, (∃ s ∈ l, s.vset = t) ↔ t ⊆ U.toFinset ∧ #t ∈ ks := by
  have hvset : ∀ vs : List ℕ, (Simplex.ofRange vs d0).vset = vs.toFinset := by
    intro vs; ext v
    unfold Simplex.vset
    rw [List.mem_toFinset, mem_ofRange, List.mem_toFinset]
  induction ks with
  | nil => exact ⟨[], rfl, by simp, by simp⟩
  | cons k ks ih =>
    obtain ⟨l, h1, -, -, h2⟩ := C54_combinations U hU k (hks k List.mem_cons_self)
    obtain ⟨r, g1, g2, g3⟩ := ih fun j hj => hks j (List.mem_cons_of_mem _ hj)
    refine ⟨l.map (fun vs => Simplex.ofRange vs d0) ++ r, ?_, ?_, ?_⟩
    · rw [TopDown.cliqueSimplices, h1]
      simp only [g1]
    · intro s hs
      rcases List.mem_append.1 hs with hs | hs
      · obtain ⟨vs, -, rfl⟩ := List.mem_map.1 hs
        exact ⟨rfl, vs, rfl⟩
      · exact g2 s hs
    · intro t
      rw [List.mem_cons, and_or_left, ← g3, ← h2]
      constructor
      · rintro ⟨s, hs, rfl⟩
        rcases List.mem_append.1 hs with hs | hs
        · obtain ⟨vs, hvs, rfl⟩ := List.mem_map.1 hs
          exact Or.inl ⟨vs, hvs, (hvset vs).symm⟩
        · exact Or.inr ⟨s, hs, rfl⟩
      · rintro (⟨vs, hvs, rfl⟩ | ⟨s, hs, rfl⟩)
        · exact ⟨_, List.mem_append_left _ (List.mem_map_of_mem hvs), hvset vs⟩
        · exact ⟨s, List.mem_append_right _ hs, rfl⟩

/-- C55. The top-down expansion consists of the cliques with at least `kMin + 1` and at most `kMax + 1` vertices, each of
them once, all with default data. -/
theorem C55_top_down (o : Orders α) (d0 : α) (K : Complex α) (hK : WF K) (hc : EdgeClosed K)
    (kMax kMin : ℕ) :
    ∃ L, TopDown.expand o d0 K kMax kMin = some L ∧ WF L ∧
      (∀ t : Finset ℕ, Has L t ↔ kMin + 1 ≤ #t ∧ #t ≤ kMax + 1 ∧ IsClique K t) ∧
      ∀ s ∈ L, s.data = d0 := by
  obtain ⟨Q, h1, -, h3, h4⟩ := C30_koch o K hK hc
  have hloop : ∀ (Q : List (List ℕ)) (acc : List (Simplex α)), (∀ l ∈ Q, l.Pairwise (· < ·)) →
      ∃ r, Q.foldlM (fun simplices C =>
        (TopDown.cliqueSimplices d0 C (List.range' (kMin + 1) (min (kMax + 1) C.length - kMin))).map
          fun l => simplices ++ l) acc = some (acc ++ r) ∧
      (∀ s ∈ r, s.data = d0 ∧ ∃ vs, s = Simplex.ofRange vs d0) ∧
      ∀ t : Finset ℕ, (∃ s ∈ r, s.vset = t) ↔
        kMin + 1 ≤ #t ∧ #t ≤ kMax + 1 ∧ ∃ l ∈ Q, t ⊆ l.toFinset := by
    intro Q
    induction Q with
    | nil => intro acc _; exact ⟨[], by simp, by simp, by simp⟩
    | cons U Q ih =>
      intro acc hQ
      have hU := hQ U List.mem_cons_self
      obtain ⟨l, e1, e2, e3⟩ := cliqueSimplices_spec d0 U hU
        (List.range' (kMin + 1) (min (kMax + 1) U.length - kMin)) (by
          intro k hk
          rw [List.mem_range'_1] at hk
          omega)
      obtain ⟨r, g1, g2, g3⟩ := ih (acc ++ l) fun m hm => hQ m (List.mem_cons_of_mem _ hm)
      refine ⟨l ++ r, ?_, ?_, ?_⟩
      · rw [List.foldlM_cons, e1]
        simpa using g1
      · intro s hs
        rcases List.mem_append.1 hs with hs | hs
        · exact e2 s hs
        · exact g2 s hs
      · intro t
        have hcard : t ⊆ U.toFinset → #t ≤ U.length := fun h =>
          (card_le_card h).trans (List.toFinset_card_le U)
        have e3' : (∃ s ∈ l, s.vset = t) ↔ kMin + 1 ≤ #t ∧ #t ≤ kMax + 1 ∧ t ⊆ U.toFinset := by
          rw [e3, List.mem_range'_1]
          constructor
          · rintro ⟨a, b⟩; exact ⟨by omega, by omega, a⟩
          · rintro ⟨a, b, c⟩
            have := hcard c
            exact ⟨c, by omega, by omega⟩
        constructor
        · rintro ⟨s, hs, hst⟩
          rcases List.mem_append.1 hs with hs | hs
          · obtain ⟨a, b, c⟩ := e3'.1 ⟨s, hs, hst⟩
            exact ⟨a, b, U, List.mem_cons_self, c⟩
          · obtain ⟨a, b, m, hm, c⟩ := (g3 t).1 ⟨s, hs, hst⟩
            exact ⟨a, b, m, List.mem_cons_of_mem _ hm, c⟩
        · rintro ⟨a, b, m, hm, c⟩
          rcases List.mem_cons.1 hm with rfl | hm
          · obtain ⟨s, hs, hst⟩ := e3'.2 ⟨a, b, c⟩
            exact ⟨s, List.mem_append_left _ hs, hst⟩
          · obtain ⟨s, hs, hst⟩ := (g3 t).2 ⟨a, b, m, hm, c⟩
            exact ⟨s, List.mem_append_right _ hs, hst⟩
  obtain ⟨r, g1, g2, g3⟩ := hloop Q [] h3
  rw [List.nil_append] at g1
  have hne : ∀ s ∈ r, s.vertices ≠ [] := by
    intro s hs h0
    have := ((g3 s.vset).1 ⟨s, hs, rfl⟩).1
    have : #s.vset = 0 := by unfold Simplex.vset; rw [h0]; rfl
    omega
  obtain ⟨L, k1, -, k2, k3⟩ := insertRange_spec [] r hne
  have hwf : WF L := by
    have := insertRange_wf Spec.WF.nil (l := r) (by
      intro s hs
      obtain ⟨-, vs, rfl⟩ := g2 s hs
      exact ofRange_normal _ _)
    rw [k1] at this
    exact this
  have hLr : ∀ s ∈ L, s ∈ r := fun s hs => (k2 s hs).resolve_left (by simp)
  refine ⟨L, ?_, hwf, ?_, fun s hs => (g2 s (hLr s hs)).1⟩
  · unfold TopDown.expand
    rw [h1]
    simp only [g1, k1]
  · intro t
    have : Has L t ↔ ∃ s ∈ r, s.vset = t := by
      constructor
      · rintro ⟨s, hs, h⟩; exact ⟨s, hLr s hs, h⟩
      · rintro ⟨s, hs, h⟩
        obtain ⟨u, hu, he⟩ := k3 s hs
        exact ⟨u, hu, by rw [← h]; unfold Simplex.vset; rw [he]⟩
    rw [this, g3]
    refine and_congr_right fun _ => and_congr_right fun _ => ?_
    constructor
    · rintro ⟨l, hl, hsub⟩
      obtain ⟨hcl, -⟩ := (h4 l.toFinset).1 ⟨l, hl, rfl⟩
      exact ⟨fun v hv => hcl.1 v (hsub hv), fun u hu v hv => hcl.2 u (hsub hu) v (hsub hv)⟩
    · intro ht
      obtain ⟨Q', h1', l, hl, hsub⟩ := C30_cover o K hK hc t ht
      rw [h1] at h1'
      cases h1'
      exact ⟨l, hl, hsub⟩

/-- C55. Top-down and bottom-up expansion contain the same simplices. -/
theorem C55_agrees_with_bottom_up (o o' : Orders α) (d0 : α) (K : Complex α) (hK : WF K)
    (hc : EdgeClosed K) (d : ℕ) :
    ∃ L M, TopDown.expand o d0 K d 0 = some L ∧ Rips.expand o' d0 K d = some M ∧
      ∀ t, Has L t ↔ Has M t := by
  obtain ⟨L, h1, -, h2, -⟩ := C55_top_down o d0 K hK hc d 0
  obtain ⟨M, g1, -, g2, -⟩ := C26_cliques o' d0 K hK hc d
  refine ⟨L, M, h1, g1, fun t => ?_⟩
  rw [h2, g2, ← card_pos]
  constructor
  · rintro ⟨a, b, c⟩; exact ⟨by omega, b, c⟩
  · rintro ⟨a, b, c⟩; exact ⟨by omega, b, c⟩

theorem foldl_max_lookup [LinearOrder α] (S : Complex α) (l : List (List ℕ)) (x : α) (g : List ℕ → List ℕ) :
    IsGreatest {y | y = x ∨ ∃ vs ∈ l, ∃ t, S.find (g vs) = some t ∧ y = t.data}
      (l.foldl (fun w vs =>
        match S.find (g vs) with
        | none => w
        | some t => max w t.data) x) := by
  have := foldl_max_faces S (l.map g) x
  rw [List.foldl_map] at this
  convert this using 1
  · ext y
    simp
  · rfl

/-- C55. `assignMaximumWeight(K, S, d)` of the top-down expander keeps the simplices and their order.  Simplices of
dimension below `d` keep their data; all others get the largest data of their `d`-dimensional faces in `S` (or `lo`, the
lowest value of the type, if there are none). -/
theorem C55_weights [LinearOrder α] (lo : α) (K S : Complex α) (hK : WF K) (hS : WF S) (d : ℕ) :
    ∃ L, TopDown.assignMaximumWeight lo K S d = some L ∧ L.map (·.vertices) = K.map (·.vertices) ∧
      ∀ s ∈ L, (#s.vset ≤ d → HasData K s.vset s.data) ∧
        (d < #s.vset → IsGreatest {y | y = lo ∨ ∃ u ⊆ s.vset, #u = d + 1 ∧ HasData S u y} s.data) := by
  have key : ∀ (post pre R : Complex α), pre ++ post = K → R.map (·.vertices) = pre.map (·.vertices) →
      (∀ s ∈ R, (#s.vset ≤ d → HasData K s.vset s.data) ∧
        (d < #s.vset → IsGreatest {y | y = lo ∨ ∃ u ⊆ s.vset, #u = d + 1 ∧ HasData S u y} s.data)) →
      ∃ L, post.foldlM (fun R s =>
        if Complex.dim s < d then Complex.pushBack R s
        else
          match combinationLoop (2 ^ s.vertices.length) (s.vertices.insertionSort (· ≤ ·)) (d + 1) with
          | none => none
          | some (l, _) =>
            Complex.pushBack R (s.withData (l.foldl (fun weight vs =>
              match S.find (Simplex.ofRange vs lo).vertices with
              | none => weight
              | some t => max weight t.data) lo))) R = some L ∧
        L.map (·.vertices) = K.map (·.vertices) ∧
        ∀ s ∈ L, (#s.vset ≤ d → HasData K s.vset s.data) ∧
          (d < #s.vset → IsGreatest {y | y = lo ∨ ∃ u ⊆ s.vset, #u = d + 1 ∧ HasData S u y} s.data) := by
    intro post
    induction post with
    | nil =>
      intro pre R hp hR hW
      exact ⟨R, rfl, by rw [hR, ← hp]; simp, hW⟩
    | cons s post ih =>
      intro pre R hp hR hW
      have hsK : s ∈ K := by rw [← hp]; simp
      have hsne := hK.nonempty s hsK
      have hsn := hK.normal s hsK
      have hcard : #s.vset = s.vertices.length := hsn.length_eq.symm
      have hpos := List.length_pos_iff.2 hsne
      have hnew : ∀ t ∈ R, t.vertices ≠ s.vertices := by
        intro t ht he
        have h1 : t.vertices ∈ pre.map (·.vertices) := by
          rw [← hR]; exact List.mem_map_of_mem (f := fun s : Simplex α => s.vertices) ht
        have := hK.distinct
        rw [← hp, List.map_append, List.nodup_append] at this
        exact this.2.2 _ h1 _ (by simp) he
      rw [List.foldlM_cons]
      by_cases hd : Complex.dim s < d
      · rw [if_pos hd, pushBack_new hsne hnew]
        refine ih (pre ++ [s]) (R ++ [s]) (by simpa using hp) (by simp [hR]) ?_
        intro t ht
        rcases List.mem_append.1 ht with ht | ht
        · exact hW t ht
        · rw [List.mem_singleton.1 ht]
          unfold Complex.dim at hd
          exact ⟨fun _ => ⟨s, hsK, rfl, rfl⟩, fun h => by omega⟩
      · rw [if_neg hd]
        unfold Complex.dim at hd
        have hsorted : (s.vertices.insertionSort (· ≤ ·)).Pairwise (· < ·) := by
          have h1 := List.pairwise_insertionSort (· ≤ ·) s.vertices
          have h2 : (s.vertices.insertionSort (· ≤ ·)).Nodup :=
            (List.perm_insertionSort (· ≤ ·) _).nodup_iff.2 (hsn.imp fun h => ne_of_gt h)
          exact (h1.and h2).imp fun h => lt_of_le_of_ne h.1 h.2
        have hsetU : (s.vertices.insertionSort (· ≤ ·)).toFinset = s.vset := by
          ext v; simp [Simplex.vset]
        obtain ⟨l, h1, -, -, h2⟩ := C54_combinations _ hsorted (d + 1) (by
          rw [List.length_insertionSort]; omega)
        rw [List.length_insertionSort] at h1
        rw [h1]
        simp only
        rw [pushBack_new (by simpa [Simplex.withData] using hsne)
          (by simpa [Simplex.withData] using hnew)]
        refine ih (pre ++ [s]) _ (by simpa using hp) (by simp [hR, Simplex.withData]) ?_
        intro t ht
        rcases List.mem_append.1 ht with ht | ht
        · exact hW t ht
        · rw [List.mem_singleton.1 ht]
          refine ⟨fun h => ?_, fun _ => ?_⟩
          · exfalso
            have : #s.vset ≤ d := h
            omega
          · have hg := foldl_max_lookup S l lo fun vs => (Simplex.ofRange vs lo).vertices
            convert hg using 1
            · ext y
              simp only [Set.mem_ofPred_eq]
              refine or_congr Iff.rfl ?_
              have hvset : ∀ vs : List ℕ, (Simplex.ofRange vs lo).vertices.toFinset = vs.toFinset := by
                intro vs; ext v
                rw [List.mem_toFinset, mem_ofRange, List.mem_toFinset]
              constructor
              · rintro ⟨u, hu, huc, a, ha, hau, rfl⟩
                have hu' : u ⊆ s.vset := hu
                obtain ⟨vs, hvs, hvu⟩ := (h2 u).2 ⟨by rw [hsetU]; exact hu', huc⟩
                refine ⟨vs, hvs, a, ?_, rfl⟩
                have : a.vertices = (Simplex.ofRange vs lo).vertices :=
                  ((hS.normal a ha).eq_iff (ofRange_normal _ _)).2 (by
                    rw [hvset, hvu]; exact hau)
                rw [← this]
                exact hS.find_eq ha
              · rintro ⟨vs, hvs, a, ha, rfl⟩
                obtain ⟨haS, hav⟩ := find_some ha
                obtain ⟨e1, e2⟩ := (h2 vs.toFinset).1 ⟨vs, hvs, rfl⟩
                rw [hsetU] at e1
                refine ⟨vs.toFinset, e1, e2, a, haS, ?_, rfl⟩
                unfold Simplex.vset
                rw [hav, hvset]
            · rfl
  exact key K [] [] rfl rfl (by simp)

example : TopDown.expand (Orders.default ℕ) 0 kite 2 0 = some
    [⟨[0], 0⟩, ⟨[1], 0⟩, ⟨[2], 0⟩, ⟨[1, 0], 0⟩, ⟨[2, 0], 0⟩, ⟨[2, 1], 0⟩, ⟨[2, 1, 0], 0⟩, ⟨[3], 0⟩,
      ⟨[3, 2], 0⟩] := by decide

example : TopDown.assignMaximumWeight 0 [⟨[2], 1⟩, ⟨[1, 0], 1⟩, ⟨[2, 1, 0], 1⟩] kite 1 = some
    [⟨[2], 1⟩, ⟨[1, 0], 5⟩, ⟨[2, 1, 0], 7⟩] := by decide

end Aleph
