import Verif.Model.BettiNumbers
import Verif.Spec.BettiNumbers
import Verif.Props.Conversions
import Verif.Props.EdgeListReader
import Verif.Props.GmlReader
import Verif.Props.Filesystem
import Verif.Props.DiagramJson
import Verif.Props.TopologicalDistance
import Verif.Lemmas.Homology
import Verif.Spec.Json

/-!
# C151: the tool for Betti numbers of graphs
-/

namespace Aleph.BettiNumbers

open Finset Spec Spec.BettiNumbers
open GmlReader (Failure)
open Spec.TopologicalDistance (Decimal)

variable {α : Type}

/-! ### The number of a complex -/

/-- A family of sets with at most two elements: its one-dimensional cycles are the even sets of edges. -/
theorem cycles_even {A : Finset (Finset ℕ)} : setCycles A 1 = evenSets ({e ∈ A | #e = 2} : Finset (Finset ℕ)) := by
  ext c
  simp only [setCycles, evenSets, setChains, mem_filter, mem_powerset]
  refine and_congr_right fun hc => ?_
  have hcard : ∀ e ∈ c, #e = 2 := fun e he => (mem_filter.1 (hc he)).2
  have key : ∀ v, cofacesIn c {v} = {e ∈ c | v ∈ e} := by
    intro v
    unfold cofacesIn
    ext e
    simp only [mem_filter, singleton_subset_iff, card_singleton]
    constructor
    · rintro ⟨h1, h2, _⟩; exact ⟨h1, h2⟩
    · rintro ⟨h1, h2⟩; exact ⟨h1, h2, by rw [hcard e h1]⟩
  constructor
  · intro h v _
    have hv : ({v} : Finset ℕ) ∉ setBd c := by rw [h]; simp
    rw [mem_setBd, key] at hv
    rw [← Nat.not_odd_iff_even]
    intro ho
    exact hv ⟨by simp, ho⟩
  · intro h
    rw [eq_empty_iff_forall_notMem]
    intro τ hτ
    rw [mem_setBd] at hτ
    have hpos : 0 < #(cofacesIn c τ) := hτ.2.pos
    obtain ⟨e, he⟩ := card_pos.1 hpos
    unfold cofacesIn at he
    rw [mem_filter] at he
    have h1 : #τ = 1 := by have := hcard e he.1; omega
    obtain ⟨v, rfl⟩ := card_eq_one.1 h1
    have hv : v ∈ ({e ∈ A | #e = 2} : Finset (Finset ℕ)).biUnion id :=
      mem_biUnion.2 ⟨e, hc he.1, by simpa using he.2.1⟩
    have := h v hv
    rw [← key] at this
    exact Nat.not_odd_iff_even.2 this hτ.2

theorem boundaries_one {A : Finset (Finset ℕ)} (h : ∀ σ ∈ A, #σ ≤ 2) : #(setBoundaries A 1) = 1 := by
  have : setChains A 2 = {∅} := by
    unfold setChains
    rw [show ({σ ∈ A | #σ = 2 + 1} : Finset (Finset ℕ)) = ∅ from ?_, powerset_empty]
    rw [filter_eq_empty_iff]
    intro σ hσ he
    have := h σ hσ
    omega
  unfold setBoundaries
  rw [this, image_singleton, card_singleton]

/-- A vertex yields a point of dimension zero. -/
theorem vertex_point {inf : α} {K : Complex α} (hK : WF K) {p : List (ℕ × ℕ)} (hp : IsComplexPairing K true p) {i : ℕ} (hi : i < K.length) (hd : dimAt K i = 0) :
    diagramPoints inf K 0 p ≠ [] := by
  have hv : ∀ k < K.length, (vsetAt K k).Nonempty := by
    intro k hk
    have hs := hK.nonempty _ (List.getElem_mem hk)
    unfold vsetAt
    rw [List.getElem?_eq_getElem hk]
    simp only
    unfold Simplex.vset
    rwa [List.toFinset_nonempty_iff]
  have hf : facets K i = ∅ := by
    unfold facets
    rw [filter_eq_empty_iff]
    intro k hk h
    have h1 := (hv k (mem_range.1 hk)).card_pos
    unfold dimAt at hd
    omega
  have hno : ∀ j, ¬ PersPair (facets K) j i := by
    rintro j ⟨⟨c, hc, hm⟩, h2⟩
    refine h2 ⟨c.erase i, ?_, ?_⟩
    · intro x hx
      have h3 := mem_range.1 (hc (mem_of_mem_erase hx))
      have h4 := ne_of_mem_erase hx
      rw [mem_range]
      omega
    · have : chainBd (facets K) (c.erase i) = chainBd (facets K) c := by
        ext x
        rw [mem_chainBd, mem_chainBd]
        have : ({k ∈ c.erase i | x ∈ facets K k} : Finset ℕ) = {k ∈ c | x ∈ facets K k} := by
          ext k
          simp only [mem_filter, mem_erase]
          constructor
          · rintro ⟨⟨_, h3⟩, h4⟩; exact ⟨h3, h4⟩
          · rintro ⟨h3, h4⟩
            refine ⟨⟨?_, h3⟩, h4⟩
            rintro rfl
            rw [hf] at h4
            simp at h4
        rw [this]
      rwa [this]
  have hmem : ∃ j, (i, j) ∈ p := by
    by_cases h : ∃ j, PersPair (facets K) i j
    · obtain ⟨j, hj⟩ := h
      exact ⟨j, (hp.2.2 i j).2 (Or.inl hj)⟩
    · push Not at h
      exact ⟨idxMax, (hp.2.2 i idxMax).2 (Or.inr ⟨rfl, ⟨hi, fun j => ⟨h j, hno j⟩⟩, Or.inl rfl⟩)⟩
  obtain ⟨j, hj⟩ := hmem
  have : (K[i].data, ((K[j]?).map (·.data)).getD inf) ∈ diagramPoints inf K 0 p := by
    unfold diagramPoints
    rw [List.mem_filterMap]
    exact ⟨(i, j), List.mem_filter.2 ⟨hj, by simpa using hd⟩, by simp [List.getElem?_eq_getElem hi]⟩
  exact List.ne_nil_of_mem this

/-- **C151 (number).** For a graph the tool stores the number of independent cycles: the number of sets of edges in which every vertex has even degree is the corresponding power of two. -/
theorem _root_.Aleph.C151_betti [DecidableEq α] (inf : α) (K : Complex α) (hK : WF K) (hc : FaceClosed K) (hd : ∀ s ∈ K, s.vertices.length ≤ 2) (hn : K.length ≤ idxMax)
    (hinf : ∀ s ∈ K, s.data ≠ inf) : ∃ b, bettiOf inf K = .ok b ∧ IsCycleNumber {e ∈ sets K | #e = 2} b := by
  have hperm := sort_perm K Simplex.lt
  set L := K.sort Simplex.lt with hL
  have hsets : sets L = sets K := by
    ext σ
    rw [mem_sets, mem_sets]
    exact ⟨fun ⟨s, h1, h2⟩ => ⟨s, hperm.mem_iff.1 h1, h2⟩, fun ⟨s, h1, h2⟩ => ⟨s, hperm.mem_iff.2 h1, h2⟩⟩
  have hLw : WF L := ⟨fun s hs => hK.normal s (hperm.mem_iff.1 hs), fun s hs => hK.nonempty s (hperm.mem_iff.1 hs), (hperm.map _).nodup_iff.2 hK.distinct⟩
  have hLc : FaceClosed L := by
    intro s hs t ht hne
    obtain ⟨u, hu, h⟩ := hc s (hperm.mem_iff.1 hs) t ht hne
    exact ⟨u, hperm.mem_iff.2 hu, h⟩
  have hLf : IsFiltration L := ⟨hLw, hLc, sortLex_facesFirst hK⟩
  have hLn : L.length ≤ idxMax := by rw [hperm.length_eq]; exact hn
  have hLi : ∀ s ∈ L, s.data ≠ inf := fun s hs => hinf s (hperm.mem_iff.1 hs)
  have hcard : ∀ σ ∈ sets L, #σ ≤ 2 := by
    intro σ hσ
    obtain ⟨s, hs, rfl⟩ := mem_sets.1 hσ
    exact le_trans (List.toFinset_card_le _) (hd s (hperm.mem_iff.1 hs))
  obtain ⟨p, Ds, hp, hDs, hcalc⟩ := C51_pipeline inf L hLf hLn true
  have hb := C51_betti inf L hLf hLn hLi .twist .vector true Ds (hcalc _ _ _) 1
  rw [card_simplicialCycles hLw hLc, card_simplicialBoundaries hLw hLc, boundaries_one hcard, mul_one, cycles_even, hsets] at hb
  -- dimensions of the diagrams
  have hdim : ∀ D ∈ Ds, D.dimension ≤ 1 := by
    intro D hD
    obtain ⟨h1, h2⟩ := (hDs.2 D).1 hD
    by_contra hlt
    refine h1 ?_
    rw [h2]
    unfold diagramPoints
    rw [show p.filter (fun ij => decide (dimAt L ij.1 = D.dimension)) = [] from ?_, List.filterMap_nil]
    rw [List.filter_eq_nil_iff]
    intro ij _ he
    have he : dimAt L ij.1 = D.dimension := by simpa using he
    unfold dimAt at he
    have : #(vsetAt L ij.1) ≤ 2 := by
      unfold vsetAt
      cases h3 : L[ij.1]? with
      | none => simp
      | some s => exact hcard _ (mem_sets.2 ⟨s, List.mem_of_getElem? h3, rfl⟩)
    omega
  have hzero : ∀ D ∈ Ds, ∃ D0 ∈ Ds, D0.dimension = 0 := by
    intro D hD
    have hne : L ≠ [] := by
      rintro h0
      have h1 := ((hDs.2 D).1 hD)
      refine h1.1 (h1.2.trans ?_)
      unfold diagramPoints
      rw [List.filterMap_eq_nil_iff]
      intro ij _
      rw [h0]; rfl
    obtain ⟨s, hs⟩ := List.exists_mem_of_ne_nil _ hne
    have hsn : s.vset.Nonempty := by
      unfold Simplex.vset
      rw [List.toFinset_nonempty_iff]
      exact hLw.nonempty s hs
    obtain ⟨v, hv⟩ := hsn
    obtain ⟨u, hu, huv⟩ := hLc s hs {v} (by simpa using hv) (by simp)
    obtain ⟨i, hi, rfl⟩ := List.mem_iff_getElem.1 hu
    have hd0 : dimAt L i = 0 := by
      unfold dimAt vsetAt
      rw [List.getElem?_eq_getElem hi]
      simp only
      rw [huv, card_singleton]
    exact ⟨⟨0, diagramPoints inf L 0 p⟩, (hDs.2 _).2 ⟨vertex_point hLw hp hi hd0, rfl⟩, rfl⟩
  have hsorted := hDs.1
  have hbound : ∀ b, #(evenSets ({e ∈ sets K | #e = 2} : Finset (Finset ℕ))) = 2 ^ b → b % (idxMax + 1) = b := by
    intro b hb
    have h1 : #(evenSets ({e ∈ sets K | #e = 2} : Finset (Finset ℕ))) ≤ 2 ^ #(sets K) := by
      refine le_trans (card_le_card (filter_subset _ _)) ?_
      rw [card_powerset]
      exact Nat.pow_le_pow_right (by norm_num) (card_le_card (filter_subset _ _))
    rw [hb] at h1
    have h2 : b ≤ #(sets K) := (Nat.pow_le_pow_iff_right (by norm_num)).1 h1
    have h3 : #(sets K) ≤ K.length := by
      unfold sets
      exact le_trans (List.toFinset_card_le _) (by rw [List.length_map])
    exact Nat.mod_eq_of_lt (by omega)
  have hcalc' := hcalc .twist .vector true
  match hm : Ds with
  | [] =>
    refine ⟨0, ?_, ?_⟩
    · unfold bettiOf; rw [← hL, hcalc']
    · simpa [IsCycleNumber] using hb
  | [D] =>
    obtain ⟨D0, h0, h1⟩ := hzero D (by simp)
    rw [List.mem_singleton] at h0
    subst h0
    refine ⟨0, ?_, ?_⟩
    · unfold bettiOf; rw [← hL, hcalc']
    · have : ([D0].filter fun D => decide (D.dimension = 1)) = [] := by simp [h1]
      rw [this] at hb
      simpa [IsCycleNumber] using hb
  | D :: D' :: rest =>
    have h1 := hdim D' (by simp)
    have h2 : D.dimension < D'.dimension := by
      simp only [List.map_cons, List.pairwise_cons] at hsorted
      exact hsorted.1 _ (by simp)
    have h3 : rest = [] := by
      cases rest with
      | nil => rfl
      | cons E r =>
        have h4 := hdim E (by simp)
        simp only [List.map_cons, List.pairwise_cons] at hsorted
        have := hsorted.2.1 E.dimension (by simp)
        omega
    subst h3
    have : ([D, D'].filter fun D => decide (D.dimension = 1)) = [D'] := by
      have e1 : D.dimension = 0 := by omega
      have e2 : D'.dimension = 1 := by omega
      simp [e1, e2]
    rw [this] at hb
    simp only [List.map_cons, List.map_nil, List.sum_cons, List.sum_nil, add_zero] at hb
    refine ⟨D'.betti inf, ?_, hb⟩
    unfold bettiOf; rw [← hL, hcalc']
    simp only
    rw [hbound _ hb]

/-! ### Identifiers -/

theorem isDigit_iff (c : Char) : c.isDigit = true ↔ '0' ≤ c ∧ c ≤ '9' := by
  simp only [Char.isDigit, Bool.and_eq_true, decide_eq_true_eq, ge_iff_le]
  rfl

theorem matchId_spec (name digits : List Char) : matchId name = some digits ↔ FirstNumber name digits := by
  constructor
  · intro h
    unfold matchId at h
    simp only at h
    split at h
    · cases h
    · rename_i hn
      rw [Bool.or_eq_true, not_or] at hn
      obtain ⟨h1, h2⟩ := hn
      cases h
      refine ⟨name.takeWhile fun c => !c.isDigit, (name.dropWhile fun c => !c.isDigit).dropWhile Char.isDigit, ?_, ?_, ?_, ?_, ?_, ?_⟩
      · rw [List.append_assoc, List.takeWhile_append_dropWhile, List.takeWhile_append_dropWhile]
      · generalize hr : name.dropWhile (fun c => !c.isDigit) = r at h1
        cases r with
        | nil => simp at h1
        | cons c r =>
          have := List.head_dropWhile_not (fun c : Char => !c.isDigit) (l := name) (by rw [hr]; simp)
          simp only [hr, List.head_cons, Bool.not_eq_false'] at this
          rw [List.takeWhile_cons_of_pos this]
          simp
      · intro c hc
        have := List.mem_takeWhile_imp hc
        rw [← isDigit_iff]
        simpa using this
      · intro c hc
        exact (isDigit_iff c).1 (List.mem_takeWhile_imp hc)
      · intro c hc
        rw [← isDigit_iff]
        generalize hr : (name.dropWhile fun c => !c.isDigit) = r at hc
        cases hr2 : r.dropWhile Char.isDigit with
        | nil => rw [hr2] at hc; simp at hc
        | cons x y =>
          have := List.head_dropWhile_not Char.isDigit (l := r) (by rw [hr2]; simp)
          rw [hr2] at hc
          simp only [hr2, List.head_cons] at this
          simp only [List.head?_cons, Option.some.injEq] at hc
          subst hc
          simp [this]
      · intro c hc
        have h3 : ¬ isLineEnd c = true := fun h => h2 (List.any_eq_true.2 ⟨c, hc, h⟩)
        unfold isLineEnd at h3
        simpa using h3
  · rintro ⟨a, b, rfl, h1, h2, h3, h4, h5⟩
    have e1 : (a ++ digits ++ b).dropWhile (fun c => !c.isDigit) = digits ++ b := by
      rw [List.append_assoc, List.dropWhile_append_of_pos]
      · cases digits with
        | nil => exact absurd rfl h1
        | cons c d =>
          rw [List.cons_append, List.dropWhile_cons_of_neg]
          have := (isDigit_iff c).2 (h3 c (by simp))
          simp [this]
      · intro c hc
        have := h2 c hc
        rw [← isDigit_iff] at this
        simpa using this
    have hb : b.dropWhile Char.isDigit = b ∧ b.takeWhile Char.isDigit = [] := by
      cases b with
      | nil => simp
      | cons c b =>
        have := h4 c rfl
        rw [← isDigit_iff] at this
        exact ⟨List.dropWhile_cons_of_neg this, List.takeWhile_cons_of_neg this⟩
    have e2 : (digits ++ b).dropWhile Char.isDigit = b := by
      rw [List.dropWhile_append_of_pos fun c hc => (isDigit_iff c).2 (h3 c hc), hb.1]
    have e3 : (digits ++ b).takeWhile Char.isDigit = digits := by
      rw [List.takeWhile_append_of_pos fun c hc => (isDigit_iff c).2 (h3 c hc), hb.2, List.append_nil]
    unfold matchId
    simp only [e1, e2, e3]
    rw [if_neg]
    rw [Bool.or_eq_true, not_or]
    refine ⟨?_, ?_⟩
    · cases digits with
      | nil => exact absurd rfl h1
      | cons c d => simp
    · rw [List.any_eq_true]
      rintro ⟨c, hc, h⟩
      have := h5 c hc
      unfold isLineEnd at h
      simp [this.1, this.2] at h

theorem value_decimal {digits : List Char} {v : ℕ} (h : ∀ c ∈ digits, '0' ≤ c ∧ c ≤ '9') (hv : Decimal digits v) : value digits = v :=
  TopologicalDistance.decimal_unique (TopologicalDistance.decimal_value digits fun c hc => (isDigit_iff c).2 (h c hc)) hv

/-- **C151 (identifiers).** The identifier of a file is the first number in its name, without directories; names without a number, and numbers that are too large, raise an exception.
The code violates the property that different numbers are different identifiers: the identifier is a remainder. -/
theorem _root_.Aleph.C151_identifier (ulongMax : ℕ) (path name : List Char) (hname : Spec.Files.Filename path name) :
    (∀ digits v, FirstNumber name digits → Decimal digits v → v ≤ ulongMax → idOf ulongMax path = .ok (v % (idxMax + 1))) ∧
    (∀ digits v, FirstNumber name digits → Decimal digits v → ulongMax < v → idOf ulongMax path = .error .exception) ∧
    ((∀ digits, ¬ FirstNumber name digits) → idOf ulongMax path = .error .exception) := by
  have hb := (C138_basename path name).2 hname
  refine ⟨?_, ?_, ?_⟩
  · intro digits v h1 h2 h3
    have hm := (matchId_spec name digits).2 h1
    obtain ⟨a, b, -, -, -, hd, -⟩ := h1
    unfold idOf
    rw [hb, hm]
    simp only
    rw [value_decimal hd h2, if_neg (by omega)]
  · intro digits v h1 h2 h3
    have hm := (matchId_spec name digits).2 h1
    obtain ⟨a, b, -, -, -, hd, -⟩ := h1
    unfold idOf
    rw [hb, hm]
    simp only
    rw [value_decimal hd h2, if_pos (by omega)]
  · intro h
    unfold idOf
    rw [hb]
    cases hm : matchId name with
    | none => rfl
    | some digits => exact absurd ((matchId_spec name digits).1 hm) (h digits)

/-! ### Files -/

section
variable (number : List Char → GmlReader.Parsed) (convert : List Char → α) (f : α → α → α)

open Spec.Gml in
/-- **C151 (files).** The number of a file is the number of independent cycles of the graph in the file; loops and further edges between the same nodes do not count.  The end points of edges must be nodes,
and weights must not be infinite. -/
theorem _root_.Aleph.C151_file_partial [Zero α] [DecidableEq α] (inf : α) {text : List Char} {ls : List (List Char)} {u : Bool} (hl : Spec.Lines text ls u)
    {ns es : List (List (List Char × List Char))} (hf : File ls ns es)
    (ns' : List (NodeInfo α)) (es' : List (EdgeInfo α)) (hn : List.Forall₂ (IsNode number convert (ns'.map (·.id))) ns ns')
    (he : List.Forall₂ (IsEdge number convert f (ns'.map (·.id)) ns') es es') (hid : (ns'.map (·.id)).Nodup)
    (hv : ∀ m ∈ ns', ∀ n ∈ ns', m.vertex = n.vertex → m.data = n.data)
    (hends : ∀ e ∈ es', e.source ∈ ns'.map (·.vertex) ∧ e.target ∈ ns'.map (·.vertex))
    (hinf : (∀ n ∈ ns', n.data ≠ inf) ∧ ∀ e ∈ es', e.data ≠ inf) (hlen : ns'.length + es'.length ≤ idxMax) :
    ∃ s K b, GmlReader.readFile number convert f (some text) = .ok (s, K) ∧ bettiOf inf K = .ok b ∧
      ∀ E : Finset (Finset ℕ), (∀ t, t ∈ E ↔ ∃ e ∈ es', e.source ≠ e.target ∧ t = {e.source, e.target}) → IsCycleNumber E b := by
  obtain ⟨s, K, h1, hcol, h3⟩ := C134_read_partial number convert f hl hf ns' es' hn he hid hv
  have hmem : ∀ t ∈ K, (∃ n ∈ ns', t.vset = {n.vertex} ∧ t.data = n.data) ∨ ∃ e ∈ es', t.vset = {e.source, e.target} ∧ t.data = e.data := by
    intro t ht
    have := hcol.2.2.1.subset (List.mem_map.2 ⟨t, ht, rfl⟩)
    obtain ⟨x, hx, heq⟩ := List.mem_map.1 this
    obtain ⟨e1, e2⟩ := Prod.mk.inj heq
    rcases List.mem_append.1 hx with hx | hx
    · obtain ⟨n, hn, rfl⟩ := List.mem_map.1 hx
      exact Or.inl ⟨n, hn, by rw [← e1]; simp, e2.symm⟩
    · obtain ⟨e, he, rfl⟩ := List.mem_map.1 hx
      exact Or.inr ⟨e, he, by rw [← e1]; simp, e2.symm⟩
  have hcard : ∀ t ∈ K, t.vertices.length = #t.vset := by
    intro t ht
    unfold Simplex.vset
    exact (List.toFinset_card_of_nodup ((hcol.1.normal t ht).imp fun h => ne_of_gt h)).symm
  obtain ⟨b, hb1, hb2⟩ := C151_betti inf K hcol.1 (h3 hends) (by
      intro t ht
      rw [hcard t ht]
      rcases hmem t ht with ⟨n, _, h, _⟩ | ⟨e, _, h, _⟩
      · rw [h, card_singleton]; omega
      · rw [h]; exact card_le_two)
    (by
      have := hcol.2.2.1.length_le
      simp only [List.length_map, List.length_append] at this
      omega)
    (by
      intro t ht
      rcases hmem t ht with ⟨n, hn, _, h⟩ | ⟨e, he, _, h⟩
      · rw [h]; exact hinf.1 n hn
      · rw [h]; exact hinf.2 e he)
  refine ⟨s, K, b, h1, hb1, fun E hE => ?_⟩
  have : E = {e ∈ sets K | #e = 2} := by
    ext t
    rw [hE, mem_filter, mem_sets]
    constructor
    · rintro ⟨e, he, hne, rfl⟩
      refine ⟨?_, card_pair hne⟩
      obtain ⟨x, hx, h⟩ := List.mem_map.1 (hcol.2.1 ([e.source, e.target], e.data) (List.mem_append_right _ (List.mem_map.2 ⟨e, he, rfl⟩)))
      exact ⟨x, hx, by rw [h]; simp⟩
    · rintro ⟨⟨x, hx, rfl⟩, h2⟩
      rcases hmem x hx with ⟨n, _, h, _⟩ | ⟨e, he, h, _⟩
      · rw [h, card_singleton] at h2; omega
      · refine ⟨e, he, ?_, h⟩
        intro heq
        rw [h, heq, pair_eq_singleton, card_singleton] at h2
        omega
  rw [this]
  exact hb2

/-! ### Output -/

theorem mem_assign (id b : ℕ) {m : List (ℕ × ℕ)} (h : (m.map Prod.fst).Pairwise (· < ·)) :
    ((assign id b m).map Prod.fst).Pairwise (· < ·) ∧ ∀ i c, (i, c) ∈ assign id b m ↔ (i = id ∧ c = b) ∨ (i ≠ id ∧ (i, c) ∈ m) := by
  induction m with
  | nil =>
    refine ⟨by simp [assign], fun i c => ?_⟩
    simp [assign]
  | cons x m ih =>
    obtain ⟨j, d⟩ := x
    rw [List.map_cons, List.pairwise_cons] at h
    have hne : ∀ i c, (i, c) ∈ m → j < i := fun i c hi => h.1 i (List.mem_map.2 ⟨(i, c), hi, rfl⟩)
    obtain ⟨ih1, ih2⟩ := ih h.2
    rcases lt_trichotomy id j with hlt | heq | hgt
    · have e : assign id b ((j, d) :: m) = (id, b) :: (j, d) :: m := by rw [assign, if_pos hlt]
      rw [e]
      refine ⟨?_, fun i c => ?_⟩
      · simp only [List.map_cons, List.pairwise_cons, List.mem_cons]
        refine ⟨?_, h.1, h.2⟩
        rintro i (rfl | hi)
        · exact hlt
        · exact lt_trans hlt (h.1 i hi)
      · rw [List.mem_cons, Prod.mk.injEq]
        refine or_congr_right ⟨fun hi => ⟨?_, hi⟩, fun hi => hi.2⟩
        rintro rfl
        rcases List.mem_cons.1 hi with hi | hi
        · have := (Prod.mk.inj hi).1; omega
        · have := hne _ _ hi; omega
    · subst heq
      have e : assign id b ((id, d) :: m) = (id, b) :: m := by rw [assign, if_neg (lt_irrefl _), if_pos rfl]
      rw [e]
      refine ⟨?_, fun i c => ?_⟩
      · rw [List.map_cons, List.pairwise_cons]
        exact h
      · rw [List.mem_cons, Prod.mk.injEq]
        refine or_congr_right ⟨fun hi => ⟨?_, List.mem_cons_of_mem _ hi⟩, ?_⟩
        · have := hne _ _ hi; omega
        · rintro ⟨h1, h2⟩
          rcases List.mem_cons.1 h2 with h2 | h2
          · exact absurd (Prod.mk.inj h2).1 h1
          · exact h2
    · have e : assign id b ((j, d) :: m) = (j, d) :: assign id b m := by rw [assign, if_neg (by omega), if_neg (by omega)]
      rw [e]
      refine ⟨?_, fun i c => ?_⟩
      · rw [List.map_cons, List.pairwise_cons]
        refine ⟨?_, ih1⟩
        intro i hi
        obtain ⟨⟨i', c⟩, hi', rfl⟩ := List.mem_map.1 hi
        rcases (ih2 i' c).1 hi' with ⟨rfl, _⟩ | ⟨_, hi⟩
        · exact hgt
        · exact hne _ _ hi
      · rw [List.mem_cons, ih2, List.mem_cons, Prod.mk.injEq]
        constructor
        · rintro (⟨rfl, rfl⟩ | h1 | ⟨h1, h2⟩)
          · exact Or.inr ⟨by omega, Or.inl ⟨rfl, rfl⟩⟩
          · exact Or.inl h1
          · exact Or.inr ⟨h1, Or.inr h2⟩
        · rintro (h1 | ⟨h1, h2 | h2⟩)
          · exact Or.inr (Or.inl h1)
          · exact Or.inl h2
          · exact Or.inr (Or.inr ⟨h1, h2⟩)

/-- The identifier and the number of a file. -/
def Yields [Zero α] [DecidableEq α] (inf : α) (ulongMax : ℕ) (files : List Char → Option (List Char)) (filename : List Char) (r : ℕ × ℕ) : Prop :=
  ∃ s K, GmlReader.readFile number convert f (files filename) = .ok (s, K) ∧ bettiOf inf K = .ok r.2 ∧ idOf ulongMax filename = .ok r.1

theorem process_spec [Zero α] [DecidableEq α] (inf : α) (ulongMax : ℕ) (files : List Char → Option (List Char)) (filenames : List (List Char)) (results : List (ℕ × ℕ))
    (h : List.Forall₂ (Yields number convert f inf ulongMax files) filenames results) (m : List (ℕ × ℕ)) (hm : (m.map Prod.fst).Pairwise (· < ·)) :
    ∃ m', process number convert f inf ulongMax files filenames m = .ok m' ∧ (m'.map Prod.fst).Pairwise (· < ·) ∧
      ∀ i c, (i, c) ∈ m' ↔ (∃ pre post, results = pre ++ (i, c) :: post ∧ ∀ x ∈ post, x.1 ≠ i) ∨ ((∀ x ∈ results, x.1 ≠ i) ∧ (i, c) ∈ m) := by
  induction h generalizing m with
  | nil => exact ⟨m, rfl, hm, fun i c => by simp⟩
  | @cons filename r rest rs hr _ ih =>
    obtain ⟨s, K, h1, h2, h3⟩ := hr
    obtain ⟨id, b⟩ := r
    obtain ⟨g1, g2⟩ := mem_assign id b hm
    obtain ⟨m', k1, k2, k3⟩ := ih (assign id b m) g1
    refine ⟨m', ?_, k2, fun i c => ?_⟩
    · rw [process, h1]
      simp only
      rw [h2]
      simp only
      rw [h3]
      exact k1
    · rw [k3, g2]
      constructor
      · rintro (⟨pre, post, rfl, h⟩ | ⟨h, ⟨rfl, rfl⟩ | ⟨h', h''⟩⟩)
        · exact Or.inl ⟨(id, b) :: pre, post, rfl, h⟩
        · exact Or.inl ⟨[], rs, rfl, h⟩
        · refine Or.inr ⟨?_, h''⟩
          intro x hx
          rcases List.mem_cons.1 hx with rfl | hx
          · exact fun e => h' e.symm
          · exact h x hx
      · rintro (⟨pre, post, h, h'⟩ | ⟨h, h'⟩)
        · cases pre with
          | nil =>
            obtain ⟨e1, e2⟩ := List.cons.inj h
            obtain ⟨rfl, rfl⟩ := Prod.mk.inj e1
            subst e2
            exact Or.inr ⟨h', Or.inl ⟨rfl, rfl⟩⟩
          | cons x pre =>
            obtain ⟨_, e2⟩ := List.cons.inj h
            exact Or.inl ⟨pre, post, e2, h'⟩
        · exact Or.inr ⟨fun x hx => h x (by simp [hx]), Or.inr ⟨fun e => h (id, b) (by simp) e.symm, h'⟩⟩

theorem table_render (m : List (ℕ × ℕ)) : Table m (m.flatMap fun p => Nat.toDigits 10 p.1 ++ ['\t'] ++ Nat.toDigits 10 p.2 ++ ['\n']) := by
  induction m with
  | nil => exact .nil
  | cons p m ih =>
    have := Table.cons (DiagramJson.isDecimal_toDigits p.1) (DiagramJson.isDecimal_toDigits p.2) ih
    simpa using this

/-- **C151 (output).** The output has one line for each identifier, in ascending order, and two blank lines at its end; the number is that of the last file with this identifier. -/
theorem _root_.Aleph.C151_output [Zero α] [DecidableEq α] (inf : α) (ulongMax : ℕ) (files : List Char → Option (List Char)) (filenames : List (List Char)) (hne : filenames ≠ []) (results : List (ℕ × ℕ))
    (h : List.Forall₂ (Yields number convert f inf ulongMax files) filenames results) :
    ∃ rows text, main number convert f inf ulongMax files filenames = .ok (0, text ++ ['\n', '\n']) ∧ Table rows text ∧ (rows.map Prod.fst).Pairwise (· < ·) ∧
      ∀ i b, (i, b) ∈ rows ↔ ∃ pre post, results = pre ++ (i, b) :: post ∧ ∀ x ∈ post, x.1 ≠ i := by
  obtain ⟨m, h1, h2, h3⟩ := process_spec number convert f inf ulongMax files filenames results h [] (by simp)
  refine ⟨m, _, ?_, table_render m, h2, fun i b => by rw [h3]; simp⟩
  unfold main
  rw [if_neg (by simpa using hne), h1]
  rfl

/-- **C151 (failures).** The tool prints nothing if a file cannot be read, has a name without number, or cannot be processed; without arguments the result is −1. -/
theorem _root_.Aleph.C151_failure [Zero α] [DecidableEq α] (inf : α) (ulongMax : ℕ) (files : List Char → Option (List Char)) :
    main number convert f inf ulongMax files [] = .ok (-1, []) ∧
    ∀ filenames, ∀ filename ∈ filenames, (∀ r, ¬ Yields number convert f inf ulongMax files filename r) → ∃ e, main number convert f inf ulongMax files filenames = .error e := by
  refine ⟨rfl, fun filenames filename hmem hno => ?_⟩
  have key : ∀ (l : List (List Char)) (m : List (ℕ × ℕ)), filename ∈ l → ∃ e, process number convert f inf ulongMax files l m = .error e := by
    intro l
    induction l with
    | nil => intro m h; simp at h
    | cons x l ih =>
      intro m h
      rw [process]
      cases h1 : GmlReader.readFile number convert f (files x) with
      | error e => exact ⟨e, rfl⟩
      | ok sK =>
        obtain ⟨s, K⟩ := sK
        simp only
        cases h2 : bettiOf inf K with
        | error e => exact ⟨e, rfl⟩
        | ok b =>
          simp only
          cases h3 : idOf ulongMax x with
          | error e => exact ⟨e, rfl⟩
          | ok id =>
            simp only
            rcases List.mem_cons.1 h with rfl | h
            · exact absurd ⟨s, K, h1, h2, h3⟩ (hno (id, b))
            · exact ih _ h
  obtain ⟨e, he⟩ := key filenames [] hmem
  refine ⟨e, ?_⟩
  unfold main
  rw [if_neg (by simpa using List.ne_nil_of_mem hmem), he]

end

/-- **C151 (zeroth number).** The comment at the beginning of the program announces the zeroth and the first Betti number.  The code violates the property: only the first one is printed; the outputs of
graphs with one and with two components do not differ. -/
theorem _root_.Aleph.C151_zeroth_wrong : ∃ K L : Complex ℕ, WF K ∧ WF L ∧ FaceClosed K ∧ FaceClosed L ∧ #(setCycles (sets K) 0) ≠ #(setCycles (sets L) 0) ∧
    setBoundaries (sets K) 0 = setBoundaries (sets L) 0 ∧ bettiOf 9 K = bettiOf 9 L := by
  refine ⟨[⟨[0], 0⟩], [⟨[0], 0⟩, ⟨[1], 0⟩], ⟨by unfold Normal; decide, by decide, by decide⟩, ⟨by unfold Normal; decide, by decide, by decide⟩,
    Closed1.faceClosed (by decide) (by unfold Closed1; decide), Closed1.faceClosed (by decide) (by unfold Closed1; decide), by decide, by decide, by decide⟩

/-! ### Examples -/

/-- A graph with two independent cycles and two components. -/
def exampleGraph : Complex ℕ := [⟨[0], 0⟩, ⟨[1], 0⟩, ⟨[2], 0⟩, ⟨[3], 0⟩, ⟨[4], 0⟩, ⟨[1, 0], 1⟩, ⟨[2, 1], 1⟩, ⟨[2, 0], 1⟩, ⟨[3, 1], 1⟩, ⟨[3, 2], 1⟩]

/-- Hypotheses of C151_betti. -/
example : WF exampleGraph ∧ FaceClosed exampleGraph ∧ (∀ s ∈ exampleGraph, s.vertices.length ≤ 2) ∧ exampleGraph.length ≤ idxMax ∧ ∀ s ∈ exampleGraph, s.data ≠ 9 :=
  ⟨⟨by unfold exampleGraph Normal; decide, by decide, by decide⟩, Closed1.faceClosed (by unfold exampleGraph; decide) (by unfold Closed1 exampleGraph; decide), by decide, by decide, by decide⟩

example : bettiOf 9 exampleGraph = .ok 2 := by decide +kernel

/-- Hypotheses of C151_file_partial and C151_output: three files; the second and the third one have the same identifier. -/
example : main GmlReader.exampleNumber GmlReader.exampleConvert max 999 1000000
    (fun name => if name = "d/a7.gml".toList then some "graph [\nnode [\nid 1\n]\nnode [\nid 2\n]\nnode [\nid 3\n]\nedge [\nsource 1\ntarget 2\n]\nedge [\nsource 2\ntarget 3\n]\nedge [\nsource 1\ntarget 3\n]\n]\n".toList
      else some "graph [\nnode [\nid 1\n]\n]\n".toList)
    ["b12.gml".toList, "c7.gml".toList, "d/a7.gml".toList] = .ok (0, "7\t1\n12\t0\n\n\n".toList) := by decide +kernel

/-- Hypotheses of C151_identifier. -/
example : FirstNumber "C60_f012.gml".toList "60".toList ∧ Decimal "60".toList 60 :=
  ⟨⟨"C".toList, "_f012.gml".toList, rfl, by decide, by decide, by decide, by decide, by decide⟩,
    by have := Decimal.snoc (d := 0) (Decimal.snoc (d := 6) .nil (by decide)) (by decide); exact this⟩

end Aleph.BettiNumbers
