import Verif.Model.WickedTriangulations
import Verif.Spec.WickedTriangulations
import Verif.Props.PhiPersistence
import Verif.Props.Barycentric
import Verif.Props.CliqueCommunities
import Verif.Props.DiagramJson
import Verif.Props.EdgeListReader
import Verif.Props.Euler
import Verif.Props.TriangulationReader
import Verif.Lemmas.Homology

/-!
# C154: the tool `wicked_triangulations`
-/

namespace Aleph.WickedTriangulations

open Finset Spec Spec.Wicked

/-! ### Perversities -/

/-- The indices of the `n`-th perversity. -/
def decode : ℕ → ℕ → List ℕ
  | 0, _ => []
  | d + 1, n => decode d (n / (d + 2)) ++ [n % (d + 2)]

theorem decode_length (d n : ℕ) : (decode d n).length = d := by
  induction d generalizing n with
  | zero => rfl
  | succ d ih => simp [decode, ih]

theorem decode_lt (d n : ℕ) (k i : ℕ) (h : (decode d n)[k]? = some i) : i < k + 2 := by
  induction d generalizing n with
  | zero => simp [decode] at h
  | succ d ih =>
    rw [decode, List.getElem?_append, decode_length] at h
    split at h
    · exact ih _ h
    · have : k - d = 0 ∧ i = n % (d + 2) := by
        rcases hk : k - d with _ | m
        · rw [hk] at h; simp at h; exact ⟨rfl, h.symm⟩
        · rw [hk] at h; simp at h
      have := Nat.mod_lt n (show 0 < d + 2 by omega)
      omega

theorem possibleValues_length (d : ℕ) : (possibleValues d).length = d + 2 := by simp [possibleValues]

theorem propagate_decode (d n : ℕ) (rest : List ℕ) : propagate d (decode d n ++ rest) = decode d (n + 1) ++ rest := by
  induction d generalizing n rest with
  | zero => rfl
  | succ d ih =>
    have hl := decode_length d (n / (d + 2))
    have hget : (decode (d + 1) n ++ rest).getD d 0 = n % (d + 2) := by
      rw [decode, List.append_assoc, List.getD_eq_getElem?_getD, List.getElem?_append_right (by omega), hl]
      simp
    have hset : ∀ x, (decode (d + 1) n ++ rest).set d x = decode d (n / (d + 2)) ++ (x :: rest) := by
      intro x
      rw [decode, List.append_assoc, List.set_append_right _ _ (by omega), hl]
      simp
    simp only [propagate, hget, hset, possibleValues_length, ih]
    have hd : 0 < d + 2 := by omega
    have hlt := Nat.mod_lt n hd
    split
    · rename_i h
      have e1 : (n + 1) / (d + 2) = n / (d + 2) := by
        have := Nat.div_add_mod n (d + 2)
        rw [Nat.div_eq_iff hd, Nat.mul_comm]
        omega
      have e2 : (n + 1) % (d + 2) = n % (d + 2) + 1 := by
        have h1 := Nat.div_add_mod n (d + 2)
        have h2 := Nat.div_add_mod (n + 1) (d + 2)
        rw [e1] at h2
        omega
      simp [decode, e1, e2]
    · rename_i h
      have he : n % (d + 2) + 1 = d + 2 := by omega
      have h1 := Nat.div_add_mod n (d + 2)
      have hn : n + 1 = (d + 2) * (n / (d + 2) + 1) := by rw [Nat.mul_add]; omega
      have e1 : (n + 1) / (d + 2) = n / (d + 2) + 1 := by rw [hn, Nat.mul_div_cancel_left _ hd]
      have e2 : (n + 1) % (d + 2) = 0 := by rw [hn]; simp
      simp [decode, e1, e2]

theorem decode_zero (d : ℕ) : decode d 0 = List.replicate d 0 := by
  induction d with
  | zero => rfl
  | succ d ih => rw [decode]; simp [ih, List.replicate_succ']

/-- The values of the `n`-th perversity. -/
def value (d n : ℕ) : List ℤ := (decode d n).map fun (i : ℕ) => (i : ℤ) - 1

theorem value_isPerversity (d n : ℕ) : IsPerversity d (value d n) := by
  refine ⟨by simp [value, decode_length], ?_⟩
  intro k v hv
  simp only [value, List.getElem?_map, Option.map_eq_some_iff] at hv
  obtain ⟨i, hi, rfl⟩ := hv
  have := decode_lt d n k i hi
  omega

theorem valuesAt_decode (d n : ℕ) : valuesAt d (decode d n) = some (value d n) := by
  unfold valuesAt
  rw [mapM_all_some _ (fun k => ((decode d n).getD k 0 : ℤ) - 1)]
  · congr 1
    apply List.ext_getElem?
    intro k
    simp only [value, List.getElem?_map]
    by_cases hk : k < d
    · rw [List.getElem?_range hk, List.getElem?_eq_getElem (by rw [decode_length]; exact hk)]
      simp only [Option.map_some, List.getD_eq_getElem?_getD]
      rw [List.getElem?_eq_getElem (by rw [decode_length]; exact hk)]
      rfl
    · rw [List.getElem?_eq_none (by simp; omega), List.getElem?_eq_none (by rw [decode_length]; omega)]
      rfl
  · intro k hk
    rw [List.mem_range] at hk
    have h1 : (decode d n)[k]? = some ((decode d n).getD k 0) := by
      rw [List.getD_eq_getElem?_getD, List.getElem?_eq_getElem (by rw [decode_length]; exact hk)]; rfl
    rw [h1, Option.bind_some]
    have h2 := decode_lt d n k _ h1
    revert h2
    generalize (decode d n).getD k 0 = i
    intro h2
    rw [possibleValues, List.getElem?_map, List.getElem?_range h2]
    rfl

theorem perversity_id {d : ℕ} {p : List ℤ} (h : IsPerversity d p) : PhiPersistence.perversity p = p := by
  apply List.ext_getElem?
  intro k
  simp only [PhiPersistence.perversity, List.getElem?_map, List.getElem?_zipIdx]
  cases hk : p[k]? with
  | none => simp
  | some v =>
    have := h.2 k v hk
    simp only [Option.map_some, zero_add]
    congr 1
    split_ifs <;> omega

theorem combinations_decode (d n m : ℕ) (hd : d ≠ 0) :
    combinations d n (decode d m) = some ((List.range' m n).map (value d)) := by
  induction n generalizing m with
  | zero => rfl
  | succ n ih =>
    have := propagate_decode d m []
    simp only [List.append_nil] at this
    simp only [combinations, valuesAt_decode, if_neg hd, this, ih, perversity_id (value_isPerversity d m)]
    rfl

theorem numCombinations_eq (word d : ℕ) (hw : 1 < word) : numCombinations word d = (d + 1).factorial % word := by
  unfold numCombinations
  induction d with
  | zero => simp [Nat.mod_eq_of_lt hw]
  | succ d ih =>
    rw [List.range_succ, List.foldl_append, ih]
    simp only [List.foldl_cons, List.foldl_nil, possibleValues_length]
    rw [Nat.mod_mul_mod, Nat.factorial_succ (d + 1), Nat.mul_comm]

theorem lex_append {a b : List ℤ} (hl : a.length = b.length) (h : List.Lex (· < ·) a b) (x y : List ℤ) :
    List.Lex (· < ·) (a ++ x) (b ++ y) := by
  induction h with
  | nil => simp at hl
  | cons _ ih => exact .cons (ih (by simpa using hl))
  | rel h => exact .rel h

theorem lex_prefix (a : List ℤ) {x y : ℤ} (h : x < y) : List.Lex (· < ·) (a ++ [x]) (a ++ [y]) := by
  induction a with
  | nil => exact .rel h
  | cons _ _ ih => exact .cons ih

theorem value_succ (d n : ℕ) : value (d + 1) n = value d (n / (d + 2)) ++ [((n % (d + 2) : ℕ) : ℤ) - 1] := by
  simp [value, decode]

theorem value_length (d n : ℕ) : (value d n).length = d := by simp [value, decode_length]

theorem value_lex (d : ℕ) {i j : ℕ} (hij : i < j) (hj : j < (d + 1).factorial) : List.Lex (· < ·) (value d i) (value d j) := by
  induction d generalizing i j with
  | zero => simp at hj; omega
  | succ d ih =>
    have hd : 0 < d + 2 := by omega
    rw [value_succ, value_succ]
    rcases Nat.lt_or_ge (i / (d + 2)) (j / (d + 2)) with h | h
    · refine lex_append (by simp [value_length]) (ih h ?_) _ _
      rw [Nat.div_lt_iff_lt_mul hd]
      rw [Nat.factorial_succ (d + 1)] at hj
      rw [Nat.mul_comm]; exact hj
    · have he : i / (d + 2) = j / (d + 2) := le_antisymm (Nat.div_le_div_right hij.le) h
      rw [he]
      apply lex_prefix
      have h1 := Nat.div_add_mod i (d + 2)
      have h2 := Nat.div_add_mod j (d + 2)
      rw [he] at h1
      omega

theorem value_surjective (d : ℕ) (p : List ℤ) (hp : IsPerversity d p) : ∃ n < (d + 1).factorial, value d n = p := by
  induction d generalizing p with
  | zero =>
    have : p = [] := List.length_eq_zero_iff.1 hp.1
    exact ⟨0, by simp, by rw [this]; rfl⟩
  | succ d ih =>
    have hne : p ≠ [] := by rintro rfl; simp [IsPerversity] at hp
    obtain ⟨q, v, rfl⟩ : ∃ q v, p = q ++ [v] := ⟨p.dropLast, p.getLast hne, (List.dropLast_append_getLast hne).symm⟩
    have hq : q.length = d := by simpa using hp.1
    obtain ⟨n, hn, rfl⟩ := ih q ⟨hq, fun k w hw => hp.2 k w (by
      rw [List.getElem?_append_left (List.getElem?_eq_some_iff.1 hw).1]; exact hw)⟩
    have hv := hp.2 d v (by rw [List.getElem?_append_right (by omega), hq]; simp)
    have hd : 0 < d + 2 := by omega
    obtain ⟨i, rfl⟩ : ∃ i : ℕ, v = (i : ℤ) - 1 := ⟨(v + 1).toNat, by omega⟩
    have hi : i < d + 2 := by omega
    refine ⟨(d + 2) * n + i, ?_, ?_⟩
    · rw [Nat.factorial_succ (d + 1)]
      calc (d + 2) * n + i < (d + 2) * n + (d + 2) := by omega
        _ = (d + 2) * (n + 1) := by ring
        _ ≤ (d + 1 + 1) * (d + 1).factorial := Nat.mul_le_mul_left _ hn
    · rw [value_succ]
      have e1 : ((d + 2) * n + i) / (d + 2) = n := by
        rw [Nat.mul_add_div hd, Nat.div_eq_of_lt hi, add_zero]
      have e2 : ((d + 2) * n + i) % (d + 2) = i := by rw [Nat.mul_add_mod, Nat.mod_eq_of_lt hi]
      rw [e1, e2]

/-- C154. For a positive dimension `d` with `(d + 1)!` less than the number of values of `std::size_t`, exactly the perversities `p` with `-1 ≤ p k ≤ k - 1` are enumerated, each one once and in lexicographic order;
there are `(d + 1)!` of them. -/
theorem _root_.Aleph.C154_perversities (word d : ℕ) (hd : 0 < d) (hw : (d + 1).factorial < word) :
    ∃ ps, getPerversities word d = some ps ∧ ps.length = (d + 1).factorial ∧ ps.Pairwise (List.Lex (· < ·)) ∧ ∀ p, p ∈ ps ↔ IsPerversity d p := by
  have h1 : 1 < word := lt_of_le_of_lt (Nat.succ_le_of_lt (Nat.factorial_pos _)) hw
  refine ⟨(List.range' 0 (d + 1).factorial).map (value d), ?_, by simp, ?_, fun p => ?_⟩
  · unfold getPerversities
    rw [numCombinations_eq word d h1, Nat.mod_eq_of_lt hw, ← decode_zero, combinations_decode _ _ _ (by omega)]
  · rw [List.pairwise_map]
    refine List.Pairwise.imp_of_mem (fun {a b} ha hb hab => ?_) (List.pairwise_lt_range' (s := 0) (n := (d + 1).factorial))
    rw [List.mem_range'_1] at hb
    exact value_lex d hab (by omega)
  · rw [List.mem_map]
    constructor
    · rintro ⟨n, _, rfl⟩; exact value_isPerversity d n
    · intro hp
      obtain ⟨n, hn, rfl⟩ := value_surjective d p hp
      exact ⟨n, by rw [List.mem_range'_1]; omega, rfl⟩

/-- C154. If `(d + 1)!` is too large for `std::size_t`, perversities are missing: as the number of combinations is calculated with a remainder, only `(d + 1)!` modulo the number of values of the type are enumerated. -/
theorem _root_.Aleph.C154_overflow (word d : ℕ) (hd : 0 < d) (h1 : 1 < word) (hw : word ≤ (d + 1).factorial) :
    ∃ ps, getPerversities word d = some ps ∧ ps.length = (d + 1).factorial % word ∧ ∃ p, IsPerversity d p ∧ p ∉ ps := by
  refine ⟨(List.range' 0 ((d + 1).factorial % word)).map (value d), ?_, by simp, ?_⟩
  · unfold getPerversities
    rw [numCombinations_eq word d h1, ← decode_zero, combinations_decode _ _ _ (by omega)]
  · have hlt := Nat.mod_lt (d + 1).factorial (show 0 < word by omega)
    refine ⟨value d ((d + 1).factorial - 1), value_isPerversity _ _, fun h => ?_⟩
    obtain ⟨n, hn, he⟩ := List.mem_map.1 h
    rw [List.mem_range'_1] at hn
    have := value_lex d (i := n) (j := (d + 1).factorial - 1) (by omega) (by omega)
    rw [he] at this
    exact (List.lex_irrefl (fun a : ℤ => lt_irrefl a) _) this

/-- C154. For the dimension zero an exception is raised, because an access to the last one of zero indices is attempted. -/
theorem _root_.Aleph.C154_dimension_zero (word : ℕ) : getPerversities word 0 = none := by
  simp [getPerversities, numCombinations, combinations, valuesAt]

/-! ### Signatures -/

theorem makeSignature_fold (Ds : List (Diagram Bool)) (hd : (Ds.map (·.dimension)).Nodup) (v : List ℕ) (hle : ∀ E ∈ Ds, E.dimension < v.length) :
    ∃ s, Ds.foldlM (fun bettiNumbers diagram =>
      if diagram.dimension < bettiNumbers.length then some (bettiNumbers.set diagram.dimension (diagram.betti inf)) else none) v = some s ∧
      s.length = v.length ∧ ∀ d, d < v.length →
        s[d]? = if Ds.filter (fun E => E.dimension = d) = [] then v[d]? else some (((Ds.filter fun E => E.dimension = d).map (Diagram.betti inf)).sum) := by
  induction Ds generalizing v with
  | nil => exact ⟨v, rfl, rfl, fun d _ => by simp⟩
  | cons E Es ih =>
    rw [List.map_cons, List.nodup_cons] at hd
    have hE := hle E List.mem_cons_self
    obtain ⟨s, h1, h2, h3⟩ := ih hd.2 (v.set E.dimension (E.betti inf)) (fun F hF => by
      rw [List.length_set]; exact hle F (List.mem_cons_of_mem _ hF))
    refine ⟨s, ?_, by rw [h2, List.length_set], fun d hdl => ?_⟩
    · rw [List.foldlM_cons, if_pos hE]
      exact h1
    · rw [h3 d (by rw [List.length_set]; exact hdl), List.filter_cons]
      by_cases he : E.dimension = d
      · subst he
        have hnil : Es.filter (fun F => decide (F.dimension = E.dimension)) = [] := by
          rw [List.filter_eq_nil_iff]
          intro F hF hFd
          exact hd.1 (List.mem_map.2 ⟨F, hF, of_decide_eq_true hFd⟩)
        simp [hnil, hE]
      · simp [he]

theorem makeSignature_spec (Ds : List (Diagram Bool)) (hd : (Ds.map (·.dimension)).Pairwise (· < ·)) (D : ℕ) (hle : ∀ E ∈ Ds, E.dimension ≤ D) :
    ∃ s, makeSignature Ds D = some s ∧ s.length = D + 1 ∧
      ∀ d, d ≤ D → s[d]? = some (((Ds.filter fun E => E.dimension = d).map (Diagram.betti inf)).sum) := by
  obtain ⟨s, h1, h2, h3⟩ := makeSignature_fold Ds (hd.imp fun h => ne_of_lt h) (List.replicate (D + 1) 0) (fun E hE => by
    have := hle E hE
    rw [List.length_replicate]; omega)
  refine ⟨s, h1, by rw [h2, List.length_replicate], fun d hdl => ?_⟩
  rw [h3 d (by rw [List.length_replicate]; omega)]
  split
  · rename_i h
    rw [h, List.getElem?_replicate, if_pos (by omega)]
    rfl
  · rfl

theorem euler_fold (s : List ℕ) (c : ℤ) (b : Bool) :
    (s.foldl (fun (cs : ℤ × Bool) (betti : ℕ) => (if cs.2 then cs.1 + betti else cs.1 - betti, !cs.2)) (c, b)).1 =
      c + (if b then 1 else -1) * ∑ i ∈ range s.length, (-1 : ℤ) ^ i * (s.getD i 0 : ℤ) := by
  induction s generalizing c b with
  | nil => simp
  | cons x s ih =>
    rw [List.foldl_cons, ih, List.length_cons, Finset.sum_range_succ']
    simp only [List.getD_cons_succ, List.getD_cons_zero, pow_succ, pow_zero]
    have : ∑ i ∈ range s.length, (-1 : ℤ) ^ i * -1 * (s.getD i 0 : ℤ) = - ∑ i ∈ range s.length, (-1 : ℤ) ^ i * (s.getD i 0 : ℤ) := by
      rw [← Finset.sum_neg_distrib]
      exact Finset.sum_congr rfl fun i _ => by ring
    rw [this]
    cases b <;> simp <;> ring

theorem euler_eq (s : List ℕ) : eulerCharacteristic s = ∑ i ∈ range s.length, (-1 : ℤ) ^ i * (s.getD i 0 : ℤ) := by
  rw [eulerCharacteristic, euler_fold]; simp

theorem sum_by_dimension (Ds : List (Diagram Bool)) (D : ℕ) (hle : ∀ E ∈ Ds, E.dimension ≤ D) :
    ∑ d ∈ range (D + 1), (-1 : ℤ) ^ d * (((Ds.filter fun E => E.dimension = d).map (Diagram.betti inf)).sum : ℕ) =
      (Ds.map fun E => (-1 : ℤ) ^ E.dimension * (E.betti inf : ℤ)).sum := by
  induction Ds with
  | nil => simp
  | cons E Es ih =>
    rw [List.map_cons, List.sum_cons, ← ih fun F hF => hle F (List.mem_cons_of_mem _ hF)]
    have hE : E.dimension ∈ range (D + 1) := by have := hle E List.mem_cons_self; rw [mem_range]; omega
    rw [← Finset.add_sum_erase _ _ hE, ← Finset.add_sum_erase (range (D + 1)) (fun d => (-1 : ℤ) ^ d * (((Es.filter fun E => E.dimension = d).map (Diagram.betti inf)).sum : ℕ)) hE, ← add_assoc]
    congr 1
    · simp; ring
    · refine Finset.sum_congr rfl fun d hd => ?_
      have := ne_of_mem_erase hd
      rw [List.filter_cons, if_neg (by simpa using fun h => this h.symm)]

/-! ### Homology -/

theorem prepare_spec (K : Complex Bool) (hK : WF K) (hdata : ∀ s ∈ K, s.data = false) :
    ∃ K', prepare K = some K' ∧ IsFiltration K' ∧ (∀ s ∈ K', s.data = false) ∧
      ∀ t, t ∈ sets K' ↔ t.Nonempty ∧ ∃ s ∈ K, t ⊆ s.vset := by
  obtain ⟨K', h1, h2, h3, h4, h5, h6⟩ := C24_createMissingFaces K hK
  have hp := sort_perm K' Simplex.lt
  refine ⟨K'.sort Simplex.lt, by rw [prepare, h1]; rfl, ⟨h3.perm hp, ?_, sortLex_facesFirst h3⟩, ?_, ?_⟩
  · intro s hs t ht hne
    obtain ⟨u, hu, he⟩ := h4 s (hp.subset hs) t ht hne
    exact ⟨u, hp.symm.subset hu, he⟩
  · intro s hs
    obtain ⟨t, ht, _, e⟩ := h6 s (hp.subset hs)
    rw [e, hdata t ht]
  · intro t
    rw [mem_sets, ← h5]
    exact ⟨fun ⟨u, hu, e⟩ => ⟨u, hp.subset hu, e⟩, fun ⟨u, hu, e⟩ => ⟨u, hp.symm.subset hu, e⟩⟩

theorem dimension_spec {K : Complex Bool} (hK : WF K) {D : ℕ} : K.dimension = some D ↔ HasDimension (sets K) D := by
  rw [(C22_dimension K hK).2.1]
  constructor
  · rintro ⟨⟨s, hs, h1⟩, h2⟩
    refine ⟨⟨_, mem_sets.2 ⟨s, hs, rfl⟩, h1⟩, fun σ hσ => ?_⟩
    obtain ⟨t, ht, rfl⟩ := mem_sets.1 hσ
    exact h2 t ht
  · rintro ⟨⟨σ, hσ, h1⟩, h2⟩
    obtain ⟨t, ht, rfl⟩ := mem_sets.1 hσ
    exact ⟨⟨t, ht, h1⟩, fun s hs => h2 _ (mem_sets.2 ⟨s, hs, rfl⟩)⟩

theorem length_eq_card {K : Complex Bool} (hK : WF K) : K.length = #(sets K) := by
  rw [sets, List.toFinset_card_of_nodup (sets_nodup hK), List.length_map]

/-- The dimensions of diagrams are those of simplices. -/
theorem diagram_dimension {inf : Bool} {K : Complex Bool} {p : List (ℕ × ℕ)} {Ds : List (Diagram Bool)} (h : IsDiagramsOf inf K p Ds) {D : ℕ} (hD : ∀ σ ∈ sets K, #σ ≤ D + 1) :
    ∀ E ∈ Ds, E.dimension ≤ D := by
  intro E hE
  obtain ⟨h1, h2⟩ := (h.2 E).1 hE
  by_contra hlt
  refine h1 ?_
  rw [h2, diagramPoints, show p.filter (fun ij => decide (dimAt K ij.1 = E.dimension)) = [] from ?_, List.filterMap_nil]
  rw [List.filter_eq_nil_iff]
  intro ij _ he
  have he : dimAt K ij.1 = E.dimension := by simpa using he
  unfold dimAt at he
  by_cases hi : ij.1 < K.length
  · have := hD _ (mem_sets_iff_at.2 ⟨_, hi, rfl⟩)
    omega
  · have : vsetAt K ij.1 = ∅ := by
      unfold vsetAt; rw [List.getElem?_eq_none (by omega)]
    rw [this] at he
    simp at he
    omega

/-- C154. The Betti numbers that are reported for a triangulation are those of the complex of all faces of its simplices, and the Euler characteristic is that of this complex. -/
theorem _root_.Aleph.C154_homology (K : Complex Bool) (hK : WF K) (hdata : ∀ s ∈ K, s.data = false) (S : Finset (Finset ℕ))
    (hS : ∀ t, t ∈ S ↔ t.Nonempty ∧ ∃ s ∈ K, t ⊆ s.vset) (hn : #S ≤ idxMax) (D : ℕ) (hD : HasDimension S D) :
    ∃ K' s, prepare K = some K' ∧ sets K' = S ∧ homology K' = some s ∧ AreBetti (IsBetti S) D s ∧ eulerCharacteristic s = eulerOf S := by
  obtain ⟨K', h1, h2, h3, h4⟩ := prepare_spec K hK hdata
  have hsets : sets K' = S := by ext t; rw [h4, hS]
  have hlen : K'.length ≤ idxMax := by rw [length_eq_card h2.wf, hsets]; exact hn
  have hdim : K'.dimension = some D := by rw [dimension_spec h2.wf, hsets]; exact hD
  obtain ⟨p, Ds, g1, g2, g3⟩ := C51_pipeline inf K' h2 hlen true
  have hinf : ∀ s ∈ K', s.data ≠ inf := by intro s hs; rw [h3 s hs]; decide
  have hle := diagram_dimension g2 (D := D) (by rw [hsets]; exact hD.2)
  obtain ⟨s, e1, e2, e3⟩ := makeSignature_spec Ds g2.1 D hle
  refine ⟨K', s, h1, hsets, ?_, ⟨e2, ?_⟩, ?_⟩
  · simp only [homology, g3, hdim, e1]
  · intro d n hd
    have hdl : d ≤ D := by have := (List.getElem?_eq_some_iff.1 hd).1; omega
    rw [e3 d hdl] at hd
    have := C51_betti inf K' h2 hlen hinf .twist .vector true Ds (g3 _ _ _) d
    rw [Option.some.inj hd, card_simplicialCycles h2.wf h2.closed, card_simplicialBoundaries h2.wf h2.closed, hsets] at this
    exact this
  · have := C57_euler_poincare inf K' h2 hlen hinf .twist .vector true Ds (g3 _ _ _)
    rw [← sum_by_dimension Ds D hle] at this
    rw [euler_eq, e2, eulerOf, ← hsets]
    refine Eq.trans ?_ this
    refine Finset.sum_congr rfl fun d hd => ?_
    rw [List.getD_eq_getElem?_getD, e3 d (by have := mem_range.1 hd; omega)]
    rfl

/-! ### Intersection homology -/

section Split

variable {α : Type} {P Q : Complex α}

theorem vsetAt_append {i : ℕ} (hi : i < P.length) : vsetAt (P ++ Q) i = vsetAt P i := by
  unfold vsetAt; rw [List.getElem?_append_left hi]

theorem mem_sets_split {σ : Finset ℕ} : σ ∈ sets P ↔ ∃ i < P.length, vsetAt (P ++ Q) i = σ := by
  rw [mem_sets_iff_at]
  exact ⟨fun ⟨i, hi, e⟩ => ⟨i, hi, by rw [vsetAt_append hi, e]⟩, fun ⟨i, hi, e⟩ => ⟨i, hi, by rw [← vsetAt_append (Q := Q) hi, e]⟩⟩

theorem mem_chainsBelow (hL : WF (P ++ Q)) {c : Finset ℕ} {d : ℕ} :
    c ∈ chainsBelow (P ++ Q) P.length d ↔ c ⊆ range P.length ∧ atPositions (P ++ Q) c ∈ setChains (sets P) d := by
  rw [chainsBelow, mem_powerset, mem_setChains]
  have hdim : ∀ k < P.length, (dimAt (P ++ Q) k = d ↔ #(vsetAt (P ++ Q) k) = d + 1) := by
    intro k hk
    have := (vsetAt_nonempty hL (show k < (P ++ Q).length by rw [List.length_append]; omega)).card_pos
    unfold dimAt; omega
  constructor
  · intro h
    refine ⟨h.trans (filter_subset _ _), ?_⟩
    intro σ hσ
    obtain ⟨k, hk, rfl⟩ := mem_image.1 hσ
    have := mem_filter.1 (h hk)
    rw [mem_range] at this
    exact ⟨mem_sets_split.2 ⟨k, this.1, rfl⟩, (hdim k this.1).1 this.2⟩
  · rintro ⟨h1, h2⟩ k hk
    have hk' := mem_range.1 (h1 hk)
    exact mem_filter.2 ⟨h1 hk, (hdim k hk').2 (h2 _ (mem_image_of_mem _ hk)).2⟩

theorem range_split {c : Finset ℕ} (h : c ⊆ range P.length) : c ⊆ range (P ++ Q).length := by
  intro k hk
  have := mem_range.1 (h hk)
  rw [mem_range, List.length_append]; omega

theorem exists_positions_split {c : Finset (Finset ℕ)} (h : c ⊆ sets P) : ∃ c' ⊆ range P.length, atPositions (P ++ Q) c' = c := by
  refine ⟨{k ∈ range P.length | vsetAt (P ++ Q) k ∈ c}, filter_subset _ _, ?_⟩
  ext σ
  simp only [atPositions, mem_image, mem_filter, mem_range]
  constructor
  · rintro ⟨k, ⟨_, h⟩, rfl⟩; exact h
  · intro hσ
    obtain ⟨k, hk, rfl⟩ := (mem_sets_split (Q := Q)).1 (h hσ)
    exact ⟨k, ⟨hk, hσ⟩, rfl⟩

theorem chainBd_lt {K : Complex α} (c : Finset ℕ) : chainBd (facets K) c ⊆ range K.length := by
  intro i hi
  unfold chainBd at hi
  rw [mem_filter] at hi
  obtain ⟨k, _, hik⟩ := mem_biUnion.1 hi.1
  simp only [facets, mem_filter] at hik
  exact hik.1

theorem setBd_subset_split (hL : WF (P ++ Q)) (hc : FaceClosed (P ++ Q)) {c : Finset ℕ} (h : c ⊆ range P.length) :
    setBd (atPositions (P ++ Q) c) ⊆ sets P ↔ chainBd (facets (P ++ Q)) c ⊆ range P.length := by
  rw [setBd_atPositions hL hc (range_split h)]
  constructor
  · intro h2 i hi
    obtain ⟨j, hj, e⟩ := mem_sets_split.1 (h2 (mem_image_of_mem _ hi))
    have := vsetAt_inj hL (by rw [List.length_append]; omega) (mem_range.1 (chainBd_lt c hi)) e
    rw [mem_range, ← this]; exact hj
  · intro h2 σ hσ
    obtain ⟨i, hi, rfl⟩ := mem_image.1 hσ
    exact mem_sets_split.2 ⟨i, mem_range.1 (h2 hi), rfl⟩

theorem card_cycles_split (hL : WF (P ++ Q)) (hc : FaceClosed (P ++ Q)) (d : ℕ) :
    #{c ∈ chainsBelow (P ++ Q) P.length d | chainBd (facets (P ++ Q)) c = ∅} = #{c ∈ setChains (sets P) d | setBd c = ∅} := by
  refine card_bij (fun c _ => atPositions (P ++ Q) c) ?_ ?_ ?_
  · intro c h
    obtain ⟨h1, h2⟩ := mem_filter.1 h
    rw [mem_chainsBelow hL] at h1
    refine mem_filter.2 ⟨h1.2, ?_⟩
    rw [setBd_atPositions hL hc (range_split h1.1), h2]
    simp [atPositions]
  · intro c h c' h' he
    exact atPositions_injOn hL (range_split ((mem_chainsBelow hL).1 (mem_filter.1 h).1).1) (range_split ((mem_chainsBelow hL).1 (mem_filter.1 h').1).1) he
  · intro c h
    obtain ⟨h1, h2⟩ := mem_filter.1 h
    obtain ⟨c', hc', rfl⟩ := exists_positions_split (P := P) (Q := Q) (c := c) fun σ hσ => (mem_setChains.1 h1 σ hσ).1
    refine ⟨c', mem_filter.2 ⟨(mem_chainsBelow hL).2 ⟨hc', h1⟩, ?_⟩, rfl⟩
    rw [setBd_atPositions hL hc (range_split hc')] at h2
    exact image_eq_empty.1 h2

theorem card_boundaries_split (hL : WF (P ++ Q)) (hc : FaceClosed (P ++ Q)) (d : ℕ) :
    #(({c ∈ chainsBelow (P ++ Q) P.length d | chainBd (facets (P ++ Q)) c ⊆ range P.length} : Finset (Finset ℕ)).image (chainBd (facets (P ++ Q)))) =
      #(({c ∈ setChains (sets P) d | setBd c ⊆ sets P} : Finset _).image setBd) := by
  refine card_bij (fun c _ => atPositions (P ++ Q) c) ?_ ?_ ?_
  · intro b h
    obtain ⟨c, hc', rfl⟩ := mem_image.1 h
    rw [mem_filter, mem_chainsBelow hL] at hc'
    rw [← setBd_atPositions hL hc (range_split hc'.1.1)]
    exact mem_image_of_mem _ (mem_filter.2 ⟨hc'.1.2, (setBd_subset_split hL hc hc'.1.1).2 hc'.2⟩)
  · intro b h b' h' he
    obtain ⟨c, _, rfl⟩ := mem_image.1 h
    obtain ⟨c', _, rfl⟩ := mem_image.1 h'
    exact atPositions_injOn hL (chainBd_lt c) (chainBd_lt c') he
  · intro b h
    obtain ⟨c, h1, rfl⟩ := mem_image.1 h
    obtain ⟨h1, h2⟩ := mem_filter.1 h1
    obtain ⟨c', hc', rfl⟩ := exists_positions_split (P := P) (Q := Q) (c := c) fun σ hσ => (mem_setChains.1 h1 σ hσ).1
    exact ⟨chainBd (facets (P ++ Q)) c', mem_image_of_mem _ (mem_filter.2 ⟨(mem_chainsBelow hL).2 ⟨hc', h1⟩, (setBd_subset_split hL hc hc').1 h2⟩),
      (setBd_atPositions hL hc (range_split hc')).symm⟩

end Split

theorem mem_flags {S C : Finset (Finset ℕ)} : C ∈ flags S ↔ IsFlag S C := by
  rw [flags, mem_filter, mem_powerset]
  exact ⟨fun h => h.2, fun h => ⟨h.2.1, h⟩⟩

/-- Simplices of a flag with the same number of vertices agree. -/
theorem flag_card_inj {S C : Finset (Finset ℕ)} (h : IsFlag S C) : Set.InjOn (fun s : Finset ℕ => #s) (C : Set (Finset ℕ)) := by
  intro s hs t ht he
  rcases h.2.2 s hs t ht with g | g
  · exact Finset.eq_of_subset_of_card_le g (le_of_eq he.symm)
  · exact (Finset.eq_of_subset_of_card_le g (le_of_eq he)).symm

theorem flag_card_le {S C : Finset (Finset ℕ)} (hne : ∅ ∉ S) (h : IsFlag S C) {D : ℕ} (hD : ∀ σ ∈ S, #σ ≤ D + 1) : #C ≤ D + 1 := by
  rw [← card_image_of_injOn (flag_card_inj h)]
  have : C.image (fun s => #s) ⊆ Icc 1 (D + 1) := by
    intro n hn
    obtain ⟨s, hs, rfl⟩ := mem_image.1 hn
    rw [mem_Icc]
    refine ⟨card_pos.2 (nonempty_iff_ne_empty.2 ?_), hD s (h.2.1 hs)⟩
    rintro rfl
    exact hne (h.2.1 hs)
  exact (card_le_card this).trans (by simp)

theorem exists_flag {S : Finset (Finset ℕ)} (hS : DownClosed S) : ∀ (n : ℕ) (σ : Finset ℕ), σ ∈ S → #σ = n + 1 → ∃ C, IsFlag S C ∧ #C = n + 1 ∧ ∀ t ∈ C, t ⊆ σ := by
  intro n
  induction n with
  | zero =>
    intro σ hσ _
    exact ⟨{σ}, ⟨singleton_nonempty _, by simpa using hσ, by simp⟩, by simp, by simp⟩
  | succ n ih =>
    intro σ hσ hc
    obtain ⟨v, hv⟩ := card_pos.1 (show 0 < #σ by omega)
    have hcard : #(σ.erase v) = n + 1 := by rw [card_erase_of_mem hv, hc]; rfl
    obtain ⟨C, h1, h2, h3⟩ := ih (σ.erase v) (hS σ hσ _ (erase_subset _ _) (card_pos.1 (by omega))) hcard
    have hnot : σ ∉ C := by
      intro h
      have := card_le_card (h3 σ h)
      omega
    have h3' : ∀ t ∈ C, t ⊆ σ := fun t ht => (h3 t ht).trans (erase_subset _ _)
    refine ⟨insert σ C, ⟨insert_nonempty _ _, insert_subset hσ h1.2.1, ?_⟩, by rw [card_insert_of_notMem hnot, h2], ?_⟩
    · intro s hs t ht
      rw [mem_insert] at hs ht
      rcases hs with rfl | hs <;> rcases ht with rfl | ht
      · exact Or.inl (Subset.refl _)
      · exact Or.inr (h3' t ht)
      · exact Or.inl (h3' s hs)
      · exact h1.2.2 s hs t ht
    · intro t ht
      rw [mem_insert] at ht
      rcases ht with rfl | ht
      · exact Subset.refl _
      · exact h3' t ht

theorem flag_max {S C : Finset (Finset ℕ)} (h : IsFlag S C) : ∃ s ∈ C, ∀ t ∈ C, t ⊆ s := by
  obtain ⟨s, hs, hm⟩ := C.exists_max_image (fun s => #s) h.1
  refine ⟨s, hs, fun t ht => ?_⟩
  rcases h.2.2 t ht s hs with g | g
  · exact g
  · rw [Finset.eq_of_subset_of_card_le g (hm t ht)]

theorem flag_image_card {S C : Finset (Finset ℕ)} (h : IsFlag S C) {b : Finset ℕ → ℕ} (hb : IsNumbering S b) : #(C.image b) = #C :=
  card_image_of_injOn (hb.inj.mono (by exact_mod_cast h.2.1))

/-- An original vertex in the image of a flag is an element of the flag. -/
theorem mem_flag_of_vertex {S C : Finset (Finset ℕ)} (h : IsFlag S C) {b : Finset ℕ → ℕ} (hb : IsNumbering S b) {v : ℕ} (hv : {v} ∈ S) :
    v ∈ C.image b ↔ {v} ∈ C := by
  rw [mem_image]
  constructor
  · rintro ⟨s, hs, e⟩
    rw [← hb.vertex v hv] at e
    rwa [← hb.inj (h.2.1 hs) hv e]
  · intro hm
    exact ⟨_, hm, hb.vertex v hv⟩

theorem subdivide_spec (K : Complex Bool) (hK : WF K) (hc : FaceClosed K) (hdata : ∀ s ∈ K, s.data = false) (byDimension : Complex Bool → Complex Bool)
    (hp : (byDimension K).Perm K) (hd : (byDimension K).Pairwise fun s t => #s.vset ≤ #t.vset)
    (order : List (List ℕ × List (Simplex Bool)) → List (List ℕ × List (Simplex Bool))) (ho : ∀ l, (order l).Perm l) :
    ∃ L b, Barycentric.subdivide (fun _ => true) (byDimension K) order K = some L ∧ WF L ∧ FaceClosed L ∧ IsNumbering (sets K) b ∧
      sets L = subdivided (sets K) b ∧ ∀ s ∈ L, s.data = false := by
  obtain ⟨L, b, h1, h2, h3, _, h5, h6, h7, h8⟩ := C48_subdivision (fun _ => true) K (byDimension K) hK hc hp hd order ho
  refine ⟨L, b, h1, h2, h3, ⟨h5, h6, h7⟩, ?_, ?_⟩
  · ext σ
    rw [mem_sets, subdivided, mem_image]
    constructor
    · rintro ⟨s, hs, rfl⟩
      obtain ⟨C, g1, g2, _⟩ := (h8 s.vset s.data).1 ⟨s, hs, rfl, rfl⟩
      exact ⟨C, mem_flags.2 g1, g2.symm⟩
    · rintro ⟨C, g1, rfl⟩
      rw [mem_flags] at g1
      obtain ⟨m, hm, hm'⟩ := flag_max g1
      obtain ⟨s, hs, rfl⟩ := mem_sets.1 (g1.2.1 hm)
      obtain ⟨u, hu, e, _⟩ := (h8 _ _).2 ⟨C, g1, rfl, s, hs, hm, hm', rfl⟩
      exact ⟨u, hu, e⟩
  · intro s hs
    obtain ⟨C, _, _, t, ht, _, _, e⟩ := (h8 s.vset s.data).1 ⟨s, hs, rfl, rfl⟩
    rw [e, hdata t ht]
    split
    · split <;> rfl
    · rfl

theorem subdivided_dimension {S : Finset (Finset ℕ)} (hS : DownClosed S) (hne : ∅ ∉ S) {b : Finset ℕ → ℕ} (hb : IsNumbering S b) {D : ℕ} (hD : HasDimension S D) :
    HasDimension (subdivided S b) D := by
  obtain ⟨⟨σ, h1, h2⟩, h3⟩ := hD
  refine ⟨?_, ?_⟩
  · obtain ⟨C, g1, g2, _⟩ := exists_flag hS D σ h1 h2
    exact ⟨_, mem_image.2 ⟨C, mem_flags.2 g1, rfl⟩, by rw [flag_image_card g1 hb, g2]⟩
  · intro τ hτ
    obtain ⟨C, g1, rfl⟩ := mem_image.1 hτ
    rw [mem_flags] at g1
    rw [flag_image_card g1 hb]
    exact flag_card_le hne g1 h3

theorem skeletons_spec (K : Complex Bool) (hK : WF K) (D : ℕ) :
    skeletons K D = some ((List.range (D + 1)).map fun d => K.filter fun s => decide (s.vset.card ≤ d + 1)) := by
  refine mapM_all_some _ _ _ fun d _ => ?_
  obtain ⟨L, h1, h2, _⟩ := C46_skeleton d K hK
  rw [h1, h2]

theorem stratification (K : Complex Bool) (hK : WF K) (hc : FaceClosed K) {D : ℕ} (hD : HasDimension (sets K) D) (p : List ℤ) :
    Stratification ((List.range (D + 1)).map fun d => K.filter fun s => decide (s.vset.card ≤ d + 1)) (.general p) D := by
  have hex : ∃ s ∈ K, #s.vset = D + 1 := by
    obtain ⟨σ, h1, h2⟩ := hD.1
    obtain ⟨s, hs, rfl⟩ := mem_sets.1 h1
    exact ⟨s, hs, h2⟩
  refine ⟨?_, by simp, ?_, ?_, by rintro ⟨_, h⟩; cases h⟩
  · intro x hx
    obtain ⟨d, _, rfl⟩ := List.mem_map.1 hx
    refine ⟨hK.sublist List.filter_sublist, ?_⟩
    obtain ⟨s, hs, e⟩ := hex
    obtain ⟨v, hv⟩ := card_pos.1 (show 0 < #s.vset by omega)
    obtain ⟨u, hu, e⟩ := hc s hs {v} (singleton_subset_iff.2 hv) (singleton_nonempty _)
    intro h
    have : u ∈ K.filter fun s => decide (s.vset.card ≤ d + 1) := List.mem_filter.2 ⟨hu, by rw [e]; simp⟩
    rw [h] at this
    cases this
  · intro x hx s hs
    obtain ⟨d, hd, rfl⟩ := List.mem_map.1 hx
    exact hD.2 _ (mem_sets.2 ⟨s, (List.mem_filter.1 hs).1, rfl⟩)
  · obtain ⟨s, hs, e⟩ := hex
    exact Or.inr ⟨_, List.mem_map.2 ⟨D, by simp, rfl⟩, s, List.mem_filter.2 ⟨hs, by simp [e]⟩, e⟩

/-- With the skeletons of the complex as strata, only its vertices matter. -/
theorem allowable_iff (K : Complex Bool) (hK : WF K) (hc : FaceClosed K) {D : ℕ} {b : Finset ℕ → ℕ} (hb : IsNumbering (sets K) b) (p : List ℤ) (hl : p.length = D)
    {σ : Finset ℕ} (hσ : σ ∈ subdivided (sets K) b) :
    Allowable ((List.range (D + 1)).map fun d => K.filter fun s => decide (s.vset.card ≤ d + 1)) (.general p) D σ ↔ σ ∈ permitted (sets K) b p := by
  rw [permitted, mem_filter, and_iff_right hσ]
  obtain ⟨C, hC, rfl⟩ := mem_image.1 hσ
  rw [mem_flags] at hC
  have hval : ∀ k (h : k < p.length), pervValue (.general p) (k + 1) = p[k] := by
    intro k h
    simp [pervValue, h]
  constructor
  · rintro h ⟨v, hv, hvS⟩ ⟨k, hk⟩
    obtain ⟨s, hs, e⟩ := mem_sets.1 hvS
    have := h (k + 1) _ (by simp [firstCodim]) (by omega) (by rw [List.getElem?_map, List.getElem?_range (by omega)]; rfl) s
      (List.mem_filter.2 ⟨hs, by rw [e]; simp⟩) (by rw [e]; simpa using hv)
    rw [hval k hk, e] at this
    simp only [card_singleton, Nat.cast_add, Nat.cast_one] at this
    change (k : ℤ) + 1 - p[k] ≤ _
    linarith
  · rintro h k x hk hkD hx t ht hts
    simp only [firstCodim] at hk
    rw [List.getElem?_map, List.getElem?_range (by omega)] at hx
    obtain rfl := Option.some.inj hx
    obtain ⟨htK, _⟩ := List.mem_filter.1 ht
    have hsingle : ∀ v ∈ t.vset, {v} ∈ sets K := by
      intro v hv
      obtain ⟨u, hu, e⟩ := hc t htK {v} (singleton_subset_iff.2 hv) (singleton_nonempty _)
      exact mem_sets.2 ⟨u, hu, e⟩
    have hone : #t.vset ≤ 1 := by
      rw [card_le_one]
      intro v hv w hw
      have h1 := (mem_flag_of_vertex hC hb (hsingle v hv)).1 (hts hv)
      have h2 := (mem_flag_of_vertex hC hb (hsingle w hw)).1 (hts hw)
      rcases hC.2.2 _ h1 _ h2 with g | g
      · simpa using g
      · simpa [eq_comm] using g
    obtain ⟨v, hv⟩ := hK.vset_nonempty htK
    have := h ⟨v, hts hv, hsingle v hv⟩ ⟨k - 1, by omega⟩
    have hv' := hval (k - 1) (by omega)
    rw [show k - 1 + 1 = k by omega] at hv'
    rw [hv']
    change ((k - 1 : ℕ) : ℤ) + 1 - p[k - 1] ≤ _ at this
    omega

theorem intersection_spec (K : Complex Bool) (hK : WF K) (hc : FaceClosed K) (D : ℕ) (hD : HasDimension (sets K) D) (hn : #(flags (sets K)) ≤ idxMax)
    (L : Complex Bool) (hL : WF L) (hcL : FaceClosed L) (hdL : ∀ s ∈ L, s.data = false) (b : Finset ℕ → ℕ) (hb : IsNumbering (sets K) b) (hsL : sets L = subdivided (sets K) b)
    (p : List ℤ) (hl : p.length = D) :
    ∃ s, intersection L ((List.range (D + 1)).map fun d => K.filter fun s => decide (s.vset.card ≤ d + 1)) D p = some s ∧
      AreBetti (IsIntersectionBetti (permitted (sets K) b p)) D s := by
  classical
  have hdim := subdivided_dimension (downClosed_sets.2 hc) (empty_notMem_sets hK) hb hD
  have hlen : L.length ≤ idxMax := by
    rw [length_eq_card hL, hsL]
    exact card_image_le.trans hn
  obtain ⟨P, Q, q, Ds, h1, h2, h3, h4, h5⟩ := C47_any_order inf L hL hcL hlen D (by rw [dimension_spec hL, hsL]; exact hdim) _ _ (stratification K hK hc hD p)
  have hperm : (P ++ Q).Perm L := by rw [h1, h2]; exact filter_split_perm L _
  have hPQ : WF (P ++ Q) := hL.perm hperm
  have hcPQ : FaceClosed (P ++ Q) := by
    intro s hs t ht hne
    obtain ⟨u, hu, e⟩ := hcL s (hperm.subset hs) t ht hne
    exact ⟨u, hperm.symm.subset hu, e⟩
  have hlen' : (P ++ Q).length ≤ idxMax := by rw [hperm.length_eq]; exact hlen
  have hP : sets P = permitted (sets K) b p := by
    ext σ
    rw [mem_sets, h1]
    constructor
    · rintro ⟨s, hs, rfl⟩
      obtain ⟨g1, g2⟩ := List.mem_filter.1 hs
      exact (allowable_iff K hK hc hb p hl (by rw [← hsL]; exact mem_sets.2 ⟨s, g1, rfl⟩)).1 (of_decide_eq_true g2)
    · intro hσ
      have hσ' := (mem_filter.1 hσ).1
      have ha := (allowable_iff K hK hc hb p hl hσ').2 hσ
      rw [← hsL] at hσ'
      obtain ⟨s, hs, rfl⟩ := mem_sets.1 hσ'
      exact ⟨s, List.mem_filter.2 ⟨hs, decide_eq_true ha⟩, rfl⟩
  have hle := diagram_dimension h4 (D := D) (by
    intro σ hσ
    obtain ⟨s, hs, rfl⟩ := mem_sets.1 hσ
    exact hdim.2 _ (by rw [← hsL]; exact mem_sets.2 ⟨s, hperm.subset hs, rfl⟩))
  obtain ⟨s, e1, e2, e3⟩ := makeSignature_spec Ds h4.1 D hle
  refine ⟨s, by simp only [intersection, h5, e1], e2, ?_⟩
  intro d n hd
  have hdl : d ≤ D := by have := (List.getElem?_eq_some_iff.1 hd).1; omega
  rw [e3 d hdl] at hd
  have hsum := betti_sum inf (P ++ Q) hlen' (fun s hs => by rw [hdL s (hperm.subset hs)]; decide) q (fun i j hij => by
    obtain ⟨g1, g2⟩ := (h3.2.2 i j).1 hij
    rw [List.length_append]
    refine ⟨by omega, ?_⟩
    rcases g2 with g2 | g2
    · exact Or.inr (by omega)
    · exact Or.inl g2.1) Ds h4 d
  have := C47_betti_any_order P Q hPQ hcPQ hlen' q h3 d
  rw [card_cycles_split hPQ hcPQ, card_boundaries_split hPQ hcPQ, ← hsum, Option.some.inj hd, hP] at this
  exact this

/-- C154. For a complex of positive dimension that contains all faces of its simplices, all perversities are listed in lexicographic order, each of them with the Betti numbers of the chains of
permitted simplices of the barycentric subdivision.  These are not always those of intersection homology, see `C154_wrong_strata`.  The order of the simplices of the same dimension and
the order of iteration over a map do not matter. -/
theorem _root_.Aleph.C154_intersection_partial (word : ℕ) (K : Complex Bool) (hK : WF K) (hc : FaceClosed K) (hdata : ∀ s ∈ K, s.data = false) (D : ℕ) (hD : HasDimension (sets K) D) (h0 : 0 < D)
    (hw : (D + 1).factorial < word) (hn : #(flags (sets K)) ≤ idxMax) (byDimension : Complex Bool → Complex Bool)
    (hp : (byDimension K).Perm K) (hd : (byDimension K).Pairwise fun s t => #s.vset ≤ #t.vset)
    (order : List (List ℕ × List (Simplex Bool)) → List (List ℕ × List (Simplex Bool))) (ho : ∀ l, (order l).Perm l) :
    ∃ b res, IsNumbering (sets K) b ∧ intersections word byDimension order K = some res ∧
      (res.map Prod.fst).Pairwise (List.Lex (· < ·)) ∧ (∀ p, p ∈ res.map Prod.fst ↔ IsPerversity D p) ∧
      ∀ e ∈ res, AreBetti (IsIntersectionBetti (permitted (sets K) b e.1)) D e.2 := by
  classical
  obtain ⟨L, b, h1, h2, h3, h4, h5, h6⟩ := subdivide_spec K hK hc hdata byDimension hp hd order ho
  obtain ⟨ps, g1, g2, g3, g4⟩ := C154_perversities word D h0 hw
  have hex : ∀ p : List ℤ, ∃ s, p.length = D → intersection L ((List.range (D + 1)).map fun d => K.filter fun s => decide (s.vset.card ≤ d + 1)) D p = some s ∧
      AreBetti (IsIntersectionBetti (permitted (sets K) b p)) D s := by
    intro p
    by_cases hl : p.length = D
    · obtain ⟨s, hs⟩ := intersection_spec K hK hc D hD hn L h2 h3 h6 b h4 h5 p hl
      exact ⟨s, fun _ => hs⟩
    · exact ⟨[], fun h => absurd h hl⟩
  choose f hf using hex
  have hmap : (ps.map fun p => (p, f p)).map Prod.fst = ps := by
    rw [List.map_map]
    exact List.map_id' ps
  refine ⟨b, ps.map fun p => (p, f p), h4, ?_, ?_, ?_, ?_⟩
  · have hdim : K.dimension = some D := (dimension_spec hK).2 hD
    simp only [intersections, hdim, skeletons_spec K hK D, h1, g1]
    refine mapM_all_some _ _ _ fun p hp => ?_
    rw [(hf p ((g4 p).1 hp).1).1]
    rfl
  · rw [hmap]; exact g3
  · rw [hmap]; exact g4
  · intro e he
    obtain ⟨p, hp, rfl⟩ := List.mem_map.1 he
    exact (hf p ((g4 p).1 hp).1).2

theorem flag_small {S C : Finset (Finset ℕ)} (h : IsFlag S C) (hne : ∅ ∉ S) (hex : ∃ s ∈ C, #s ≤ 1) : #{s ∈ C | #s ≤ 1} = 1 := by
  refine le_antisymm ?_ ?_
  · rw [card_le_one]
    intro s hs t ht
    obtain ⟨h1, h2⟩ := mem_filter.1 hs
    obtain ⟨h3, h4⟩ := mem_filter.1 ht
    have e1 : s ≠ ∅ := by rintro rfl; exact hne (h.2.1 h1)
    have e2 : t ≠ ∅ := by rintro rfl; exact hne (h.2.1 h3)
    have := card_pos.2 (nonempty_iff_ne_empty.2 e1)
    have := card_pos.2 (nonempty_iff_ne_empty.2 e2)
    exact flag_card_inj h h1 h3 (show #s = #t by omega)
  · obtain ⟨s, hs, h1⟩ := hex
    exact card_pos.2 ⟨s, mem_filter.2 ⟨hs, h1⟩⟩

/-- C154. For graphs, the permitted simplices are those that are allowable, so that the reported numbers are those of intersection homology. -/
theorem _root_.Aleph.C154_graphs (S : Finset (Finset ℕ)) (hne : ∅ ∉ S) (b : Finset ℕ → ℕ) (hb : IsNumbering S b) (p : List ℤ) (hp : p.length = 1) :
    permitted S b p = allowable S b 1 p := by
  obtain ⟨z, rfl⟩ := List.length_eq_one_iff.1 hp
  have hv : ∀ C, IsFlag S C → ((∃ v ∈ C.image b, {v} ∈ S) ↔ ∃ s ∈ C, #s ≤ 1) := by
    intro C hC
    constructor
    · rintro ⟨v, hv, hvS⟩
      exact ⟨_, (mem_flag_of_vertex hC hb hvS).1 hv, by simp⟩
    · rintro ⟨s, hs, h1⟩
      have e1 : s ≠ ∅ := by rintro rfl; exact hne (hC.2.1 hs)
      have := card_pos.2 (nonempty_iff_ne_empty.2 e1)
      obtain ⟨v, rfl⟩ := card_eq_one.1 (show #s = 1 by omega)
      exact ⟨v, (mem_flag_of_vertex hC hb (hC.2.1 hs)).2 hs, hC.2.1 hs⟩
  ext σ
  rw [permitted, mem_filter, subdivided, allowable, mem_image, mem_image]
  constructor
  · rintro ⟨⟨C, hC, rfl⟩, h⟩
    have hC' := mem_flags.1 hC
    refine ⟨C, mem_filter.2 ⟨hC, ?_⟩, rfl⟩
    rintro ⟨k, hk⟩ hex
    obtain rfl : k = 0 := by simpa using hk
    change (∃ s ∈ C, #s ≤ 1) at hex
    have := h ((hv C hC').2 hex) ⟨0, by simp⟩
    rw [flag_image_card hC' hb] at this
    change (#{s ∈ C | #s ≤ 1} : ℤ) - 1 ≤ (#C : ℤ) - 1 - ((0 : ℕ) + 1) + z
    change ((0 : ℕ) : ℤ) + 1 - z ≤ _ at this
    rw [flag_small hC' hne hex]
    push_cast at *
    linarith
  · rintro ⟨C, hC, rfl⟩
    obtain ⟨hC, h⟩ := mem_filter.1 hC
    have hC' := mem_flags.1 hC
    refine ⟨⟨C, hC, rfl⟩, ?_⟩
    rintro hex ⟨k, hk⟩
    obtain rfl : k = 0 := by simpa using hk
    have hex := (hv C hC').1 hex
    have := h ⟨0, by simp⟩ hex
    rw [flag_image_card hC' hb]
    change (#{s ∈ C | #s ≤ 1} : ℤ) - 1 ≤ (#C : ℤ) - 1 - ((0 : ℕ) + 1) + z at this
    change ((0 : ℕ) : ℤ) + 1 - z ≤ _
    rw [flag_small hC' hne hex] at this
    push_cast at *
    linarith

/-- C154. Of a perversity only the largest number `k - p k` matters. -/
theorem _root_.Aleph.C154_only_maximum (S : Finset (Finset ℕ)) (b : Finset ℕ → ℕ) (p q : List ℤ)
    (h : ∀ z : ℤ, (∀ k : Fin p.length, (k : ℤ) + 1 - p[k] ≤ z) ↔ ∀ k : Fin q.length, (k : ℤ) + 1 - q[k] ≤ z) : permitted S b p = permitted S b q := by
  rw [permitted, permitted]
  refine filter_congr fun σ _ => ?_
  rw [h]

/-- Two triangles with a common edge. -/
def twoTriangles : Complex Bool := [⟨[2, 1, 0], false⟩, ⟨[3, 2, 1], false⟩]

/-- The faces of `twoTriangles`. -/
def twoTrianglesFaces : Complex Bool :=
  [⟨[0], false⟩, ⟨[1], false⟩, ⟨[1, 0], false⟩, ⟨[2], false⟩, ⟨[2, 0], false⟩, ⟨[2, 1], false⟩, ⟨[2, 1, 0], false⟩, ⟨[3], false⟩, ⟨[3, 1], false⟩, ⟨[3, 2], false⟩, ⟨[3, 2, 1], false⟩]

/-- The simplices in the order of their dimension. -/
def sortedByDimension (K : Complex Bool) : Complex Bool := K.insertionSort fun s t => s.vertices.length ≤ t.vertices.length

theorem two_points {x y : ℕ} (h : x ≠ y) {n : ℕ} (hn : IsIntersectionBetti {{x}, {y}} 0 n) : n = 2 := by
  have h0 : setChains {{x}, {y}} 0 = ({{x}, {y}} : Finset (Finset ℕ)).powerset := by
    rw [setChains, filter_true_of_mem]
    intro σ hσ
    rw [mem_insert, mem_singleton] at hσ
    rcases hσ with rfl | rfl <;> rfl
  have h1 : setChains {{x}, {y}} 1 = {∅} := by
    rw [setChains, filter_false_of_mem, powerset_empty]
    intro σ hσ
    rw [mem_insert, mem_singleton] at hσ
    rcases hσ with rfl | rfl <;> simp
  have h2 : ∀ c ∈ ({{x}, {y}} : Finset (Finset ℕ)).powerset, setBd c = ∅ := by
    intro c hc
    rw [mem_powerset] at hc
    rw [eq_empty_iff_forall_notMem]
    intro τ hτ
    rw [mem_setBd] at hτ
    obtain ⟨σ, hσ⟩ := card_pos.1 hτ.2.pos
    rw [cofacesIn, mem_filter] at hσ
    have := card_pos.2 hτ.1
    have h3 : #σ = 1 := by
      have := hc hσ.1
      rw [mem_insert, mem_singleton] at this
      rcases this with rfl | rfl <;> rfl
    omega
  rw [IsIntersectionBetti, h0, h1, filter_true_of_mem h2, card_powerset, card_pair (by simpa using h), filter_singleton, if_pos (by rw [setBd_empty]; simp), image_singleton, card_singleton, mul_one] at hn
  exact (Nat.pow_right_injective (le_refl 2) hn).symm

/-- C154. The strata are not subdivided together with the complex: barycentres of edges count as points that do not lie in the 1-skeleton.  Two triangles with a common edge are reported to have one
component for the perversity with values -1, although no chain meets the edge, and intersection homology has two components. -/
theorem _root_.Aleph.C154_wrong_strata :
    prepare twoTriangles = some twoTrianglesFaces ∧
    (∃ res, intersections (2 ^ 64) sortedByDimension id twoTrianglesFaces = some res ∧ ([-1, -1], [1, 0, 0]) ∈ res) ∧
    ∀ b, IsNumbering (sets twoTrianglesFaces) b → ∀ n, IsIntersectionBetti (allowable (sets twoTrianglesFaces) b 2 [-1, -1]) 0 n → n = 2 := by
  refine ⟨by decide +kernel, ⟨_, (by decide +kernel : _ = some [([-1, -1], [1, 0, 0]), ([-1, 0], [1, 0, 0]), ([-1, 1], [1, 0, 0]), ([0, -1], [1, 0, 0]), ([0, 0], [1, 0, 0]),
    ([0, 1], [1, 0, 0])]), by simp⟩, ?_⟩
  intro b hb n hn
  have hall : allowable (sets twoTrianglesFaces) b 2 [-1, -1] = {{b {2, 1, 0}}, {b {3, 2, 1}}} := by
    have : ({C ∈ flags (sets twoTrianglesFaces) | ∀ k : Fin [(-1 : ℤ), -1].length, (∃ s ∈ C, #s ≤ 2 - k) → (#{s ∈ C | #s ≤ 2 - k} : ℤ) - 1 ≤ (#C : ℤ) - 1 - (k + 1) + [(-1 : ℤ), -1][k]} : Finset _) =
        {{{2, 1, 0}}, {{3, 2, 1}}} := by decide +kernel
    rw [allowable, this]
    simp
  rw [hall] at hn
  refine two_points (fun h => ?_) hn
  have := hb.inj (show {2, 1, 0} ∈ sets twoTrianglesFaces by decide) (show {3, 2, 1} ∈ sets twoTrianglesFaces by decide) h
  revert this
  decide

/-! ### Output -/

theorem printNat_json (n : ℕ) : IsJson (printNat n) (.number n) := .number _ _ (DiagramJson.isDecimal_toDigits n)

theorem printInt_json (z : ℤ) : IsJson (printInt z) (.integer z) := by
  unfold printInt Json.integer
  split
  · exact .negative _ _ (DiagramJson.isDecimal_toDigits _)
  · exact printNat_json _

theorem commas_json {ts : List (List Char)} {vs : List Json} (h : List.Forall₂ IsJson ts vs) : IsJson ('[' :: commas ts ++ [']']) (.array vs) := by
  by_cases hne : ts = []
  · subst hne
    cases h
    exact .emptyArray [] DiagramJson.blank_nil
  · refine .array _ _ ?_
    induction h with
    | nil => exact absurd rfl hne
    | @cons t v ts vs h1 h2 ih =>
      cases h2 with
      | nil => exact .one t v h1
      | cons h3 h4 => exact .cons t _ v _ h1 (ih (by simp))

theorem signature_json (s : List ℕ) : IsJson (signatureText s) (.array (s.map .number)) := by
  refine commas_json ?_
  rw [List.forall₂_map_left_iff, List.forall₂_map_right_iff, List.forall₂_same]
  exact fun n _ => printNat_json n

theorem perversity_json (p : List ℤ) : IsJson (perversityText p) (.array (p.map .integer)) := by
  refine commas_json ?_
  rw [List.forall₂_map_left_iff, List.forall₂_map_right_iff, List.forall₂_same]
  exact fun n _ => printInt_json n

theorem json_before {g t : List Char} {v : Json} (hg : JsonBlank g) (h : IsJson t v) : IsJson (g ++ t) v := by
  have := IsJson.blank g t [] v hg DiagramJson.blank_nil h
  rwa [List.append_nil] at this

theorem json_after {g t : List Char} {v : Json} (hg : JsonBlank g) (h : IsJson t v) : IsJson (t ++ g) v := by
  have := IsJson.blank [] t g v DiagramJson.blank_nil hg h
  rwa [List.nil_append] at this

theorem pair_json {g l e k₁ k₂ t₁ t₂ : List Char} {v₁ v₂ : Json} (hg : JsonBlank g) (hl : JsonBlank l) (he : JsonBlank e) (hk₁ : JsonPlain k₁) (hk₂ : JsonPlain k₂)
    (h₁ : IsJson t₁ v₁) (h₂ : IsJson t₂ v₂) :
    IsJson (['{', '\n'] ++ (g ++ ('"' :: k₁ ++ ['"', ':']) ++ l ++ t₁ ++ [',', '\n'] ++ g ++ ('"' :: k₂ ++ ['"', ':']) ++ l ++ t₂ ++ ['\n']) ++ e ++ ['}']) (.object [(k₁, v₁), (k₂, v₂)]) := by
  have hn := CliqueCommunities.blank_newline
  have := IsJson.object _ _ (IsMembers.cons (['\n'] ++ g) k₁ [] (l ++ t₁) _ v₁ _ (CliqueCommunities.blank_append hn hg) hk₁ DiagramJson.blank_nil (json_before hl h₁)
    (IsMembers.one (['\n'] ++ g) k₂ [] (l ++ t₂ ++ (['\n'] ++ e)) v₂ (CliqueCommunities.blank_append hn hg) hk₂ DiagramJson.blank_nil
      (json_after (CliqueCommunities.blank_append hn he) (json_before hl h₂))))
  simpa [List.append_assoc] using this

/-- The members for entries with their indices as keys. -/
def members {β : Type} (f : β → Json) (index : ℕ) (xs : List β) : List (List Char × Json) := (xs.zipIdx index).map fun e => (printNat e.2, f e.1)

theorem members_indexed {β : Type} (f : β → Json) (xs : List β) : Indexed (xs.map f) (members f 0 xs) := by
  refine ⟨?_, ?_⟩
  · rw [members, List.forall₂_map_left_iff, List.forall₂_map_right_iff]
    generalize 0 = n
    induction xs generalizing n with
    | nil => exact .nil
    | cons x xs ih => exact .cons rfl (ih (n + 1))
  · intro i m h
    rw [members, List.getElem?_map, List.getElem?_zipIdx] at h
    cases hx : xs[i]? with
    | none => rw [hx] at h; cases h
    | some x =>
      rw [hx] at h
      simp only [Option.map_some, Option.some.injEq] at h
      rw [← h]
      simpa [printNat] using DiagramJson.isDecimal_toDigits i

theorem entries_members {β : Type} {indent : List Char} (hi : JsonBlank indent) {l : List Char} (hl : JsonBlank l) (hl' : l = level) (body : β → List Char) (f : β → Json) (xs : List β)
    (hb : ∀ x ∈ xs, IsJson (['{', '\n'] ++ body x ++ indent ++ ['}']) (f x)) (index : ℕ) (hne : xs ≠ []) {e : List Char} (he : JsonBlank e) :
    IsMembers ('\n' :: (entries indent body index xs ++ e)) (members f index xs) := by
  have hn := CliqueCommunities.blank_newline
  induction xs generalizing index with
  | nil => exact absurd rfl hne
  | cons x xs ih =>
    have hx := hb x List.mem_cons_self
    have hk : JsonPlain (printNat index) := CliqueCommunities.plain_decimal (DiagramJson.isDecimal_toDigits index)
    cases xs with
    | nil =>
      have := IsMembers.one (['\n'] ++ indent) (printNat index) [] _ (f x) (CliqueCommunities.blank_append hn hi) hk DiagramJson.blank_nil
        (json_after (CliqueCommunities.blank_append hn he) (json_before hl hx))
      rw [entries, ← hl', show members f index [x] = [(printNat index, f x)] from rfl]
      generalize printNat index = k at *
      simpa [List.append_assoc] using this
    | cons y ys =>
      have hrest := ih (fun z hz => hb z (List.mem_cons_of_mem _ hz)) (index + 1) (by simp)
      have := IsMembers.cons (['\n'] ++ indent) (printNat index) [] _ _ (f x) _ (CliqueCommunities.blank_append hn hi) hk DiagramJson.blank_nil
        (json_before hl hx) hrest
      rw [entries, ← hl']
      · rw [members, List.zipIdx_cons, List.map_cons, ← members]
        generalize printNat index = k at *
        generalize entries indent body (index + 1) (y :: ys) = r at *
        simpa [List.append_assoc] using this
      · simp

theorem entries_json {β : Type} {indent : List Char} (hi : JsonBlank indent) (body : β → List Char) (f : β → Json) (xs : List β)
    (hb : ∀ x ∈ xs, IsJson (['{', '\n'] ++ body x ++ indent ++ ['}']) (f x)) {e : List Char} (he : JsonBlank e) :
    IsJson (['{', '\n'] ++ entries indent body 0 xs ++ e ++ ['}']) (.object (members f 0 xs)) := by
  by_cases hne : xs = []
  · subst hne
    have := IsJson.emptyObject (['\n'] ++ e) (CliqueCommunities.blank_append CliqueCommunities.blank_newline he)
    simpa [entries, members] using this
  · have hl : JsonBlank level := by unfold JsonBlank level; decide
    have := IsJson.object _ _ (entries_members hi hl rfl body f xs hb 0 hne he)
    simpa [List.append_assoc] using this

theorem homologyText_json (s : List ℕ) {e : List Char} (he : JsonBlank e) :
    IsJson (['{', '\n'] ++ homologyText s ++ e ++ ['}']) (homologyValue s (eulerCharacteristic s)) := by
  have := pair_json (g := level ++ level ++ level) (l := level) (k₁ := "betti".toList) (k₂ := "euler".toList) (by unfold JsonBlank; decide) (by unfold JsonBlank; decide) he
    (by unfold JsonPlain; decide) (by unfold JsonPlain; decide) (signature_json s) (printInt_json (eulerCharacteristic s))
  rw [homologyValue, homologyText, show "\"betti\":".toList = '"' :: "betti".toList ++ ['"', ':'] by decide, show "\"euler\":".toList = '"' :: "euler".toList ++ ['"', ':'] by decide]
  generalize signatureText s = x at *
  generalize printInt (eulerCharacteristic s) = y at *
  simpa only [List.append_assoc] using this

theorem perversityEntry_json (x : List ℤ × List ℕ) {e : List Char} (he : JsonBlank e) :
    IsJson (['{', '\n'] ++ perversityEntry x ++ e ++ ['}']) (perversityValue x.1 x.2) := by
  have := pair_json (g := level ++ level ++ level ++ level) (l := level) (k₁ := "perversity".toList) (k₂ := "betti".toList) (by unfold JsonBlank; decide) (by unfold JsonBlank; decide) he
    (by unfold JsonPlain; decide) (by unfold JsonPlain; decide) (perversity_json x.1) (signature_json x.2)
  rw [perversityValue, perversityEntry, show "\"betti\":".toList = '"' :: "betti".toList ++ ['"', ':'] by decide, show "\"perversity\":".toList = '"' :: "perversity".toList ++ ['"', ':'] by decide]
  generalize perversityText x.1 = a at *
  generalize signatureText x.2 = b at *
  simpa only [List.append_assoc] using this

theorem output_json (hs : List (List ℕ)) (is : List (List (List ℤ × List ℕ))) :
    IsJson (output hs is) (.object [("homology".toList, .object (members (fun s => homologyValue s (eulerCharacteristic s)) 0 hs)),
      ("intersection_homology".toList, .object (members (fun i => .object (members (fun e : List ℤ × List ℕ => perversityValue e.1 e.2) 0 i)) 0 is))]) := by
  have hl : JsonBlank level := by unfold JsonBlank level; decide
  have hl2 : JsonBlank (level ++ level) := by unfold JsonBlank level; decide
  have hl3 : JsonBlank (level ++ level ++ level) := by unfold JsonBlank level; decide
  have h1 := entries_json hl2 homologyText _ hs (fun s _ => homologyText_json s hl2) hl
  have h2 := entries_json hl2 (entries (level ++ level ++ level) perversityEntry 0) _ is (fun i _ => entries_json hl3 perversityEntry _ i (fun e _ => perversityEntry_json e hl3) hl2) hl
  have := json_after CliqueCommunities.blank_newline (pair_json (g := level) (l := level) (e := []) (k₁ := "homology".toList) (k₂ := "intersection_homology".toList) hl hl DiagramJson.blank_nil
    (by unfold JsonPlain; decide) (by unfold JsonPlain; decide) h1 h2)
  rw [output, show "\"homology\":".toList = '"' :: "homology".toList ++ ['"', ':'] by decide, show "\"intersection_homology\":".toList = '"' :: "intersection_homology".toList ++ ['"', ':'] by decide]
  generalize entries (level ++ level) homologyText 0 hs = a at *
  generalize entries (level ++ level) (entries (level ++ level ++ level) perversityEntry 0) 0 is = b at *
  simpa only [List.append_assoc, List.append_nil, List.nil_append, List.cons_append] using this

/-! ### The tool -/

open TriangulationReader (readFile Reads)
open Spec.Triangulation (File IsComplexOf)

theorem mem_faces {fs : List (List ℕ)} {t : Finset ℕ} : t ∈ faces fs ↔ t.Nonempty ∧ ∃ f ∈ fs, t ⊆ f.toFinset := by
  rw [faces, mem_filter, mem_biUnion, and_comm]
  simp

theorem faces_of_complex {K : Complex Bool} {fs : List (List ℕ)} (h : IsComplexOf K fs) (t : Finset ℕ) : t ∈ faces fs ↔ t.Nonempty ∧ ∃ s ∈ K, t ⊆ s.vset := by
  rw [mem_faces]
  refine and_congr_right fun _ => ⟨?_, ?_⟩
  · rintro ⟨f, hf, ht⟩
    obtain ⟨s, hs, e⟩ := List.mem_map.1 (h.2.1 f hf)
    exact ⟨s, hs, by rw [e]; exact ht⟩
  · rintro ⟨s, hs, ht⟩
    obtain ⟨f, hf, e⟩ := List.mem_map.1 (h.2.2.1.subset (List.mem_map_of_mem hs))
    exact ⟨f, hf, by rw [e]; exact ht⟩

/-- The JSON value for a list of simplices in the part for homology: their faces form a complex with these Betti numbers and this Euler characteristic. -/
def _root_.Aleph.Spec.Wicked.IsHomologyOf (fs : List (List ℕ)) (v : Json) : Prop :=
  ∃ D s, HasDimension (faces fs) D ∧ AreBetti (IsBetti (faces fs)) D s ∧ v = homologyValue s (eulerOf (faces fs))

/-- The JSON value for a list of simplices in the part for intersection homology: all perversities, in lexicographic order, with the Betti numbers of chains of permitted simplices. -/
def _root_.Aleph.Spec.Wicked.IsIntersectionOf (fs : List (List ℕ)) (v : Json) : Prop :=
  ∃ D b ms, ∃ res : List (List ℤ × List ℕ), HasDimension (faces fs) D ∧ IsNumbering (faces fs) b ∧ v = .object ms ∧ Indexed (res.map fun e => perversityValue e.1 e.2) ms ∧
    (res.map Prod.fst).Pairwise (List.Lex (· < ·)) ∧ (∀ p, p ∈ res.map Prod.fst ↔ IsPerversity D p) ∧
    ∀ e ∈ res, AreBetti (IsIntersectionBetti (permitted (faces fs) b e.1)) D e.2

theorem flags_card (S : Finset (Finset ℕ)) (hne : ∅ ∉ S) : #S ≤ #(flags S) := by
  have : S.image (fun s => ({s} : Finset (Finset ℕ))) ⊆ flags S := by
    intro C hC
    obtain ⟨s, hs, rfl⟩ := mem_image.1 hC
    exact mem_flags.2 ⟨singleton_nonempty _, by simpa using hs, by simp⟩
  refine le_trans (le_of_eq ?_) (card_le_card this)
  rw [card_image_of_injective _ (Finset.singleton_injective)]

theorem one_complex (word : ℕ) {K : Complex Bool} {fs : List (List ℕ)} (h : IsComplexOf K fs) {D : ℕ} (hD : HasDimension (faces fs) D) (h0 : 0 < D) (hw : (D + 1).factorial < word)
    (hn : #(flags (faces fs)) ≤ idxMax) (byDimension : Complex Bool → Complex Bool)
    (hp : ∀ K, (byDimension K).Perm K) (hd : ∀ K, (byDimension K).Pairwise fun s t => #s.vset ≤ #t.vset)
    (order : List (List ℕ × List (Simplex Bool)) → List (List ℕ × List (Simplex Bool))) (ho : ∀ l, (order l).Perm l) :
    ∃ K' s res, prepare K = some K' ∧ homology K' = some s ∧ intersections word byDimension order K' = some res ∧
      IsHomologyOf fs (homologyValue s (eulerCharacteristic s)) ∧ IsIntersectionOf fs (.object (members (fun e : List ℤ × List ℕ => perversityValue e.1 e.2) 0 res)) := by
  have hS := faces_of_complex h
  have hdata : ∀ s ∈ K, s.data = false := h.2.2.2
  have hne : ∅ ∉ faces fs := by intro he; exact absurd (mem_faces.1 he).1 (by simp)
  obtain ⟨K', h1, h2, h3, h4⟩ := prepare_spec K h.1 hdata
  obtain ⟨K'', s, g1, g2, g3, g4, g5⟩ := C154_homology K h.1 hdata (faces fs) hS ((flags_card _ hne).trans hn) D hD
  obtain rfl : K' = K'' := Option.some.inj (h1.symm.trans g1)
  obtain ⟨b, res, e1, e2, e3, e4, e5⟩ := C154_intersection_partial word K' h2.wf h2.closed h3 D (by rw [g2]; exact hD) h0 hw (by rw [g2]; exact hn) byDimension (hp K') (hd K') order ho
  rw [g2] at e1 e5
  exact ⟨K', s, res, h1, g3, e2, ⟨D, s, hD, g4, by rw [g5]⟩, ⟨D, b, _, res, hD, e1, rfl, members_indexed _ _, e3, e4, e5⟩⟩

/-- C154. For a file with lists of simplices of complexes of positive dimension, the output is a JSON text.  It consists of two objects, whose members have the indices of the lists as keys.  The first object contains
the Betti numbers and Euler characteristics, the second one contains, for all perversities, the Betti numbers of permitted chains. -/
theorem _root_.Aleph.C154_main_partial (word : ℕ) (convert : List Char → ℕ) (hc : Reads convert) (text : List Char) {ls : List (List Char)} {u : Bool} (hl : Spec.Lines text ls u)
    {r : List (List (List ℕ))} (h : File ls r)
    (hr : ∀ fs ∈ r, ∃ D, HasDimension (faces fs) D ∧ 0 < D ∧ (D + 1).factorial < word ∧ #(flags (faces fs)) ≤ idxMax)
    (byDimension : Complex Bool → Complex Bool) (hp : ∀ K, (byDimension K).Perm K) (hd : ∀ K, (byDimension K).Pairwise fun s t => #s.vset ≤ #t.vset)
    (order : List (List ℕ × List (Simplex Bool)) → List (List ℕ × List (Simplex Bool))) (ho : ∀ l, (order l).Perm l)
    (files : List Char → Option (List Char)) (name : List Char) (more : List (List Char)) (hf : files name = some text) :
    ∃ F, ∀ fuel, F ≤ fuel → ∃ out hs is hms ims, main word convert fuel byDimension order files (name :: more) = .ok (0, out) ∧
      IsJson out (.object [("homology".toList, .object hms), ("intersection_homology".toList, .object ims)]) ∧ Indexed hs hms ∧ Indexed is ims ∧
      List.Forall₂ IsHomologyOf r hs ∧ List.Forall₂ IsIntersectionOf r is := by
  obtain ⟨F, hF⟩ := C128_read_partial (α := Bool) convert hc text hl h
  refine ⟨F, fun fuel hfuel => ?_⟩
  obtain ⟨Ks, h1, h2⟩ := hF fuel hfuel
  have hall : ∃ (Ks' : List (Complex Bool)) (ss : List (List ℕ)) (rs : List (List (List ℤ × List ℕ))), Ks.mapM prepare = some Ks' ∧ Ks'.mapM homology = some ss ∧
      Ks'.mapM (intersections word byDimension order) = some rs ∧ List.Forall₂ IsHomologyOf r (ss.map fun s => homologyValue s (eulerCharacteristic s)) ∧
      List.Forall₂ IsIntersectionOf r (rs.map fun i => .object (members (fun e : List ℤ × List ℕ => perversityValue e.1 e.2) 0 i)) := by
    clear h1 hF h
    induction h2 with
    | nil => exact ⟨[], [], [], rfl, rfl, rfl, .nil, .nil⟩
    | @cons K fs Ks r hK _ ih =>
      obtain ⟨Ks', ss, rs, a1, a2, a3, a4, a5⟩ := ih (fun fs hfs => hr fs (List.mem_cons_of_mem _ hfs))
      obtain ⟨D, d1, d2, d3, d4⟩ := hr fs List.mem_cons_self
      obtain ⟨K', s, res, b1, b2, b3, b4, b5⟩ := one_complex word hK d1 d2 d3 d4 byDimension hp hd order ho
      exact ⟨K' :: Ks', s :: ss, res :: rs, by rw [List.mapM_cons, b1, a1]; rfl, by rw [List.mapM_cons, b2, a2]; rfl, by rw [List.mapM_cons, b3, a3]; rfl, .cons b4 a4, .cons b5 a5⟩
  obtain ⟨Ks', ss, rs, a1, a2, a3, a4, a5⟩ := hall
  refine ⟨_, _, _, _, _, ?_, output_json ss rs, members_indexed _ _, members_indexed _ _, a4, a5⟩
  have h1' : readFile (α := Bool) convert fuel (files name) = .ok Ks := by rw [hf]; exact h1
  simp only [main, h1', a1, a2, a3]

theorem intersections_zero (word : ℕ) (byDimension : Complex Bool → Complex Bool) (order : List (List ℕ × List (Simplex Bool)) → List (List ℕ × List (Simplex Bool)))
    {K : Complex Bool} (h : K.dimension = none ∨ K.dimension = some 0) : intersections word byDimension order K = none := by
  unfold intersections
  rcases h with h | h
  · rw [h]
  · rw [h]
    dsimp only
    split
    · rfl
    · split
      · rfl
      · rw [C154_dimension_zero]

/-- C154. If one of the lists is empty or consists of vertices only, the tool is terminated by an exception. -/
theorem _root_.Aleph.C154_main_points (word : ℕ) (convert : List Char → ℕ) (hc : Reads convert) (text : List Char) {ls : List (List Char)} {u : Bool} (hl : Spec.Lines text ls u)
    {r : List (List (List ℕ))} (h : File ls r) (fs : List (List ℕ)) (hfs : fs ∈ r) (h0 : fs = [] ∨ HasDimension (faces fs) 0)
    (byDimension : Complex Bool → Complex Bool) (order : List (List ℕ × List (Simplex Bool)) → List (List ℕ × List (Simplex Bool)))
    (files : List Char → Option (List Char)) (name : List Char) (more : List (List Char)) (hf : files name = some text) :
    ∃ F, ∀ fuel, F ≤ fuel → main word convert fuel byDimension order files (name :: more) = .error .exception := by
  obtain ⟨F, hF⟩ := C128_read_partial (α := Bool) convert hc text hl h
  refine ⟨F, fun fuel hfuel => ?_⟩
  obtain ⟨Ks, h1, h2⟩ := hF fuel hfuel
  have h1' : readFile (α := Bool) convert fuel (files name) = .ok Ks := by rw [hf]; exact h1
  simp only [main, h1']
  have hex : ∀ Ks', Ks.mapM prepare = some Ks' → ∃ K' ∈ Ks', intersections word byDimension order K' = none := by
    clear h1 h1' hF h
    induction h2 with
    | nil => cases hfs
    | @cons K gs Ks r hK _ ih =>
      intro Ks' hm
      obtain ⟨K', a1, a2, a3, a4⟩ := prepare_spec K hK.1 hK.2.2.2
      rw [List.mapM_cons, a1] at hm
      cases hrest : Ks.mapM prepare with
      | none => rw [hrest] at hm; cases hm
      | some Ls =>
        rw [hrest] at hm
        obtain rfl : K' :: Ls = Ks' := Option.some.inj hm
        rcases List.mem_cons.1 hfs with rfl | hfs
        · refine ⟨K', List.mem_cons_self, intersections_zero word byDimension order ?_⟩
          rcases h0 with rfl | h0
          · have hnil : K' = [] := by
              rw [List.eq_nil_iff_forall_not_mem]
              intro s hs
              obtain ⟨_, f, hf, _⟩ := mem_faces.1 ((faces_of_complex hK _).2 ((a4 s.vset).1 (mem_sets.2 ⟨s, hs, rfl⟩)))
              cases hf
            left
            rw [hnil]
            rfl
          · right
            rw [dimension_spec a2.wf, show sets K' = faces fs by ext t; rw [a4, faces_of_complex hK]]
            exact h0
        · obtain ⟨K'', b1, b2⟩ := ih hfs Ls hrest
          exact ⟨K'', List.mem_cons_of_mem _ b1, b2⟩
  cases hm : Ks.mapM prepare with
  | none => rfl
  | some Ks' =>
    obtain ⟨K', b1, b2⟩ := hex Ks' hm
    have : Ks'.mapM (intersections word byDimension order) = none := MatrixReader.mapM_none ⟨K', b1, b2⟩
    simp only [this]
    cases Ks'.mapM homology <;> rfl

/-! ### Examples -/

/-- Simplices can be listed in the order of their dimension. -/
theorem sortedByDimension_spec (K : Complex Bool) (hK : WF K) : (sortedByDimension K).Perm K ∧ (sortedByDimension K).Pairwise fun s t => #s.vset ≤ #t.vset := by
  have hp := List.perm_insertionSort (fun s t : Simplex Bool => s.vertices.length ≤ t.vertices.length) K
  have : Std.Total fun s t : Simplex Bool => s.vertices.length ≤ t.vertices.length := ⟨fun s t => le_total _ _⟩
  have : IsTrans (Simplex Bool) fun s t : Simplex Bool => s.vertices.length ≤ t.vertices.length := ⟨fun _ _ _ => le_trans⟩
  refine ⟨hp, (List.pairwise_insertionSort (fun s t : Simplex Bool => s.vertices.length ≤ t.vertices.length) K).imp_of_mem fun {s t} hs ht h => ?_⟩
  have hcard : ∀ s ∈ K, #s.vset = s.vertices.length := fun s hs => by
    rw [Simplex.vset, List.toFinset_card_of_nodup]
    exact (hK.normal s hs).imp fun h => ne_of_gt h
  rw [hcard s (hp.subset hs), hcard t (hp.subset ht)]
  exact h

/-- The hypotheses of C154 hold for a file with a path of two edges. -/
example : HasDimension (faces [[1, 2], [2, 3]]) 1 ∧ (1 + 1).factorial < 2 ^ 64 ∧ #(flags (faces [[1, 2], [2, 3]])) ≤ idxMax ∧
    File ["m=[[1,2],".toList, "[2, 3]]".toList] [[[1, 2], [2, 3]]] ∧ ∃ convert, Reads convert := by
  refine ⟨by unfold HasDimension; decide, by norm_num, le_trans (b := 9) (by decide) (by unfold idxMax; norm_num), TriangulationReader.example_file, _, TriangulationReader.reads_exists⟩

/-- The hypotheses of `C154_intersection_partial` hold for two triangles with a common edge. -/
example : WF twoTrianglesFaces ∧ FaceClosed twoTrianglesFaces ∧ (∀ s ∈ twoTrianglesFaces, s.data = false) ∧ HasDimension (sets twoTrianglesFaces) 2 ∧
    (sortedByDimension twoTrianglesFaces).Perm twoTrianglesFaces ∧ (sortedByDimension twoTrianglesFaces).Pairwise fun s t => #s.vset ≤ #t.vset := by
  have hK : WF twoTrianglesFaces := ⟨by unfold Normal; decide, by decide, by decide⟩
  exact ⟨hK, Closed1.faceClosed (by decide) (by unfold Closed1; decide), by decide, by unfold HasDimension; decide, sortedByDimension_spec _ hK⟩

/-- The output for a path of two edges. -/
example : main (2 ^ 64) (fun t => (t.filter fun c => decide (48 ≤ c.toNat ∧ c.toNat ≤ 57)).foldl (fun n c => 10 * n + (c.toNat - 48)) 0) 1000 sortedByDimension id
    (fun _ => some "m=[[1,2],[2,3]]".toList) [['f']] = .ok (0, output [[1, 0]] [[([-1], [2, 0]), ([0], [1, 0])]]) := by
  decide +kernel

end Aleph.WickedTriangulations
