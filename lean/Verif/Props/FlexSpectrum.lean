import Verif.Model.FlexSpectrum
import Verif.Spec.FlexSpectrum
import Verif.Lemmas.Collects
import Verif.Props.AdjacencyMatrixReader
import Mathlib.Algebra.Order.Field.Basic
import Mathlib.Algebra.BigOperators.Group.List.Basic
import Mathlib.Tactic.Linarith
import Mathlib.Tactic.IntervalCases

/-!
# C132: spectra
-/

namespace Aleph

open Spec

variable {α : Type}

/-- Sorting by descending data: a permutation with descending data, in filtration order if and only if no coface exceeds a face. -/
theorem sortGreater_spec [LinearOrder α] {K : Complex α} (hK : WF K) :
    (K.sort (asLt (Filtration.data fun a b => decide (b < a)))).Perm K ∧
    (K.sort (asLt (Filtration.data fun a b => decide (b < a)))).Pairwise (fun s t => t.data ≤ s.data) ∧
    (FacesFirst (K.sort (asLt (Filtration.data fun a b => decide (b < a)))) ↔ ∀ s ∈ K, ∀ t ∈ K, s.vset ⊆ t.vset → t.data ≤ s.data) := by
  have hst : StrictTotalOn Proper (Filtration.data fun a b : α => decide (b < a)) := by
    refine data_strictTotal (by simp) ?_ ?_
    · intro a b c; simp only [decide_eq_true_eq]; exact fun h1 h2 => lt_trans h2 h1
    · intro a b h; simp only [decide_eq_true_eq]; exact lt_or_gt_of_ne (Ne.symm h)
  have hS : ∀ s ∈ K, Proper s := fun s hs => ⟨hK.normal s hs, hK.nonempty s hs⟩
  have hp := sort_perm K (asLt (Filtration.data fun a b : α => decide (b < a)))
  have hle := sort_pairwise hK hst hS
  have hle2 : (K.sort (asLt (Filtration.data fun a b => decide (b < a)))).Pairwise (fun s t => t.data ≤ s.data) := by
    refine hle.imp_of_mem ?_
    intro s t hs ht h
    rw [data_eq (hS s (hp.subset hs)) (hS t (hp.subset ht)), Option.some.injEq] at h
    by_cases hd : s.data = t.data
    · exact hd.ge
    · rw [if_neg hd, decide_eq_true_eq] at h
      exact h.le
  refine ⟨hp, hle2, ?_, ?_⟩
  · intro hf s hs t ht hst'
    by_contra hlt
    have hne : s ≠ t := by rintro rfl; exact hlt le_rfl
    have hss : s.vset ⊂ t.vset := lt_of_le_of_ne hst' fun h => hne (hK.eq_of_vset hs ht h)
    have hs' := hp.symm.subset hs
    have ht' := hp.symm.subset ht
    obtain ⟨i, hi, rfl⟩ := List.getElem_of_mem hs'
    obtain ⟨j, hj, rfl⟩ := List.getElem_of_mem ht'
    rcases Nat.lt_trichotomy i j with h | h | h
    · have := List.pairwise_iff_getElem.1 hle2 i j hi hj h
      exact hlt this
    · subst h; exact hne rfl
    · exact (List.pairwise_iff_getElem.1 hf j i hj hi h) hss
  · intro hm
    refine sort_facesFirst hK hst hS ?_
    intro s hs t ht hss
    refine data_face (hS s hs) (hS t ht) hss ?_
    rcases (hm s hs t ht hss.1).lt_or_eq with h | h
    · exact Or.inr (decide_eq_true h)
    · exact Or.inl h.symm

namespace FlexSpectrum

open Spec.Spectrum

variable {β : Type}

instance (l : List Char) : Decidable (IsData l) := by unfold IsData; infer_instance

theorem isDigit_eq (c : Char) : isDigit c = true ↔ c ∈ ['0', '1', '2', '3', '4', '5', '6', '7', '8', '9'] := by
  unfold isDigit
  rw [Bool.and_eq_true, decide_eq_true_eq, decide_eq_true_eq]
  constructor
  · rintro ⟨h1, h2⟩
    replace h1 : 48 ≤ c.toNat := h1
    replace h2 : c.toNat ≤ 57 := h2
    have hc : c = Char.ofNat c.toNat := (Char.ofNat_toNat c).symm
    generalize c.toNat = n at *
    subst hc
    interval_cases n <;> decide
  · intro h
    simp only [List.mem_cons, List.not_mem_nil, or_false] at h
    rcases h with rfl | rfl | rfl | rfl | rfl | rfl | rfl | rfl | rfl | rfl <;> decide

theorem line_data (parse : List Char → β × α) (st : State α β) (l : List Char) (h : IsData l) :
    line parse st l = { index := st.index + 1
                        intensities := st.intensities ++ [(parse l).2]
                        simplices := st.simplices ++ [Simplex.ofVertex st.index (parse l).2]
                        maps := ⟨Function.update st.maps.value st.index (some (parse l).1), Function.update st.maps.intensity st.index (some (parse l).2)⟩ } := by
  obtain ⟨c, hc, hl⟩ := h
  match l, hl with
  | d :: l, hl =>
    have hd : d = c := by simpa using hl
    subst hd
    simp only [line, (isDigit_eq d).2 hc, Bool.not_true, Bool.false_eq_true, if_false]

theorem line_other (parse : List Char → β × α) (st : State α β) (l : List Char) (h : ¬ IsData l) : line parse st l = st := by
  match l with
  | [] => rfl
  | c :: l =>
    have : isDigit c = false := by
      rw [← Bool.not_eq_true]
      intro hc
      exact h ⟨c, (isDigit_eq c).1 hc, rfl⟩
    simp only [line, this, Bool.not_false, if_true]

/-- The state after the first loop. -/
theorem loop_spec' (parse : List Char → β × α) : ∀ (ls : List (List Char)) (st : State α β),
    (ls.foldl (line parse) st).index = st.index + ((ls.filter fun l => decide (IsData l)).map parse).length ∧
    (ls.foldl (line parse) st).intensities = st.intensities ++ ((ls.filter fun l => decide (IsData l)).map parse).map Prod.snd ∧
    (ls.foldl (line parse) st).simplices = st.simplices ++ ((((ls.filter fun l => decide (IsData l)).map parse).map Prod.snd).zipIdx st.index).map (fun p => Simplex.ofVertex p.2 p.1) ∧
    (∀ i, (ls.foldl (line parse) st).maps.value i =
      if st.index ≤ i then (((ls.filter fun l => decide (IsData l)).map parse)[i - st.index]?.map Prod.fst).or (st.maps.value i) else st.maps.value i) ∧
    (∀ i, (ls.foldl (line parse) st).maps.intensity i =
      if st.index ≤ i then (((ls.filter fun l => decide (IsData l)).map parse)[i - st.index]?.map Prod.snd).or (st.maps.intensity i) else st.maps.intensity i) := by
  intro ls
  induction ls with
  | nil => intro st; simp
  | cons l ls ih =>
    intro st
    rw [List.foldl_cons]
    by_cases h : IsData l
    · rw [line_data parse st l h, List.filter_cons_of_pos (p := fun l => decide (IsData l)) (decide_eq_true h), List.map_cons]
      generalize hst' : ({ index := st.index + 1
                           intensities := st.intensities ++ [(parse l).2]
                           simplices := st.simplices ++ [Simplex.ofVertex st.index (parse l).2]
                           maps := ⟨Function.update st.maps.value st.index (some (parse l).1), Function.update st.maps.intensity st.index (some (parse l).2)⟩ } : State α β) = st'
      obtain ⟨h1, h2, h3, h4, h5⟩ := ih st'
      refine ⟨?_, ?_, ?_, ?_, ?_⟩
      · rw [h1, ← hst']; simp only [List.length_cons]; omega
      · rw [h2, ← hst']; simp
      · rw [h3, ← hst']; simp [List.zipIdx_cons]
      · intro i
        rw [h4, ← hst']
        rcases Nat.lt_trichotomy i st.index with hi | hi | hi
        · simp [show ¬ st.index + 1 ≤ i by omega, show ¬ st.index ≤ i by omega, Function.update_of_ne (show i ≠ st.index by omega)]
        · subst hi; simp
        · rw [if_pos (by simp only; omega), if_pos (by omega)]
          obtain ⟨k, rfl⟩ : ∃ k, i = st.index + 1 + k := ⟨i - st.index - 1, by omega⟩
          simp only
          rw [Function.update_of_ne (by omega), show st.index + 1 + k - (st.index + 1) = k by omega, show st.index + 1 + k - st.index = k + 1 by omega,
            List.getElem?_cons_succ]
      · intro i
        rw [h5, ← hst']
        rcases Nat.lt_trichotomy i st.index with hi | hi | hi
        · simp [show ¬ st.index + 1 ≤ i by omega, show ¬ st.index ≤ i by omega, Function.update_of_ne (show i ≠ st.index by omega)]
        · subst hi; simp
        · rw [if_pos (by simp only; omega), if_pos (by omega)]
          obtain ⟨k, rfl⟩ : ∃ k, i = st.index + 1 + k := ⟨i - st.index - 1, by omega⟩
          simp only
          rw [Function.update_of_ne (by omega), show st.index + 1 + k - (st.index + 1) = k by omega, show st.index + 1 + k - st.index = k + 1 by omega,
            List.getElem?_cons_succ]
    · rw [line_other parse st l h, List.filter_cons_of_neg (p := fun l => decide (IsData l)) (by simpa using h)]
      exact ih st

/-- The state for a text. -/
theorem loop_text (parse : List Char → β × α) (maps : Maps α β) (text : List Char) (ls : List (List Char)) (b : Bool) (hl : Lines text ls b) (samples : List (β × α))
    (hs : samples = (ls.filter fun l => decide (IsData l)).map parse) :
    ((Strings.getlines [] text).foldl (line parse) ⟨0, [], [], maps⟩).index = samples.length ∧
    ((Strings.getlines [] text).foldl (line parse) ⟨0, [], [], maps⟩).intensities = samples.map Prod.snd ∧
    ((Strings.getlines [] text).foldl (line parse) ⟨0, [], [], maps⟩).simplices = ((samples.map Prod.snd).zipIdx).map (fun p => Simplex.ofVertex p.2 p.1) ∧
    (∀ i, ((Strings.getlines [] text).foldl (line parse) ⟨0, [], [], maps⟩).maps.value i = (samples[i]?.map Prod.fst).or (maps.value i)) ∧
    (∀ i, ((Strings.getlines [] text).foldl (line parse) ⟨0, [], [], maps⟩).maps.intensity i = (samples[i]?.map Prod.snd).or (maps.intensity i)) := by
  rw [getlines_spec text ls b hl, hs]
  obtain ⟨h1, h2, h3, h4, h5⟩ := loop_spec' parse ls ⟨0, [], [], maps⟩
  refine ⟨by simpa using h1, by simpa using h2, by simpa using h3, ?_, ?_⟩
  · intro i; simpa using h4 i
  · intro i; simpa using h5 i

theorem ofVertex_eq (i : ℕ) (d : α) : Simplex.ofVertex i d = Simplex.ofRange [i] d := rfl

theorem edges_eq [LinearOrder α] (ys : List α) :
    edges ys.length (ys.zipIdx.map fun p => Simplex.ofVertex p.2 p.1) =
      ((List.range (ys.length - 1)).filterMap fun i => match ys[i]?, ys[i + 1]? with
        | some a, some b => some ([i, i + 1], min a b)
        | _, _ => none).map fun e => Simplex.ofRange e.1 e.2 := by
  unfold edges
  rw [List.map_filterMap]
  apply List.filterMap_congr
  intro i _
  rw [List.getElem?_map, List.getElem?_map, List.getElem?_zipIdx, List.getElem?_zipIdx]
  cases ys[i]? <;> cases ys[i + 1]? <;> rfl

/-- The simplices of the path, with data transformed by `g`. -/
def entries [LinearOrder α] (g : α → α) (ys : List α) : List (List ℕ × α) :=
  (ys.zipIdx.map fun p => ([p.2], g p.1)) ++
    (List.range (ys.length - 1)).filterMap fun i => match ys[i]?, ys[i + 1]? with
      | some a, some b => some ([i, i + 1], g (min a b))
      | _, _ => none

theorem mem_entries [LinearOrder α] (g : α → α) (ys : List α) (t : Finset ℕ) (d : α) :
    (∃ e ∈ entries g ys, e.1.toFinset = t ∧ e.2 = d) ↔ ∃ d₀, PathData ys t d₀ ∧ d = g d₀ := by
  unfold entries PathData
  constructor
  · rintro ⟨e, he, rfl, rfl⟩
    rcases List.mem_append.1 he with he | he
    · obtain ⟨p, hp, rfl⟩ := List.mem_map.1 he
      refine ⟨p.1, Or.inl ⟨p.2, by simp, ?_⟩, rfl⟩
      obtain ⟨a, i⟩ := p
      exact List.mk_mem_zipIdx_iff_getElem?.1 hp
    · obtain ⟨i, _, hi⟩ := List.mem_filterMap.1 he
      split at hi
      · next a b ha hb =>
        cases hi
        exact ⟨min a b, Or.inr ⟨i, a, b, by simp, ha, hb, rfl⟩, rfl⟩
      · cases hi
  · rintro ⟨d₀, h | ⟨i, a, b, rfl, ha, hb, rfl⟩, rfl⟩
    · obtain ⟨i, rfl, hi⟩ := h
      exact ⟨([i], g d₀), List.mem_append_left _ (List.mem_map.2 ⟨(d₀, i), List.mk_mem_zipIdx_iff_getElem?.2 hi, rfl⟩), by simp, rfl⟩
    · refine ⟨([i, i + 1], g (min a b)), List.mem_append_right _ (List.mem_filterMap.2 ⟨i, ?_, by simp only [ha, hb]⟩), by simp, rfl⟩
      rw [List.mem_range]
      have := (List.getElem?_eq_some_iff.1 hb).1
      omega

theorem pathData_unique [LinearOrder α] {ys : List α} {t : Finset ℕ} {d d' : α} (h : PathData ys t d) (h' : PathData ys t d') : d = d' := by
  have key : ∀ i j : ℕ, ({i} : Finset ℕ) ≠ {j, j + 1} := by
    intro i j h
    have h1 : j ∈ ({i} : Finset ℕ) := by rw [h]; simp
    have h2 : j + 1 ∈ ({i} : Finset ℕ) := by rw [h]; simp
    simp at h1 h2
    omega
  rcases h with ⟨i, rfl, hi⟩ | ⟨i, a, b, rfl, ha, hb, rfl⟩
  · rcases h' with ⟨j, hj, hj'⟩ | ⟨j, a, b, hj, ha, hb, rfl⟩
    · have : i = j := by simpa using hj
      subst this
      rw [hi] at hj'
      exact Option.some.inj hj'
    · exact absurd hj (key _ _)
  · rcases h' with ⟨j, hj, hj'⟩ | ⟨j, a', b', hj, ha', hb', rfl⟩
    · exact absurd hj.symm (key _ _)
    · have h1 : i ∈ ({j, j + 1} : Finset ℕ) := by rw [← hj]; simp
      have h2 : i + 1 ∈ ({j, j + 1} : Finset ℕ) := by rw [← hj]; simp
      simp only [Finset.mem_insert, Finset.mem_singleton] at h1 h2
      have : i = j := by omega
      subst this
      rw [ha] at ha'
      rw [hb] at hb'
      rw [Option.some.inj ha', Option.some.inj hb']

/-- The complex of the path: its simplices, data and order. -/
theorem path_spec' [LinearOrder α] (g : α → α) (ys : List α) {K K' : Complex α} (hK' : K' = (Complex.insertRange [] ((entries g ys).map fun e => Simplex.ofRange e.1 e.2)).1)
    (hK : K = K'.sort (asLt (Filtration.data fun a b => decide (b < a)))) :
    WF K ∧ FaceClosed K ∧ K.Pairwise (fun s t => t.data ≤ s.data) ∧
    (∀ t d, HasData K t d ↔ ∃ d₀, PathData ys t d₀ ∧ d = g d₀) ∧
    (FacesFirst K ↔ ∀ i a b, ys[i]? = some a → ys[i + 1]? = some b → g (min a b) ≤ g a ∧ g (min a b) ≤ g b) := by
  have hcol : Collects K' (entries g ys) := by
    rw [hK']
    apply insertRange_collects
    intro e he
    unfold entries at he
    rcases List.mem_append.1 he with he | he
    · obtain ⟨p, _, rfl⟩ := List.mem_map.1 he
      simp
    · obtain ⟨i, _, hi⟩ := List.mem_filterMap.1 he
      split at hi
      · cases hi; simp
      · cases hi
  have hdata : ∀ t d, HasData K' t d ↔ ∃ d₀, PathData ys t d₀ ∧ d = g d₀ := by
    intro t d
    rw [hcol.hasData, mem_entries]
    intro e he e' he' heq
    obtain ⟨d₀, h1, h2⟩ := (mem_entries g ys _ _).1 ⟨e, he, rfl, rfl⟩
    obtain ⟨d₁, h3, h4⟩ := (mem_entries g ys _ _).1 ⟨e', he', rfl, rfl⟩
    rw [heq] at h1
    rw [h2, h4, pathData_unique h1 h3]
  obtain ⟨hp, hs, hf⟩ := sortGreater_spec hcol.1
  rw [← hK] at hp hs hf
  have hKdata : ∀ t d, HasData K t d ↔ ∃ d₀, PathData ys t d₀ ∧ d = g d₀ := by
    intro t d
    rw [← hdata t d]
    exact exists_congr fun s => and_congr_left fun _ => hp.mem_iff
  have hv : ∀ i, i < ys.length → ∃ u ∈ K, u.vset = {i} := by
    intro i hi
    obtain ⟨u, hu, hu', _⟩ := (hKdata {i} (g ys[i])).2 ⟨ys[i], Or.inl ⟨i, rfl, List.getElem?_eq_getElem hi⟩, rfl⟩
    exact ⟨u, hu, hu'⟩
  refine ⟨hcol.1.perm hp, ?_, hs, hKdata, ?_⟩
  · intro s hs t ht hne'
    obtain ⟨d₀, hd, _⟩ := (hKdata s.vset s.data).1 ⟨s, hs, rfl, rfl⟩
    rcases hd with ⟨i, hi, hd⟩ | ⟨i, a, b, hi, ha, hb, rfl⟩
    · rw [hi] at ht
      rcases Finset.subset_singleton_iff.1 ht with rfl | rfl
      · exact absurd hne' (by simp)
      · exact ⟨s, hs, hi⟩
    · have h1 := (List.getElem?_eq_some_iff.1 hb).1
      have ht' := ht
      rw [hi] at ht'
      rcases AdjacencyMatrixReader.subset_pair ht' with rfl | rfl | rfl | rfl
      · exact absurd hne' (by simp)
      · exact hv _ (by omega)
      · exact hv _ h1
      · exact ⟨s, hs, hi⟩
  · rw [hf]
    constructor
    · intro h i a b ha hb
      obtain ⟨u, hu, hu', hud⟩ := (hdata {i} (g a)).2 ⟨a, Or.inl ⟨i, rfl, ha⟩, rfl⟩
      obtain ⟨v, hv, hv', hvd⟩ := (hdata {i + 1} (g b)).2 ⟨b, Or.inl ⟨i + 1, rfl, hb⟩, rfl⟩
      obtain ⟨e, he, he', hed⟩ := (hdata {i, i + 1} (g (min a b))).2 ⟨min a b, Or.inr ⟨i, a, b, rfl, ha, hb, rfl⟩, rfl⟩
      rw [← hud, ← hvd, ← hed]
      exact ⟨h u hu e he (by rw [hu', he']; simp), h v hv e he (by rw [hv', he']; simp)⟩
    · intro h s hs t ht hst
      obtain ⟨d₀, hd, e1⟩ := (hdata s.vset s.data).1 ⟨s, hs, rfl, rfl⟩
      obtain ⟨d₁, hd1, e2⟩ := (hdata t.vset t.data).1 ⟨t, ht, rfl, rfl⟩
      by_cases hEq : s.vset = t.vset
      · rw [hcol.1.eq_of_vset hs ht hEq]
      · have hne : s.vset.Nonempty := by
          rcases hd with ⟨i, hi, _⟩ | ⟨i, a, b, hi, _⟩ <;> rw [hi] <;> simp
        rw [e1, e2]
        rcases hd1 with ⟨j, hj, _⟩ | ⟨j, a, b, hj, ha, hb, rfl⟩
        · rw [hj] at hst hEq
          rcases Finset.subset_singleton_iff.1 hst with h0 | h0
          · rw [h0] at hne; simp at hne
          · exact absurd h0 hEq
        · rw [hj] at hst hEq
          rcases AdjacencyMatrixReader.subset_pair hst with h0 | h0 | h0 | h0
          · rw [h0] at hne; simp at hne
          · rw [h0] at hd
            rw [pathData_unique hd (Or.inl ⟨j, rfl, ha⟩)]
            exact (h j a b ha hb).1
          · rw [h0] at hd
            rw [pathData_unique hd (Or.inl ⟨j + 1, rfl, hb⟩)]
            exact (h j a b ha hb).2
          · exact absurd h0 hEq

theorem entries_id [LinearOrder α] (ys : List α) :
    (entries id ys).map (fun e => Simplex.ofRange e.1 e.2) = (ys.zipIdx.map fun p => Simplex.ofVertex p.2 p.1) ++ edges ys.length (ys.zipIdx.map fun p => Simplex.ofVertex p.2 p.1) := by
  rw [edges_eq, entries, List.map_append, List.map_map]
  rfl

theorem entries_map [LinearOrder α] (g : α → α) (ys : List α) :
    (entries g ys).map (fun e => Simplex.ofRange e.1 e.2) =
      ((ys.zipIdx.map fun p => Simplex.ofVertex p.2 p.1) ++ edges ys.length (ys.zipIdx.map fun p => Simplex.ofVertex p.2 p.1)).map fun s => { s with data := g s.data } := by
  rw [edges_eq, entries, List.map_append, List.map_append, List.map_map, List.map_map, List.map_map, List.map_filterMap, List.map_filterMap]
  congr 1
  apply List.filterMap_congr
  intro i _
  cases ys[i]? <;> cases ys[i + 1]? <;> rfl

variable [Field α] [LinearOrder α]

/-- **C132 (superlevel sets).** Lines that start with a digit are the samples of a spectrum.  Without normalisation, the complex is the path of the
superlevel sets of all intensities: it has these simplices and data, in descending order, and all faces precede their cofaces. -/
theorem _root_.Aleph.C132_spectrum (parse : List Char → β × α) (maps : Maps α β) (text : List Char) (ls : List (List Char)) (b : Bool) (hl : Lines text ls b)
    (ys : List α) (hys : ys = (ls.filter fun l => decide (IsData l)).map fun l => (parse l).2) (K : Complex α) (hK : K = (read parse false maps text).2) :
    WF K ∧ FaceClosed K ∧ K.Pairwise (fun s t => t.data ≤ s.data) ∧ (∀ t d, HasData K t d ↔ PathData ys t d) ∧ FacesFirst K := by
  obtain ⟨h1, h2, h3, _, _⟩ := loop_text parse maps text ls b hl _ rfl
  have hys' : ys = ((ls.filter fun l => decide (IsData l)).map parse).map Prod.snd := by rw [hys, List.map_map]; rfl
  rw [← hys'] at h3
  have hlen : ((ls.filter fun l => decide (IsData l)).map parse).length = ys.length := by rw [hys']; simp
  rw [hlen] at h1
  by_cases hn : ys.length ≤ 1
  · have hKe : K = (Complex.insertRange [] ((entries id ys).map fun e => Simplex.ofRange e.1 e.2)).1 := by
      rw [hK, read]
      simp only
      rw [if_pos (by rw [h1]; exact hn), h3, entries_id]
      have : edges ys.length (ys.zipIdx.map fun p => Simplex.ofVertex p.2 p.1) = [] := by
        rw [edges, show ys.length - 1 = 0 by omega]; rfl
      rw [this, List.append_nil]
    match ys, hn, hKe with
    | [], _, hKe =>
      have : K = [] := by rw [hKe]; rfl
      subst this
      refine ⟨⟨by simp, by simp, by simp⟩, ?_, by simp, ?_, by simp [FacesFirst]⟩
      · intro s hs; simp at hs
      · intro t d
        simp [HasData, PathData]
    | [y], _, hKe =>
      have : K = [⟨[0], y⟩] := by rw [hKe]; rfl
      subst this
      refine ⟨⟨?_, ?_, ?_⟩, ?_, by simp, ?_, by simp [FacesFirst]⟩
      · intro s hs; simp only [List.mem_singleton] at hs; subst hs; simp [Normal]
      · intro s hs; simp only [List.mem_singleton] at hs; subst hs; simp
      · simp
      · intro s hs t ht hne
        simp only [List.mem_singleton] at hs
        subst hs
        refine ⟨_, List.mem_singleton_self _, ?_⟩
        have : t ⊆ {0} := by simpa [Simplex.vset] using ht
        rcases Finset.subset_singleton_iff.1 this with rfl | rfl
        · exact absurd hne (by simp)
        · simp [Simplex.vset]
      · intro t d
        constructor
        · rintro ⟨s, hs, rfl, rfl⟩
          simp only [List.mem_singleton] at hs
          subst hs
          exact Or.inl ⟨0, by simp [Simplex.vset], rfl⟩
        · rintro (⟨i, rfl, hi⟩ | ⟨i, a, b, rfl, ha, hb, rfl⟩)
          · match i, hi with
            | 0, hi =>
              refine ⟨_, List.mem_singleton_self _, by simp [Simplex.vset], ?_⟩
              simpa using hi
            | i + 1, hi => simp at hi
          · simp at hb
  · have hKe : K = (Complex.insertRange [] ((entries id ys).map fun e => Simplex.ofRange e.1 e.2)).1.sort (asLt (Filtration.data fun a b => decide (b < a))) := by
      rw [hK, read]
      simp only
      rw [if_neg (by rw [h1]; exact hn), h3, h1, entries_id]
      simp
    obtain ⟨e1, e2, e3, e4, e5⟩ := path_spec' id ys rfl hKe
    refine ⟨e1, e2, e3, ?_, ?_⟩
    · intro t d
      rw [e4]
      simp
    · rw [e5]
      intro i a b _ _
      exact ⟨min_le_left _ _, min_le_right _ _⟩

/-- The complex of a normalised spectrum. -/
theorem normalised (parse : List Char → β × α) (maps : Maps α β) (text : List Char) (ls : List (List Char)) (b : Bool) (hl : Lines text ls b)
    (ys : List α) (hys : ys = (ls.filter fun l => decide (IsData l)).map fun l => (parse l).2) (hn : 2 ≤ ys.length) :
    (read parse true maps text).2 = (Complex.insertRange [] ((entries (· / ys.sum) ys).map fun e => Simplex.ofRange e.1 e.2)).1.sort (asLt (Filtration.data fun a b => decide (b < a))) := by
  obtain ⟨h1, h2, h3, _, _⟩ := loop_text parse maps text ls b hl _ rfl
  have hys' : ys = ((ls.filter fun l => decide (IsData l)).map parse).map Prod.snd := by rw [hys, List.map_map]; rfl
  rw [← hys'] at h2 h3
  have hlen : ((ls.filter fun l => decide (IsData l)).map parse).length = ys.length := by rw [hys']; simp
  rw [hlen] at h1
  rw [read]
  simp only
  rw [if_neg (by rw [h1]; omega), h2, h3, h1, entries_map, List.sum_eq_foldl]
  simp

variable [IsStrictOrderedRing α]

/-- **C132 (normalisation).** With normalisation, at least two samples and a positive total intensity, the complex is the path of the superlevel sets of the
intensities divided by their total, in descending order, so that the data of its vertices sums up to one; all faces precede their cofaces. -/
theorem _root_.Aleph.C132_normalised_partial (parse : List Char → β × α) (maps : Maps α β) (text : List Char) (ls : List (List Char)) (b : Bool) (hl : Lines text ls b)
    (ys : List α) (hys : ys = (ls.filter fun l => decide (IsData l)).map fun l => (parse l).2) (hn : 2 ≤ ys.length) (hpos : 0 < ys.sum)
    (K : Complex α) (hK : K = (read parse true maps text).2) :
    WF K ∧ FaceClosed K ∧ K.Pairwise (fun s t => t.data ≤ s.data) ∧ (∀ t d, HasData K t d ↔ PathData (ys.map (· / ys.sum)) t d) ∧
    (ys.map (· / ys.sum)).sum = 1 ∧ FacesFirst K := by
  obtain ⟨e1, e2, e3, e4, e5⟩ := path_spec' (· / ys.sum) ys rfl (hK.trans (normalised parse maps text ls b hl ys hys hn))
  have hmono : ∀ a b : α, min a b / ys.sum = min (a / ys.sum) (b / ys.sum) := by
    intro a b
    exact (min_div_div_right hpos.le a b).symm
  refine ⟨e1, e2, e3, ?_, ?_, ?_⟩
  · intro t d
    rw [e4]
    constructor
    · rintro ⟨d₀, ⟨i, rfl, hi⟩ | ⟨i, a, b, rfl, ha, hb, rfl⟩, rfl⟩
      · exact Or.inl ⟨i, rfl, by rw [List.getElem?_map, hi]; rfl⟩
      · exact Or.inr ⟨i, _, _, rfl, by rw [List.getElem?_map, ha]; rfl, by rw [List.getElem?_map, hb]; rfl, hmono a b⟩
    · rintro (⟨i, rfl, hi⟩ | ⟨i, a, b, rfl, ha, hb, rfl⟩)
      · rw [List.getElem?_map, Option.map_eq_some_iff] at hi
        obtain ⟨a, ha, rfl⟩ := hi
        exact ⟨a, Or.inl ⟨i, rfl, ha⟩, rfl⟩
      · rw [List.getElem?_map, Option.map_eq_some_iff] at ha hb
        obtain ⟨a, ha, rfl⟩ := ha
        obtain ⟨b, hb, rfl⟩ := hb
        exact ⟨min a b, Or.inr ⟨i, a, b, rfl, ha, hb, rfl⟩, (hmono a b).symm⟩
  · have : ∀ l : List α, (l.map (· / ys.sum)).sum = l.sum / ys.sum := by
      intro l
      induction l with
      | nil => simp
      | cons x l ih => rw [List.map_cons, List.sum_cons, ih, List.sum_cons, add_div]
    rw [this]
    exact div_self hpos.ne'
  · rw [e5]
    intro i a b _ _
    exact ⟨div_le_div_of_nonneg_right (min_le_left _ _) hpos.le, div_le_div_of_nonneg_right (min_le_right _ _) hpos.le⟩

/-- **C132 (negative total).** The code violates the property: the minimum is taken before normalisation.  If the total intensity is negative, edges have
the maximum of both normalised values, and edges precede their vertices unless all intensities are equal. -/
theorem _root_.Aleph.C132_negative (parse : List Char → β × α) (maps : Maps α β) (text : List Char) (ls : List (List Char)) (b : Bool) (hl : Lines text ls b)
    (ys : List α) (hys : ys = (ls.filter fun l => decide (IsData l)).map fun l => (parse l).2) (hn : 2 ≤ ys.length) (hneg : ys.sum < 0)
    (K : Complex α) (hK : K = (read parse true maps text).2) :
    (∀ i x y, ys[i]? = some x → ys[i + 1]? = some y → HasData K {i, i + 1} (max (x / ys.sum) (y / ys.sum))) ∧
    (FacesFirst K ↔ ∀ i x y, ys[i]? = some x → ys[i + 1]? = some y → x = y) := by
  obtain ⟨e1, e2, e3, e4, e5⟩ := path_spec' (· / ys.sum) ys rfl (hK.trans (normalised parse maps text ls b hl ys hys hn))
  have hm : ∀ a b : α, min a b / ys.sum = max (a / ys.sum) (b / ys.sum) := by
    intro a b
    exact (max_div_div_right_of_nonpos hneg.le a b).symm
  refine ⟨fun i x y hx hy => (e4 _ _).2 ⟨min x y, Or.inr ⟨i, x, y, rfl, hx, hy, rfl⟩, (hm x y).symm⟩, ?_⟩
  rw [e5]
  constructor
  · intro h i x y hx hy
    have h1 := h i x y hx hy
    simp only [hm] at h1
    have e : x / ys.sum = y / ys.sum := le_antisymm ((le_max_left _ _).trans h1.2) ((le_max_right _ _).trans h1.1)
    rwa [div_left_inj' hneg.ne] at e
  · intro h i x y hx hy
    rw [h i x y hx hy, min_self]
    exact ⟨le_rfl, le_rfl⟩

omit [IsStrictOrderedRing α] in
/-- **C132 (short spectra).** The code violates the property: a spectrum with a single sample is not normalised; normalisation has no effect at all. -/
theorem _root_.Aleph.C132_single (parse : List Char → β × α) (maps : Maps α β) (text : List Char) (ls : List (List Char)) (b : Bool) (hl : Lines text ls b)
    (h : (ls.filter fun l => decide (IsData l)).length ≤ 1) (normalize : Bool) : read parse normalize maps text = read parse false maps text := by
  obtain ⟨h1, _⟩ := loop_text parse maps text ls b hl _ rfl
  rw [List.length_map] at h1
  simp only [read, if_pos (h1.trans_le h)]

omit [IsStrictOrderedRing α] in
/-- **C132 (maps).** After reading, the maps contain the values and intensities of all samples.  The code violates the property in the other cases: entries
of earlier files with more samples are kept, and their intensities are divided by the total intensity of the last file. -/
theorem _root_.Aleph.C132_maps_partial (parse : List Char → β × α) (normalize : Bool) (maps : Maps α β) (text : List Char) (ls : List (List Char)) (b : Bool) (hl : Lines text ls b)
    (samples : List (β × α)) (hs : samples = (ls.filter fun l => decide (IsData l)).map parse) :
    (∀ i (hi : i < samples.length), (read parse normalize maps text).1.value i = some samples[i].1 ∧
      (read parse normalize maps text).1.intensity i =
        some (if normalize ∧ 2 ≤ samples.length then samples[i].2 / (samples.map Prod.snd).sum else samples[i].2)) ∧
    (∀ i, samples.length ≤ i → (read parse normalize maps text).1.value i = maps.value i ∧
      (read parse normalize maps text).1.intensity i =
        if normalize ∧ 2 ≤ samples.length then (maps.intensity i).map (· / (samples.map Prod.snd).sum) else maps.intensity i) := by
  obtain ⟨h1, h2, h3, h4, h5⟩ := loop_text parse maps text ls b hl samples hs
  have key : ∀ i, (read parse normalize maps text).1.value i = (samples[i]?.map Prod.fst).or (maps.value i) ∧
      (read parse normalize maps text).1.intensity i =
        if normalize ∧ 2 ≤ samples.length then ((samples[i]?.map Prod.snd).or (maps.intensity i)).map (· / (samples.map Prod.snd).sum)
          else (samples[i]?.map Prod.snd).or (maps.intensity i) := by
    intro i
    rw [read]
    simp only
    by_cases hn : samples.length ≤ 1
    · rw [if_pos (h1.trans_le hn), if_neg (by omega)]
      exact ⟨h4 i, h5 i⟩
    · rw [if_neg (by rw [h1]; exact hn)]
      cases normalize
      · simp only [Bool.false_eq_true, if_false, false_and]
        exact ⟨h4 i, h5 i⟩
      · simp only [if_true, true_and, if_pos (show 2 ≤ samples.length by omega)]
        rw [h5 i, h4 i, h2, List.sum_eq_foldl]
        exact ⟨rfl, rfl⟩
  constructor
  · intro i hi
    obtain ⟨k1, k2⟩ := key i
    rw [k1, k2, List.getElem?_eq_getElem hi]
    refine ⟨rfl, ?_⟩
    split <;> rfl
  · intro i hi
    obtain ⟨k1, k2⟩ := key i
    rw [k1, k2, List.getElem?_eq_none hi]
    exact ⟨rfl, rfl⟩

omit [IsStrictOrderedRing α] in
/-- **C132 (lines without data).** Lines that do not start with a digit, such as negative numbers or numbers after blanks, are ignored. -/
theorem _root_.Aleph.C132_ignored (parse : List Char → β × α) (normalize : Bool) (maps : Maps α β) (text text' : List Char) (ls ls' : List (List Char)) (b b' : Bool)
    (hl : Lines text ls b) (hl' : Lines text' ls' b') (h : ls'.filter (fun l => decide (IsData l)) = ls.filter fun l => decide (IsData l)) :
    read parse normalize maps text' = read parse normalize maps text := by
  have key : ∀ (ls : List (List Char)) (st : State α β), ls.foldl (line parse) st = (ls.filter fun l => decide (IsData l)).foldl (line parse) st := by
    intro ls
    induction ls with
    | nil => intro st; rfl
    | cons l ls ih =>
      intro st
      by_cases hd : IsData l
      · rw [List.filter_cons_of_pos (p := fun l => decide (IsData l)) (decide_eq_true hd), List.foldl_cons, List.foldl_cons, ih]
      · rw [List.filter_cons_of_neg (p := fun l => decide (IsData l)) (by simpa using hd), List.foldl_cons, line_other parse st l hd, ih]
  rw [read, read, getlines_spec text ls b hl, getlines_spec text' ls' b' hl', key ls, key ls', h]

omit [IsStrictOrderedRing α] in
/-- **C132 (files).** A file that cannot be opened raises an exception; otherwise, the text of the file is read. -/
theorem _root_.Aleph.C132_file (parse : List Char → β × α) (normalize : Bool) (maps : Maps α β) (text : List Char) :
    readFile parse normalize maps none = none ∧ readFile parse normalize maps (some text) = some (read parse normalize maps text) := ⟨rfl, rfl⟩

/-! ### Examples -/

/-- The position of a line is its length, the intensity is given by the first digit. -/
private def parse₀ (l : List Char) : ℕ × ℚ := (l.length, if l.head? = some '2' then 2 else if l.head? = some '1' then -1 else -4)

private theorem lines₀ : Lines "2\n#\n10\n2".toList [['2'], ['#'], ['1', '0'], ['2']] true := by
  exact .cons ['2'] "#\n10\n2".toList _ _ (by decide) (.cons ['#'] "10\n2".toList _ _ (by decide) (.cons ['1', '0'] "2".toList _ _ (by decide) (.last ['2'] (by decide) (by decide))))

private theorem samples₀ : (([['2'], ['#'], ['1', '0'], ['2']] : List (List Char)).filter fun l => decide (IsData l)) = [['2'], ['1', '0'], ['2']] := by decide

/-- Intensities 2, -1, 2, whose sum is positive. -/
example : ([2, -1, 2] : List ℚ) = ([['2'], ['#'], ['1', '0'], ['2']].filter fun l => decide (IsData l)).map (fun l => (parse₀ l).2) ∧ (0 : ℚ) < [2, -1, 2].sum := by
  rw [samples₀]
  refine ⟨?_, by norm_num⟩
  simp [parse₀]

private theorem lines₁ : Lines "2\n3".toList [['2'], ['3']] true := by
  exact .cons ['2'] "3".toList _ _ (by decide) (.last ['3'] (by decide) (by decide))

/-- Intensities 2 and -4, whose sum is negative: the edge has data 2, its vertices have data -1 and 2, so that it precedes a vertex. -/
example : ([2, -4] : List ℚ) = ([['2'], ['3']].filter fun l => decide (IsData l)).map (fun l => (parse₀ l).2) ∧ ([2, -4] : List ℚ).sum < 0 ∧
    ¬ FacesFirst (read parse₀ true ⟨fun _ => none, fun _ => none⟩ "2\n3".toList).2 := by
  have e : ([2, -4] : List ℚ) = ([['2'], ['3']].filter fun l => decide (IsData l)).map (fun l => (parse₀ l).2) := by
    rw [show ([['2'], ['3']].filter fun l => decide (IsData l)) = [['2'], ['3']] by decide]
    simp [parse₀]
  have h : ([2, -4] : List ℚ).sum < 0 := by norm_num
  refine ⟨e, h, ?_⟩
  rw [(C132_negative parse₀ _ _ _ _ lines₁ _ e (by simp) h _ rfl).2]
  intro h
  have := h 0 2 (-4) rfl rfl
  norm_num at this

end FlexSpectrum

end Aleph
