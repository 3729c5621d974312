import Verif.Model.StratifiedGraph
import Verif.Spec.StratifiedGraph
import Verif.Lemmas.Collects
import Verif.Lemmas.Rips
import Verif.Props.FlexSpectrum
import Verif.Props.PhiPersistence

/-!
# C189: Random stratified graphs and their filtrations
-/

namespace Aleph.StratifiedGraph

open Spec Spec.Strata

variable {α : Type}

/-! ### Strata -/

theorem start_succ (strata : List ℕ) (i : ℕ) : start strata (i + 1) = start strata i + (strata[i]?).getD 0 := by
  unfold start
  rw [List.take_add_one, List.sum_append]
  cases strata[i]? <;> simp

theorem start_mono (strata : List ℕ) {i j : ℕ} (h : i ≤ j) : start strata i ≤ start strata j := by
  induction j, h using Nat.le_induction with
  | base => exact le_refl _
  | succ j _ ih => rw [start_succ]; omega

theorem start_cons (a : ℕ) (l : List ℕ) (i : ℕ) : start (a :: l) (i + 1) = a + start l i := by simp [start]

theorem before_cons (a b : ℕ) (l : List ℕ) (i : ℕ) : before (a :: b :: l) (i + 1) = a * b + before (b :: l) i := by
  unfold before
  rw [List.range_succ_eq_map, List.map_cons, List.sum_cons, List.map_map]
  rfl

theorem before_succ (strata : List ℕ) (i : ℕ) : before strata (i + 1) = before strata i + (strata[i]?).getD 0 * (strata[i + 1]?).getD 0 := by
  unfold before
  rw [List.range_succ, List.map_append, List.sum_append]
  simp

theorem before_mono (strata : List ℕ) {i j : ℕ} (h : i ≤ j) : before strata i ≤ before strata j := by
  induction j, h using Nat.le_induction with
  | base => exact le_refl _
  | succ j _ ih => rw [before_succ]; omega

theorem inStratum_unique {strata : List ℕ} {i i' v : ℕ} (h : InStratum strata i v) (h' : InStratum strata i' v) : i = i' := by
  obtain ⟨s, h1, h2, h3⟩ := h
  obtain ⟨s', h1', h2', h3'⟩ := h'
  by_contra hne
  rcases Nat.lt_or_gt_of_ne hne with hlt | hlt
  · have := start_mono strata (Nat.succ_le_of_lt hlt)
    rw [Nat.succ_eq_add_one, start_succ, h1, Option.getD_some] at this
    omega
  · have := start_mono strata (Nat.succ_le_of_lt hlt)
    rw [Nat.succ_eq_add_one, start_succ, h1', Option.getD_some] at this
    omega

theorem consecutive_lt {strata : List ℕ} {i u v : ℕ} (h : Consecutive strata i u v) : u < v := by
  obtain ⟨⟨s, h1, h2, h3⟩, ⟨s', h1', h2', h3'⟩⟩ := h
  rw [start_succ, h1, Option.getD_some] at h2'
  omega

theorem inStratum_lt {strata : List ℕ} {i v : ℕ} (h : InStratum strata i v) : v < strata.sum := by
  obtain ⟨s, h1, h2, h3⟩ := h
  have hle : start strata (i + 1) ≤ strata.sum := by
    have : start strata (max (i + 1) strata.length) = strata.sum := by
      unfold start
      rw [List.take_of_length_le (le_max_right _ _)]
    rw [← this]
    exact start_mono strata (le_max_left _ _)
  rw [start_succ, h1, Option.getD_some] at hle
  omega

/-- Different edges have different numbers. -/
theorem edgeNumber_injective {strata : List ℕ} {i u v i' u' v' : ℕ} (h : Consecutive strata i u v) (h' : Consecutive strata i' u' v')
    (he : edgeNumber strata i u v = edgeNumber strata i' u' v') : u = u' ∧ v = v' := by
  have key : ∀ {i u v : ℕ}, Consecutive strata i u v → before strata i ≤ edgeNumber strata i u v ∧ edgeNumber strata i u v < before strata (i + 1) := by
    intro i u v h
    obtain ⟨⟨s, h1, h2, h3⟩, ⟨s', h1', h2', h3'⟩⟩ := h
    refine ⟨by unfold edgeNumber; omega, ?_⟩
    rw [before_succ]
    unfold edgeNumber
    rw [h1, h1', Option.getD_some, Option.getD_some]
    have e1 : (u - start strata i + 1) * s' ≤ s * s' := Nat.mul_le_mul_right s' (by omega)
    rw [Nat.add_mul, Nat.one_mul] at e1
    omega
  obtain ⟨a1, a2⟩ := key h
  obtain ⟨b1, b2⟩ := key h'
  have hi : i = i' := by
    by_contra hne
    rcases Nat.lt_or_gt_of_ne hne with hlt | hlt
    · have := before_mono strata (Nat.succ_le_of_lt hlt)
      rw [Nat.succ_eq_add_one] at this
      omega
    · have := before_mono strata (Nat.succ_le_of_lt hlt)
      rw [Nat.succ_eq_add_one] at this
      omega
  subst hi
  obtain ⟨⟨s, h1, h2, h3⟩, ⟨s', h1', h2', h3'⟩⟩ := h
  obtain ⟨⟨r, g1, g2, g3⟩, ⟨r', g1', g2', g3'⟩⟩ := h'
  rw [h1'] at g1'
  cases g1'
  unfold edgeNumber at he
  rw [h1', Option.getD_some] at he
  have he' : (u - start strata i) * s' + (v - start strata (i + 1)) = (u' - start strata i) * s' + (v' - start strata (i + 1)) := by omega
  have hk : v - start strata (i + 1) < s' := by omega
  have hk' : v' - start strata (i + 1) < s' := by omega
  have hm := congrArg (· % s') he'
  have hd := congrArg (· / s') he'
  simp only [Nat.mul_add_mod_self_right, Nat.mod_eq_of_lt hk, Nat.mod_eq_of_lt hk'] at hm
  have hs : 0 < s' := by omega
  rw [Nat.mul_comm _ s', Nat.mul_comm _ s'] at hd
  simp only [Nat.mul_add_div hs, Nat.div_eq_of_lt hk, Nat.div_eq_of_lt hk'] at hd
  omega

/-! ### The graph -/

theorem vertexLoop_eq [Zero α] (strata : List ℕ) : ∀ index, (vertexLoop index strata : List (Simplex α)) = (List.range strata.sum).map fun i => Simplex.ofRange [index + i] 0 := by
  induction strata with
  | nil => intro index; rfl
  | cons a strata ih =>
    intro index
    rw [vertexLoop, ih, List.sum_cons, List.range_add, List.map_append, List.map_map]
    congr 1
    refine List.map_congr_left fun i _ => ?_
    simp only [Function.comp_apply, Nat.add_assoc]

/-- The edges as pairs of vertices and weights. -/
def edgeEntries (draw : ℕ → α) : ℕ → ℕ → List ℕ → List (List ℕ × α)
  | _, _, [] => []
  | _, _, [_] => []
  | offset, t, a :: b :: strata =>
    ((List.range a).flatMap fun j => (List.range b).map fun k => ([offset + j, offset + a + k], draw (t + (j * b + k)))) ++ edgeEntries draw (offset + a) (t + a * b) (b :: strata)

theorem edgeLoop_eq (draw : ℕ → α) (strata : List ℕ) : ∀ offset t, edgeLoop draw offset t strata = (edgeEntries draw offset t strata).map fun e => Simplex.ofRange e.1 e.2 := by
  induction strata with
  | nil => intro offset t; rfl
  | cons a strata ih =>
    intro offset t
    cases strata with
    | nil => rfl
    | cons b strata =>
      simp only [edgeLoop, edgeEntries, ih, List.map_append, List.map_flatMap, List.map_map, Nat.add_sub_cancel]
      rfl

theorem mem_edgeEntries (draw : ℕ → α) (strata : List ℕ) : ∀ offset t (e : List ℕ × α), e ∈ edgeEntries draw offset t strata ↔
    ∃ i a b j k, strata[i]? = some a ∧ strata[i + 1]? = some b ∧ j < a ∧ k < b ∧ e = ([offset + start strata i + j, offset + start strata (i + 1) + k], draw (t + before strata i + (j * b + k))) := by
  induction strata with
  | nil => intro offset t e; simp [edgeEntries]
  | cons a strata ih =>
    intro offset t e
    cases strata with
    | nil => simp [edgeEntries]
    | cons b strata =>
      rw [edgeEntries, List.mem_append, ih]
      constructor
      · rintro (h | ⟨i, a', b', j, k, h1, h2, h3, h4, rfl⟩)
        · simp only [List.mem_flatMap, List.mem_map, List.mem_range] at h
          obtain ⟨j, hj, k, hk, rfl⟩ := h
          refine ⟨0, a, b, j, k, rfl, rfl, hj, hk, ?_⟩
          simp [start, before, Nat.add_assoc]
        · refine ⟨i + 1, a', b', j, k, by simpa using h1, by simpa using h2, h3, h4, ?_⟩
          rw [start_cons a (b :: strata) i, start_cons a (b :: strata) (i + 1), before_cons]
          simp only [Nat.add_assoc]
      · rintro ⟨i, a', b', j, k, h1, h2, h3, h4, rfl⟩
        cases i with
        | zero =>
          left
          simp only [List.getElem?_cons_zero, Option.some.injEq, List.getElem?_cons_succ] at h1 h2
          subst h1; subst h2
          simp only [List.mem_flatMap, List.mem_map, List.mem_range]
          refine ⟨j, h3, k, h4, ?_⟩
          simp [start, before, Nat.add_assoc]
        | succ i =>
          right
          refine ⟨i, a', b', j, k, by simpa using h1, by simpa using h2, h3, h4, ?_⟩
          rw [start_cons a (b :: strata) i, start_cons a (b :: strata) (i + 1), before_cons]
          simp only [Nat.add_assoc]

theorem mem_edges (draw : ℕ → α) (strata : List ℕ) (e : List ℕ × α) : e ∈ edgeEntries draw 0 0 strata ↔ ∃ i u v, Consecutive strata i u v ∧ e = ([u, v], draw (edgeNumber strata i u v)) := by
  rw [mem_edgeEntries]
  constructor
  · rintro ⟨i, a, b, j, k, h1, h2, h3, h4, rfl⟩
    refine ⟨i, start strata i + j, start strata (i + 1) + k, ⟨⟨a, h1, by omega, by omega⟩, ⟨b, h2, by omega, by omega⟩⟩, ?_⟩
    unfold edgeNumber
    rw [h2]
    simp
  · rintro ⟨i, u, v, ⟨⟨a, h1, h2, h3⟩, ⟨b, h1', h2', h3'⟩⟩, rfl⟩
    refine ⟨i, a, b, u - start strata i, v - start strata (i + 1), h1, h1', by omega, by omega, ?_⟩
    unfold edgeNumber
    rw [h1', Option.getD_some, Nat.zero_add, Nat.zero_add, Nat.zero_add, Nat.add_sub_cancel' h2, Nat.add_sub_cancel' h2']

theorem pair_eq {u v u' v' : ℕ} (h : u < v) (h' : u' < v') (he : ({u, v} : Finset ℕ) = {u', v'}) : u = u' ∧ v = v' := by
  have h1 : u ∈ ({u', v'} : Finset ℕ) := he ▸ (by simp)
  have h2 : v ∈ ({u', v'} : Finset ℕ) := he ▸ (by simp)
  have h3 : u' ∈ ({u, v} : Finset ℕ) := he ▸ (by simp)
  simp only [Finset.mem_insert, Finset.mem_singleton] at h1 h2 h3
  omega

theorem pair_ne_single {u v w : ℕ} (h : u < v) : ({u, v} : Finset ℕ) ≠ {w} := by
  intro he
  have h1 : u ∈ ({w} : Finset ℕ) := he ▸ (by simp)
  have h2 : v ∈ ({w} : Finset ℕ) := he ▸ (by simp)
  simp only [Finset.mem_singleton] at h1 h2
  omega

/-- C189 (partial). A random stratified graph with at least two strata: its vertices are numbered stratum by stratum and have weight zero; two vertices are joined by an edge if and only if they belong to consecutive
strata, and the weights of the edges are different elements of the sequence of random numbers.  Fewer strata raise an exception.  *Missing:* the documentation says that every stratum is connected to every other
stratum; this holds for two strata only. -/
theorem _root_.Aleph.C189_graph_partial [Zero α] (draw : ℕ → α) (strata : List ℕ) :
    (strata.length ≤ 1 → graph draw strata = none) ∧
    (2 ≤ strata.length → ∃ K, graph draw strata = some K ∧ WF K ∧ FaceClosed K ∧ FacesFirst K ∧
      (∀ v d, HasData K {v} d ↔ v < strata.sum ∧ d = 0) ∧
      (∀ u v d, u < v → (HasData K {u, v} d ↔ ∃ i, Consecutive strata i u v ∧ d = draw (edgeNumber strata i u v))) ∧
      (∀ s ∈ K, (∃ v, s.vset = {v}) ∨ ∃ u v, u < v ∧ s.vset = {u, v})) ∧
    ∀ i u v i' u' v', Consecutive strata i u v → Consecutive strata i' u' v' → edgeNumber strata i u v = edgeNumber strata i' u' v' → u = u' ∧ v = v' := by
  refine ⟨fun h => by unfold graph; rw [if_pos h], fun h => ?_, fun i u v i' u' v' h h' he => edgeNumber_injective h h' he⟩
  have hentries : vertexLoop 0 strata ++ edgeLoop draw 0 0 strata =
      ((List.range strata.sum).map (fun i => ([i], (0 : α))) ++ edgeEntries draw 0 0 strata).map fun e => Simplex.ofRange e.1 e.2 := by
    rw [vertexLoop_eq, edgeLoop_eq, List.map_append, List.map_map]
    congr 1
    refine List.map_congr_left fun i _ => ?_
    simp only [Function.comp_apply, Nat.zero_add]
  have hmem : ∀ e, e ∈ (List.range strata.sum).map (fun i => ([i], (0 : α))) ++ edgeEntries draw 0 0 strata ↔
      (∃ v < strata.sum, e = ([v], 0)) ∨ ∃ i u v, Consecutive strata i u v ∧ e = ([u, v], draw (edgeNumber strata i u v)) := by
    intro e
    rw [List.mem_append, mem_edges]
    simp only [List.mem_map, List.mem_range, eq_comm (a := e)]
  have hcol := insertRange_collects ((List.range strata.sum).map (fun i => ([i], (0 : α))) ++ edgeEntries draw 0 0 strata) (by
    intro e he
    rcases (hmem e).1 he with ⟨v, _, rfl⟩ | ⟨i, u, v, _, rfl⟩ <;> simp)
  have hdata := hcol.hasData (by
    intro e he e' he' hee
    rcases (hmem e).1 he with ⟨v, _, rfl⟩ | ⟨i, u, v, hc, rfl⟩ <;> rcases (hmem e').1 he' with ⟨v', _, rfl⟩ | ⟨i', u', v', hc', rfl⟩
    · rfl
    · exfalso
      simp only [List.toFinset_cons, List.toFinset_nil, insert_empty_eq] at hee
      exact pair_ne_single (consecutive_lt hc') hee.symm
    · exfalso
      simp only [List.toFinset_cons, List.toFinset_nil, insert_empty_eq] at hee
      exact pair_ne_single (consecutive_lt hc) hee
    · simp only [List.toFinset_cons, List.toFinset_nil, insert_empty_eq] at hee
      obtain ⟨rfl, rfl⟩ := pair_eq (consecutive_lt hc) (consecutive_lt hc') hee
      rw [inStratum_unique hc.1 hc'.1])
  have hv : ∀ v d, HasData (Complex.insertRange [] (vertexLoop 0 strata ++ edgeLoop draw 0 0 strata)).1 {v} d ↔ v < strata.sum ∧ d = 0 := by
    intro v d
    rw [hentries, hdata]
    constructor
    · rintro ⟨e, he, h1, rfl⟩
      rcases (hmem e).1 he with ⟨v', hv', rfl⟩ | ⟨i, u, v', hc, rfl⟩
      · simp only [List.toFinset_cons, List.toFinset_nil, insert_empty_eq, Finset.singleton_inj] at h1
        exact ⟨h1 ▸ hv', rfl⟩
      · simp only [List.toFinset_cons, List.toFinset_nil, insert_empty_eq] at h1
        exact absurd h1 (pair_ne_single (consecutive_lt hc))
    · rintro ⟨h1, rfl⟩
      exact ⟨([v], 0), (hmem _).2 (.inl ⟨v, h1, rfl⟩), by simp, rfl⟩
  have he : ∀ u v d, u < v → (HasData (Complex.insertRange [] (vertexLoop 0 strata ++ edgeLoop draw 0 0 strata)).1 {u, v} d ↔
      ∃ i, Consecutive strata i u v ∧ d = draw (edgeNumber strata i u v)) := by
    intro u v d huv
    rw [hentries, hdata]
    constructor
    · rintro ⟨e, he, h1, rfl⟩
      rcases (hmem e).1 he with ⟨v', hv', rfl⟩ | ⟨i, u', v', hc, rfl⟩
      · simp only [List.toFinset_cons, List.toFinset_nil, insert_empty_eq] at h1
        exact absurd h1.symm (pair_ne_single huv)
      · simp only [List.toFinset_cons, List.toFinset_nil, insert_empty_eq] at h1
        obtain ⟨rfl, rfl⟩ := pair_eq (consecutive_lt hc) huv h1
        exact ⟨i, hc, rfl⟩
    · rintro ⟨i, hc, rfl⟩
      exact ⟨([u, v], draw (edgeNumber strata i u v)), (hmem _).2 (.inr ⟨i, u, v, hc, rfl⟩), by simp, rfl⟩
  have hs : ∀ s ∈ (Complex.insertRange [] (vertexLoop 0 strata ++ edgeLoop draw 0 0 strata)).1, (∃ v, s.vset = {v}) ∨ ∃ u v, u < v ∧ s.vset = {u, v} := by
    intro s hs
    have : HasData (Complex.insertRange [] (vertexLoop 0 strata ++ edgeLoop draw 0 0 strata)).1 s.vset s.data := ⟨s, hs, rfl, rfl⟩
    rw [hentries, hdata] at this
    obtain ⟨e, he, h1, _⟩ := this
    rcases (hmem e).1 he with ⟨v', hv', rfl⟩ | ⟨i, u', v', hc, rfl⟩
    · exact .inl ⟨v', by rw [← h1]; simp⟩
    · exact .inr ⟨u', v', consecutive_lt hc, by rw [← h1]; simp⟩
  refine ⟨_, by unfold graph; rw [if_neg (by omega)], by rw [hentries]; exact hcol.1, ?_, ?_, hv, he, hs⟩
  rotate_left
  · rw [hentries]
    have hord : (((List.range strata.sum).map (fun i => ([i], (0 : α))) ++ edgeEntries draw 0 0 strata).map fun e => (e.1.toFinset, e.2)).Pairwise fun x y => x.1.card ≤ y.1.card := by
      rw [List.pairwise_map, List.pairwise_append]
      refine ⟨?_, ?_, ?_⟩
      · rw [List.pairwise_map]
        exact List.pairwise_of_forall fun i j => by simp
      · refine List.pairwise_of_forall_mem_list fun x hx y hy => ?_
        obtain ⟨i, u, v, hc, rfl⟩ := (mem_edges draw strata x).1 hx
        obtain ⟨i', u', v', hc', rfl⟩ := (mem_edges draw strata y).1 hy
        simp only [List.toFinset_cons, List.toFinset_nil, insert_empty_eq]
        rw [Finset.card_pair (ne_of_lt (consecutive_lt hc)), Finset.card_pair (ne_of_lt (consecutive_lt hc'))]
      · intro x hx y hy
        obtain ⟨i, _, rfl⟩ := List.mem_map.1 hx
        obtain ⟨i', u', v', hc', rfl⟩ := (mem_edges draw strata y).1 hy
        simp only [List.toFinset_cons, List.toFinset_nil, insert_empty_eq]
        rw [Finset.card_pair (ne_of_lt (consecutive_lt hc')), Finset.card_singleton]
        omega
    have := hord.sublist hcol.2.2.1
    rw [List.pairwise_map] at this
    exact this.imp fun h hss => absurd (Finset.card_lt_card hss) (Nat.not_lt.2 h)
  intro s hsK t ht hne
  rcases hs s hsK with ⟨v, h1⟩ | ⟨u, v, huv, h1⟩
  · rw [h1] at ht
    rw [Finset.subset_singleton_iff] at ht
    rcases ht with rfl | rfl
    · simp at hne
    · exact ⟨s, hsK, h1⟩
  · have hdat := (he u v s.data huv).1 ⟨s, hsK, h1, rfl⟩
    obtain ⟨i, hc, _⟩ := hdat
    rw [h1] at ht
    have hsub : ∀ w ∈ t, w = u ∨ w = v := fun w hw => by simpa using ht hw
    have hvert : ∀ w, w < strata.sum → ∃ x ∈ (Complex.insertRange [] (vertexLoop 0 strata ++ edgeLoop draw 0 0 strata)).1, x.vset = {w} := by
      intro w hw
      obtain ⟨x, hx, hx', _⟩ := (hv w 0).2 ⟨hw, rfl⟩
      exact ⟨x, hx, hx'⟩
    by_cases hu : u ∈ t <;> by_cases hv' : v ∈ t
    · have : t = {u, v} := by
        ext w
        simp only [Finset.mem_insert, Finset.mem_singleton]
        exact ⟨hsub w, fun h => by rcases h with rfl | rfl <;> assumption⟩
      rw [this]
      exact ⟨s, hsK, h1⟩
    · have : t = {u} := by
        ext w
        simp only [Finset.mem_singleton]
        exact ⟨fun hw => (hsub w hw).resolve_right fun h => hv' (h ▸ hw), fun h => h ▸ hu⟩
      rw [this]
      exact hvert u (inStratum_lt hc.1)
    · have : t = {v} := by
        ext w
        simp only [Finset.mem_singleton]
        exact ⟨fun hw => (hsub w hw).resolve_left fun h => hu (h ▸ hw), fun h => h ▸ hv'⟩
      rw [this]
      exact hvert v (inStratum_lt hc.2)
    · obtain ⟨w, hw⟩ := hne
      rcases hsub w hw with rfl | rfl
      · exact absurd hw hu
      · exact absurd hw hv'

/-! ### Filtrations -/

section Filtrations

variable [LinearOrder α] [Zero α]

theorem keep_vertices (upper : Bool) {s : Simplex α} (h : Normal s.vertices) : (keep upper s).vertices = s.vertices := by
  unfold keep
  split
  · rfl
  · exact Aleph.ofRange_of_normal h 0

omit [LinearOrder α] in
theorem reset_vertices (s : Simplex α) : (reset s).vertices = s.vertices := by
  unfold reset
  split
  · rename_i v h; rw [h]; rfl
  · rfl

/-- The simplices that remain, with their new weights, in the order of the complex. -/
theorem makeFiltration_eq (K : Complex α) (hK : WF K) (upper : Bool) :
    makeFiltration K upper = (K.map fun s => reset (keep upper s)).filter fun s => !(Complex.dim s != 0 && s.data == 0) := by
  have hv : ∀ s ∈ K, (reset (keep upper s)).vertices = s.vertices := fun s hs => by rw [reset_vertices, keep_vertices upper (hK.normal s hs)]
  have hmap : (K.map fun s => reset (keep upper s)).map (·.vertices) = K.map (·.vertices) := by
    rw [List.map_map]
    exact List.map_congr_left fun s hs => hv s hs
  unfold makeFiltration
  simp only [List.map_map]
  rw [show (reset ∘ keep upper) = fun s : Simplex α => reset (keep upper s) from rfl, insertRange_nodup]
  · rfl
  · intro s hs
    obtain ⟨s', hs', rfl⟩ := List.mem_map.1 (List.mem_filter.1 hs).1
    rw [hv s' hs']
    exact hK.nonempty s' hs'
  · rw [List.nil_append]
    refine List.Nodup.sublist (List.Sublist.map _ List.filter_sublist) ?_
    rw [hmap]
    exact hK.distinct

theorem makeFiltration_sublist (K : Complex α) (hK : WF K) (upper : Bool) : ((makeFiltration K upper).map (·.vertices)).Sublist (K.map (·.vertices)) := by
  rw [makeFiltration_eq K hK upper]
  have hmap : (K.map fun s => reset (keep upper s)).map (·.vertices) = K.map (·.vertices) := by
    rw [List.map_map]
    exact List.map_congr_left fun s hs => by simp only [Function.comp_apply]; rw [reset_vertices, keep_vertices upper (hK.normal s hs)]
  rw [← hmap]
  exact List.Sublist.map _ List.filter_sublist

omit [LinearOrder α] [Zero α] in
theorem card_vset_eq {s : Simplex α} (h : Normal s.vertices) : s.vset.card = s.vertices.length := by
  unfold Simplex.vset
  exact List.toFinset_card_of_nodup (h.imp fun h => (ne_of_gt h))

/-- The weights of the filtration. -/
theorem makeFiltration_spec (K : Complex α) (hK : WF K) (upper : Bool) :
    WF (makeFiltration K upper) ∧
    (∀ v d, HasData (makeFiltration K upper) {v} d ↔ Has K {v} ∧ d = 0) ∧
    ∀ t d, 2 ≤ t.card → (HasData (makeFiltration K upper) t d ↔ HasData K t d ∧ ((upper = true ∧ 0 < d) ∨ (upper = false ∧ d < 0))) := by
  have hv : ∀ s ∈ K, (reset (keep upper s)).vertices = s.vertices := fun s hs => by rw [reset_vertices, keep_vertices upper (hK.normal s hs)]
  have hset : ∀ s ∈ K, (reset (keep upper s)).vset = s.vset := fun s hs => by unfold Simplex.vset; rw [hv s hs]
  have heq := makeFiltration_eq K hK upper
  have hmem : ∀ x, x ∈ makeFiltration K upper ↔ ∃ s ∈ K, x = reset (keep upper s) ∧ (Complex.dim x = 0 ∨ x.data ≠ 0) := by
    intro x
    rw [heq, List.mem_filter, List.mem_map]
    have : (!(Complex.dim x != 0 && x.data == 0)) = true ↔ (Complex.dim x = 0 ∨ x.data ≠ 0) := by
      by_cases h1 : Complex.dim x = 0 <;> by_cases h2 : x.data = 0 <;> simp [h1, h2]
    rw [this]
    constructor
    · rintro ⟨⟨s, hs, rfl⟩, h⟩; exact ⟨s, hs, rfl, h⟩
    · rintro ⟨s, hs, rfl, h⟩; exact ⟨⟨s, hs, rfl⟩, h⟩
  have hlarge : ∀ s : Simplex α, Normal s.vertices → 2 ≤ s.vertices.length → (reset (keep upper s)) = keep upper s := by
    intro s hn hl
    have := keep_vertices upper hn
    unfold reset
    split
    · rename_i v h
      rw [this] at h; rw [h] at hl; simp at hl
    · rfl
  refine ⟨⟨?_, ?_, ?_⟩, ?_, ?_⟩
  · intro x hx
    obtain ⟨s, hs, rfl, _⟩ := (hmem x).1 hx
    rw [hv s hs]; exact hK.normal s hs
  · intro x hx
    obtain ⟨s, hs, rfl, _⟩ := (hmem x).1 hx
    rw [hv s hs]; exact hK.nonempty s hs
  · exact hK.distinct.sublist (makeFiltration_sublist K hK upper)
  · intro v d
    have hone : ∀ s ∈ K, s.vset = {v} → s.vertices = [v] := by
      intro s hs he
      have hc := card_vset_eq (hK.normal s hs)
      rw [he, Finset.card_singleton] at hc
      obtain ⟨w, hw⟩ := List.length_eq_one_iff.1 hc.symm
      rw [hw]
      have : w ∈ s.vset := by unfold Simplex.vset; rw [hw]; simp
      rw [he, Finset.mem_singleton] at this
      rw [this]
    have hreset : ∀ s ∈ K, s.vset = {v} → reset (keep upper s) = Simplex.ofVertex v 0 := by
      intro s hs he
      have h1 := keep_vertices upper (hK.normal s hs)
      rw [hone s hs he] at h1
      unfold reset
      rw [h1]
    constructor
    · rintro ⟨x, hx, h1, rfl⟩
      obtain ⟨s, hs, rfl, _⟩ := (hmem x).1 hx
      rw [hset s hs] at h1
      refine ⟨⟨s, hs, h1⟩, ?_⟩
      rw [hreset s hs h1]
      rfl
    · rintro ⟨⟨s, hs, h1⟩, rfl⟩
      refine ⟨reset (keep upper s), (hmem _).2 ⟨s, hs, rfl, .inl ?_⟩, by rw [hset s hs, h1], by rw [hreset s hs h1]; rfl⟩
      rw [hreset s hs h1]; rfl
  · intro t d ht
    have hl : ∀ s ∈ K, s.vset = t → 2 ≤ s.vertices.length := by
      intro s hs he
      rw [← card_vset_eq (hK.normal s hs), he]; exact ht
    constructor
    · rintro ⟨x, hx, h1, rfl⟩
      obtain ⟨s, hs, rfl, h2⟩ := (hmem x).1 hx
      rw [hset s hs] at h1
      have hls := hl s hs h1
      rcases h2 with h2 | h2
      · unfold Complex.dim at h2; rw [hv s hs] at h2; omega
      · rw [hlarge s (hK.normal s hs) hls] at h2 ⊢
        unfold keep at h2 ⊢
        split
        · rename_i hc
          exact ⟨⟨s, hs, h1, rfl⟩, hc⟩
        · rename_i hc
          rw [if_neg hc] at h2
          exact absurd rfl h2
    · rintro ⟨⟨s, hs, h1, rfl⟩, hc⟩
      have hls := hl s hs h1
      have hkeep : reset (keep upper s) = s := by
        rw [hlarge s (hK.normal s hs) hls]
        unfold keep
        exact if_pos hc
      refine ⟨s, (hmem s).2 ⟨s, hs, hkeep.symm, .inr ?_⟩, h1, rfl⟩
      rcases hc with ⟨_, h⟩ | ⟨_, h⟩
      · exact ne_of_gt h
      · exact ne_of_lt h

/-- C189. The lower filtration of a graph: all vertices with weight zero, and all edges with a negative weight, in descending order of weights; no simplex precedes one of its faces. -/
theorem _root_.Aleph.C189_lower (K : Complex α) (hK : WF K) :
    WF (makeLowerFiltration K) ∧ (∀ v d, HasData (makeLowerFiltration K) {v} d ↔ Has K {v} ∧ d = 0) ∧
    (∀ t d, 2 ≤ t.card → (HasData (makeLowerFiltration K) t d ↔ HasData K t d ∧ d < 0)) ∧
    (makeLowerFiltration K).Pairwise (fun s t => t.data ≤ s.data) ∧
    ((∀ s ∈ K, s.vset.card ≤ 2) → FacesFirst (makeLowerFiltration K)) := by
  obtain ⟨h1, h2, h3⟩ := makeFiltration_spec K hK false
  obtain ⟨hp, hs, hf⟩ := sortGreater_spec h1
  have hL : makeLowerFiltration K = (makeFiltration K false).sort (asLt (Filtration.data fun a b => decide (b < a))) := rfl
  have hdata : ∀ t d, HasData (makeLowerFiltration K) t d ↔ HasData (makeFiltration K false) t d := by
    intro t d
    unfold HasData
    rw [hL]
    exact exists_congr fun s => and_congr_left fun _ => hp.mem_iff
  refine ⟨?_, ?_, ?_, by rw [hL]; exact hs, ?_⟩
  · rw [hL]; exact h1.perm hp
  · intro v d; rw [hdata]; exact h2 v d
  · intro t d ht; rw [hdata, h3 t d ht]; simp
  · intro hdim
    rw [hL, hf]
    intro s hs' t ht' hst
    have hcard : ∀ x ∈ makeFiltration K false, x.vset.card = 1 ∨ (2 ≤ x.vset.card ∧ x.data < 0) := by
      intro x hx
      have hne : x.vset.card ≠ 0 := by
        rw [card_vset_eq (h1.normal x hx)]
        exact fun h => h1.nonempty x hx (List.length_eq_zero_iff.1 h)
      rcases Nat.lt_or_ge x.vset.card 2 with h | h
      · left; omega
      · right
        have := (h3 x.vset x.data h).1 ⟨x, hx, rfl, rfl⟩
        exact ⟨h, by simpa using this.2⟩
    have hzero : ∀ x ∈ makeFiltration K false, x.vset.card = 1 → x.data = 0 := by
      intro x hx hc
      obtain ⟨v, hv⟩ := Finset.card_eq_one.1 hc
      exact ((h2 v x.data).1 ⟨x, hx, hv, rfl⟩).2
    have htwo : ∀ x ∈ makeFiltration K false, x.vset.card ≤ 2 := by
      intro x hx
      rcases Nat.lt_or_ge x.vset.card 2 with h | h
      · omega
      · obtain ⟨⟨y, hy, hy', _⟩, _⟩ := (h3 x.vset x.data h).1 ⟨x, hx, rfl, rfl⟩
        rw [← hy']; exact hdim y hy
    rcases hcard s hs' with hs1 | ⟨hs1, hs2⟩
    · rw [hzero s hs' hs1]
      rcases hcard t ht' with ht1 | ⟨_, ht2⟩
      · rw [hzero t ht' ht1]
      · exact ht2.le
    · have : s.vset = t.vset := Finset.eq_of_subset_of_card_le hst (le_trans (htwo t ht') hs1)
      rw [h1.eq_of_vset hs' ht' this]

/-- C189 (partial). The upper filtration of a graph: all vertices with weight zero, and all edges with a positive weight, in the order of the graph; if no simplex of the graph precedes one of its faces, then the same holds for the filtration.  *Missing:* they should be in ascending order
of their weights, see `C189_unsorted`. -/
theorem _root_.Aleph.C189_upper_partial (K : Complex α) (hK : WF K) :
    WF (makeUpperFiltration K) ∧ (∀ v d, HasData (makeUpperFiltration K) {v} d ↔ Has K {v} ∧ d = 0) ∧
    (∀ t d, 2 ≤ t.card → (HasData (makeUpperFiltration K) t d ↔ HasData K t d ∧ 0 < d)) ∧
    ((makeUpperFiltration K).map (·.vertices)).Sublist (K.map (·.vertices)) ∧
    (FacesFirst K → FacesFirst (makeUpperFiltration K)) := by
  obtain ⟨h1, h2, h3⟩ := makeFiltration_spec K hK true
  refine ⟨h1, h2, ?_, makeFiltration_sublist K hK true, fun hF => ?_⟩
  rotate_left
  · have hF' : (K.map (·.vertices)).Pairwise fun x y => ¬ y.toFinset ⊂ x.toFinset := List.pairwise_map.2 hF
    exact List.pairwise_map.1 (hF'.sublist (makeFiltration_sublist K hK true))
  intro t d ht
  have := h3 t d ht
  unfold makeUpperFiltration
  simpa using this

end Filtrations

/-- C189. The upper filtration of a random graph need not be sorted, in contrast to the lower filtration. -/
theorem _root_.Aleph.C189_unsorted : ∃ (draw : ℕ → ℤ) (strata : List ℕ) (K : Complex ℤ), graph draw strata = some K ∧ ¬(makeUpperFiltration K).Pairwise (fun s t => s.data ≤ t.data) ∧
    (makeUpperFiltration K).map (fun s => (s.vertices, s.data)) = [([0], 0), ([1], 0), ([2], 0), ([3], 0), ([4], 0), ([2, 0], 2), ([3, 0], 1), ([3, 1], 5)] ∧
    (makeLowerFiltration K).map (fun s => (s.vertices, s.data)) = [([0], 0), ([1], 0), ([2], 0), ([3], 0), ([4], 0), ([4, 0], -1), ([2, 1], -3)] := by
  refine ⟨fun t => [2, 1, -1, -3, 5, 0].getD t 0, [2, 3], (graph (fun t => ([2, 1, -1, -3, 5, 0] : List ℤ).getD t 0) [2, 3]).getD [], ?_, ?_, ?_, ?_⟩
  · decide +kernel
  · decide +kernel
  · decide +kernel
  · decide +kernel

/-- With three strata, the first and the last one are not connected. -/
example : Consecutive [2, 3, 1] 0 1 4 ∧ Consecutive [2, 3, 1] 1 4 5 ∧ ¬∃ i, Consecutive [2, 3, 1] i 0 5 := by
  refine ⟨⟨⟨2, rfl, by decide, by decide⟩, ⟨3, rfl, by decide, by decide⟩⟩, ⟨⟨3, rfl, by decide, by decide⟩, ⟨1, rfl, by decide, by decide⟩⟩, ?_⟩
  rintro ⟨i, h1, h2⟩
  have e1 : i = 0 := inStratum_unique h1 ⟨2, rfl, by decide, by decide⟩
  have e2 : i + 1 = 2 := inStratum_unique h2 ⟨1, rfl, by decide, by decide⟩
  omega

end Aleph.StratifiedGraph
