import Verif.Lemmas.CliquePersistence
import Verif.Props.RelevantEdges
import Verif.Props.CliqueCommunities
import Verif.Props.CliqueGraph
import Verif.Props.TopDown
import Mathlib.Algebra.BigOperators.Group.Finset.Basic
import Mathlib.Algebra.Order.Field.Rat
import Mathlib.Algebra.Order.Ring.Rat
import Mathlib.Tactic.Abel
import Mathlib.Data.Nat.Digits.Lemmas

/-!
# C145: persistence of clique communities
-/

namespace Aleph

open Finset Spec

namespace CliquePersistence

variable {α : Type} {C L : Complex α}

/-! ### The functor -/

theorem accumulate_spec [Ring α] (amount : α) (vs : List ℕ) (hvs : vs.Nodup) (vim : ℕ → Option (α × ℕ)) (v : ℕ) :
    (accumulate amount vs vim v).getD 0 = (vim v).getD 0 + (if v ∈ vs then (amount, 1) else 0) ∧
      ((vim v).isSome → (accumulate amount vs vim v).isSome) := by
  unfold accumulate
  induction vs generalizing vim with
  | nil => simp
  | cons a vs ih =>
    rw [List.nodup_cons] at hvs
    obtain ⟨h1, h2⟩ := ih hvs.2 (Function.update vim a (some ((vim a).getD (0, 0) + (amount, 1))))
    rw [List.foldl_cons]
    by_cases hva : v = a
    · subst hva
      rw [Function.update_self] at h1 h2
      refine ⟨?_, fun _ => h2 rfl⟩
      rw [h1, if_neg hvs.1, if_pos List.mem_cons_self, Option.getD_some, add_zero]
      rfl
    · rw [Function.update_of_ne hva] at h1 h2
      refine ⟨?_, h2⟩
      rw [h1]
      simp [hva]

theorem cliqueVertices_spec {positions : List ℕ} (h : ∀ i ∈ positions, i < L.length) :
    ∃ vs, cliqueVertices L positions = some vs ∧ vs.Nodup ∧ ∀ v, v ∈ vs ↔ ∃ i ∈ positions, v ∈ vsetAt L i := by
  obtain ⟨ys, e, hf⟩ := mapM_exists (f := L.get) (l := positions) (fun i hi => ⟨L[i]'(h i hi), List.getElem?_eq_getElem (h i hi)⟩)
  refine ⟨_, by unfold cliqueVertices; rw [e]; rfl, List.nodup_dedup _, ?_⟩
  intro v
  rw [List.mem_dedup, List.mem_flatMap]
  obtain ⟨hlen, hg⟩ := List.forall₂_iff_get.1 hf
  simp only [List.get_eq_getElem] at hg
  constructor
  · rintro ⟨s, hs, hv⟩
    obtain ⟨n, hn, rfl⟩ := List.mem_iff_getElem.1 hs
    refine ⟨_, List.getElem_mem (hlen ▸ hn), ?_⟩
    rw [vsetAt_some (hg n (hlen ▸ hn) hn)]
    exact List.mem_toFinset.2 hv
  · rintro ⟨i, hi, hv⟩
    obtain ⟨n, hn, rfl⟩ := List.mem_iff_getElem.1 hi
    refine ⟨_, List.getElem_mem (hlen ▸ hn), ?_⟩
    rw [vsetAt_some (hg n hn (hlen ▸ hn))] at hv
    exact List.mem_toFinset.1 hv

/-- The functor knows the components of the complex of the first `t` simplices. -/
def Knows (C : Complex α) (t : ℕ) (x : State α) : Prop :=
  ∀ i r, vsetAt C i = {r} → OldestAt C t i → x.cs r = some (component C t r).ncard ∧ ∃ l, x.cc r = some l ∧ ∀ w, w ∈ l ↔ w ∈ component C t r

theorem Knows.later {t t' : ℕ} {x : State α} (h : Knows C t x) (htt : t ≤ t') (hb : ∀ s, t ≤ s → s < t' → ¬ Bridges C s) : Knows C t' x := by
  intro i r hi ho
  obtain ⟨h1, l, h2, h3⟩ := h i r hi ((oldest_of_not_bridges htt hb).1 ho)
  rw [component_of_not_bridges htt hb]
  exact ⟨h1, l, h2, h3⟩

/-- The oldest vertex of the component that a call is about. -/
def callY : Call α → ℕ
  | .init v => v
  | .merge y _ _ _ _ _ => y
  | .root r _ => r

open Classical in
/-- The summand of one community. -/
noncomputable def summand [Ring α] (L : Complex α) (l : CliqueLevel α) (v y : ℕ) : α × ℕ :=
  if Covers L (l.members y) v ∧ l.Relevant y then ((l.death y - l.birth y) ^ 2, 1) else 0

variable {top : α}

section Calls

variable [Ring α] [DecidableEq α]

theorem merges_spec {l : CliqueLevel α} (hK : WF l.graph) (hL : ∀ w, Has l.graph {w} → w < L.length)
    (hlife : ∀ y, Has l.graph {y} → Life l.graph top y (l.members y) (l.birth y) (l.death y)) {ts : List ℕ} {calls : List (Call α)}
    (hf : List.Forall₂ (MergeCall l.graph) ts calls) (hts : ts.Pairwise (· < ·)) (t0 : ℕ) (hlo : ∀ t ∈ ts, t0 ≤ t)
    (hall : ∀ s, t0 ≤ s → Bridges l.graph s → s ∈ ts) (x : State α) (hx : Knows l.graph t0 x) :
    ∃ x', calls.foldlM (Call.on (visitor top L)) x = some x' ∧
      (∀ v, (x'.vim v).getD 0 = (x.vim v).getD 0 + ((calls.map callY).map (summand L l v)).sum ∧ ((x.vim v).isSome → (x'.vim v).isSome)) ∧
      Knows l.graph l.graph.length x' ∧ (∀ y ∈ calls.map callY, x'.cs y = some (l.members y).ncard) ∧
      ∀ i r, vsetAt l.graph i = {r} → ¬ OldestAt l.graph t0 i → x'.cs r = x.cs r := by
  generalize hC : l.graph = C at *
  induction hf generalizing t0 x with
  | nil =>
    refine ⟨x, rfl, by simp, ?_, by simp, fun _ _ _ _ => rfl⟩
    rcases Nat.le_total t0 C.length with h | h
    · exact hx.later h fun s h1 _ hb => absurd (hall s h1 hb) (by simp)
    · intro i r hi ho
      have hnb : ∀ s, C.length ≤ s → s < t0 → ¬ Bridges C s := by
        rintro s h1 _ ⟨u, v, _, he, _⟩
        have := lt_of_vsetAt (by simp) he
        omega
      rw [← component_of_not_bridges h hnb]
      exact hx i r hi ((oldest_of_not_bridges h hnb).2 ho)
  | @cons t call ts calls hc hf ih =>
    rw [List.pairwise_cons] at hts
    cases call with
    | init v => exact hc.elim
    | root r c => exact hc.elim
    | merge y o c d u v =>
      obtain ⟨hyo, hdis, hun, hcomp, hrest⟩ := mergeCall_components hK hc
      have hnb : ∀ s, t0 ≤ s → s < t → ¬ Bridges C s := by
        intro s h1 h2 hb
        rcases List.mem_cons.1 (hall s h1 hb) with rfl | h
        · omega
        · have := hts.1 s h; omega
      have ht0 : t0 ≤ t := hlo t List.mem_cons_self
      have hxt := hx.later ht0 hnb
      obtain ⟨hs, hnj, _, i, j, hi, hj, hoi, hoj, hlt⟩ := id hc
      have hiy : vsetAt C i = {y} := by rw [vsetAt_some hi]; simp [Simplex.vset]
      have hyC : Has C {y} := has_vertex_iff.2 ⟨i, hiy⟩
      obtain ⟨y1, ly, y2, y3⟩ := hxt i y hiy hoi
      obtain ⟨o1, lo, o2, o3⟩ := hxt j o hj hoj
      obtain ⟨vs, v1, v2, v3⟩ := cliqueVertices_spec (L := L) (positions := ly) fun w hw => hL w ((y3 w).1 hw).1
      obtain ⟨hS, hcc, hdd⟩ := life_unique hK (hlife y hyC) (.dies t o u v c d hc)
      have hcov : ∀ w, w ∈ vs ↔ Covers L (l.members y) w := by
        intro w
        rw [v3, hS]
        unfold Covers
        constructor
        · rintro ⟨a, ha, hw⟩; exact ⟨a, (y3 a).1 ha, hw⟩
        · rintro ⟨a, ha, hw⟩; exact ⟨a, (y3 a).2 ha, hw⟩
      have hrel : l.Relevant y ↔ c ≠ d := by
        unfold CliqueLevel.Relevant
        rw [hC, hcc, hdd]
        have := not_essential hK hc
        tauto
      let x1 : State α :=
        { cs := Function.update x.cs o (some ((component C t o).ncard + (component C t y).ncard))
          cc := Function.update (Function.update x.cc o (some (lo ++ ly))) y none
          vim := if c ≠ d then accumulate ((d - c) ^ 2) vs x.vim else x.vim }
      have hstep : Call.on (visitor top L) x (.merge y o c d u v) = some x1 := by
        show merge L y o c d u v x = some x1
        unfold merge
        simp only [y2, o2, y1, o1, Option.getD_some, v1]
        rfl
      have hvim : ∀ w, (x1.vim w).getD 0 = (x.vim w).getD 0 + summand L l w y ∧ ((x.vim w).isSome → (x1.vim w).isSome) := by
        intro w
        by_cases hcd : c = d
        · have hn : ¬ l.Relevant y := by rw [hrel]; simpa using hcd
          have h1 : x1.vim = x.vim := by simp [x1, hcd]
          rw [h1]
          unfold summand
          rw [if_neg (fun h => hn h.2)]
          simp
        · have h1 : x1.vim = accumulate ((d - c) ^ 2) vs x.vim := by simp [x1, hcd]
          rw [h1]
          obtain ⟨a1, a2⟩ := accumulate_spec ((d - c) ^ 2) vs v2 x.vim w
          refine ⟨?_, a2⟩
          rw [a1]
          unfold summand
          rw [hcc, hdd]
          congr 1
          by_cases hw : w ∈ vs
          · rw [if_pos hw, if_pos ⟨(hcov w).1 hw, hrel.2 hcd⟩]
          · rw [if_neg hw, if_neg (fun h => hw ((hcov w).2 h.1))]
      have hk1 : Knows C (t + 1) x1 := by
        intro k r hk hok
        obtain ⟨g1, g2⟩ := hrest k r hk hok
        by_cases hr : r = o
        · subst hr
          refine ⟨?_, lo ++ ly, ?_, ?_⟩
          · show Function.update x.cs r _ r = _
            rw [Function.update_self, hun, Set.ncard_union_eq hdis (component_finite hK _ _) (component_finite hK _ _)]
          · show Function.update (Function.update x.cc r _) y none r = _
            rw [Function.update_of_ne g1, Function.update_self]
          · intro w
            rw [List.mem_append, hun, o3, y3]
            rfl
        · obtain ⟨b1, l', b2, b3⟩ := hxt k r hk (Spec.OldestAt.mono (by omega) hok)
          refine ⟨?_, l', ?_, ?_⟩
          · show Function.update x.cs o _ r = _
            rw [Function.update_of_ne hr, b1, g2 hr]
          · show Function.update (Function.update x.cc o _) y none r = _
            rw [Function.update_of_ne g1, Function.update_of_ne hr, b2]
          · rw [g2 hr]
            exact b3
      obtain ⟨x', h1, h2, h3, h4, h5⟩ := ih hts.2 (t + 1) (fun s hs => hts.1 s hs)
        x1 (fun s h1 hb => by
          rcases List.mem_cons.1 (hall s (by omega) hb) with rfl | h
          · omega
          · exact h) hk1
      refine ⟨x', ?_, ?_, h3, ?_, ?_⟩
      · rw [List.foldlM_cons, hstep]; exact h1
      · intro w
        obtain ⟨a1, a2⟩ := h2 w
        obtain ⟨b1, b2⟩ := hvim w
        refine ⟨?_, fun h => a2 (b2 h)⟩
        rw [a1, b1, List.map_cons, List.map_cons, List.sum_cons, add_assoc]
        rfl
      · intro y' hy'
        rw [List.map_cons] at hy'
        rcases List.mem_cons.1 hy' with hyy | hy'
        · replace hyy : y' = y := hyy
          rw [hyy]
          show x'.cs y = some (l.members y).ncard
          rw [h5 i y hiy (merge_not_oldest hK hc hiy (Nat.lt_succ_self t))]
          show Function.update x.cs o _ y = _
          rw [Function.update_of_ne hyo, y1, hS]
        · exact h4 y' hy'
      · intro k r hk hok
        have hok' : ¬ OldestAt C t k := fun h => hok ((oldest_of_not_bridges ht0 hnb).1 h)
        rw [h5 k r hk (fun h => hok' (Spec.OldestAt.mono (Nat.le_succ t) h))]
        show Function.update x.cs o _ r = _
        rw [Function.update_of_ne]
        rintro rfl
        have := vsetAt_unique hK (by simp) hk hj
        subst this
        exact hok' hoj

theorem init_fold (vs : List ℕ) (x : State α) :
    ∃ x', (vs.map Call.init).foldlM (Call.on (visitor top L)) x = some x' ∧ x'.vim = x.vim ∧
      ∀ v ∈ vs, x'.cs v = some 1 ∧ x'.cc v = some [v] := by
  have main : ∃ x', (vs.map Call.init).foldlM (Call.on (visitor top L)) x = some x' ∧ x'.vim = x.vim ∧
      ∀ v, (v ∈ vs → x'.cs v = some 1 ∧ x'.cc v = some [v]) ∧ (v ∉ vs → x'.cs v = x.cs v ∧ x'.cc v = x.cc v) := by
    induction vs generalizing x with
    | nil => exact ⟨x, rfl, rfl, by simp⟩
    | cons a vs ih =>
      obtain ⟨x', h1, h2, h3⟩ := ih { x with cs := Function.update x.cs a (some 1), cc := Function.update x.cc a (some [a]) }
      refine ⟨x', ?_, h2, ?_⟩
      · rw [List.map_cons, List.foldlM_cons]
        exact h1
      · intro v
        obtain ⟨h4, h5⟩ := h3 v
        by_cases hv : v ∈ vs
        · exact ⟨fun _ => h4 hv, fun h => absurd (List.mem_cons_of_mem _ hv) h⟩
        · obtain ⟨h6, h7⟩ := h5 hv
          refine ⟨fun h => ?_, fun h => ?_⟩
          · rcases List.mem_cons.1 h with rfl | h
            · rw [h6, h7]; simp
            · exact absurd h hv
          · have : v ≠ a := fun h' => h (h' ▸ List.mem_cons_self)
            rw [h6, h7]
            simp [this]
  obtain ⟨x', h1, h2, h3⟩ := main
  exact ⟨x', h1, h2, fun v => (h3 v).1⟩

theorem roots_spec {l : CliqueLevel α} (hK : WF l.graph) (hL : ∀ w, Has l.graph {w} → w < L.length)
    (hlife : ∀ y, Has l.graph {y} → Life l.graph top y (l.members y) (l.birth y) (l.death y)) {is : List ℕ} {calls : List (Call α)}
    (hf : List.Forall₂ (RootCall l.graph) is calls) (his : ∀ i ∈ is, OldestAt l.graph l.graph.length i) (x : State α)
    (hx : Knows l.graph l.graph.length x) :
    ∃ x', calls.foldlM (Call.on (visitor top L)) x = some x' ∧ x'.cs = x.cs ∧
      (∀ v, (x'.vim v).getD 0 = (x.vim v).getD 0 + ((calls.map callY).map (summand L l v)).sum ∧ ((x.vim v).isSome → (x'.vim v).isSome)) ∧
      ∀ y ∈ calls.map callY, x.cs y = some (l.members y).ncard := by
  generalize hC : l.graph = C at *
  induction hf generalizing x with
  | nil => exact ⟨x, rfl, rfl, by simp, by simp⟩
  | @cons i call is calls hc hf ih =>
    cases call with
    | init v => exact hc.elim
    | merge y o c d u v => exact hc.elim
    | root r c =>
      have ho := his i List.mem_cons_self
      have hi : vsetAt C i = {r} := by rw [vsetAt_some hc]; simp [Simplex.vset]
      have hyC : Has C {r} := has_vertex_iff.2 ⟨i, hi⟩
      obtain ⟨h1, lr, h2, h3⟩ := hx i r hi ho
      obtain ⟨vs, v1, v2, v3⟩ := cliqueVertices_spec (L := L) (positions := lr) fun w hw => hL w ((h3 w).1 hw).1
      obtain ⟨hS, hcc, hdd⟩ := life_unique hK (hlife r hyC) (.stays i c ho hc)
      have hcov : ∀ w, w ∈ vs ↔ Covers L (l.members r) w := by
        intro w
        rw [v3, hS]
        unfold Covers
        constructor
        · rintro ⟨a, ha, hw⟩; exact ⟨a, (h3 a).1 ha, hw⟩
        · rintro ⟨a, ha, hw⟩; exact ⟨a, (h3 a).2 ha, hw⟩
      have hrel : l.Relevant r := Or.inl (by rw [hC]; exact ⟨i, hi, ho⟩)
      let x1 : State α := { x with vim := accumulate ((top - c) ^ 2) vs x.vim }
      have hstep : Call.on (visitor top L) x (.root r c) = some x1 := by
        show root top L r c x = some x1
        unfold root
        simp only [h2, Option.getD_some, v1]
        rfl
      obtain ⟨x', g1, g2, g3, g4⟩ := ih x1 (fun i hi => his i (List.mem_cons_of_mem _ hi)) hx
      refine ⟨x', ?_, g2, ?_, ?_⟩
      · rw [List.foldlM_cons, hstep]; exact g1
      · intro w
        obtain ⟨a1, a2⟩ := accumulate_spec ((top - c) ^ 2) vs v2 x.vim w
        obtain ⟨b1, b2⟩ := g3 w
        refine ⟨?_, fun h => b2 (a2 h)⟩
        rw [b1, List.map_cons, List.map_cons, List.sum_cons, ← add_assoc]
        congr 1
        show (accumulate ((top - c) ^ 2) vs x.vim w).getD 0 = _
        rw [a1]
        unfold summand callY
        rw [hcc, hdd]
        congr 1
        by_cases hw : w ∈ vs
        · rw [if_pos hw, if_pos ⟨(hcov w).1 hw, hrel⟩]
        · rw [if_neg hw, if_neg (fun h => hw ((hcov w).2 h.1))]
      · intro y hy
        rw [List.map_cons] at hy
        rcases List.mem_cons.1 hy with hyy | hy
        · replace hyy : y = r := hyy
          rw [hyy]
          show x.cs r = some (l.members r).ncard
          rw [h1, hS]
        · exact g4 y hy

/-! ### One level -/

theorem merge_unique (hK : WF C) {t y o u v y' o' u' v' : ℕ} {c d c' d' : α} (h : MergeCall C t (.merge y o c d u v))
    (h' : MergeCall C t (.merge y' o' c' d' u' v')) : y = y' := by
  by_contra hne
  obtain ⟨_, i, _, hi, ho⟩ := merge_position hK h
  exact merge_not_oldest hK h hi (Nat.lt_succ_self t) (oldest_succ hK h' hi ho hne)

theorem creators (hK : WF C) {ts is : List ℕ} {merges roots : List (Call α)} (hts : ts.Pairwise (· < ·)) (hbr : ∀ t, t ∈ ts ↔ Bridges C t)
    (hm : List.Forall₂ (MergeCall C) ts merges) (his : is.Nodup) (hol : ∀ i, i ∈ is ↔ OldestAt C C.length i)
    (hr : List.Forall₂ (RootCall C) is roots) :
    ((merges ++ roots).map callY).Nodup ∧ ∀ y, y ∈ (merges ++ roots).map callY ↔ Has C {y} := by
  have hmem1 : ∀ c ∈ merges, ∃ t ∈ ts, MergeCall C t c := by
    intro c hc
    obtain ⟨n, hn, rfl⟩ := List.mem_iff_getElem.1 hc
    obtain ⟨hl, hg⟩ := List.forall₂_iff_get.1 hm
    exact ⟨_, List.getElem_mem (hl ▸ hn), hg n (hl ▸ hn) hn⟩
  have hmem2 : ∀ c ∈ roots, ∃ i ∈ is, RootCall C i c := by
    intro c hc
    obtain ⟨n, hn, rfl⟩ := List.mem_iff_getElem.1 hc
    obtain ⟨hl, hg⟩ := List.forall₂_iff_get.1 hr
    exact ⟨_, List.getElem_mem (hl ▸ hn), hg n (hl ▸ hn) hn⟩
  have hkm : ∀ {t c}, MergeCall C t c → ∃ y o a d u v, c = .merge y o a d u v := by
    intro t c h
    cases c with
    | init v => exact h.elim
    | root r c => exact h.elim
    | merge y o a d u v => exact ⟨y, o, a, d, u, v, rfl⟩
  have hkr : ∀ {t c}, RootCall C t c → ∃ r a, c = .root r a ∧ vsetAt C t = {r} := by
    intro t c h
    cases c with
    | init v => exact h.elim
    | root r c => exact ⟨r, c, rfl, by rw [vsetAt_some h]; simp [Simplex.vset]⟩
    | merge y o a d u v => exact h.elim
  constructor
  · rw [List.map_append, List.nodup_append]
    refine ⟨?_, ?_, ?_⟩
    · clear hbr hmem1
      induction hm with
      | nil => simp
      | @cons t c ts cs hc hf ih =>
        rw [List.pairwise_cons] at hts
        rw [List.map_cons, List.nodup_cons]
        refine ⟨?_, ih hts.2⟩
        intro hmem
        obtain ⟨c', hc', e⟩ := List.mem_map.1 hmem
        obtain ⟨n, hn, rfl⟩ := List.mem_iff_getElem.1 hc'
        obtain ⟨hl, hg⟩ := List.forall₂_iff_get.1 hf
        have h2 := hg n (hl ▸ hn) hn
        have hlt := hts.1 _ (List.getElem_mem (hl ▸ hn))
        simp only [List.get_eq_getElem] at h2
        generalize cs[n] = c' at h2 e
        obtain ⟨y, o, a, d, u, v, rfl⟩ := hkm hc
        obtain ⟨y', o', a', d', u', v', rfl⟩ := hkm h2
        replace e : y' = y := e
        subst e
        obtain ⟨_, i, _, hi, ho⟩ := merge_position hK h2
        exact merge_not_oldest hK hc hi hlt ho
    · clear hol hmem2
      induction hr with
      | nil => simp
      | @cons t c ts cs hc hf ih =>
        rw [List.nodup_cons] at his
        rw [List.map_cons, List.nodup_cons]
        refine ⟨?_, ih his.2⟩
        intro hmem
        obtain ⟨c', hc', e⟩ := List.mem_map.1 hmem
        obtain ⟨n, hn, rfl⟩ := List.mem_iff_getElem.1 hc'
        obtain ⟨hl, hg⟩ := List.forall₂_iff_get.1 hf
        have h2 := hg n (hl ▸ hn) hn
        have hlt := List.getElem_mem (hl ▸ hn : n < ts.length)
        simp only [List.get_eq_getElem] at h2
        obtain ⟨y, a, rfl, hy⟩ := hkr hc
        obtain ⟨y', a', e2, hy'⟩ := hkr h2
        rw [e2] at e
        replace e : y' = y := e
        subst e
        have := vsetAt_unique hK (by simp) hy hy'
        exact his.1 (this ▸ hlt)
    · rintro a ha b hb rfl
      obtain ⟨c, hc, rfl⟩ := List.mem_map.1 ha
      obtain ⟨c', hc', e⟩ := List.mem_map.1 hb
      obtain ⟨t, _, h1⟩ := hmem1 c hc
      obtain ⟨i, hi, h2⟩ := hmem2 c' hc'
      obtain ⟨y, o, a, d, u, v, rfl⟩ := hkm h1
      obtain ⟨y', a', rfl, hy'⟩ := hkr h2
      replace e : y' = y := e
      subst e
      exact not_essential hK h1 ⟨i, hy', (hol i).1 hi⟩
  · intro y
    rw [List.map_append, List.mem_append]
    constructor
    · rintro (h | h)
      · obtain ⟨c, hc, rfl⟩ := List.mem_map.1 h
        obtain ⟨t, _, h1⟩ := hmem1 c hc
        obtain ⟨y, o, a, d, u, v, rfl⟩ := hkm h1
        obtain ⟨_, i, _, hi, _⟩ := merge_position hK h1
        exact has_vertex_iff.2 ⟨i, hi⟩
      · obtain ⟨c, hc, rfl⟩ := List.mem_map.1 h
        obtain ⟨i, hi, h2⟩ := hmem2 c hc
        obtain ⟨y', a', rfl, hy'⟩ := hkr h2
        exact has_vertex_iff.2 ⟨i, hy'⟩
    · intro hy
      have hall : ∀ t, Bridges C t → ∃ y o c d u v, MergeCall C t (.merge y o c d u v) := by
        intro t ht
        obtain ⟨n, hn, rfl⟩ := List.mem_iff_getElem.1 ((hbr t).2 ht)
        obtain ⟨hl, hg⟩ := List.forall₂_iff_get.1 hm
        have h2 := hg n hn (hl ▸ hn)
        simp only [List.get_eq_getElem] at h2
        obtain ⟨y, o, a, d, u, v, e⟩ := hkm h2
        rw [e] at h2
        exact ⟨y, o, a, d, u, v, h2⟩
      obtain ⟨S, c, d, hl⟩ := life_exists hK hall (0 : α) hy
      cases hl with
      | dies t o u v c d h =>
        left
        have hb : Bridges C t := by
          have hs := h.1
          have hnorm := hK.normal _ (List.mem_of_getElem? hs)
          refine ⟨u, v, by simpa using hnorm.nodup, by rw [vsetAt_some hs]; simp [Simplex.vset], h.2.1⟩
        obtain ⟨n, hn, rfl⟩ := List.mem_iff_getElem.1 ((hbr t).2 hb)
        obtain ⟨hl, hg⟩ := List.forall₂_iff_get.1 hm
        have h2 := hg n hn (hl ▸ hn)
        simp only [List.get_eq_getElem] at h2
        obtain ⟨y', o', a', d', u', v', e⟩ := hkm h2
        rw [e] at h2
        have := merge_unique hK h h2
        exact List.mem_map.2 ⟨_, List.getElem_mem (hl ▸ hn), by rw [e]; exact this.symm⟩
      | stays i c ho h =>
        right
        obtain ⟨n, hn, rfl⟩ := List.mem_iff_getElem.1 ((hol i).2 ho)
        obtain ⟨hl, hg⟩ := List.forall₂_iff_get.1 hr
        have h2 := hg n hn (hl ▸ hn)
        simp only [List.get_eq_getElem] at h2
        obtain ⟨r, a, e, hv⟩ := hkr h2
        have hv' : vsetAt C is[n] = {y} := by rw [vsetAt_some h]; simp [Simplex.vset]
        rw [hv] at hv'
        exact List.mem_map.2 ⟨_, List.getElem_mem (hl ▸ hn), by rw [e]; exact Finset.singleton_inj.1 hv'⟩

theorem rows_spec (hK : WF C) {inf : α} {cs : ℕ → Option ℕ} {birth death : ℕ → α} {size : ℕ → ℕ} {ys : List ℕ} {es : List ((α × α) × (ℕ × ℕ))}
    (h : List.Forall₂ (fun y e => vsetAt C e.2.1 = {y} ∧ cs y = some (size y) ∧ e.1.1 = birth y ∧ (if e.1.2 = inf then top else e.1.2) = death y) ys es) :
    ∃ l, rows inf top C cs (es.map (·.2)) (es.map (·.1)) = some l ∧
      List.Forall₂ (fun y (r : Row α) => r.x = birth y ∧ r.y = death y ∧ r.size = size y) ys l := by
  induction h with
  | nil => exact ⟨[], rfl, .nil⟩
  | @cons y e ys es he hf ih =>
    obtain ⟨l, h1, h2⟩ := ih
    obtain ⟨e1, e2, e3, e4⟩ := he
    obtain ⟨s, hs, hv⟩ := (index_eq_some hK).1 (index_vertex hK e1)
    refine ⟨⟨e.1.1, if e.1.2 = inf then top else e.1.2, size y⟩ :: l, ?_, .cons ⟨e3, e4, rfl⟩ h2⟩
    rw [List.map_cons, List.map_cons]
    unfold rows
    have : Complex.get C e.2.1 = some s := hs
    simp only [this, hv, List.head?_cons, e2, h1]

/-- The calls that yield a point. -/
def kept : Call α → Bool
  | .merge _ _ c d _ _ => decide (c ≠ d)
  | _ => true

end Calls

theorem graph_facts [LinearOrder α] (hL : WF L) {k : ℕ} (hk : 1 ≤ k) :
    ∃ C, CliqueGraph.getMax L k = some C ∧ IsFiltration (C.sort (asLt (Filtration.data fun a b => decide (a < b)))) ∧
      (C.sort (asLt (Filtration.data fun a b => decide (a < b)))).Pairwise (fun s t => s.data ≤ t.data) ∧
      IsCliqueGraph L k (C.sort (asLt (Filtration.data fun a b => decide (a < b)))) ∧
      (C.sort (asLt (Filtration.data fun a b => decide (a < b)))).length ≤ L.length * L.length ∧
      (∀ y, Has (C.sort (asLt (Filtration.data fun a b => decide (a < b)))) {y} ↔ #(vsetAt L y) = k + 1) := by
  obtain ⟨C, e, hC, hCc, hCd⟩ := C56_clique_graph max L hL k
  have hgr : IsCliqueGraph L k C := by
    intro t x
    rw [hCd]
    constructor
    · rintro (h | ⟨i, j, s, s', h1, h2, h3, h4, _, h5, _, h6, h7⟩)
      · exact Or.inl h
      · exact Or.inr ⟨i, j, s, s', h1, h2, h3, h4, h5, h6, h7⟩
    · rintro (h | ⟨i, j, s, s', h1, h2, h3, h4, h5, h6, h7⟩)
      · exact Or.inl h
      · right
        have hne : s.vset ≠ s'.vset := by
          intro he
          rw [he, inter_self] at h5
          omega
        have hne' : s.vertices ≠ s'.vertices := fun h => hne (by unfold Simplex.vset; rw [h])
        rcases lexLt_total hne' with hlt | hlt
        · exact ⟨i, j, s, s', h1, h2, h3, h4, hk, h5, hlt, h6, h7⟩
        · exact ⟨j, i, s', s, h2, h1, h4, h3, hk, by rw [inter_comm]; exact h5, hlt, by rw [h6, pair_comm], by rw [h7, max_comm]⟩
  have hij : ∀ {i j : ℕ} {s s' : Simplex α}, L[i]? = some s → L[j]? = some s' → #s'.vset = k + 1 → #(s.vset ∩ s'.vset) = k → i ≠ j := by
    rintro i j s s' h1 h2 h3 h4 rfl
    rw [h1] at h2
    cases h2
    rw [inter_self] at h4
    omega
  have hmono : Spec.Monotone C := by
    intro s hs t ht hst
    by_cases he : s.vset = t.vset
    · rw [hC.eq_of_vset hs ht he]
    · rcases (hgr s.vset s.data).1 ⟨s, hs, rfl, rfl⟩ with ⟨i, a, h1, h2, h3, h4⟩ | ⟨i, j, a, b, h1, h2, h3, h4, h5, h6, h7⟩
      · rcases (hgr t.vset t.data).1 ⟨t, ht, rfl, rfl⟩ with ⟨p, c, g1, g2, g3, g4⟩ | ⟨p, q, c, d, g1, g2, g3, g4, g5, g6, g7⟩
        · rw [h3, g3, singleton_subset_singleton] at hst
          exact absurd (by rw [h3, g3, hst]) he
        · rw [h3, g6, singleton_subset_iff, mem_insert, mem_singleton] at hst
          rw [h4, g7]
          rcases hst with rfl | rfl
          · rw [h1] at g1
            cases g1
            exact le_max_left _ _
          · rw [h1] at g2
            cases g2
            exact le_max_right _ _
      · exfalso
        have hlt := card_lt_card (hst.ssubset_of_ne he)
        rw [h6, card_pair (hij h1 h2 h4 h5)] at hlt
        rcases (hgr t.vset t.data).1 ⟨t, ht, rfl, rfl⟩ with ⟨p, c, g1, g2, g3, g4⟩ | ⟨p, q, c, d, g1, g2, g3, g4, g5, g6, g7⟩
        · rw [g3] at hlt
          simp at hlt
        · have := (card_le_two : #({p, q} : Finset ℕ) ≤ 2)
          rw [g6] at hlt
          omega
  obtain ⟨p1, p2, _⟩ := sortData_spec hC
  have hgr' : IsCliqueGraph L k (C.sort (asLt (Filtration.data fun a b => decide (a < b)))) := by
    intro t x
    rw [← hgr t x]
    unfold HasData
    constructor
    · rintro ⟨s, hs, h⟩; exact ⟨s, p1.mem_iff.1 hs, h⟩
    · rintro ⟨s, hs, h⟩; exact ⟨s, p1.mem_iff.2 hs, h⟩
  refine ⟨C, e, RelevantEdges.sorted_filtration hC hCc hmono, p2, hgr', ?_, ?_⟩
  · rw [p1.length_eq]
    have hnd : (C.map Simplex.vset).Nodup := by
      rw [List.nodup_map_iff_inj_on hC.nodup]
      intro s hs t ht h
      exact hC.eq_of_vset hs ht h
    have hsub : (C.map Simplex.vset).toFinset ⊆ (range L.length ×ˢ range L.length).image fun p => ({p.1, p.2} : Finset ℕ) := by
      intro t ht
      rw [List.mem_toFinset] at ht
      obtain ⟨s, hs, rfl⟩ := List.mem_map.1 ht
      rw [mem_image]
      rcases (hgr s.vset s.data).1 ⟨s, hs, rfl, rfl⟩ with ⟨i, a, h1, h2, h3, h4⟩ | ⟨i, j, a, b, h1, h2, h3, h4, h5, h6, h7⟩
      · have := (List.getElem?_eq_some_iff.1 h1).1
        exact ⟨(i, i), by simp [this], by simp [h3]⟩
      · have := (List.getElem?_eq_some_iff.1 h1).1
        have := (List.getElem?_eq_some_iff.1 h2).1
        exact ⟨(i, j), by simp [*], by simp [h6]⟩
    have := (card_le_card hsub).trans card_image_le
    rw [List.toFinset_card_of_nodup hnd, List.length_map, card_product, card_range] at this
    exact this
  · intro y
    constructor
    · rintro ⟨s, hs, he⟩
      rcases (hgr' {y} s.data).1 ⟨s, hs, he, rfl⟩ with ⟨i, a, h1, h2, h3, h4⟩ | ⟨i, j, a, b, h1, h2, h3, h4, h5, h6, h7⟩
      · rw [singleton_inj.1 h3, vsetAt_some h1]
        exact h2
      · have := card_pair (hij h1 h2 h4 h5)
        rw [← h6] at this
        simp at this
    · intro h
      obtain ⟨a, ha⟩ : ∃ a, L[y]? = some a := by
        rcases hy : L[y]? with _ | a
        · unfold vsetAt at h
          rw [hy] at h
          simp at h
        · exact ⟨a, rfl⟩
      rw [vsetAt_some ha] at h
      obtain ⟨s, hs, he, _⟩ := (hgr' {y} a.data).2 (Or.inl ⟨y, a, ha, h, rfl, rfl⟩)
      exact ⟨s, hs, he⟩

theorem level_spec [Ring α] [LinearOrder α] (hL : WF L) {k : ℕ} (hk : 1 ≤ k) (leftFirst : Bool) {inf : α} (hinf : ∀ s ∈ L, s.data ≠ inf)
    (hlen : L.length * L.length ≤ idxMax) (x : State α) :
    ∃ (C : Complex α) (l : CliqueLevel α) (out : List (α × α) × List (ℕ × ℕ)) (x' : State α) (rs : List (Row α)), CliqueGraph.getMax L k = some C ∧ l.k = k ∧ l.graph = C.sort (asLt (Filtration.data fun a b => decide (a < b))) ∧
      l.Correct L top ∧ (visitor top L).run false leftFirst inf l.graph x = some (out, x') ∧
      rows inf top l.graph x'.cs out.2 (out.1.filter fun p => p.1 ≠ p.2) = some rs ∧ l.Output rs ∧
      (∀ v, (x'.vim v).getD 0 = (x.vim v).getD 0 + l.centrality L v ∧ ((x.vim v).isSome → (x'.vim v).isSome)) ∧
      (l.graph = [] ↔ ∀ s ∈ L, #s.vset ≠ k + 1) := by
  obtain ⟨C, e, hF, hs, hg, hn, hv⟩ := graph_facts hL hk
  generalize hG : C.sort (asLt (Filtration.data fun a b => decide (a < b))) = G at *
  have hw := hF.wf
  obtain ⟨ts, merges, is, roots, ps, qs, out, h0, h1, h2, h3, h4, h5, h6, h7, h8, h9, h10, h11⟩ :=
    C142_calls false leftFirst inf G hF (hn.trans hlen)
  obtain ⟨cnd, cmem⟩ := creators hw h1 h2 h3 h4 h5 h6
  have hall : ∀ t, Bridges G t → ∃ y o c d u v, MergeCall G t (.merge y o c d u v) := by
    intro t ht
    obtain ⟨n, hn, rfl⟩ := List.mem_iff_getElem.1 ((h2 t).2 ht)
    obtain ⟨hl, hg⟩ := List.forall₂_iff_get.1 h3
    have h2 := hg n hn (hl ▸ hn)
    simp only [List.get_eq_getElem] at h2
    generalize merges[n]'(hl ▸ hn) = c at h2
    cases c with
    | init v => exact h2.elim
    | root r c => exact h2.elim
    | merge y o a d u v => exact ⟨y, o, a, d, u, v, h2⟩
  have hex : ∀ y, ∃ S c d, Has G {y} → Life G top y S c d := by
    intro y
    by_cases hy : Has G {y}
    · obtain ⟨S, c, d, h⟩ := life_exists hw hall top hy
      exact ⟨S, c, d, fun _ => h⟩
    · exact ⟨∅, 0, 0, fun h => absurd h hy⟩
  choose S b d hlife using hex
  let l : CliqueLevel α := ⟨k, G, S, b, d⟩
  have hcor : l.Correct L top := ⟨hF, hs, hg, hlife⟩
  have hyL : ∀ w, Has l.graph {w} → w < L.length := by
    intro w hw
    have := (hv w).1 hw
    by_contra hlt
    unfold vsetAt at this
    rw [List.getElem?_eq_none (by omega)] at this
    simp at this
  obtain ⟨x0, i1, i2, i3⟩ := init_fold (top := top) (L := L) G.vertices x
  obtain ⟨x1, m1, m2, m3, m4, _⟩ := merges_spec (l := l) hw hyL hlife h3 h1 0 (fun _ _ => Nat.zero_le _) (fun s _ hb => (h2 s).2 hb) x0
    (by
      intro i r hi _
      obtain ⟨a1, a2⟩ := i3 r ((mem_vertices_iff hw).2 ⟨i, hi⟩)
      have hz : component G 0 r = {r} := component_zero r (has_vertex_iff.2 ⟨i, hi⟩)
      show _ = some (component G 0 r).ncard ∧ ∃ l, _ ∧ ∀ w, w ∈ l ↔ w ∈ component G 0 r
      rw [hz, Set.ncard_singleton]
      exact ⟨a1, [r], a2, by simp⟩)
  obtain ⟨x2, r1, r2, r3, r4⟩ := roots_spec (l := l) hw hyL hlife h6 (fun i hi => (h5 i).1 hi) x1 m3
  have hdata : ∀ s ∈ G, s.data ≠ inf := by
    intro s hs
    rcases (hg s.vset s.data).1 ⟨s, hs, rfl, rfl⟩ with ⟨i, a, h1, h2, h3, h4⟩ | ⟨i, j, a, b, h1, h2, h3, h4, h5, h6, h7⟩
    · rw [h4]; exact hinf a (List.mem_of_getElem? h1)
    · rw [h7]
      rcases max_choice a.data b.data with h | h <;> rw [h]
      · exact hinf a (List.mem_of_getElem? h1)
      · exact hinf b (List.mem_of_getElem? h2)
  -- the entries
  have hcall : ∀ c ∈ merges ++ roots, ∀ p, EntryOf G inf c p → vsetAt G p.2.1 = {callY c} ∧ p.1.1 = b (callY c) ∧
      (if p.1.2 = inf then top else p.1.2) = d (callY c) ∧ (kept c = true ↔ l.Relevant (callY c)) ∧ (kept c = true → p.1.1 ≠ p.1.2) := by
    intro c hc p hp
    have hy := (cmem (callY c)).1 (List.mem_map_of_mem hc)
    have hl := hlife _ hy
    rcases List.mem_append.1 hc with hc | hc
    · obtain ⟨n, hn, rfl⟩ := List.mem_iff_getElem.1 hc
      obtain ⟨hl', hg'⟩ := List.forall₂_iff_get.1 h3
      have hm := hg' n (hl' ▸ hn) hn
      simp only [List.get_eq_getElem] at hm
      generalize merges[n] = c at *
      generalize ts[n]'(hl' ▸ hn) = t at *
      cases c with
      | init v => exact hm.elim
      | root r c => exact hm.elim
      | merge y o a e u v =>
        obtain ⟨q1, q2, q3⟩ := hp
        obtain ⟨hS, hcc, hdd⟩ := life_unique hw hl (.dies t o u v a e hm)
        simp only [callY] at *
        have hne : e ≠ inf := hdata _ (List.mem_of_getElem? hm.1)
        have hness := not_essential hw hm
        refine ⟨q2, by rw [q1, hcc], by rw [q1, hdd, if_neg hne], ?_, ?_⟩
        · unfold CliqueLevel.Relevant kept
          show _ ↔ Essential G y ∨ b y ≠ d y
          rw [hcc, hdd]
          simp [hness]
        · intro h
          rw [q1]
          simpa [kept] using h
    · obtain ⟨n, hn, rfl⟩ := List.mem_iff_getElem.1 hc
      obtain ⟨hl', hg'⟩ := List.forall₂_iff_get.1 h6
      have hm := hg' n (hl' ▸ hn) hn
      simp only [List.get_eq_getElem] at hm
      have ho := (h5 _).1 (List.getElem_mem (hl' ▸ hn : n < is.length))
      generalize roots[n] = c at *
      generalize is[n]'(hl' ▸ hn) = t at *
      cases c with
      | init v => exact hm.elim
      | merge y o a e u v => exact hm.elim
      | root r a =>
        obtain ⟨q1, q2, q3⟩ := hp
        obtain ⟨hS, hcc, hdd⟩ := life_unique hw hl (.stays t a ho hm)
        simp only [callY] at *
        have hne : a ≠ inf := hdata _ (List.mem_of_getElem? hm)
        refine ⟨q2, by rw [q1, hcc], by rw [q1, hdd, if_pos rfl], ?_, ?_⟩
        · have : l.Relevant r := Or.inl ⟨t, by rw [vsetAt_some hm]; simp [Simplex.vset], ho⟩
          simp [kept, this]
        · intro _
          rw [q1]
          exact hne
  have hent : List.Forall₂ (EntryOf G inf) (merges.filter kept ++ roots) (ps.filter (fun p => false || decide (p.1.1 ≠ p.1.2)) ++ qs) := by
    refine List.rel_append ?_ h8
    have key : ∀ {ms : List (Call α)} {es : List ((α × α) × (ℕ × ℕ))}, (∀ c ∈ ms, c ∈ merges) → List.Forall₂ (EntryOf G inf) ms es →
        List.Forall₂ (EntryOf G inf) (ms.filter kept) (es.filter (fun p => false || decide (p.1.1 ≠ p.1.2))) := by
      intro ms es hsub h
      induction h with
      | nil => exact .nil
      | @cons c p ms es hc hf ih =>
        have ih := ih fun c hc => hsub c (List.mem_cons_of_mem _ hc)
        have hcm := hsub c List.mem_cons_self
        obtain ⟨n, hn, rfl⟩ := List.mem_iff_getElem.1 hcm
        obtain ⟨hl', hg'⟩ := List.forall₂_iff_get.1 h3
        have hm := hg' n (hl' ▸ hn) hn
        simp only [List.get_eq_getElem] at hm
        generalize merges[n] = c at *
        cases c with
        | init v => exact hm.elim
        | root r c => exact hm.elim
        | merge y o a e u v =>
          have hk1 : kept (Call.merge y o a e u v) = decide (p.1.1 ≠ p.1.2) := by rw [hc.1]; rfl
          rw [List.filter_cons, List.filter_cons, hk1, Bool.false_or]
          split
          · exact .cons hc ih
          · exact ih
    exact key (fun _ h => h) h7
  have hrk : roots.filter kept = roots := by
    rw [List.filter_eq_self]
    intro c hc
    obtain ⟨n, hn, rfl⟩ := List.mem_iff_getElem.1 hc
    obtain ⟨hl', hg'⟩ := List.forall₂_iff_get.1 h6
    have hm := hg' n (hl' ▸ hn) hn
    simp only [List.get_eq_getElem] at hm
    generalize roots[n] = c at *
    cases c with
    | init v => exact hm.elim
    | merge y o a e u v => exact hm.elim
    | root r a => rfl
  generalize hes : ps.filter (fun p => false || decide (p.1.1 ≠ p.1.2)) ++ qs = es at *
  have hkeep : merges.filter kept ++ roots = (merges ++ roots).filter kept := by rw [List.filter_append, hrk]
  rw [hkeep] at hent
  have hsize : ∀ y ∈ (merges ++ roots).map callY, x2.cs y = some (S y).ncard := by
    intro y hy
    rw [List.map_append] at hy
    rw [r2]
    rcases List.mem_append.1 hy with h | h
    · exact m4 y h
    · exact r4 y h
  obtain ⟨rs, w1, w2⟩ := rows_spec (top := top) hw (inf := inf) (cs := x2.cs) (birth := b) (death := d) (size := fun y => (S y).ncard)
    (ys := ((merges ++ roots).filter kept).map callY) (es := es) (by
      rw [List.forall₂_map_left_iff]
      refine (List.forall₂_iff_get.2 ⟨hent.length_eq, ?_⟩)
      intro n q1 q2
      have hm := (List.forall₂_iff_get.1 hent).2 n q1 q2
      simp only [List.get_eq_getElem] at hm ⊢
      have hmem := List.getElem_mem q1
      have hmem' := (List.mem_filter.1 hmem).1
      obtain ⟨z1, z2, z3, _⟩ := hcall _ hmem' _ hm
      exact ⟨z1, hsize _ (List.mem_map_of_mem hmem'), z2, z3⟩)
  have hfilt : out.1.filter (fun p => p.1 ≠ p.2) = es.map (·.1) := by
    rw [h9, List.filter_eq_self]
    intro p hp
    obtain ⟨q, hq, rfl⟩ := List.mem_map.1 hp
    obtain ⟨n, hn, rfl⟩ := List.mem_iff_getElem.1 hq
    obtain ⟨hl', hg'⟩ := List.forall₂_iff_get.1 hent
    have hm := hg' n (hl' ▸ hn) hn
    simp only [List.get_eq_getElem] at hm
    have hmem := List.mem_filter.1 (List.getElem_mem (hl' ▸ hn : n < ((merges ++ roots).filter kept).length))
    simpa using (hcall _ hmem.1 _ hm).2.2.2.2 hmem.2
  refine ⟨C, l, out, x2, rs, e, rfl, hG.symm, hcor, ?_, ?_, ?_, ?_, ?_⟩
  · show (visitor top L).run false leftFirst inf G x = _
    rw [h11, List.foldlM_append, List.foldlM_append, i1]
    simp only [Option.bind_eq_bind, Option.bind_some, m1, r1, Option.map_some]
  · rw [hfilt, h10]
    exact w1
  · refine ⟨((merges ++ roots).filter kept).map callY, cnd.sublist (List.filter_sublist.map _), ?_, w2⟩
    intro y
    constructor
    · intro h
      obtain ⟨c, hc, rfl⟩ := List.mem_map.1 h
      obtain ⟨n, hn, rfl⟩ := List.mem_iff_getElem.1 hc
      obtain ⟨hl', hg'⟩ := List.forall₂_iff_get.1 hent
      have hm := hg' n hn (hl' ▸ hn)
      simp only [List.get_eq_getElem] at hm
      obtain ⟨hc1, hc2⟩ := List.mem_filter.1 hc
      exact ⟨(cmem _).1 (List.mem_map_of_mem hc1), (hcall _ hc1 _ hm).2.2.2.1.1 hc2⟩
    · rintro ⟨hy, hrel⟩
      obtain ⟨c, hc, rfl⟩ := List.mem_map.1 ((cmem y).2 hy)
      refine List.mem_map_of_mem (List.mem_filter.2 ⟨hc, ?_⟩)
      have hent' : List.Forall₂ (EntryOf G inf) (merges ++ roots) (ps ++ qs) := List.rel_append h7 h8
      obtain ⟨n, hn, rfl⟩ := List.mem_iff_getElem.1 hc
      obtain ⟨hl', hg'⟩ := List.forall₂_iff_get.1 hent'
      have hm := hg' n hn (hl' ▸ hn)
      exact (hcall _ hc _ hm).2.2.2.1.2 hrel
  · intro v
    obtain ⟨a1, a2⟩ := m2 v
    obtain ⟨b1, b2⟩ := r3 v
    rw [i2] at a1 a2
    refine ⟨?_, fun h => b2 (a2 h)⟩
    rw [b1, a1, add_assoc, ← List.sum_append, ← List.map_append, ← List.map_append]
    congr 1
    rw [← List.sum_toFinset _ cnd]
    unfold CliqueLevel.centrality
    refine sum_congr ?_ fun _ _ => rfl
    ext y
    rw [List.mem_toFinset, cmem, hv, mem_filter, mem_range]
    constructor
    · intro h
      exact ⟨hyL y ((hv y).2 h), h⟩
    · exact fun h => h.2
  · show G = [] ↔ _
    constructor
    · rintro rfl s hs hk'
      obtain ⟨n, hn, rfl⟩ := List.mem_iff_getElem.1 hs
      obtain ⟨s, hs', _⟩ := (hv n).2 (by rw [vsetAt_some (List.getElem?_eq_getElem hn)]; exact hk')
      simp at hs'
    · intro h
      rcases hGe : G with _ | ⟨s, G'⟩
      · rfl
      · exfalso
        rcases (hg s.vset s.data).1 ⟨s, by simp [hGe], rfl, rfl⟩ with ⟨i, a, h1, h2, _⟩ | ⟨i, j, a, b, h1, h2, h3, _⟩
        · exact h a (List.mem_of_getElem? h1) h2
        · exact h a (List.mem_of_getElem? h1) h3

/-- There are cliques with `k + 1` vertices. -/
def present (L : Complex α) (k : ℕ) : Bool := L.any fun s => #s.vset = k + 1

theorem levels_spec [Ring α] [LinearOrder α] (hL : WF L) (leftFirst ignoreEmpty : Bool) {inf : α} (hinf : ∀ s ∈ L, s.data ≠ inf)
    (hlen : L.length * L.length ≤ idxMax) (ks : List ℕ) (hks : ∀ k ∈ ks, 1 ≤ k) (x : State α) :
    ∃ (ls : List (CliqueLevel α)) (files : List (ℕ × List (Row α))) (x' : State α),
      levels leftFirst ignoreEmpty inf top L ks x = some (files, x') ∧ (∀ l ∈ ls, l.Correct L top) ∧
      List.Forall₂ (fun l f => f.1 = l.k ∧ l.Output f.2) ls files ∧
      (∀ v, (x'.vim v).getD 0 = (x.vim v).getD 0 + (ls.map fun l => l.centrality L v).sum ∧ ((x.vim v).isSome → (x'.vim v).isSome)) ∧
      ls.map (·.k) = if ignoreEmpty then ks.filter (present L) else ks.takeWhile (present L) := by
  induction ks generalizing x with
  | nil => exact ⟨[], [], x, rfl, by simp, .nil, by simp, by cases ignoreEmpty <;> rfl⟩
  | cons k ks ih =>
    obtain ⟨C, l, out, x1, rs, h1, h2, h3, h4, h5, h6, h7, h8, h9⟩ :=
      level_spec (top := top) hL (hks k List.mem_cons_self) leftFirst hinf hlen x
    rw [h3] at h5 h6 h9
    have hpres : present L k = true ↔ ¬ (C.sort (asLt (Filtration.data fun a b => decide (a < b)))) = [] := by
      rw [h9]
      unfold present
      simp
    by_cases he : (C.sort (asLt (Filtration.data fun a b => decide (a < b)))) = []
    · have hp : present L k = false := by
        rw [← Bool.not_eq_true, hpres]
        exact fun h => h he
      cases hi : ignoreEmpty
      · refine ⟨[], [], x, ?_, by simp, .nil, by simp, ?_⟩
        · unfold levels
          simp [h1, he, hi]
        · rw [if_neg (by simp), List.takeWhile_cons, hp]
          rfl
      · subst hi
        obtain ⟨ls, files, x', g1, g2, g3, g4, g5⟩ := ih (fun k hk => hks k (List.mem_cons_of_mem _ hk)) x1
        refine ⟨ls, files, x', ?_, g2, g3, ?_, ?_⟩
        · unfold levels
          simp only [h1]
          rw [if_neg (by simp), h5]
          simp only []
          rw [if_pos (by rw [he]; rfl)]
          exact g1
        · intro v
          obtain ⟨a1, a2⟩ := g4 v
          obtain ⟨b1, b2⟩ := h8 v
          refine ⟨?_, fun h => a2 (b2 h)⟩
          rw [a1, b1]
          have : l.centrality L v = 0 := by
            unfold CliqueLevel.centrality
            rw [filter_false_of_mem, sum_empty]
            intro y hy
            rw [mem_range] at hy
            rw [vsetAt_some (List.getElem?_eq_getElem hy), h2]
            exact (h9.1 he) _ (List.getElem_mem hy)
          rw [this, add_zero]
        · rw [g5, if_pos rfl, if_pos rfl, List.filter_cons, hp]
          rfl
    · have hp : present L k = true := hpres.2 he
      obtain ⟨ls, files, x', g1, g2, g3, g4, g5⟩ := ih (fun k hk => hks k (List.mem_cons_of_mem _ hk)) x1
      have hie : (C.sort (asLt (Filtration.data fun a b => decide (a < b)))).isEmpty = false := by
        rw [← Bool.not_eq_true, List.isEmpty_iff]
        exact he
      refine ⟨l :: ls, (k, rs) :: files, x', ?_, ?_, .cons ⟨h2.symm, h7⟩ g3, ?_, ?_⟩
      · unfold levels
        simp only [h1, hie, Bool.and_false]
        rw [if_neg (by simp), h5]
        simp only []
        rw [if_neg (by simp), h6]
        simp only [g1]
      · intro l' hl'
        rcases List.mem_cons.1 hl' with rfl | h
        · exact h4
        · exact g2 l' h
      · intro v
        obtain ⟨a1, a2⟩ := g4 v
        obtain ⟨b1, b2⟩ := h8 v
        refine ⟨?_, fun h => a2 (b2 h)⟩
        rw [a1, b1, List.map_cons, List.sum_cons, add_assoc]
      · rw [List.map_cons, g5, h2]
        cases ignoreEmpty
        · simp [List.takeWhile_cons, hp]
        · simp [List.filter_cons, hp]

/-- C145. Let `L` be an expanded complex whose data differ from infinity. If there are labels, let all vertices have labels. Then the program returns; the graphs that are
considered are the graphs of cliques with `k + 1` vertices for decreasing `k`. For each of them, there is a file with the name of `k`; its
lines are creation, destruction and size (number of cliques before it is merged) of each community that has positive persistence or stays
at the end; the latter end at `top`. The last file has one line for each vertex, in ascending order, with the sum of the squares of the persistence of
all such communities that contain a clique with the vertex, and with their number. -/
theorem _root_.Aleph.C145_levels [Ring α] [LinearOrder α] (leftFirst ignoreEmpty : Bool) (inf top : α) (labels : List (ℕ × List Char)) (maxK : ℕ)
    (L : Complex α) (hL : WF L) (hinf : ∀ s ∈ L, s.data ≠ inf) (hlen : L.length * L.length ≤ idxMax)
    (hlab : labels = [] ∨ ∀ v, Has L {v} → ∃ t, labels.lookup v = some t) :
    ∃ (ls : List (CliqueLevel α)) (files : List (ℕ × List (Row α))) (vs : List ℕ) (table : List (VertexRow α)),
      analyse leftFirst ignoreEmpty inf top labels maxK L = some (files, table) ∧
      (ls.map (·.k)).Pairwise (· > ·) ∧ (∀ k, k ∈ ls.map (·.k) ↔ Considered L ignoreEmpty maxK k) ∧ (∀ l ∈ ls, l.Correct L top) ∧
      List.Forall₂ (fun l f => f.1 = l.k ∧ l.Output f.2) ls files ∧
      vs.Pairwise (· < ·) ∧ (∀ v, v ∈ vs ↔ Has L {v}) ∧
      List.Forall₂ (fun v r => r.vertex = v ∧ (r.accumulated, r.communities) = (ls.map fun l => l.centrality L v).sum ∧
        LabelOf labels v r.label) vs table := by
  have hks : ∀ k ∈ (List.range' 1 maxK).reverse, 1 ≤ k := by
    intro k hk
    rw [List.mem_reverse, List.mem_range'_1] at hk
    exact hk.1
  obtain ⟨ls, files, x', h1, h2, h3, h4, h5⟩ := levels_spec (top := top) hL leftFirst ignoreEmpty hinf hlen _ hks (State.new L)
  have hsorted : (List.range' 1 maxK).reverse.Pairwise (· > ·) := by
    rw [List.pairwise_reverse]
    exact List.pairwise_lt_range'
  have hvs : ∀ v, v ∈ L.vertices.dedup.insertionSort (· ≤ ·) ↔ Has L {v} := by
    intro v
    rw [(List.perm_insertionSort _ _).mem_iff, List.mem_dedup]
    exact (C22_vertices L hL).2 v
  have hrow : ∀ v ∈ L.vertices.dedup.insertionSort (· ≤ ·), ∃ r, vertexRow labels x'.vim v = some r ∧ r.vertex = v ∧
      (r.accumulated, r.communities) = (ls.map fun l => l.centrality L v).sum ∧ LabelOf labels v r.label := by
    intro v hv
    have hv' := (hvs v).1 hv
    obtain ⟨a1, a2⟩ := h4 v
    have hmem : v ∈ L.vertices := ((C22_vertices L hL).2 v).2 hv'
    have hnew : (State.new L).vim v = some (0, 0) := by
      unfold State.new
      simp [hmem]
    rw [hnew] at a1 a2
    obtain ⟨⟨a, n⟩, hp⟩ := Option.isSome_iff_exists.1 (a2 rfl)
    rw [hp] at a1
    have hsum : (a, n) = (ls.map fun l => l.centrality L v).sum := by
      have h0 : ((0, 0) : α × ℕ) = 0 := rfl
      simpa [h0] using a1
    unfold vertexRow
    simp only [hp]
    rcases hlab with rfl | hlab
    · exact ⟨_, rfl, rfl, hsum, Or.inl ⟨rfl, rfl⟩⟩
    · cases hle : labels.isEmpty
      · obtain ⟨t, ht⟩ := hlab v hv'
        refine ⟨⟨v, a, n, some (formatLabel t)⟩, by simp [ht], rfl, hsum, Or.inr ⟨t, ht, ?_⟩⟩
        unfold formatLabel
        split
        · rename_i h
          exact Or.inl ⟨h.1, h.2, rfl⟩
        · rename_i h
          refine Or.inr ⟨?_, rfl⟩
          by_contra hc
          push Not at hc
          exact h hc
      · rw [List.isEmpty_iff] at hle
        exact ⟨_, by simp [hle]; rfl, rfl, hsum, Or.inl ⟨hle, rfl⟩⟩
  obtain ⟨table, e, hf⟩ := mapM_exists (f := vertexRow labels x'.vim) fun v hv => (hrow v hv).imp fun r h => h.1
  refine ⟨ls, files, L.vertices.dedup.insertionSort (· ≤ ·), table, ?_, ?_, ?_, h2, h3, ?_, hvs, ?_⟩
  · unfold analyse
    simp only [h1, e, Option.map_some]
  · rw [h5]
    split
    · exact hsorted.filter _
    · exact hsorted.sublist (List.takeWhile_sublist _)
  · intro k
    rw [h5]
    have hpres : ∀ j, present L j = true ↔ ∃ s ∈ L, #s.vset = j + 1 := by
      intro j
      unfold present
      simp
    cases ignoreEmpty
    · rw [if_neg (by simp)]
      have key : ∀ n, k ∈ (List.range' 1 n).reverse.takeWhile (present L) ↔ Considered L false n k := by
        intro n
        induction n with
        | zero =>
          unfold Considered
          simp
          omega
        | succ n ih =>
          rw [List.range'_concat, List.reverse_append, List.reverse_singleton, List.singleton_append, List.takeWhile_cons]
          have e1 : 1 + 1 * n = n + 1 := by omega
          rw [e1]
          split
          · rename_i hp
            rw [List.mem_cons, ih]
            unfold Considered
            constructor
            · rintro (rfl | ⟨g1, g2, g3, g4⟩)
              · refine ⟨by omega, le_refl _, (hpres _).1 hp, fun _ j h1 h2 => ?_⟩
                have : j = n + 1 := by omega
                rw [this]
                exact (hpres _).1 hp
              · refine ⟨g1, by omega, g3, fun h j h1 h2 => ?_⟩
                by_cases hj : j = n + 1
                · rw [hj]
                  exact (hpres _).1 hp
                · exact g4 h j h1 (by omega)
            · rintro ⟨g1, g2, g3, g4⟩
              by_cases hk : k = n + 1
              · exact Or.inl hk
              · exact Or.inr ⟨g1, by omega, g3, fun h j h1 h2 => g4 h j h1 (by omega)⟩
          · rename_i hp
            simp only [List.not_mem_nil, false_iff]
            rintro ⟨g1, g2, g3, g4⟩
            exact hp ((hpres _).2 (g4 rfl (n + 1) g2 (le_refl _)))
      exact key maxK
    · rw [if_pos rfl, List.mem_filter, List.mem_reverse, List.mem_range'_1, hpres]
      unfold Considered
      constructor
      · rintro ⟨⟨g1, g2⟩, g3⟩
        exact ⟨g1, by omega, g3, by simp⟩
      · rintro ⟨g1, g2, g3, _⟩
        exact ⟨⟨g1, by omega⟩, g3⟩
  · have := List.pairwise_insertionSort (· ≤ ·) L.vertices.dedup
    have hn : (L.vertices.dedup.insertionSort (· ≤ ·)).Nodup := (List.perm_insertionSort _ _).nodup_iff.2 (List.nodup_dedup _)
    exact (this.and hn).imp fun h => lt_of_le_of_ne h.1 h.2
  · refine List.forall₂_iff_get.2 ⟨hf.length_eq, ?_⟩
    intro n q1 q2
    have hm := (List.forall₂_iff_get.1 hf).2 n q1 q2
    obtain ⟨r, e1, e2⟩ := hrow _ (List.get_mem _ ⟨n, q1⟩)
    rw [hm] at e1
    cases e1
    exact e2

/-- C145. If there are labels, but not for all vertices, the program ends with an exception. -/
theorem _root_.Aleph.C145_labels [Ring α] [LinearOrder α] (leftFirst ignoreEmpty : Bool) (inf top : α) (labels : List (ℕ × List Char)) (maxK : ℕ)
    (L : Complex α) (hL : WF L) (hlab : labels ≠ []) (v : ℕ) (hv : Has L {v}) (hn : labels.lookup v = none) :
    analyse leftFirst ignoreEmpty inf top labels maxK L = none := by
  unfold analyse
  split
  · rfl
  · rename_i files x _
    rw [Option.map_eq_none_iff]
    have hmem : v ∈ L.vertices.dedup.insertionSort (· ≤ ·) := by
      rw [(List.perm_insertionSort _ _).mem_iff, List.mem_dedup]
      exact ((C22_vertices L hL).2 v).2 hv
    have hnone : vertexRow labels x.vim v = none := by
      unfold vertexRow
      have : labels.isEmpty = false := by simpa using hlab
      split
      · rfl
      · simp [this, hn]
    generalize L.vertices.dedup.insertionSort (· ≤ ·) = l at hmem
    induction l with
    | nil => simp at hmem
    | cons a l ih =>
      rw [List.mapM_cons]
      rcases List.mem_cons.1 hmem with rfl | h
      · simp [hnone]
      · rw [ih h]
        cases vertexRow labels x.vim a <;> rfl

/-- C145. Unless empty graphs are ignored, nothing is output if there is no clique with `maxK + 1` vertices, whatever the smaller cliques:
there are no files, and the last file lists zeros for all vertices. -/
theorem _root_.Aleph.C145_too_large [Ring α] [LinearOrder α] (leftFirst : Bool) (inf top : α) (maxK : ℕ) (hk : 1 ≤ maxK)
    (L : Complex α) (hL : WF L) (hinf : ∀ s ∈ L, s.data ≠ inf) (hlen : L.length * L.length ≤ idxMax) (hne : ∀ s ∈ L, #s.vset ≠ maxK + 1) :
    ∃ table, analyse leftFirst false inf top [] maxK L = some ([], table) ∧ ∀ r ∈ table, r.accumulated = 0 ∧ r.communities = 0 := by
  obtain ⟨ls, files, vs, table, h1, _, h2, _, h3, _, _, h4⟩ := C145_levels leftFirst false inf top [] maxK L hL hinf hlen (Or.inl rfl)
  have hls : ls = [] := by
    rcases hls : ls with _ | ⟨l, ls'⟩
    · rfl
    · exfalso
      obtain ⟨g1, g2, _, g3⟩ := (h2 l.k).1 (by simp [hls])
      obtain ⟨s, hs, he⟩ := g3 rfl maxK g2 le_rfl
      exact hne s hs he
  subst hls
  cases h3
  refine ⟨table, h1, ?_⟩
  intro r hr
  obtain ⟨n, hn, rfl⟩ := List.mem_iff_getElem.1 hr
  obtain ⟨hl', hg'⟩ := List.forall₂_iff_get.1 h4
  have hm := (hg' n (hl' ▸ hn) hn).2.1
  simp only [List.get_eq_getElem] at hm
  have h0 : (0 : α × ℕ) = (0, 0) := rfl
  simpa [h0] using hm

/-- C145. The program analyses the complex of all cliques with at most `maxK + 1` vertices; with the reverse expansion, of those with more than
`minK` vertices. The complex is in the order of its weights. Simplices with at least two vertices have the largest weight of their edges, after
normalisation and inversion, provided that these weights are not negative. Communities at the end are destroyed at twice the maximum weight. -/
theorem _root_.Aleph.C145_run_partial [Field α] [LinearOrder α] (o : Orders α) (leftFirst reverse ignoreEmpty : Bool) (lo hi inf : α)
    (settings : CliqueCommunities.Settings) (labels : List (ℕ × List Char)) (minK maxK : ℕ) (K : Complex α)
    (hK : WF K) (hc : EdgeClosed K) (hlo : ∀ s ∈ K, lo ≤ s.data) (hhi : ∀ s ∈ K, s.data ≤ hi) (m M : α)
    (hm : IsLeast {x | ∃ s ∈ K, s.data = x} m) (hM : IsGreatest {x | ∃ s ∈ K, s.data = x} M) (hlo0 : lo ≤ 0)
    (hpos : ∀ e ∈ K, #e.vset = 2 → 0 ≤ edgeWeight settings.normalize settings.invertWeights m M e.data) :
    ∃ L, WF L ∧ L.Pairwise (fun s t => s.data ≤ t.data) ∧
      (∀ t, Has L t ↔ (if reverse then minK + 1 else 1) ≤ #t ∧ #t ≤ maxK + 1 ∧ IsClique K t) ∧
      (∀ s ∈ L, 2 ≤ #s.vset → IsGreatest {y | ∃ e ⊆ s.vset, #e = 2 ∧ ∃ x, HasData K e x ∧
        y = edgeWeight settings.normalize settings.invertWeights m M x} s.data) ∧
      run o leftFirst reverse ignoreEmpty lo hi inf settings labels minK maxK K =
        analyse leftFirst ignoreEmpty inf (2 * if settings.normalize = true ∧ m ≠ M then 1 else M) labels maxK L := by
  have hprep := CliqueCommunities.prepare_eq hlo hhi hm hM settings
  generalize edgeWeight settings.normalize settings.invertWeights m M = w at *
  have hw := CliqueCommunities.wf_replaceWeights hK w
  have hmap : (CliqueCommunities.replaceWeights w K).map (·.vertices) = K.map (·.vertices) := by
    unfold CliqueCommunities.replaceWeights
    rw [List.map_map]
    apply List.map_congr_left
    intro s _
    simp only [Function.comp]
    split <;> rfl
  have hhas := has_of_map_vertices (List.Perm.of_eq hmap)
  have hcl : ∀ t, IsClique (CliqueCommunities.replaceWeights w K) t ↔ IsClique K t := by
    intro t
    unfold IsClique
    simp only [hhas]
  have hdata : ∀ e y, #e = 2 → (HasData (CliqueCommunities.replaceWeights w K) e y ↔ ∃ x, HasData K e x ∧ y = w x) := by
    intro e y he
    have hd : ∀ s ∈ K, s.vset = e → Complex.dim s ≠ 0 := by
      rintro s hs rfl
      have h1 := (hK.normal s hs).length_eq
      change s.vertices.length = #s.vset at h1
      unfold Complex.dim
      omega
    constructor
    · rintro ⟨r, hr, hv, rfl⟩
      unfold CliqueCommunities.replaceWeights at hr
      obtain ⟨s, hs, rfl⟩ := List.mem_map.1 hr
      have hsv : s.vset = e := by
        rw [← hv]
        split <;> rfl
      rw [if_neg (hd s hs hsv)]
      exact ⟨s.data, ⟨s, hs, hsv, rfl⟩, rfl⟩
    · rintro ⟨x, ⟨s, hs, hsv, rfl⟩, rfl⟩
      refine ⟨s.withData (w s.data), ?_, hsv, rfl⟩
      unfold CliqueCommunities.replaceWeights
      exact List.mem_map.2 ⟨s, hs, by rw [if_neg (hd s hs hsv)]⟩
  have hec : EdgeClosed (CliqueCommunities.replaceWeights w K) := by
    intro u v huv h
    rw [hhas] at h ⊢
    exact hc u v huv h
  have hset : ∀ t : Finset ℕ, {y | ∃ e ⊆ t, #e = 2 ∧ HasData (CliqueCommunities.replaceWeights w K) e y} =
      {y | ∃ e ⊆ t, #e = 2 ∧ ∃ x, HasData K e x ∧ y = w x} := by
    intro t
    ext y
    constructor
    · rintro ⟨e, h1, h2, h3⟩; exact ⟨e, h1, h2, (hdata e y h2).1 h3⟩
    · rintro ⟨e, h1, h2, h3⟩; exact ⟨e, h1, h2, (hdata e y h2).2 h3⟩
  have hwpos : ∀ e ∈ CliqueCommunities.replaceWeights w K, #e.vset = 2 → 0 ≤ e.data := by
    intro e he h2
    obtain ⟨x, ⟨s, hs, hsv, rfl⟩, h⟩ := (hdata e.vset e.data h2).1 ⟨e, he, rfl, rfl⟩
    rw [h]
    exact hpos s hs (by rw [hsv]; exact h2)
  have htop : maxWeight lo hi settings K = if settings.normalize = true ∧ m ≠ M then 1 else M := by
    unfold maxWeight
    rw [CliqueCommunities.extrema_spec hlo hhi hm hM]
    cases settings.normalize <;> simp [ne_comm]
  have main : ∃ L, expandSorted o reverse lo 0 minK maxK (CliqueCommunities.replaceWeights w K) = some L ∧ WF L ∧
      L.Pairwise (fun s t => s.data ≤ t.data) ∧ (∀ t, Has L t ↔ (if reverse then minK + 1 else 1) ≤ #t ∧ #t ≤ maxK + 1 ∧ IsClique K t) ∧
      (∀ s ∈ L, 2 ≤ #s.vset → IsGreatest {y | ∃ e ⊆ s.vset, #e = 2 ∧ HasData (CliqueCommunities.replaceWeights w K) e y} s.data) := by
    cases reverse
    · obtain ⟨L, h1, h2, h3, _⟩ := C26_cliques o 0 _ hw hec maxK
      obtain ⟨L', N, g0, g1, g2, g3, _, g4, _⟩ := C27_expansion_weights o 0 _ hw hec maxK
      rw [h1] at g0
      cases g0
      obtain ⟨p1, p2, _⟩ := sortData_spec g2
      refine ⟨_, ?_, g2.perm p1, p2, ?_, ?_⟩
      · unfold expandSorted CliqueCommunities.expandSorted
        simp only [h1, g1]
        rfl
      · intro t
        have : Has (N.sort (asLt (Filtration.data fun a b => decide (a < b)))) t ↔ Has N t := by
          constructor
          · rintro ⟨s, hs, h⟩; exact ⟨s, p1.mem_iff.1 hs, h⟩
          · rintro ⟨s, hs, h⟩; exact ⟨s, p1.mem_iff.2 hs, h⟩
        rw [this, g3, h3, hcl, ← card_pos]
        rfl
      · intro s hs h2
        exact g4 s (p1.mem_iff.1 hs) h2 hwpos
    · obtain ⟨L, h1, h2, h3, _⟩ := C55_top_down o 0 _ hw hec maxK minK
      obtain ⟨N, g1, g2, g3⟩ := C55_weights lo L _ h2 hw 1
      have hNw : WF N := h2.of_map_vertices (List.Perm.of_eq g2)
      have hNh := has_of_map_vertices (List.Perm.of_eq g2)
      obtain ⟨p1, p2, _⟩ := sortData_spec hNw
      have hperm : ∀ t, Has (N.sort (asLt (Filtration.data fun a b => decide (a < b)))) t ↔ Has N t := by
        intro t
        constructor
        · rintro ⟨s, hs, h⟩; exact ⟨s, p1.mem_iff.1 hs, h⟩
        · rintro ⟨s, hs, h⟩; exact ⟨s, p1.mem_iff.2 hs, h⟩
      refine ⟨_, ?_, hNw.perm p1, p2, ?_, ?_⟩
      · unfold expandSorted
        simp only [h1, g1, if_true]
      · intro t
        rw [hperm, hNh, h3, hcl]
        rfl
      · intro s hs h2'
        obtain ⟨k1, k2⟩ := (g3 s (p1.mem_iff.1 hs)).2 (by omega)
        obtain ⟨_, _, hq⟩ := (h3 s.vset).1 ((hNh _).1 ⟨s, p1.mem_iff.1 hs, rfl⟩)
        obtain ⟨u, hu, v, hv, huv⟩ := one_lt_card.1 (by omega : 1 < #s.vset)
        obtain ⟨r, hr, hre⟩ := hq.2 u hu v hv huv
        have hsub : r.vset ⊆ s.vset := by
          rw [hre]
          intro a ha
          rw [mem_insert, mem_singleton] at ha
          rcases ha with rfl | rfl <;> assumption
        have hr2 : #r.vset = 2 := by rw [hre]; exact card_pair huv
        have hle : r.data ≤ s.data := k2 (Or.inr ⟨r.vset, hsub, hr2, r, hr, rfl, rfl⟩)
        refine ⟨?_, fun y hy => k2 (Or.inr hy)⟩
        rcases k1 with h | h
        · refine ⟨r.vset, hsub, hr2, r, hr, rfl, le_antisymm hle ?_⟩
          rw [h]
          exact hlo0.trans (hwpos r hr hr2)
        · exact h
  obtain ⟨L, h1, h2, h3, h4, h5⟩ := main
  refine ⟨L, h2, h3, h4, ?_, ?_⟩
  · intro s hs h
    rw [← hset]
    exact h5 s hs h
  · unfold run
    rw [hprep, h1, htop]

/-- C145. With the reverse expansion and a positive minimum, the complex contains no vertices, so that the last file is empty. -/
theorem _root_.Aleph.C145_reverse [Field α] [LinearOrder α] (o : Orders α) (leftFirst ignoreEmpty : Bool) (lo hi inf : α)
    (settings : CliqueCommunities.Settings) (labels : List (ℕ × List Char)) (minK maxK : ℕ) (K : Complex α)
    (hK : WF K) (hc : EdgeClosed K) (hlo : ∀ s ∈ K, lo ≤ s.data) (hhi : ∀ s ∈ K, s.data ≤ hi) (m M : α)
    (hm : IsLeast {x | ∃ s ∈ K, s.data = x} m) (hM : IsGreatest {x | ∃ s ∈ K, s.data = x} M) (hlo0 : lo ≤ 0)
    (hpos : ∀ e ∈ K, #e.vset = 2 → 0 ≤ edgeWeight settings.normalize settings.invertWeights m M e.data) (hmin : 1 ≤ minK)
    (files : List (ℕ × List (Row α))) (table : List (VertexRow α))
    (h : run o leftFirst true ignoreEmpty lo hi inf settings labels minK maxK K = some (files, table)) : table = [] := by
  obtain ⟨L, h1, _, h2, _, h3⟩ :=
    C145_run_partial o leftFirst true ignoreEmpty lo hi inf settings labels minK maxK K hK hc hlo hhi m M hm hM hlo0 hpos
  rw [h3] at h
  unfold analyse at h
  have hv : L.vertices = [] := by
    rw [List.eq_nil_iff_forall_not_mem]
    intro v hv
    have := (h2 {v}).1 (((C22_vertices L h1).2 v).1 hv)
    simp at this
    omega
  rw [hv] at h
  split at h
  · cases h
  · simp at h
    exact h.2

theorem toDigits_zeros (n : ℕ) (l : List Char) :
    (List.replicate n '0' ++ l).foldl (fun n c => 10 * n + (c.toNat - 48)) 0 = l.foldl (fun n c => 10 * n + (c.toNat - 48)) 0 := by
  induction n with
  | zero => rfl
  | succ n ih =>
    rw [List.replicate_succ, List.cons_append, List.foldl_cons]
    exact ih

/-- C145. The name of the file for `k` is the prefix, followed by `k` in decimal notation with as many digits as the maximum (so that the names have
the order of the numbers), and the extension. Different numbers yield different names. -/
theorem _root_.Aleph.C145_names (pre : List Char) (maxK : ℕ) :
    (∀ k, k ≤ maxK → ∃ d, formatOutput pre k maxK = pre ++ d ++ ".txt".toList ∧ (∀ c ∈ d, '0' ≤ c ∧ c ≤ '9') ∧
      d.foldl (fun n c => 10 * n + (c.toNat - 48)) 0 = k ∧ d.length = (Nat.toDigits 10 maxK).length) ∧
    ∀ j k, formatOutput pre j maxK = formatOutput pre k maxK → j = k := by
  have hval : ∀ k, ∃ d, formatOutput pre k maxK = pre ++ d ++ ".txt".toList ∧ (∀ c ∈ d, '0' ≤ c ∧ c ≤ '9') ∧
      d.foldl (fun n c => 10 * n + (c.toNat - 48)) 0 = k ∧ d.length = max (Nat.log 10 maxK + 1) (Nat.toDigits 10 k).length := by
    intro k
    refine ⟨List.replicate ((Nat.log 10 maxK + 1) - (Nat.toDigits 10 k).length) '0' ++ Nat.toDigits 10 k, ?_, ?_, ?_, ?_⟩
    · unfold formatOutput
      simp
    · intro c hc
      rcases List.mem_append.1 hc with h | h
      · rw [List.eq_of_mem_replicate h]
        decide
      · exact (DiagramJson.isDecimal_toDigits k).2.1 c h
    · rw [toDigits_zeros]
      exact (DiagramJson.isDecimal_toDigits k).2.2.2
    · simp
      omega
  have hlen : ∀ n, (Nat.toDigits 10 n).length = Nat.log 10 n + 1 := by
    intro n
    rcases Nat.eq_zero_or_pos n with rfl | hn
    · simp
    · apply le_antisymm
      · exact Nat.toDigits_length 10 n _ (by omega) (Nat.lt_pow_succ_log_self (by norm_num) n)
      · by_contra hlt
        push Not at hlt
        have h1 : 10 ^ Nat.log 10 n ≤ n := Nat.pow_log_le_self 10 (by omega)
        have hb : ∀ (l : List Char), (∀ c ∈ l, '0' ≤ c ∧ c ≤ '9') → ∀ a, l.foldl (fun n c => 10 * n + (c.toNat - 48)) a < (a + 1) * 10 ^ l.length := by
          intro l
          induction l with
          | nil => intro _ a; simp
          | cons c l ih =>
            intro hl a
            obtain ⟨g1, g2⟩ := hl c List.mem_cons_self
            have g2' : c.toNat ≤ 57 := g2
            have := ih (fun c hc => hl c (List.mem_cons_of_mem _ hc)) (10 * a + (c.toNat - 48))
            rw [List.foldl_cons, List.length_cons, pow_succ]
            refine this.trans_le ?_
            have : 10 * a + (c.toNat - 48) + 1 ≤ (a + 1) * 10 := by omega
            calc _ ≤ (a + 1) * 10 * 10 ^ l.length := Nat.mul_le_mul_right _ this
              _ = _ := by ring
        have h2 := hb _ (DiagramJson.isDecimal_toDigits n).2.1 0
        rw [(DiagramJson.isDecimal_toDigits n).2.2.2] at h2
        have h3 : 10 ^ (Nat.toDigits 10 n).length ≤ 10 ^ Nat.log 10 n := Nat.pow_le_pow_right (by norm_num) (by omega)
        omega
  refine ⟨?_, ?_⟩
  · intro k hk
    obtain ⟨d, h1, h2, h3, h4⟩ := hval k
    refine ⟨d, h1, h2, h3, ?_⟩
    rw [h4, hlen, hlen]
    have := Nat.log_mono_right (b := 10) hk
    omega
  · intro j k h
    obtain ⟨d, h1, _, h2, _⟩ := hval j
    obtain ⟨d', g1, _, g2, _⟩ := hval k
    rw [h1, g1, List.append_assoc, List.append_assoc] at h
    have := List.append_cancel_right (List.append_cancel_left h)
    rw [← h2, ← g2, this]

/-! ### Examples -/

/-- Two triangles that share an edge, a third triangle, and another edge. -/
def sample : Complex ℚ :=
  [⟨[0], 0⟩, ⟨[1], 0⟩, ⟨[2], 0⟩, ⟨[3], 0⟩, ⟨[4], 0⟩, ⟨[5], 0⟩, ⟨[1, 0], 1⟩, ⟨[2, 0], 1⟩, ⟨[2, 1], 2⟩, ⟨[3, 1], 2⟩, ⟨[3, 2], 3⟩, ⟨[4, 3], 3⟩,
    ⟨[5, 3], 1⟩, ⟨[5, 4], 1⟩]

def sampleOut (reverse : Bool) (minK maxK : ℕ) : Option (List (ℕ × List (Row ℚ)) × List (VertexRow ℚ)) :=
  run (Orders.default ℚ) true reverse false (-10) 10 100 ⟨false, false, false⟩ [] minK maxK sample

example : (sampleOut false 0 2).map (fun p => p.1.map fun f => f.2.map fun r => (r.x, r.y, r.size)) =
    some [[(2, 6, 2), (3, 6, 1)], [(1, 2, 2), (1, 6, 8)]] := by decide +kernel
example : (sampleOut false 0 2).map (fun p => p.2.map fun r => (r.vertex, r.accumulated, r.communities)) =
    some [(0, 41, 2), (1, 41, 2), (2, 41, 2), (3, 51, 4), (4, 35, 3), (5, 35, 3)] := by decide +kernel

/-- There are no cliques with four vertices. -/
example : (sampleOut false 0 3).map (fun p => (p.1.length, p.2.map fun r => (r.vertex, r.accumulated, r.communities))) =
    some (0, [(0, 0, 0), (1, 0, 0), (2, 0, 0), (3, 0, 0), (4, 0, 0), (5, 0, 0)]) := by decide +kernel
example : (sampleOut true 1 2).map (fun p => (p.1.length, p.2.length)) = some (2, 0) := by decide +kernel

theorem sample_hypotheses : WF sample ∧ EdgeClosed sample ∧ (∀ s ∈ sample, -10 ≤ s.data ∧ s.data ≤ 10) ∧ IsLeast {x | ∃ s ∈ sample, s.data = x} 0 ∧
    IsGreatest {x | ∃ s ∈ sample, s.data = x} 3 ∧ ∀ e ∈ sample, #e.vset = 2 → 0 ≤ edgeWeight false false 0 3 e.data := by
  refine ⟨⟨by unfold Normal; decide, by decide, by decide⟩, ?_, by decide +kernel, ⟨⟨⟨[0], 0⟩, by decide, rfl⟩, ?_⟩,
    ⟨⟨⟨[4, 3], 3⟩, by decide, rfl⟩, ?_⟩, by decide +kernel⟩
  · rintro u v huv ⟨s, hs, hv⟩
    have hu : u ∈ s.vset := by rw [hv]; simp
    have : ∀ s ∈ sample, ∀ u ∈ s.vset, ∃ t ∈ sample, t.vset = {u} := by decide +kernel
    exact this s hs u hu
  · rintro x ⟨s, hs, rfl⟩
    revert s
    decide +kernel
  · rintro x ⟨s, hs, rfl⟩
    revert s
    decide +kernel

/-- The hypotheses for the analysis hold for the expanded sample. -/
example : ∃ L, expandSorted (Orders.default ℚ) false (-10) 0 0 2 sample = some L ∧ WF L ∧ (∀ s ∈ L, s.data ≠ 100) ∧ L.length * L.length ≤ idxMax := by
  obtain ⟨L, hL⟩ : ∃ L, expandSorted (Orders.default ℚ) false (-10) 0 0 2 sample = some L := by
    rw [← Option.isSome_iff_exists]
    decide +kernel
  have hp : (expandSorted (Orders.default ℚ) false (-10) 0 0 2 sample).map (fun L => decide ((∀ s ∈ L, s.data ≠ 100) ∧ L.length = 17)) = some true := by
    decide +kernel
  rw [hL] at hp
  simp only [Option.map_some, Option.some.injEq, decide_eq_true_eq] at hp
  refine ⟨L, hL, ?_, hp.1, ?_⟩
  · obtain ⟨L', h1, h2, _⟩ := CliqueCommunities.expandSorted_spec (Orders.default ℚ) 0 sample_hypotheses.1 sample_hypotheses.2.1 2
    have : expandSorted (Orders.default ℚ) false (-10) 0 0 2 sample = some L' := h1
    rw [this] at hL
    cases hL
    exact h2
  · rw [hp.2]
    decide

/-- Negative weights: the only community is created at -1 and destroyed at twice this weight. -/
example : (run (Orders.default ℚ) true false false (-10) 10 100 ⟨false, false, false⟩ [] 0 1
    [⟨[0], -1⟩, ⟨[1], -1⟩, ⟨[1, 0], -1⟩]).map (fun p => p.1.map fun f => f.2.map fun r => (r.x, r.y)) = some [[(-1, -2)]] := by decide +kernel

end CliquePersistence

end Aleph
