import Verif.Lemmas.ZeroDimFunctor
import Verif.Spec.RelevantEdges
import Verif.Props.AdjacencyMatrixReader

/-!
# C143: relevance of edges
-/

namespace Aleph

open Finset Aleph.Spec

namespace RelevantEdges

variable {α : Type} {K : Complex α}

theorem foldlM_none {β γ : Type} {f : β → γ → Option β} {l : List γ} {c : γ} (hc : c ∈ l) (h : ∀ x, f x c = none) (x : β) :
    l.foldlM f x = none := by
  induction l generalizing x with
  | nil => cases hc
  | cons a l ih =>
    rw [List.foldlM_cons]
    rcases List.mem_cons.1 hc with rfl | hc
    · rw [h]; rfl
    · cases f x a with
      | none => rfl
      | some y => exact ih hc y

theorem edgeAt_unique {t : ℕ} {e e' : ℕ × ℕ} (h : EdgeAt K t e) (h' : EdgeAt K t e') : e = e' := by
  obtain ⟨a, b⟩ := e
  obtain ⟨a', b'⟩ := e'
  obtain ⟨h1, h2⟩ := h
  obtain ⟨h3, h4⟩ := h'
  simp only at h1 h2 h3 h4
  rw [h2] at h4
  have m1 : a ∈ ({a', b'} : Finset ℕ) := by rw [← h4]; simp
  have m2 : b ∈ ({a', b'} : Finset ℕ) := by rw [← h4]; simp
  simp only [mem_insert, mem_singleton] at m1 m2
  rcases m1 with rfl | rfl <;> rcases m2 with rfl | rfl
  · omega
  · rfl
  · omega
  · omega

theorem mergeCall_edge (hK : WF K) {t y o u v : ℕ} {c d : α} (h : MergeCall K t (.merge y o c d u v)) :
    EdgeAt K t (if u > v then (v, u) else (u, v)) := by
  have hs := h.1
  have hnorm := hK.normal _ (List.mem_of_getElem? hs)
  have huv : u ≠ v := by
    have := hnorm.nodup
    simpa using this
  have hvs : vsetAt K t = {u, v} := by rw [vsetAt_some hs]; simp [Simplex.vset]
  split
  · next hgt => exact ⟨hgt, by rw [hvs, pair_comm]⟩
  · exact ⟨by simp only; omega, hvs⟩

theorem merges_spec (hK : WF K) (labels : List String) {ts : List ℕ} {calls : List (Call α)}
    (hf : List.Forall₂ (MergeCall K) ts calls) (hts : ts.Pairwise (· < ·)) (t0 : ℕ) (hlo : ∀ t ∈ ts, t0 ≤ t)
    (hall : ∀ s, t0 ≤ s → Bridges K s → s ∈ ts)
    (hlab : ∀ t ∈ ts, ∀ v ∈ vsetAt K t, (name labels v).isSome) (x : State α)
    (hx : ∀ i r, vsetAt K i = {r} → OldestAt K t0 i → x.componentSize r = some (componentSize K t0 r)) :
    ∃ x' ls, calls.foldlM (Call.on (visitor labels)) x = some x' ∧ x'.lines = x.lines ++ ls ∧
      List.Forall₂ (LogLine K labels) ts ls ∧
      (∀ e, (∀ t ∈ ts, ¬ EdgeAt K t e) → x'.edgeRelevance e = x.edgeRelevance e ∧ x'.edgeStrength e = x.edgeStrength e) ∧
      ∀ t ∈ ts, ∀ e, EdgeAt K t e → x'.edgeRelevance e = some (relevance K t e) ∧
        x'.edgeStrength e = some (componentSize K t e.1 + componentSize K t e.2) := by
  induction hf generalizing t0 x with
  | nil => exact ⟨x, [], rfl, by simp, .nil, fun _ _ => ⟨rfl, rfl⟩, by simp⟩
  | @cons t c ts calls hc hf ih =>
    rw [List.pairwise_cons] at hts
    cases c with
    | init v => exact hc.elim
    | root r c => exact hc.elim
    | merge y o c d u v =>
      have hedge := mergeCall_edge hK hc
      obtain ⟨hyo, hdis, hun, hcomp, hrest⟩ := mergeCall_components hK hc
      have hnb : ∀ s, t0 ≤ s → s < t → ¬ Bridges K s := by
        intro s h1 h2 hb
        rcases List.mem_cons.1 (hall s h1 hb) with rfl | h
        · omega
        · have := hts.1 s h; omega
      have ht0 : t0 ≤ t := hlo t List.mem_cons_self
      have hsize : ∀ r, componentSize K t0 r = componentSize K t r := by
        intro r
        unfold componentSize
        rw [component_of_not_bridges ht0 hnb]
      obtain ⟨hs, hnj, _, i, j, hi, hj, hoi, hoj, hlt⟩ := id hc
      have hiy : vsetAt K i = {y} := by rw [vsetAt_some hi]; simp [Simplex.vset]
      have hy : x.componentSize y = some (componentSize K t y) := by
        rw [hx i y hiy ((oldest_of_not_bridges ht0 hnb).1 hoi), hsize]
      have ho : x.componentSize o = some (componentSize K t o) := by
        rw [hx j o hj ((oldest_of_not_bridges ht0 hnb).1 hoj), hsize]
      have hsum : componentSize K (t + 1) o = componentSize K t o + componentSize K t y := by
        unfold componentSize
        rw [hun, Set.ncard_union_eq hdis (component_finite hK _ _) (component_finite hK _ _)]
      generalize he : (if u > v then (v, u) else (u, v)) = e at hedge
      have hsz : (componentSize K t e.1 = componentSize K t y ∧ componentSize K t e.2 = componentSize K t o) ∨
          (componentSize K t e.1 = componentSize K t o ∧ componentSize K t e.2 = componentSize K t y) := by
        unfold componentSize
        rw [← he]
        rcases hcomp with ⟨h1, h2⟩ | ⟨h1, h2⟩ <;> split <;> simp [h1, h2]
      have hrel : min (componentSize K t o : ℚ) (componentSize K t y : ℚ) / max (componentSize K t o : ℚ) (componentSize K t y : ℚ)
          = relevance K t e := by
        unfold relevance
        rcases hsz with ⟨h1, h2⟩ | ⟨h1, h2⟩ <;> rw [h1, h2]
        rw [min_comm, max_comm]
      have hstr : componentSize K t o + componentSize K t y = componentSize K t e.1 + componentSize K t e.2 := by
        rcases hsz with ⟨h1, h2⟩ | ⟨h1, h2⟩ <;> rw [h1, h2]
        rw [add_comm]
      have hv1 : e.1 ∈ vsetAt K t := by rw [hedge.2]; simp
      have hv2 : e.2 ∈ vsetAt K t := by rw [hedge.2]; simp
      obtain ⟨a, ha⟩ := Option.isSome_iff_exists.1 (hlab t List.mem_cons_self _ hv1)
      obtain ⟨b, hb⟩ := Option.isSome_iff_exists.1 (hlab t List.mem_cons_self _ hv2)
      let x1 : State α :=
        { componentSize := Function.update x.componentSize o (some (componentSize K t o + componentSize K t y))
          edgeRelevance := Function.update x.edgeRelevance e (some (relevance K t e))
          edgeStrength := Function.update x.edgeStrength e (some (componentSize K t o + componentSize K t y))
          lines := x.lines ++ [⟨a, b, relevance K t e, c, d⟩] }
      have hstep : Call.on (visitor labels) x (.merge y o c d u v) = some x1 := by
        show merge labels y o c d u v x = some x1
        unfold merge
        simp only [he, ho, hy, Option.getD_some, ha, hb, hrel]
        rfl
      obtain ⟨x', ls, h1, h2, h3, h4, h5⟩ := ih hts.2 (t + 1) (fun s hs => hts.1 s hs)
        (fun s h1 hb => by
          rcases List.mem_cons.1 (hall s (by omega) hb) with rfl | h
          · omega
          · exact h)
        (fun s hs => hlab s (List.mem_cons_of_mem _ hs)) x1 (by
          intro k r hk hok
          obtain ⟨g1, g2⟩ := hrest k r hk hok
          by_cases hr : r = o
          · subst hr
            show Function.update x.componentSize r _ r = _
            rw [Function.update_self, hsum]
          · show Function.update x.componentSize o _ r = _
            rw [Function.update_of_ne hr, hx k r hk (Spec.OldestAt.mono (by omega) hok), hsize]
            unfold componentSize
            rw [g2 hr])
      refine ⟨x', ⟨a, b, relevance K t e, c, d⟩ :: ls, ?_, ?_, .cons ?_ h3, ?_, ?_⟩
      · rw [List.foldlM_cons, hstep]; exact h1
      · rw [h2]; simp [x1]
      · refine ⟨e, y, o, u, v, hedge, hc, rfl, ?_, ?_⟩
        · intro hl
          unfold name at ha hb
          rw [hl] at ha hb
          simp only [List.isEmpty_nil, if_true, Option.some.injEq] at ha hb
          exact ⟨ha.symm, hb.symm⟩
        · intro hl
          unfold name at ha hb
          have : labels.isEmpty = false := by simpa using hl
          rw [this] at ha hb
          exact ⟨by simpa using ha, by simpa using hb⟩
      · intro e' he'
        obtain ⟨g1, g2⟩ := h4 e' fun s hs => he' s (List.mem_cons_of_mem _ hs)
        have hne : e' ≠ e := by
          rintro rfl
          exact he' t List.mem_cons_self hedge
        rw [g1, g2]
        exact ⟨Function.update_of_ne hne _ _, Function.update_of_ne hne _ _⟩
      · intro s hs e' he'
        rcases List.mem_cons.1 hs with rfl | hs
        · cases edgeAt_unique he' hedge
          have hno : ∀ s' ∈ ts, ¬ EdgeAt K s' e := by
            intro s' hs' hes
            have h1 : s' = s := vsetAt_unique hK (by simp) hes.2 hedge.2
            have := hts.1 s' hs'
            omega
          obtain ⟨g1, g2⟩ := h4 e hno
          rw [g1, g2]
          refine ⟨Function.update_self _ _ _, ?_⟩
          rw [← hstr]
          exact Function.update_self _ _ _
        · exact h5 s hs e' he'

theorem init_fold (labels : List String) (vs : List ℕ) (x : State α) :
    ∃ x', (vs.map Call.init).foldlM (Call.on (visitor labels)) x = some x' ∧ x'.edgeRelevance = x.edgeRelevance ∧
      x'.edgeStrength = x.edgeStrength ∧ x'.lines = x.lines ∧
      ∀ v, x'.componentSize v = if v ∈ vs then some 1 else x.componentSize v := by
  induction vs generalizing x with
  | nil => exact ⟨x, rfl, rfl, rfl, rfl, by simp⟩
  | cons a vs ih =>
    obtain ⟨x', h1, h2, h3, h4, h5⟩ := ih { x with componentSize := Function.update x.componentSize a (some 1) }
    refine ⟨x', ?_, h2, h3, h4, ?_⟩
    · rw [List.map_cons, List.foldlM_cons]
      exact h1
    · intro v
      rw [h5]
      by_cases hv : v ∈ vs
      · simp [hv]
      · by_cases hva : v = a
        · subst hva
          simp [hv]
        · simp [hv, hva]

theorem roots_fold (labels : List String) {is : List ℕ} {roots : List (Call α)} (h : List.Forall₂ (RootCall K) is roots)
    (x : State α) : roots.foldlM (Call.on (visitor labels)) x = some x := by
  induction h with
  | nil => rfl
  | @cons i c is cs h _ ih =>
    rw [List.foldlM_cons]
    cases c with
    | init v => exact h.elim
    | merge y o c d u v => exact h.elim
    | root r c => exact ih

theorem sorted_filtration [LinearOrder α] {K : Complex α} (hK : WF K) (hc : FaceClosed K) (hm : Spec.Monotone K) :
    IsFiltration (K.sort (asLt (Filtration.data fun a b => decide (a < b)))) := by
  obtain ⟨h1, _, h3⟩ := sortData_spec hK
  refine ⟨hK.perm h1, ?_, h3.2 hm⟩
  intro s hs t hts htn
  obtain ⟨s', hs', e⟩ := hc s (h1.mem_iff.1 hs) t hts htn
  exact ⟨s', h1.mem_iff.2 hs', e⟩

/-- C143. For a complex whose faces are not heavier than their cofaces, let `L` be the complex in the order of the
filtration. If all vertices of edges that join two components have names, the program returns. The log has one line for each such edge, in this
order; the map of relevances assigns to each such edge the ratio of the sizes of the two components, the other
map the size of their union, and other edges have no values. -/
theorem _root_.Aleph.C143_relevance [LinearOrder α] (leftFirst : Bool) (inf : α) (labels : List String) (K : Complex α)
    (hK : WF K) (hc : FaceClosed K) (hm : Spec.Monotone K) (hn : K.length ≤ idxMax) (L : Complex α)
    (hL : L = K.sort (asLt (Filtration.data fun a b => decide (a < b))))
    (hlab : labels = [] ∨ ∀ t, Bridges L t → ∀ v ∈ vsetAt L t, v < labels.length) :
    ∃ points pairs x ts, run leftFirst inf labels K = some (points, x) ∧
      zeroDimensional false leftFirst inf L = some (points, pairs) ∧
      ts.Pairwise (· < ·) ∧ (∀ t, t ∈ ts ↔ Bridges L t) ∧ List.Forall₂ (LogLine L labels) ts x.lines ∧
      (∀ e t, Bridges L t → EdgeAt L t e → x.edgeRelevance e = some (relevance L t e) ∧
        x.edgeStrength e = some (componentSize L t e.1 + componentSize L t e.2)) ∧
      ∀ e, (∀ t, Bridges L t → ¬ EdgeAt L t e) → x.edgeRelevance e = none ∧ x.edgeStrength e = none := by
  have hF := sorted_filtration hK hc hm
  rw [← hL] at hF
  have hw := hF.wf
  have hlen : L.length ≤ idxMax := by
    rw [hL, (sortData_spec hK).1.length_eq]
    exact hn
  obtain ⟨ts, merges, is, roots, _, _, out, h0, h1, h2, h3, _, _, h6, _, _, _, _, h7⟩ := C142_calls false leftFirst inf L hF hlen
  obtain ⟨x0, i1, i2, i3, i4, i5⟩ := init_fold (α := α) labels L.vertices (State.new α)
  obtain ⟨x, ls, m1, m2, m3, m4, m5⟩ := merges_spec hw labels h3 h1 0 (fun _ _ => Nat.zero_le _) (fun s _ hb => (h2 s).2 hb)
    (by
      intro t ht v hv
      unfold name
      rcases hlab with rfl | hlab
      · simp
      · split
        · rfl
        · simpa using hlab t ((h2 t).1 ht) v hv) x0
    (by
      intro i r hi _
      rw [i5, if_pos ((mem_vertices_iff hw).2 ⟨i, hi⟩)]
      unfold componentSize
      rw [component_zero r (has_vertex_iff.2 ⟨i, hi⟩), Set.ncard_singleton])
  have hrun : run leftFirst inf labels K = some (out.1, x) := by
    unfold run
    rw [← hL, h7, List.foldlM_append, List.foldlM_append, i1]
    simp only [Option.bind_eq_bind, Option.bind_some, m1, roots_fold labels h6, Option.map_some]
  refine ⟨out.1, out.2, x, ts, hrun, h0, h1, h2, ?_, ?_, ?_⟩
  · rw [m2, i4]
    exact m3
  · intro e t hb he
    exact m5 t ((h2 t).2 hb) e he
  · intro e he
    obtain ⟨g1, g2⟩ := m4 e fun t ht => he t ((h2 t).1 ht)
    rw [g1, g2, i2, i3]
    exact ⟨rfl, rfl⟩

/-- C143. If there are names, but not for a vertex of some edge that joins two components, the program ends with an exception. -/
theorem _root_.Aleph.C143_labels [LinearOrder α] (leftFirst : Bool) (inf : α) (labels : List String) (K : Complex α)
    (hK : WF K) (hc : FaceClosed K) (hm : Spec.Monotone K) (hn : K.length ≤ idxMax) (L : Complex α)
    (hL : L = K.sort (asLt (Filtration.data fun a b => decide (a < b)))) (hlab : labels ≠ []) (t v : ℕ) (ht : Bridges L t)
    (hv : v ∈ vsetAt L t) (hlv : labels.length ≤ v) : run leftFirst inf labels K = none := by
  have hF := sorted_filtration hK hc hm
  rw [← hL] at hF
  have hw := hF.wf
  have hlen : L.length ≤ idxMax := by
    rw [hL, (sortData_spec hK).1.length_eq]
    exact hn
  obtain ⟨ts, merges, is, roots, _, _, out, h0, h1, h2, h3, _, _, h6, _, _, _, _, h7⟩ := C142_calls false leftFirst inf L hF hlen
  obtain ⟨hl, hg⟩ := List.forall₂_iff_get.1 h3
  obtain ⟨n, hn', he⟩ := List.mem_iff_getElem.1 ((h2 t).2 ht)
  have hmc := hg n hn' (hl ▸ hn')
  simp only [List.get_eq_getElem] at hmc
  rw [he] at hmc
  have hmem : merges[n]'(hl ▸ hn') ∈ L.vertices.map Call.init ++ merges ++ roots := by
    simp
  have hnone : ∀ x, Call.on (visitor labels) x (merges[n]'(hl ▸ hn')) = none := by
    intro x
    generalize merges[n]'(hl ▸ hn') = c at hmc
    cases c with
    | init v => exact hmc.elim
    | root r c => exact hmc.elim
    | merge y o c d a b =>
      have hedge := mergeCall_edge hw hmc
      show merge labels y o c d a b x = none
      unfold merge
      generalize (if a > b then (b, a) else (a, b)) = e at hedge
      have hm1 : name labels v = none := by
        unfold name
        have : labels.isEmpty = false := by simpa using hlab
        rw [this]
        simpa using hlv
      rw [hedge.2] at hv
      simp only [mem_insert, mem_singleton] at hv
      rcases hv with rfl | rfl
      · simp only [hm1]
      · simp only [hm1]
        cases name labels e.1 <;> rfl
  unfold run
  rw [← hL, h7, foldlM_none hmem hnone]
  rfl

/-- A path with three vertices and an isolated edge: the heaviest edge joins components of the sizes three and two. -/
def sample : Complex ℕ :=
  [⟨[0], 0⟩, ⟨[1], 0⟩, ⟨[2], 0⟩, ⟨[3], 0⟩, ⟨[4], 0⟩, ⟨[1, 0], 1⟩, ⟨[2, 1], 2⟩, ⟨[4, 3], 3⟩, ⟨[3, 2], 4⟩, ⟨[2, 0], 5⟩]

example : WF sample ∧ FaceClosed sample := ⟨⟨by decide, by decide, by decide⟩, Closed1.faceClosed (by decide) (by unfold Closed1; decide)⟩
example : Spec.Monotone sample := by unfold Spec.Monotone sample; decide
example : ((run true 9 [] sample).map fun r => (r.2.edgeRelevance (2, 3), r.2.edgeStrength (2, 3), r.2.edgeRelevance (0, 2))) =
    some (some (2 / 3), some 5, none) := by decide +kernel

end RelevantEdges

end Aleph
