import Verif.Model.StratifiedAnalysis
import Verif.Spec.StratifiedAnalysis
import Verif.Props.FlexSpectrum
import Verif.Props.AdjacencyMatrixReader
import Verif.Props.StratifiedGraph

/-!
# C190: Filtrations and weights of stratified graphs
-/

namespace Aleph.StratifiedAnalysis

open Spec Spec.Strata

variable {α : Type}

/-! ### The map of weights -/

theorem lookup_insertNew (m : List (ℕ × α)) (u v : ℕ) (w : α) : (insertNew m u w).lookup v = (m.lookup v).or (if v = u then some w else none) := by
  unfold insertNew
  split
  · rename_i h
    by_cases hv : v = u
    · subst hv
      obtain ⟨x, hx⟩ := Option.isSome_iff_exists.1 h
      rw [hx]; rfl
    · rw [if_neg hv, Option.or_none]
  · rename_i h
    rw [List.lookup_cons]
    by_cases hv : v = u
    · subst hv
      have : m.lookup v = none := Option.not_isSome_iff_eq_none.1 h
      simp [this]
    · rw [if_neg hv, Option.or_none]
      have : (v == u) = false := by simpa using hv
      rw [this]

/-- The simplex is an edge that contains the vertex. -/
def edgeAt (v : ℕ) (s : Simplex α) : Bool := s.vertices.length == 2 && s.vertices.contains v

theorem lookup_collect (weight : Simplex α → α) (v : ℕ) (K : Complex α) : ∀ m : List (ℕ × α), (collect weight m K).lookup v = (m.lookup v).or ((K.find? (edgeAt v)).map weight) := by
  induction K with
  | nil => intro m; simp [collect]
  | cons s K ih =>
    intro m
    unfold collect
    split
    · rename_i u u' h
      rw [ih, lookup_insertNew, lookup_insertNew, List.find?_cons]
      by_cases h1 : v = u
      · have : edgeAt v s = true := by unfold edgeAt; rw [h]; simp [h1]
        rw [this, if_pos h1]
        cases m.lookup v <;> simp
      · by_cases h2 : v = u'
        · have : edgeAt v s = true := by unfold edgeAt; rw [h]; simp [h2]
          rw [this, if_neg h1, if_pos h2]
          cases m.lookup v <;> simp
        · have : edgeAt v s = false := by unfold edgeAt; rw [h]; simp [h1, h2]
          rw [this, if_neg h1, if_neg h2]
          simp
    · rename_i h
      rw [ih, List.find?_cons]
      have : edgeAt v s = false := by
        unfold edgeAt
        rw [Bool.and_eq_false_iff]
        left
        rw [beq_eq_false_iff_ne]
        intro hl
        obtain ⟨a, b, hab⟩ := List.length_eq_two.1 hl
        exact h a b hab
      rw [this]

theorem find_sorted {β : Type} {R : β → β → Prop} {p : β → Bool} {l : List β} {a : β} (hl : l.Pairwise R) (h : l.find? p = some a) : ∀ b ∈ l, p b = true → b = a ∨ R a b := by
  induction l with
  | nil => simp at h
  | cons x l ih =>
    intro b hb hp
    rw [List.find?_cons] at h
    rw [List.pairwise_cons] at hl
    cases hx : p x with
    | true =>
      rw [hx] at h
      simp only [Option.some.injEq] at h
      subst h
      rcases List.mem_cons.1 hb with rfl | hb
      · exact .inl rfl
      · exact .inr (hl.1 b hb)
    | false =>
      rw [hx] at h
      rcases List.mem_cons.1 hb with rfl | hb
      · rw [hx] at hp; simp at hp
      · exact ih hl.2 h b hb hp

theorem vset_eq_singleton {s : Simplex α} (hn : Normal s.vertices) (v : ℕ) : s.vset = {v} ↔ s.vertices = [v] := by
  constructor
  · intro he
    have hc := StratifiedGraph.card_vset_eq hn
    rw [he, Finset.card_singleton] at hc
    obtain ⟨w, hw⟩ := List.length_eq_one_iff.1 hc.symm
    have : w ∈ s.vset := by unfold Simplex.vset; rw [hw]; simp
    rw [he, Finset.mem_singleton] at this
    rw [hw, this]
  · intro h; unfold Simplex.vset; rw [h]; simp

theorem edgeAt_iff {s : Simplex α} (hn : Normal s.vertices) (v : ℕ) : edgeAt v s = true ↔ s.vset.card = 2 ∧ v ∈ s.vset := by
  unfold edgeAt
  rw [StratifiedGraph.card_vset_eq hn]
  unfold Simplex.vset
  simp

/-! ### Assignment -/

theorem assignLoop_spec (m : List (ℕ × α)) (K : Complex α) :
    ((∃ s ∈ K, ∃ v, s.vertices = [v] ∧ m.lookup v = none) → assignLoop m K = .error .outOfRange) ∧
    ((∀ s ∈ K, ∀ v, s.vertices = [v] → (m.lookup v).isSome) → assignLoop m K = .ok (K.map fun s => match s.vertices with | [v] => s.withData ((m.lookup v).getD s.data) | _ => s)) := by
  induction K with
  | nil => exact ⟨fun ⟨s, hs, _⟩ => by simp at hs, fun _ => rfl⟩
  | cons s K ih =>
    constructor
    · rintro ⟨s', hs', v, hv, hm⟩
      unfold assignLoop
      rcases List.mem_cons.1 hs' with rfl | hs'
      · rw [hv]; simp only [hm]
      · have := ih.1 ⟨s', hs', v, hv, hm⟩
        split
        · split
          · rfl
          · rw [this]
        · rw [this]
    · intro h
      have hK := ih.2 fun s' hs' => h s' (List.mem_cons_of_mem _ hs')
      unfold assignLoop
      rw [List.map_cons, hK]
      rcases hv : s.vertices with _ | ⟨v, _ | ⟨u, l⟩⟩
      · simp only
      · obtain ⟨w, hw⟩ := Option.isSome_iff_exists.1 (h s List.mem_cons_self v hv)
        simp only [hw, Option.getD_some]
      · simp only

/-- Assignment of weights, for each way to compute them. -/
theorem assign_collect (weight : Simplex α → α) (K : Complex α) (hK : WF K) :
    ((∃ v, Has K {v} ∧ ¬Touched K v) → assignLoop (collect weight [] K) K = .error .outOfRange) ∧
    ((∀ v, Has K {v} → Touched K v) → ∃ L, assignLoop (collect weight [] K) K = .ok L ∧ WF L ∧ L.map (·.vertices) = K.map (·.vertices) ∧
      (∀ t d, t.card ≠ 1 → (HasData L t d ↔ HasData K t d)) ∧
      ∀ v d, HasData L {v} d ↔ Has K {v} ∧ (K.find? (edgeAt v)).map weight = some d) := by
  have hlook : ∀ v, (collect weight [] K).lookup v = (K.find? (edgeAt v)).map weight := fun v => by rw [lookup_collect]; simp
  have htouch : ∀ v, Touched K v ↔ ((collect weight [] K).lookup v).isSome := by
    intro v
    rw [hlook, Option.isSome_map, List.find?_isSome]
    constructor
    · rintro ⟨t, h1, h2, s, hs, rfl⟩
      exact ⟨s, hs, (edgeAt_iff (hK.normal s hs) v).2 ⟨h1, h2⟩⟩
    · rintro ⟨s, hs, h⟩
      obtain ⟨h1, h2⟩ := (edgeAt_iff (hK.normal s hs) v).1 h
      exact ⟨s.vset, h1, h2, s, hs, rfl⟩
  obtain ⟨hA, hB⟩ := assignLoop_spec (collect weight [] K) K
  constructor
  · rintro ⟨v, ⟨s, hs, hv⟩, hnt⟩
    refine hA ⟨s, hs, v, (vset_eq_singleton (hK.normal s hs) v).1 hv, ?_⟩
    rw [htouch] at hnt
    exact Option.not_isSome_iff_eq_none.1 hnt
  · intro h
    refine ⟨_, hB fun s hs v hv => (htouch v).1 (h v ⟨s, hs, (vset_eq_singleton (hK.normal s hs) v).2 hv⟩), ?_⟩
    set f : Simplex α → Simplex α := fun s => match s.vertices with | [v] => s.withData (((collect weight [] K).lookup v).getD s.data) | _ => s with hf
    have hfv : ∀ s, (f s).vertices = s.vertices := by
      intro s
      rw [hf]
      dsimp only
      split <;> rfl
    have hfs : ∀ s, (f s).vset = s.vset := fun s => by unfold Simplex.vset; rw [hfv]
    have hmap : (K.map f).map (·.vertices) = K.map (·.vertices) := by
      rw [List.map_map]
      exact List.map_congr_left fun s _ => hfv s
    refine ⟨⟨?_, ?_, ?_⟩, hmap, ?_, ?_⟩
    · intro s hs
      obtain ⟨s', hs', rfl⟩ := List.mem_map.1 hs
      rw [hfv]; exact hK.normal s' hs'
    · intro s hs
      obtain ⟨s', hs', rfl⟩ := List.mem_map.1 hs
      rw [hfv]; exact hK.nonempty s' hs'
    · rw [hmap]; exact hK.distinct
    · intro t d ht
      have hsame : ∀ s ∈ K, s.vset = t → f s = s := by
        intro s hs he
        rw [hf]
        dsimp only
        split
        · rename_i v hv
          exfalso
          apply ht
          rw [← he, (vset_eq_singleton (hK.normal s hs) v).2 hv, Finset.card_singleton]
        · rfl
      constructor
      · rintro ⟨s, hs, h1, rfl⟩
        obtain ⟨s', hs', rfl⟩ := List.mem_map.1 hs
        rw [hfs] at h1
        exact ⟨s', hs', h1, by rw [hsame s' hs' h1]⟩
      · rintro ⟨s, hs, h1, rfl⟩
        exact ⟨s, List.mem_map.2 ⟨s, hs, hsame s hs h1⟩, h1, rfl⟩
    · intro v d
      have hval : ∀ s ∈ K, s.vset = {v} → some (f s).data = (K.find? (edgeAt v)).map weight := by
        intro s hs he
        have hv := (vset_eq_singleton (hK.normal s hs) v).1 he
        obtain ⟨w, hw⟩ := Option.isSome_iff_exists.1 ((htouch v).1 (h v ⟨s, hs, he⟩))
        rw [← hlook, hf]
        dsimp only
        rw [hv]
        dsimp only
        rw [hw]
        rfl
      constructor
      · rintro ⟨s, hs, h1, rfl⟩
        obtain ⟨s', hs', rfl⟩ := List.mem_map.1 hs
        rw [hfs] at h1
        exact ⟨⟨s', hs', h1⟩, (hval s' hs' h1).symm⟩
      · rintro ⟨⟨s, hs, h1⟩, h2⟩
        refine ⟨f s, List.mem_map_of_mem hs, by rw [hfs, h1], ?_⟩
        rw [← hval s hs h1] at h2
        exact Option.some.inj h2

/-! ### Extreme weights -/

section

variable [AddCommGroup α] [LinearOrder α]

/-- The quantity that is compared. -/
def key (absolute : Bool) (w : α) : α := if absolute then |w| else w

theorem range_some (absolute : Bool) (K : Complex α) : ∀ lo hi : α, ∃ lo' hi', K.foldl (rangeStep absolute) (some (lo, hi)) = some (lo', hi') ∧
    (lo' = lo ∨ ∃ s ∈ K, Complex.dim s = 1 ∧ s.data = lo') ∧ (hi' = hi ∨ ∃ s ∈ K, Complex.dim s = 1 ∧ s.data = hi') ∧
    key absolute lo' ≤ key absolute lo ∧ key absolute hi ≤ key absolute hi' ∧
    ∀ s ∈ K, Complex.dim s = 1 → key absolute lo' ≤ key absolute s.data ∧ key absolute s.data ≤ key absolute hi' := by
  induction K with
  | nil => intro lo hi; exact ⟨lo, hi, rfl, .inl rfl, .inl rfl, le_refl _, le_refl _, fun s hs => by simp at hs⟩
  | cons s K ih =>
    intro lo hi
    rw [List.foldl_cons]
    by_cases hd : Complex.dim s = 1
    · have hstep : ∃ l h, rangeStep absolute (some (lo, hi)) s = some (l, h) ∧ (l = lo ∨ l = s.data) ∧ (h = hi ∨ h = s.data) ∧
          key absolute l ≤ key absolute lo ∧ key absolute l ≤ key absolute s.data ∧ key absolute hi ≤ key absolute h ∧ key absolute s.data ≤ key absolute h := by
        cases absolute with
        | true =>
          refine ⟨minAbs lo s.data, maxAbs hi s.data, by simp [rangeStep, hd], ?_, ?_, ?_, ?_, ?_, ?_⟩
          · unfold minAbs; split <;> simp
          · unfold maxAbs; split <;> simp
          · show |minAbs lo s.data| ≤ |lo|; unfold minAbs; split
            · exact le_refl _
            · rename_i h; exact not_lt.1 h
          · show |minAbs lo s.data| ≤ |s.data|; unfold minAbs; split
            · rename_i h; exact h.le
            · exact le_refl _
          · show |hi| ≤ |maxAbs hi s.data|; unfold maxAbs; split
            · exact le_refl _
            · rename_i h; exact not_lt.1 h
          · show |s.data| ≤ |maxAbs hi s.data|; unfold maxAbs; split
            · rename_i h; exact le_of_lt h
            · exact le_refl _
        | false =>
          refine ⟨min lo s.data, max hi s.data, by simp [rangeStep, hd], min_choice _ _, max_choice _ _, min_le_left _ _, min_le_right _ _, le_max_left _ _, le_max_right _ _⟩
      obtain ⟨l, h, he, h1, h2, h3, h4, h5, h6⟩ := hstep
      obtain ⟨lo', hi', g0, g1, g2, g3, g4, g5⟩ := ih l h
      refine ⟨lo', hi', by rw [he, g0], ?_, ?_, le_trans g3 h3, le_trans h5 g4, ?_⟩
      · rcases g1 with rfl | ⟨s', hs', hs''⟩
        · rcases h1 with rfl | rfl
          · exact .inl rfl
          · exact .inr ⟨s, List.mem_cons_self, hd, rfl⟩
        · exact .inr ⟨s', List.mem_cons_of_mem _ hs', hs''⟩
      · rcases g2 with rfl | ⟨s', hs', hs''⟩
        · rcases h2 with rfl | rfl
          · exact .inl rfl
          · exact .inr ⟨s, List.mem_cons_self, hd, rfl⟩
        · exact .inr ⟨s', List.mem_cons_of_mem _ hs', hs''⟩
      · intro x hx hxd
        rcases List.mem_cons.1 hx with rfl | hx
        · exact ⟨le_trans g3 h4, le_trans h6 g4⟩
        · exact g5 x hx hxd
    · have he : rangeStep absolute (some (lo, hi)) s = some (lo, hi) := by simp [rangeStep, hd]
      rw [he]
      obtain ⟨lo', hi', g0, g1, g2, g3, g4, g5⟩ := ih lo hi
      refine ⟨lo', hi', g0, ?_, ?_, g3, g4, ?_⟩
      · exact g1.imp id fun ⟨s', hs', h⟩ => ⟨s', List.mem_cons_of_mem _ hs', h⟩
      · exact g2.imp id fun ⟨s', hs', h⟩ => ⟨s', List.mem_cons_of_mem _ hs', h⟩
      · intro x hx hxd
        rcases List.mem_cons.1 hx with rfl | hx
        · exact absurd hxd hd
        · exact g5 x hx hxd

theorem range_none (absolute : Bool) (K : Complex α) (h : ∃ s ∈ K, Complex.dim s = 1) : ∃ lo hi, K.foldl (rangeStep absolute) none = some (lo, hi) ∧
    (∃ s ∈ K, Complex.dim s = 1 ∧ s.data = lo) ∧ (∃ s ∈ K, Complex.dim s = 1 ∧ s.data = hi) ∧
    ∀ s ∈ K, Complex.dim s = 1 → key absolute lo ≤ key absolute s.data ∧ key absolute s.data ≤ key absolute hi := by
  induction K with
  | nil => obtain ⟨s, hs, _⟩ := h; simp at hs
  | cons s K ih =>
    rw [List.foldl_cons]
    by_cases hd : Complex.dim s = 1
    · have he : rangeStep absolute none s = some (s.data, s.data) := by simp [rangeStep, hd]
      rw [he]
      obtain ⟨lo, hi, g0, g1, g2, g3, g4, g5⟩ := range_some absolute K s.data s.data
      refine ⟨lo, hi, g0, ?_, ?_, ?_⟩
      · rcases g1 with rfl | ⟨s', hs', h⟩
        · exact ⟨s, List.mem_cons_self, hd, rfl⟩
        · exact ⟨s', List.mem_cons_of_mem _ hs', h⟩
      · rcases g2 with rfl | ⟨s', hs', h⟩
        · exact ⟨s, List.mem_cons_self, hd, rfl⟩
        · exact ⟨s', List.mem_cons_of_mem _ hs', h⟩
      · intro x hx hxd
        rcases List.mem_cons.1 hx with rfl | hx
        · exact ⟨g3, g4⟩
        · exact g5 x hx hxd
    · have he : rangeStep absolute none s = none := by simp [rangeStep, hd]
      rw [he]
      have h' : ∃ s ∈ K, Complex.dim s = 1 := by
        obtain ⟨x, hx, hxd⟩ := h
        rcases List.mem_cons.1 hx with rfl | hx
        · exact absurd hxd hd
        · exact ⟨x, hx, hxd⟩
      obtain ⟨lo, hi, g0, ⟨s1, hs1, g1⟩, ⟨s2, hs2, g2⟩, g3⟩ := ih h'
      refine ⟨lo, hi, g0, ⟨s1, List.mem_cons_of_mem _ hs1, g1⟩, ⟨s2, List.mem_cons_of_mem _ hs2, g2⟩, ?_⟩
      intro x hx hxd
      rcases List.mem_cons.1 hx with rfl | hx
      · exact absurd hxd hd
      · exact g3 x hx hxd

omit [AddCommGroup α] [LinearOrder α] in
theorem dim_eq_one {K : Complex α} (hK : WF K) {s : Simplex α} (hs : s ∈ K) : Complex.dim s = 1 ↔ s.vset.card = 2 := by
  rw [StratifiedGraph.card_vset_eq (hK.normal s hs)]
  unfold Complex.dim
  have := List.length_pos_iff.2 (hK.nonempty s hs)
  omega

/-- C190. Weights of vertices for the global strategy: the extreme weight of all edges, or the one with the extreme absolute value. Everything else remains.  A vertex without edges raises an exception. -/
theorem _root_.Aleph.C190_global (absolute reverse : Bool) (K : Complex α) (hK : WF K) :
    ((∃ v, Has K {v} ∧ ¬Touched K v) → assign absolute .global reverse K = .error .outOfRange) ∧
    ((∀ v, Has K {v} → Touched K v) → ∃ L, assign absolute .global reverse K = .ok L ∧ WF L ∧ L.map (·.vertices) = K.map (·.vertices) ∧
      (∀ t d, t.card ≠ 1 → (HasData L t d ↔ HasData K t d)) ∧
      ∀ v, Has K {v} → ∃ d, (if absolute then ExtremeAbs reverse K d else ExtremeWeight reverse K d) ∧ ∀ v' d', HasData L {v'} d' ↔ Has K {v'} ∧ d' = d) := by
  obtain ⟨hA, hB⟩ := assign_collect (fun s => match K.foldl (rangeStep absolute) none with | none => s.data | some (lo, hi) => if reverse then hi else lo) K hK
  refine ⟨hA, fun h => ?_⟩
  obtain ⟨L, h0, h1, h2, h3, h4⟩ := hB h
  refine ⟨L, h0, h1, h2, h3, fun v hv => ?_⟩
  obtain ⟨t, ht, _, s, hs, rfl⟩ := h v hv
  obtain ⟨lo, hi, g0, ⟨s1, hs1, g1, rfl⟩, ⟨s2, hs2, g2, rfl⟩, g3⟩ := range_none absolute K ⟨s, hs, (dim_eq_one hK hs).2 ht⟩
  refine ⟨if reverse then s2.data else s1.data, ?_, ?_⟩
  · have hex : ∃ t : Finset ℕ, t.card = 2 ∧ HasData K t (if reverse then s2.data else s1.data) := by
      cases reverse
      · exact ⟨s1.vset, (dim_eq_one hK hs1).1 g1, s1, hs1, rfl, rfl⟩
      · exact ⟨s2.vset, (dim_eq_one hK hs2).1 g2, s2, hs2, rfl, rfl⟩
    have hall : ∀ (t : Finset ℕ) w, t.card = 2 → HasData K t w → if reverse then key absolute w ≤ key absolute (if reverse then s2.data else s1.data) else key absolute (if reverse then s2.data else s1.data) ≤ key absolute w := by
      rintro t w ht ⟨x, hx, rfl, rfl⟩
      have := g3 x hx ((dim_eq_one hK hx).2 ht)
      cases reverse
      · exact this.1
      · exact this.2
    cases absolute
    · exact ⟨hex, hall⟩
    · exact ⟨hex, hall⟩
  · intro v' d'
    rw [h4]
    refine and_congr_right fun hv' => ?_
    obtain ⟨t', ht', hvt', s', hs', rfl⟩ := h v' hv'
    have hsome : (K.find? (edgeAt v')).isSome := List.find?_isSome.2 ⟨s', hs', (edgeAt_iff (hK.normal s' hs') v').2 ⟨ht', hvt'⟩⟩
    obtain ⟨x, hx⟩ := Option.isSome_iff_exists.1 hsome
    rw [hx, g0]
    simp only [Option.map_some, Option.some.injEq]
    exact eq_comm

/-- C190. Weights of vertices for the local strategy, provided that the complex is sorted: the extreme weight of the edges of a vertex. -/
theorem _root_.Aleph.C190_local (absolute reverse : Bool) (K : Complex α) (hK : WF K) :
    ((∃ v, Has K {v} ∧ ¬Touched K v) → assign absolute .local reverse K = .error .outOfRange) ∧
    ((∀ v, Has K {v} → Touched K v) → K.Pairwise (fun s t => if reverse then t.data ≤ s.data else s.data ≤ t.data) →
      ∃ L, assign absolute .local reverse K = .ok L ∧ WF L ∧ L.map (·.vertices) = K.map (·.vertices) ∧
        (∀ t d, t.card ≠ 1 → (HasData L t d ↔ HasData K t d)) ∧ ∀ v d, HasData L {v} d ↔ Has K {v} ∧ ExtremeAt reverse K v d) := by
  obtain ⟨hA, hB⟩ := assign_collect (fun s => s.data) K hK
  refine ⟨hA, fun h hsort => ?_⟩
  obtain ⟨L, h0, h1, h2, h3, h4⟩ := hB h
  refine ⟨L, h0, h1, h2, h3, fun v d => ?_⟩
  rw [h4]
  refine and_congr_right fun hv => ?_
  obtain ⟨t', ht', hvt', s', hs', rfl⟩ := h v hv
  have hsome : (K.find? (edgeAt v)).isSome := List.find?_isSome.2 ⟨s', hs', (edgeAt_iff (hK.normal s' hs') v).2 ⟨ht', hvt'⟩⟩
  obtain ⟨x, hx⟩ := Option.isSome_iff_exists.1 hsome
  have hxK := List.mem_of_find?_eq_some hx
  have hxe := (edgeAt_iff (hK.normal x hxK) v).1 (List.find?_some hx)
  have hle : ∀ (t : Finset ℕ) w, t.card = 2 → v ∈ t → HasData K t w → if reverse then w ≤ x.data else x.data ≤ w := by
    rintro t w ht hvt ⟨y, hy, rfl, rfl⟩
    rcases find_sorted hsort hx y hy ((edgeAt_iff (hK.normal y hy) v).2 ⟨ht, hvt⟩) with rfl | hR
    · cases reverse <;> exact le_refl _
    · exact hR
  rw [hx]
  simp only [Option.map_some, Option.some.injEq]
  constructor
  · rintro rfl
    exact ⟨⟨x.vset, hxe.1, hxe.2, x, hxK, rfl, rfl⟩, hle⟩
  · rintro ⟨⟨t, ht, hvt, hd⟩, hall⟩
    have a := hle t d ht hvt hd
    have b := hall x.vset x.data hxe.1 hxe.2 ⟨x, hxK, rfl, rfl⟩
    cases reverse
    · exact le_antisymm a b
    · exact le_antisymm b a

/-- C190. Unknown strategies raise an exception if there is an edge. -/
theorem _root_.Aleph.C190_unknown (absolute reverse : Bool) (K : Complex α) (hK : WF K) :
    ((∃ t : Finset ℕ, t.card = 2 ∧ Has K t) → assign absolute .unknown reverse K = .error .strategy) ∧
    ((¬∃ t : Finset ℕ, t.card = 2 ∧ Has K t) → (∃ v, Has K {v}) → assign absolute .unknown reverse K = .error .outOfRange) := by
  have hany : (K.any fun s => Complex.dim s == 1) = true ↔ ∃ t : Finset ℕ, t.card = 2 ∧ Has K t := by
    rw [List.any_eq_true]
    constructor
    · rintro ⟨s, hs, h⟩
      exact ⟨s.vset, (dim_eq_one hK hs).1 (by simpa using h), s, hs, rfl⟩
    · rintro ⟨t, ht, s, hs, rfl⟩
      exact ⟨s, hs, by simpa using (dim_eq_one hK hs).2 ht⟩
  constructor
  · intro h
    unfold assign
    dsimp only
    rw [if_pos (hany.2 h)]
  · rintro h ⟨v, s, hs, hv⟩
    unfold assign
    dsimp only
    rw [if_neg fun h' => h (hany.1 h')]
    exact (assignLoop_spec [] K).1 ⟨s, hs, v, (vset_eq_singleton (hK.normal s hs) v).1 hv, rfl⟩

/-! ### The standard filtration -/

theorem standard_spec (reverse : Bool) {K : Complex α} (hK : WF K) :
    (applyFiltration false reverse K).Perm K ∧
    (applyFiltration false reverse K).Pairwise (fun s t => if reverse then t.data ≤ s.data else s.data ≤ t.data) ∧
    (FacesFirst (applyFiltration false reverse K) ↔ ∀ s ∈ K, ∀ t ∈ K, s.vset ⊆ t.vset → if reverse then t.data ≤ s.data else s.data ≤ t.data) := by
  cases reverse
  · exact sortData_spec hK
  · exact sortGreater_spec hK

omit [AddCommGroup α] [LinearOrder α] in
theorem hasData_perm {K L : Complex α} (h : L.Perm K) (t : Finset ℕ) (d : α) : HasData L t d ↔ HasData K t d :=
  exists_congr fun _ => and_congr_left fun _ => h.mem_iff

omit [AddCommGroup α] [LinearOrder α] in
theorem has_perm {K L : Complex α} (h : L.Perm K) (t : Finset ℕ) : Has L t ↔ Has K t :=
  exists_congr fun _ => and_congr_left fun _ => h.mem_iff

/-- C190 (partial). The standard filtration of a graph without isolated vertices: edges keep their weights, vertices have the extreme weight of all edges (or of their own edges), the result is sorted by weights, and no edge precedes its
vertices.  *Missing:* isolated vertices raise an exception, see `C190_global` and `C190_local`, and the absolute filtration need not be well-defined, see `C190_absolute`. -/
theorem _root_.Aleph.C190_standard_partial (strategy : Strategy) (hstrategy : strategy ≠ .unknown) (reverse : Bool) (K : Complex α) (hK : WF K) (hdim : ∀ s ∈ K, s.vset.card ≤ 2)
    (hT : ∀ v, Has K {v} → Touched K v) :
    ∃ L, prepare false strategy reverse K = .ok L ∧ WF L ∧ (L.map Simplex.vset).Perm (K.map Simplex.vset) ∧
      (∀ t d, t.card ≠ 1 → (HasData L t d ↔ HasData K t d)) ∧
      (∀ v d, HasData L {v} d ↔ Has K {v} ∧ if strategy = .local then ExtremeAt reverse K v d else ExtremeWeight reverse K d) ∧
      L.Pairwise (fun s t => if reverse then t.data ≤ s.data else s.data ≤ t.data) ∧ FacesFirst L := by
  obtain ⟨p1, o1, _⟩ := standard_spec reverse hK
  have hW1 : WF (applyFiltration false reverse K) := hK.perm p1
  have hT1 : ∀ v, Has (applyFiltration false reverse K) {v} → Touched (applyFiltration false reverse K) v := by
    intro v hv
    obtain ⟨t, h1, h2, h3⟩ := hT v ((has_perm p1 _).1 hv)
    exact ⟨t, h1, h2, (has_perm p1 _).2 h3⟩
  have hmid : ∃ M, assign false strategy reverse (applyFiltration false reverse K) = .ok M ∧ WF M ∧ M.map (·.vertices) = (applyFiltration false reverse K).map (·.vertices) ∧
      (∀ t d, t.card ≠ 1 → (HasData M t d ↔ HasData K t d)) ∧
      (∀ v d, HasData M {v} d ↔ Has K {v} ∧ if strategy = .local then ExtremeAt reverse K v d else ExtremeWeight reverse K d) := by
    cases strategy with
    | unknown => exact absurd rfl hstrategy
    | «local» =>
      obtain ⟨M, h0, h1, h2, h3, h4⟩ := (C190_local false reverse _ hW1).2 hT1 o1
      refine ⟨M, h0, h1, h2, fun t d ht => (h3 t d ht).trans (hasData_perm p1 t d), fun v d => ?_⟩
      rw [h4, has_perm p1, if_pos rfl]
      unfold ExtremeAt
      simp only [hasData_perm p1]
    | global =>
      obtain ⟨M, h0, h1, h2, h3, h4⟩ := (C190_global false reverse _ hW1).2 hT1
      refine ⟨M, h0, h1, h2, fun t d ht => (h3 t d ht).trans (hasData_perm p1 t d), fun v d => ?_⟩
      rw [if_neg (by decide)]
      have hext : ∀ d, ExtremeWeight reverse (applyFiltration false reverse K) d ↔ ExtremeWeight reverse K d := by
        intro d
        unfold ExtremeWeight
        simp only [hasData_perm p1]
      have huniq : ∀ d d', ExtremeWeight reverse K d → ExtremeWeight reverse K d' → d = d' := by
        rintro d d' ⟨⟨t, ht, hd⟩, ha⟩ ⟨⟨t', ht', hd'⟩, ha'⟩
        have a := ha t' d' ht' hd'
        have b := ha' t d ht hd
        cases reverse
        · exact le_antisymm a b
        · exact le_antisymm b a
      constructor
      · intro hd
        have hvK : Has (applyFiltration false reverse K) {v} := by
          obtain ⟨s, hs, hsv, _⟩ := hd
          have : s.vertices ∈ M.map (·.vertices) := List.mem_map_of_mem hs
          rw [h2] at this
          obtain ⟨s', hs', he⟩ := List.mem_map.1 this
          exact ⟨s', hs', by unfold Simplex.vset at hsv ⊢; rw [he, hsv]⟩
        obtain ⟨d0, hd0, hall⟩ := h4 v hvK
        obtain ⟨_, rfl⟩ := (hall v d).1 hd
        exact ⟨(has_perm p1 _).1 hvK, (hext _).1 hd0⟩
      · rintro ⟨hv, hd⟩
        obtain ⟨d0, hd0, hall⟩ := h4 v ((has_perm p1 _).2 hv)
        exact (hall v d).2 ⟨(has_perm p1 _).2 hv, huniq _ _ hd ((hext _).1 hd0)⟩
  obtain ⟨M, h0, h1, h2, h3, h4⟩ := hmid
  obtain ⟨p2, o2, f2⟩ := standard_spec reverse h1
  refine ⟨applyFiltration false reverse M, by unfold prepare; rw [h0], h1.perm p2, ?_, ?_, ?_, o2, ?_⟩
  · have e1 : M.map Simplex.vset = (applyFiltration false reverse K).map Simplex.vset := by
      have := congrArg (List.map List.toFinset) h2
      rw [List.map_map, List.map_map] at this
      exact this
    refine (p2.map _).trans ?_
    rw [e1]
    exact p1.map _
  · intro t d ht; rw [hasData_perm p2]; exact h3 t d ht
  · intro v d; rw [hasData_perm p2]; exact h4 v d
  · rw [f2]
    intro s hs t ht hst
    by_cases he : s.vset = t.vset
    · rw [h1.eq_of_vset hs ht he]
      cases reverse <;> exact le_refl _
    · have hne : ∀ x ∈ M, x.vset.card ≠ 0 := by
        intro x hx
        rw [StratifiedGraph.card_vset_eq (h1.normal x hx)]
        exact fun h => h1.nonempty x hx (List.length_eq_zero_iff.1 h)
      have hlt := Finset.card_lt_card (Finset.ssubset_iff_subset_ne.2 ⟨hst, he⟩)
      have htc : t.vset.card ≤ 2 := by
        by_cases h : t.vset.card = 1
        · omega
        · obtain ⟨y, hy, hyt, _⟩ := (h3 t.vset t.data h).1 ⟨t, ht, rfl, rfl⟩
          rw [← hyt]; exact hdim y hy
      have hs0 := hne s hs
      have hs1 : s.vset.card = 1 := by omega
      have ht2 : t.vset.card = 2 := by omega
      obtain ⟨v, hv⟩ := Finset.card_eq_one.1 hs1
      have hsd := (h4 v s.data).1 ⟨s, hs, hv, rfl⟩
      have htd := (h3 t.vset t.data (by omega)).1 ⟨t, ht, rfl, rfl⟩
      have hvt : v ∈ t.vset := hst (by rw [hv]; simp)
      have hcond := hsd.2
      split at hcond
      · exact hcond.2 t.vset t.data ht2 hvt htd
      · exact hcond.2 t.vset t.data ht2 htd

/-! ### The absolute filtration -/

/-- C190. The comparison for absolute weights is not an order: two simplices with opposite weights precede each other if the one with the negative weight has the higher dimension. -/
theorem _root_.Aleph.C190_opposite (s t : Simplex α) (habs : |s.data| = |t.data|) (hlt : s.data < t.data) :
    (t.vertices.length < s.vertices.length → t.vertices ≠ [] → absLess s t = true ∧ absLess t s = true) ∧
    (s.vertices.length < t.vertices.length → s.vertices ≠ [] → absGreater s t = true ∧ absGreater t s = true) := by
  refine ⟨fun h hne => ?_, fun h hne => ?_⟩
  · have hd : Complex.dim t < Complex.dim s := by
      have := List.length_pos_iff.2 hne
      unfold Complex.dim; omega
    constructor
    · unfold absLess
      rw [if_neg (by rw [habs]; exact lt_irrefl _), if_pos habs, if_pos hlt]
    · unfold absLess
      rw [if_neg (by rw [habs]; exact lt_irrefl _), if_pos habs.symm, if_neg (not_lt.2 hlt.le), if_pos hd]
  · have hd : Complex.dim s < Complex.dim t := by
      have := List.length_pos_iff.2 hne
      unfold Complex.dim; omega
    constructor
    · unfold absGreater
      rw [if_neg (by rw [habs]; exact lt_irrefl _), if_pos habs, if_neg (not_lt.2 hlt.le), if_pos hd]
    · unfold absGreater
      rw [if_neg (by rw [habs]; exact lt_irrefl _), if_pos habs.symm, if_pos hlt]

/-- C190. The absolute filtration with global weights: a vertex and an edge with the same weight precede each other if the vertex has a larger index than both vertices of the edge.  Thus, the second sort of the tool has
undefined behaviour unless all edges whose weight is that of the vertices contain the last vertex. -/
theorem _root_.Aleph.C190_absolute (reverse : Bool) (K L : Complex α) (hK : WF K) (hT : ∀ v, Has K {v} → Touched K v) (hL : assign true .global reverse K = .ok L)
    (e : Finset ℕ) (x : ℕ) (d : α) (he : e.card = 2) (hed : HasData K e d) (hx : HasData L {x} d) (hlast : ∀ u ∈ e, u < x) :
    ∃ s ∈ L, ∃ t ∈ L, s.vset = {x} ∧ t.vset = e ∧ ∀ less ∈ [absLess, absGreater], less s t = true ∧ less t s = true := by
  obtain ⟨L', h0, h1, h2, h3, h4⟩ := (C190_global true reverse K hK).2 hT
  rw [h0] at hL
  obtain rfl : L' = L := by simpa using hL
  obtain ⟨t, ht, hte, htd⟩ := (h3 e d (by omega)).2 hed
  obtain ⟨s, hs, hsx, hsd⟩ := hx
  have hsv := (vset_eq_singleton (h1.normal s hs) x).1 hsx
  have htl : t.vertices.length = 2 := by rw [← StratifiedGraph.card_vset_eq (h1.normal t ht), hte, he]
  obtain ⟨a, b, hab⟩ := List.length_eq_two.1 htl
  have hax : a < x := hlast a (by rw [← hte]; unfold Simplex.vset; rw [hab]; simp)
  have hd : s.data = t.data := hsd.trans htd.symm
  have hds : Complex.dim s = 0 := by unfold Complex.dim; rw [hsv]; rfl
  have hdt : Complex.dim t = 1 := by unfold Complex.dim; rw [hab]; rfl
  have hlex : t.lt s = true := by unfold Simplex.lt; rw [hsv, hab]; simp [Simplex.lexLt, hax]
  refine ⟨s, hs, t, ht, hsx, hte, ?_⟩
  intro less hless
  simp only [List.mem_cons, List.not_mem_nil, or_false] at hless
  rcases hless with rfl | rfl
  · unfold absLess
    rw [hd, hds, hdt, hlex]
    simp
  · unfold absGreater
    rw [hd, hds, hdt, hlex]
    simp

end

/-- A path with three vertices. -/
def path : Complex ℤ := [⟨[0], 0⟩, ⟨[1], 0⟩, ⟨[2], 0⟩, ⟨[1, 0], -1⟩, ⟨[2, 1], 3⟩]

theorem path_wf : WF path := ⟨by decide, by decide, by decide⟩

theorem path_touched : ∀ v, Has path {v} → Touched path v := by
  rintro v ⟨s, hs, hv⟩
  simp only [path, List.mem_cons, List.not_mem_nil, or_false] at hs
  have hvs : v ∈ s.vset := by rw [hv]; simp
  rcases hs with rfl | rfl | rfl | rfl | rfl
  · exact ⟨{0, 1}, by decide, by simp [Simplex.vset] at hvs; simp [hvs], ⟨[1, 0], -1⟩, by decide, by decide⟩
  · exact ⟨{0, 1}, by decide, by simp [Simplex.vset] at hvs; simp [hvs], ⟨[1, 0], -1⟩, by decide, by decide⟩
  · exact ⟨{1, 2}, by decide, by simp [Simplex.vset] at hvs; simp [hvs], ⟨[2, 1], 3⟩, by decide, by decide⟩
  · have := congrArg Finset.card hv; simp [Simplex.vset] at this
  · have := congrArg Finset.card hv; simp [Simplex.vset] at this

example : (prepare false .local false path).toOption.map (·.map fun s => (s.vertices, s.data)) = some [([0], -1), ([1], -1), ([1, 0], -1), ([2], 3), ([2, 1], 3)] := by decide +kernel

example : (prepare false .global true path).toOption.map (·.map fun s => (s.vertices, s.data)) = some [([0], 3), ([1], 3), ([2], 3), ([2, 1], 3), ([1, 0], -1)] := by decide +kernel

/-- For the path, the absolute filtration is not an order: the vertex 2 and the edge between 0 and 1 precede each other. -/
example : ∃ L, assign true .global false path = .ok L ∧ HasData path {0, 1} (-1) ∧ HasData L {2} (-1) :=
  ⟨[⟨[0], -1⟩, ⟨[1], -1⟩, ⟨[2], -1⟩, ⟨[1, 0], -1⟩, ⟨[2, 1], 3⟩], by decide +kernel, ⟨⟨[1, 0], -1⟩, by decide, by decide, rfl⟩, ⟨⟨[2], -1⟩, by decide, by decide, rfl⟩⟩

/-- An isolated vertex raises an exception. -/
example : assign false .local false (path ++ [⟨[3], 0⟩]) = .error .outOfRange := by decide +kernel

end Aleph.StratifiedAnalysis
