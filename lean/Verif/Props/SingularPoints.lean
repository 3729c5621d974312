import Verif.Model.SingularPoints
import Verif.Spec.SingularPoints
import Verif.Props.PhiPersistence
import Verif.Props.Euler
import Verif.Props.Statistics

/-!
# C193: Intersection homology with singular points
-/

namespace Aleph.SingularPoints

open Finset Spec Spec.Singular PhiPersistence Statistics

/-- C193. Standardised values have mean zero and variance one, and they arise by an increasing linear function; values that are all the same (also a single one) yield no numbers. -/
theorem _root_.Aleph.C193_standardize (l : List ℝ) :
    (¬Constant l → ∃ a b, 0 < a ∧ ∃ r, standardize l = some r ∧ r = l.map (fun x => a * x + b) ∧ mean r = 0 ∧ variance r = 1) ∧ (Constant l → standardize l = none) := by
  by_cases hlen : 2 ≤ l.length
  · have hne : l ≠ [] := by rintro rfl; simp at hlen
    obtain ⟨hv0, hv1, hv2, _, sigma, hs0, hs1, hs2⟩ := (C85_variance l).2 hlen
    have hmean := sampleMean_some hne
    constructor
    · intro hc
      have hvar : variance l ≠ 0 := fun h => hc (hv2.1 h)
      have hsig : 0 < sigma := by
        rcases hs1.lt_or_eq with h | h
        · exact h
        · exfalso; apply hvar; rw [← hs2, ← h, zero_mul]
      have hlin : ∀ y, (y - mean l) / sigma = (1 / sigma) * y + (-(mean l / sigma)) := by
        intro y; field_simp; ring
      refine ⟨1 / sigma, -(mean l / sigma), by positivity, l.map fun x => (x - mean l) / sigma, ?_, List.map_congr_left fun y _ => hlin y, ?_⟩
      · unfold standardize
        rw [hmean, hs0]
        dsimp only
        rw [if_neg hsig.ne']
      · rw [show (fun y => (y - mean l) / sigma) = fun y => (1 / sigma) * y + (-(mean l / sigma)) from funext hlin]
        constructor
        · rw [mean_affine hne]; ring
        · rw [variance_affine hne, ← hs2]
          field_simp
    · intro hc
      have : sigma = 0 := by
        have := hv2.2 hc
        rw [← hs2] at this
        exact mul_self_eq_zero.1 this
      unfold standardize
      rw [hmean, hs0]
      dsimp only
      rw [if_pos this]
  · have hc : Constant l := by
      rcases l with _ | ⟨x, _ | ⟨y, l⟩⟩
      · intro y hy; simp at hy
      · intro y hy z hz
        simp only [List.mem_singleton] at hy hz
        rw [hy, hz]
      · simp at hlen
    refine ⟨fun h => absurd hc h, fun _ => ?_⟩
    unfold standardize
    rw [((C85_variance l).1 (by omega)).2]
    split
    · rename_i h; simp at h
    · rfl

variable {α : Type} [LinearOrder α]

theorem singular_iff {invert : Bool} {threshold x : α} {values : List α} {v : ℕ} (h : values[v]? = some x) :
    (if invert then some (decide (x > threshold)) else some (decide (x < threshold))) = some true ↔ IsSingular invert threshold values v := by
  unfold IsSingular
  rw [h]
  cases invert <;> simp

theorem vertexPredicate_spec (invert : Bool) (threshold : α) (values : List α) (s : Simplex α) (hn : Normal s.vertices) (hv : ∀ v ∈ s.vset, v < values.length) :
    ∃ b, vertexPredicate invert threshold values s = some b ∧ (b = true ↔ ∃ v, s.vset = {v} ∧ IsSingular invert threshold values v) := by
  have hcard : #s.vset = s.vertices.length := List.toFinset_card_of_nodup (hn.imp fun h => ne_of_gt h)
  rcases s with ⟨vs, x0⟩
  unfold vertexPredicate
  dsimp only at hcard ⊢
  rcases vs with _ | ⟨v, _ | ⟨w, vs⟩⟩
  · refine ⟨false, rfl, by simp, ?_⟩
    rintro ⟨v, h, _⟩
    rw [h] at hcard; simp at hcard
  · have hlt : v < values.length := hv v (by simp [Simplex.vset])
    have hx := List.getElem?_eq_getElem hlt
    have hs : Simplex.vset (⟨[v], x0⟩ : Simplex α) = {v} := by simp [Simplex.vset]
    have hiff := singular_iff (invert := invert) (threshold := threshold) hx
    dsimp only
    rw [hx]
    dsimp only
    obtain ⟨b, hb⟩ : ∃ b, (if invert then some (decide (values[v] > threshold)) else some (decide (values[v] < threshold))) = some b := by cases invert <;> exact ⟨_, rfl⟩
    rw [hb] at hiff ⊢
    refine ⟨b, rfl, ?_⟩
    rw [Option.some.injEq] at hiff
    rw [hiff, hs]
    constructor
    · exact fun h => ⟨v, rfl, h⟩
    · rintro ⟨u, h, hu⟩
      rw [Finset.singleton_inj] at h
      rwa [h]
  · refine ⟨false, rfl, by simp, ?_⟩
    rintro ⟨v, h, _⟩
    rw [h] at hcard; simp at hcard

theorem edgePredicate_spec (invert : Bool) (threshold : α) (values : List α) (s : Simplex α) (hn : Normal s.vertices) (hv : ∀ v ∈ s.vset, v < values.length) :
    ∃ b, edgePredicate invert threshold values s = some b ∧ (b = true ↔ (∃ v, s.vset = {v} ∧ IsSingular invert threshold values v) ∨
      ∃ u v, u ≠ v ∧ s.vset = {u, v} ∧ IsSingular invert threshold values u ∧ (invert = true ∨ IsSingular invert threshold values v)) := by
  have hcard : #s.vset = s.vertices.length := List.toFinset_card_of_nodup (hn.imp fun h => ne_of_gt h)
  obtain ⟨b0, hb0, hb0'⟩ := vertexPredicate_spec invert threshold values s hn hv
  rcases s with ⟨vs, x0⟩
  unfold edgePredicate
  unfold vertexPredicate at hb0
  dsimp only at hcard hb0 ⊢
  have hnot : vs.length ≠ 2 → ¬∃ u v, u ≠ v ∧ Simplex.vset (⟨vs, x0⟩ : Simplex α) = {u, v} ∧ IsSingular invert threshold values u ∧ (invert = true ∨ IsSingular invert threshold values v) := by
    rintro hl ⟨u, v, huv, h, _⟩
    rw [h, Finset.card_pair huv] at hcard
    exact hl hcard.symm
  rcases vs with _ | ⟨v, _ | ⟨w, _ | ⟨z, vs⟩⟩⟩
  · exact ⟨b0, hb0, hb0'.trans (or_iff_left (hnot (by simp))).symm⟩
  · exact ⟨b0, hb0, hb0'.trans (or_iff_left (hnot (by simp))).symm⟩
  · have hlt : v < values.length := hv v (by simp [Simplex.vset])
    have hlt' : w < values.length := hv w (by simp [Simplex.vset])
    have hx := List.getElem?_eq_getElem hlt
    have hy := List.getElem?_eq_getElem hlt'
    have hvw : v ≠ w := by
      have : v > w := by simpa [Normal] using hn
      omega
    have hs : Simplex.vset (⟨[v, w], x0⟩ : Simplex α) = {v, w} := by simp [Simplex.vset]
    dsimp only
    rw [hx, hy]
    dsimp only
    have hS : ∀ {u x}, values[u]? = some x → (IsSingular invert threshold values u ↔ if invert then threshold < x else x < threshold) := by
      intro u x h
      unfold IsSingular
      rw [h]; simp
    have h1 : ¬∃ u, ({v, w} : Finset ℕ) = {u} ∧ IsSingular invert threshold values u := by
      rintro ⟨u, h, _⟩
      have := congrArg Finset.card h
      rw [Finset.card_pair hvw] at this
      simp at this
    rw [hs]
    have h2 : (∃ u u', u ≠ u' ∧ ({v, w} : Finset ℕ) = {u, u'} ∧ IsSingular invert threshold values u ∧ (invert = true ∨ IsSingular invert threshold values u')) ↔
        if invert then threshold < max values[v] values[w] else max values[v] values[w] < threshold := by
      constructor
      · rintro ⟨u, u', hne, h, g1, g2⟩
        have hu : u = v ∨ u = w := by have : u ∈ ({v, w} : Finset ℕ) := by rw [h]; simp
                                      simpa using this
        have hu' : u' = v ∨ u' = w := by have : u' ∈ ({v, w} : Finset ℕ) := by rw [h]; simp
                                         simpa using this
        cases invert
        · simp only [Bool.false_eq_true, false_or, if_false] at g2 ⊢
          rw [max_lt_iff]
          rcases hu with rfl | rfl <;> rcases hu' with rfl | rfl
          · exact absurd rfl hne
          · exact ⟨by simpa using (hS hx).1 g1, by simpa using (hS hy).1 g2⟩
          · exact ⟨by simpa using (hS hx).1 g2, by simpa using (hS hy).1 g1⟩
          · exact absurd rfl hne
        · simp only [if_true]
          rw [lt_max_iff]
          rcases hu with rfl | rfl
          · exact .inl (by simpa using (hS hx).1 g1)
          · exact .inr (by simpa using (hS hy).1 g1)
      · intro h
        cases invert
        · simp only [Bool.false_eq_true, if_false, max_lt_iff] at h
          exact ⟨v, w, hvw, rfl, (hS hx).2 (by simpa using h.1), .inr ((hS hy).2 (by simpa using h.2))⟩
        · simp only [if_true, lt_max_iff] at h
          rcases h with h | h
          · exact ⟨v, w, hvw, rfl, (hS hx).2 (by simpa using h), .inl rfl⟩
          · exact ⟨w, v, hvw.symm, Finset.pair_comm _ _, (hS hy).2 (by simpa using h), .inl rfl⟩
    rw [or_iff_right h1, h2]
    cases invert
    · exact ⟨_, rfl, by simp⟩
    · exact ⟨_, rfl, by simp⟩
  · exact ⟨b0, hb0, hb0'.trans (or_iff_left (hnot (by simp))).symm⟩

omit [LinearOrder α] in
theorem filterWith_spec [LinearOrder α] {f : Simplex α → Option Bool} {K : Complex α} (hK : WF K) {T : Simplex α → Prop} (h : ∀ s ∈ K, ∃ b, f s = some b ∧ (b = true ↔ T s)) :
    ∃ L, filterWith f K = some L ∧ L.Sublist K ∧ ∀ s, s ∈ L ↔ s ∈ K ∧ T s := by
  have hf : ∀ s ∈ K, f s = some ((f s).getD false) := by
    intro s hs
    obtain ⟨b, hb, _⟩ := h s hs
    rw [hb]; rfl
  have := partition_pass f (fun s => (f s).getD false) true K [] hf hK.nonempty (hK.sublist List.filter_sublist).distinct
  refine ⟨_, this, List.filter_sublist, ?_⟩
  intro s
  rw [List.nil_append, List.mem_filter]
  refine and_congr_right fun hs => ?_
  obtain ⟨b, hb, hT⟩ := h s hs
  rw [hb, ← hT]
  simp

/-- C193. The strata. The first one consists of the singular vertices. In dimension two, it is followed by itself and the complex; otherwise, it is followed (twice) by the complex that also contains the edges between singular
vertices, or, if the meaning is inverted, all edges with at least one singular vertex. -/
theorem _root_.Aleph.C193_strata (invert : Bool) (threshold : α) (values : List α) (K : Complex α) (hK : WF K) (hv : ∀ s ∈ K, ∀ v ∈ s.vset, v < values.length) (d : ℕ) (hd : IsTopDimension K d) :
    ∃ K0 K1, strata invert threshold values K = some (if d = 2 then [K0, K0, K] else [K0, K1, K1, K]) ∧ K0.Sublist K ∧ K1.Sublist K ∧
      (∀ s, s ∈ K0 ↔ s ∈ K ∧ ∃ v, s.vset = {v} ∧ IsSingular invert threshold values v) ∧
      (∀ s, s ∈ K1 ↔ s ∈ K ∧ ((∃ v, s.vset = {v} ∧ IsSingular invert threshold values v) ∨
        ∃ u v, u ≠ v ∧ s.vset = {u, v} ∧ IsSingular invert threshold values u ∧ (invert = true ∨ IsSingular invert threshold values v))) := by
  obtain ⟨K0, h1, h2, h3⟩ := filterWith_spec hK fun s hs => vertexPredicate_spec invert threshold values s (hK.normal s hs) (hv s hs)
  obtain ⟨K1, h4, h5, h6⟩ := filterWith_spec hK fun s hs => edgePredicate_spec invert threshold values s (hK.normal s hs) (hv s hs)
  refine ⟨K0, K1, ?_, h2, h5, h3, h6⟩
  unfold strata
  rw [h1, h4, dimension_eq hK hd]
  simp only [Option.bind_eq_bind, Option.bind_some]
  split <;> rfl

open Classical in
theorem card_singular_eq_zero {S : ℕ → Prop} {σ : Finset ℕ} : #(singularVertices S σ) = 0 ↔ ∀ v ∈ σ, ¬S v := by
  unfold singularVertices
  rw [Finset.card_eq_zero, Finset.filter_eq_empty_iff]

open Classical in
theorem card_singular_le_one {S : ℕ → Prop} {σ : Finset ℕ} : #(singularVertices S σ) ≤ 1 ↔ ∀ u ∈ σ, ∀ v ∈ σ, S u → S v → u = v := by
  unfold singularVertices
  rw [Finset.card_le_one]
  constructor
  · intro h u hu v hv su sv
    exact h u (Finset.mem_filter.2 ⟨hu, su⟩) v (Finset.mem_filter.2 ⟨hv, sv⟩)
  · intro h u hu v hv
    rw [Finset.mem_filter] at hu hv
    exact h u hu.1 v hv.1 hu.2 hv.2

open Classical in
/-- The diagrams for given allowable simplices. -/
theorem diagrams_of (inf : α) (invert : Bool) (threshold : α) (values : List α) (K : Complex α) (hK : IsFiltration K) (hlen : K.length ≤ idxMax) (hv : ∀ s ∈ K, ∀ v ∈ s.vset, v < values.length)
    (d : ℕ) (hd : d = 2 ∨ d = 3) (htop : IsTopDimension K d) (hs : ∃ v, Has K {v} ∧ IsSingular invert threshold values v) :
    ∃ P Q p Ds, P = K.filter (fun s => decide (if invert = true ∧ d = 3 then Restricted (IsSingular invert threshold values) s.vset else Permitted (IsSingular invert threshold values) d s.vset)) ∧
      Q = K.filter (fun s => !decide (if invert = true ∧ d = 3 then Restricted (IsSingular invert threshold values) s.vset else Permitted (IsSingular invert threshold values) d s.vset)) ∧
      IsIntersectionPairing (P ++ Q) P.length p ∧ IsDiagramsOf inf (P ++ Q) p Ds ∧ diagrams inf invert threshold values K = some Ds := by
  obtain ⟨K0, K1, h1, h2, h3, h4, h5⟩ := C193_strata invert threshold values K hK.wf hv d htop
  have hdim := dimension_eq hK.wf htop
  obtain ⟨v0, ⟨s0, hs0, hs0'⟩, hsing⟩ := hs
  have m0 : s0 ∈ K0 := (h4 s0).2 ⟨hs0, v0, hs0', hsing⟩
  have m1 : s0 ∈ K1 := (h5 s0).2 ⟨hs0, .inl ⟨v0, hs0', hsing⟩⟩
  have hwf0 := hK.wf.sublist h2
  have hwf1 := hK.wf.sublist h3
  have hcl : ∀ s ∈ K, ∀ t ⊆ s.vset, t.Nonempty → ∃ x ∈ K, x.vset = t := fun s hs t ht hne => hK.closed s hs t ht hne
  generalize hSdef : IsSingular invert threshold values = S at *
  have hne0 : ∀ s ∈ K, 1 ≤ #s.vset := by
    intro s hs
    have : #s.vset = s.vertices.length := List.toFinset_card_of_nodup ((hK.wf.normal s hs).imp fun h => ne_of_gt h)
    rw [this]
    exact List.length_pos_iff.2 (hK.wf.nonempty s hs)
  have hstrat : ∀ vs, Stratification (if d = 2 then [K0, K0, K] else [K0, K1, K1, K]) (.gm vs) d := by
    intro vs
    have hle : ∀ x ∈ (if d = 2 then [K0, K0, K] else [K0, K1, K1, K]), x.Sublist K ∧ x ≠ [] := by
      intro x hx
      have : x = K0 ∨ x = K1 ∨ x = K := by
        split at hx <;> simp only [List.mem_cons, List.not_mem_nil, or_false] at hx <;> tauto
      rcases this with rfl | rfl | rfl
      · exact ⟨h2, List.ne_nil_of_mem m0⟩
      · exact ⟨h3, List.ne_nil_of_mem m1⟩
      · exact ⟨List.Sublist.refl _, List.ne_nil_of_mem hs0⟩
    refine ⟨fun x hx => ⟨hK.wf.sublist (hle x hx).1, (hle x hx).2⟩, ?_, fun x hx s hs => htop.2 s ((hle x hx).1.subset hs), .inr ?_, fun _ => ?_⟩
    · rcases hd with rfl | rfl <;> simp
    · refine ⟨K, ?_, htop.1⟩
      split <;> simp
    · rcases hd with rfl | rfl
      · exact ⟨[], K0, K0, K, by simp, rfl⟩
      · exact ⟨[K0], K1, K1, K, by simp, rfl⟩
  have hallow : ∀ s ∈ K, (Allowable (if d = 2 then [K0, K0, K] else [K0, K1, K1, K]) (.gm (perversityGM (if d = 2 then [0] else [0, 1]))) d s.vset ↔
      if invert = true ∧ d = 3 then Restricted S s.vset else Permitted S d s.vset) := by
    intro s hs
    have hc1 := hne0 s hs
    have hc2 := htop.2 s hs
    have hsub0 : ∀ v ∈ s.vset, S v → ∃ x ∈ K0, x.vset = {v} := by
      intro v hv hSv
      obtain ⟨x, hx, hx'⟩ := hcl s hs {v} (by simpa using hv) (by simp)
      exact ⟨x, (h4 x).2 ⟨hx, v, hx', hSv⟩, hx'⟩
    have hsub1 : ∀ v ∈ s.vset, S v → ∃ x ∈ K1, x.vset = {v} := by
      intro v hv hSv
      obtain ⟨x, hx, hx'⟩ := hcl s hs {v} (by simpa using hv) (by simp)
      exact ⟨x, (h5 x).2 ⟨hx, .inl ⟨v, hx', hSv⟩⟩, hx'⟩
    have hsub2 : ∀ u ∈ s.vset, ∀ v ∈ s.vset, u ≠ v → S u → (invert = true ∨ S v) → ∃ x ∈ K1, x.vset = {u, v} := by
      intro u hu v hv huv hSu hSv
      obtain ⟨x, hx, hx'⟩ := hcl s hs {u, v} (by intro y hy; simp only [Finset.mem_insert, Finset.mem_singleton] at hy; rcases hy with rfl | rfl <;> assumption) (by simp)
      exact ⟨x, (h5 x).2 ⟨hx, .inr ⟨u, v, huv, hx', hSu, hSv⟩⟩, hx'⟩
    rcases hd with rfl | rfl
    · rw [if_neg (show ¬(invert = true ∧ 2 = 3) by simp)]
      simp only [if_true]
      constructor
      · intro h
        by_cases hz : ∀ v ∈ s.vset, ¬S v
        · exact .inl (card_singular_eq_zero.2 hz)
        · push Not at hz
          obtain ⟨v, hv, hSv⟩ := hz
          obtain ⟨x, hx, hx'⟩ := hsub0 v hv hSv
          have := h 2 K0 (le_refl _) (le_refl _) rfl x hx (by rw [hx']; simpa using hv)
          rw [hx'] at this
          simp [pervValue, perversityGM, perversityGMLoop] at this
          exact .inr (.inl ⟨by omega, .inl rfl⟩)
      · intro h k x hk1 hk2 hx τ hτ hτs
        obtain rfl : k = 2 := by simp only [firstCodim] at hk1; omega
        simp only [Nat.sub_self, List.getElem?_cons_zero, Option.some.injEq] at hx
        subst hx
        obtain ⟨_, v, hv, hSv⟩ := (h4 τ).1 hτ
        rw [hv] at hτs ⊢
        have hvs : v ∈ s.vset := hτs (by simp)
        have : 3 ≤ #s.vset := by
          rcases h with h | h | h
          · exact absurd hSv (card_singular_eq_zero.1 h v hvs)
          · omega
          · omega
        simp [pervValue, perversityGM, perversityGMLoop]
        omega
    · have hval : pervValue (.gm (perversityGM [0, 1])) 2 = 0 ∧ pervValue (.gm (perversityGM [0, 1])) 3 = 1 := by decide
      rw [if_neg (by decide), if_neg (by decide)]
      have key : Allowable [K0, K1, K1, K] (.gm (perversityGM [0, 1])) 3 s.vset ↔ (∀ v ∈ s.vset, S v → 3 ≤ #s.vset) ∧
          ∀ u ∈ s.vset, ∀ v ∈ s.vset, u ≠ v → S u → (invert = true ∨ S v) → 4 ≤ #s.vset := by
        constructor
        · intro h
          constructor
          · intro v hv hSv
            obtain ⟨x, hx, hx'⟩ := hsub0 v hv hSv
            have := h 3 K0 (by simp [firstCodim]) (le_refl _) rfl x hx (by rw [hx']; simpa using hv)
            rw [hx', hval.2, Finset.card_singleton] at this
            push_cast at this
            omega
          · intro u hu v hv huv hSu hSv
            obtain ⟨x, hx, hx'⟩ := hsub2 u hu v hv huv hSu hSv
            have := h 2 K1 (by simp [firstCodim]) (by omega) rfl x hx (by
              rw [hx']; intro y hy; simp only [Finset.mem_insert, Finset.mem_singleton] at hy; rcases hy with rfl | rfl <;> assumption)
            rw [hx', hval.1, Finset.card_pair huv] at this
            push_cast at this
            omega
        · rintro ⟨g1, g2⟩ k x hk1 hk2 hx τ hτ hτs
          simp only [firstCodim] at hk1
          have hk : k = 2 ∨ k = 3 := by omega
          rcases hk with rfl | rfl
          · simp only [show 3 - 2 = 1 from rfl, List.getElem?_cons_succ, List.getElem?_cons_zero, Option.some.injEq] at hx
            subst hx
            rw [hval.1]
            rcases ((h5 τ).1 hτ).2 with ⟨v, hv, hSv⟩ | ⟨u, v, huv, hv, hSu, hSv⟩
            · rw [hv] at hτs ⊢
              have := g1 v (hτs (by simp)) hSv
              rw [Finset.card_singleton]; push_cast; omega
            · rw [hv] at hτs ⊢
              have := g2 u (hτs (by simp)) v (hτs (by simp)) huv hSu hSv
              rw [Finset.card_pair huv]; push_cast; omega
          · simp only [Nat.sub_self, List.getElem?_cons_zero, Option.some.injEq] at hx
            subst hx
            rw [hval.2]
            obtain ⟨v, hv, hSv⟩ := ((h4 τ).1 hτ).2
            rw [hv] at hτs ⊢
            have := g1 v (hτs (by simp)) hSv
            rw [Finset.card_singleton]; push_cast; omega
      rw [key]
      have hone : #(singularVertices S s.vset) = 0 ∨ #(singularVertices S s.vset) = 1 ∨ ¬#(singularVertices S s.vset) ≤ 1 := by omega
      cases invert
      · rw [if_neg (by simp)]
        constructor
        · rintro ⟨g1, g2⟩
          rcases hone with h | h | h
          · exact .inl h
          · have h' : ¬∀ v ∈ s.vset, ¬S v := fun h' => by rw [card_singular_eq_zero.2 h'] at h; omega
            push Not at h'
            obtain ⟨v, hv, hSv⟩ := h'
            have := g1 v hv hSv
            rcases (show #s.vset = 3 ∨ #s.vset = 4 by omega) with h3 | h3
            · exact .inr (.inl ⟨h3, .inr h⟩)
            · exact .inr (.inr h3)
          · rw [card_singular_le_one] at h
            push Not at h
            obtain ⟨u, hu, v, hv, hSu, hSv, huv⟩ := h
            have := g2 u hu v hv huv hSu (.inr hSv)
            exact .inr (.inr (by omega))
        · intro h
          constructor
          · intro v hv hSv
            rcases h with h | h | h
            · exact absurd hSv (card_singular_eq_zero.1 h v hv)
            · omega
            · omega
          · intro u hu v hv huv hSu hSv
            have hSv : S v := by simpa using hSv
            rcases h with h | h | h
            · exact absurd hSv (card_singular_eq_zero.1 h v hv)
            · rcases h.2 with h' | h'
              · omega
              · exact absurd (card_singular_le_one.1 (le_of_eq h') u hu v hv hSu hSv) huv
            · omega
      · rw [if_pos (by simp)]
        constructor
        · rintro ⟨g1, g2⟩
          by_cases hz : ∀ v ∈ s.vset, ¬S v
          · exact .inl (card_singular_eq_zero.2 hz)
          · push Not at hz
            obtain ⟨v, hv, hSv⟩ := hz
            have h3 := g1 v hv hSv
            obtain ⟨u, hu, huv⟩ := Finset.exists_mem_ne (show 1 < #s.vset by omega) v
            have := g2 v hv u hu huv.symm hSv (.inl rfl)
            exact .inr (by omega)
        · intro h
          have h4 : ∀ v ∈ s.vset, S v → 4 ≤ #s.vset := by
            intro v hv hSv
            rcases h with h | h
            · exact absurd hSv (card_singular_eq_zero.1 h v hv)
            · omega
          exact ⟨fun v hv hSv => by have := h4 v hv hSv; omega, fun u hu v hv _ hSu _ => h4 u hu hSu⟩
  obtain ⟨P, Q, p, Ds, e1, e2, e3, e4, e5⟩ := C47_intersection_homology inf K hK hlen d hdim _ _ (hstrat (perversityGM (if d = 2 then [0] else [0, 1])))
  refine ⟨P, Q, p, Ds, ?_, ?_, e3, e4, ?_⟩
  · rw [e1]
    exact List.filter_congr fun s hs => by rw [decide_eq_decide]; exact hallow s hs
  · rw [e2]
    exact List.filter_congr fun s hs => by
      congr 1
      rw [decide_eq_decide]; exact hallow s hs
  · unfold diagrams
    rw [h1, hdim]
    simp only [Option.bind_eq_bind, Option.bind_some]
    exact e5 _ _ _

open Classical in
/-- C193 (partial). For a filtered complex of dimension two or three with at least one singular vertex, the tool calculates intersection homology with respect to the allowable simplices: those without singular vertices,
triangles (in dimension three with a single singular vertex), and tetrahedra.  *Missing:* complexes without singular vertices, see `C193_regular`, and the inverted meaning in dimension three, see `C193_inverted`. -/
theorem _root_.Aleph.C193_diagrams_partial (inf : α) (invert : Bool) (threshold : α) (values : List α) (K : Complex α) (hK : IsFiltration K) (hlen : K.length ≤ idxMax)
    (hv : ∀ s ∈ K, ∀ v ∈ s.vset, v < values.length) (d : ℕ) (hd : d = 2 ∨ d = 3 ∧ invert = false) (htop : IsTopDimension K d) (hs : ∃ v, Has K {v} ∧ IsSingular invert threshold values v) :
    ∃ P Q p Ds, P = K.filter (fun s => decide (Permitted (IsSingular invert threshold values) d s.vset)) ∧ Q = K.filter (fun s => !decide (Permitted (IsSingular invert threshold values) d s.vset)) ∧
      IsIntersectionPairing (P ++ Q) P.length p ∧ IsDiagramsOf inf (P ++ Q) p Ds ∧ diagrams inf invert threshold values K = some Ds := by
  obtain ⟨P, Q, p, Ds, e1, e2, e3⟩ := diagrams_of inf invert threshold values K hK hlen hv d (by omega) htop hs
  have hno : ¬(invert = true ∧ d = 3) := by
    rintro ⟨rfl, rfl⟩
    simp at hd
  refine ⟨P, Q, p, Ds, ?_, ?_, e3⟩
  · rw [e1]; simp only [if_neg hno]
  · rw [e2]; simp only [if_neg hno]

open Classical in
/-- C193. In dimension three with the inverted meaning, triangles with singular vertices are not allowable, even if there is only one: edges with only one singular vertex also belong to the stratum. -/
theorem _root_.Aleph.C193_inverted (inf : α) (threshold : α) (values : List α) (K : Complex α) (hK : IsFiltration K) (hlen : K.length ≤ idxMax)
    (hv : ∀ s ∈ K, ∀ v ∈ s.vset, v < values.length) (htop : IsTopDimension K 3) (hs : ∃ v, Has K {v} ∧ IsSingular true threshold values v) :
    ∃ P Q p Ds, P = K.filter (fun s => decide (Restricted (IsSingular true threshold values) s.vset)) ∧ Q = K.filter (fun s => !decide (Restricted (IsSingular true threshold values) s.vset)) ∧
      IsIntersectionPairing (P ++ Q) P.length p ∧ IsDiagramsOf inf (P ++ Q) p Ds ∧ diagrams inf true threshold values K = some Ds := by
  obtain ⟨P, Q, p, Ds, e1, e2, e3⟩ := diagrams_of inf true threshold values K hK hlen hv 3 (.inr rfl) htop hs
  refine ⟨P, Q, p, Ds, ?_, ?_, e3⟩
  · rw [e1]; simp
  · rw [e2]; simp

/-- C193. With the inverted meaning, the stratum of edges does not contain the faces of its simplices, as soon as there is an edge with only one singular vertex. -/
theorem _root_.Aleph.C193_not_closed (threshold : α) (values : List α) (K : Complex α) (hK : WF K) (hv : ∀ s ∈ K, ∀ v ∈ s.vset, v < values.length) (d : ℕ) (hd : IsTopDimension K d) (hd2 : d ≠ 2)
    (u v : ℕ) (hu : IsSingular true threshold values u) (hvn : ¬IsSingular true threshold values v) (he : Has K {u, v}) :
    ∃ X x, strata true threshold values K = some X ∧ X[1]? = some x ∧ Has x {u, v} ∧ ¬Has x {v} := by
  obtain ⟨K0, K1, h1, h2, h3, h4, h5⟩ := C193_strata true threshold values K hK hv d hd
  have huv : u ≠ v := by rintro rfl; exact hvn hu
  rw [if_neg hd2] at h1
  refine ⟨_, K1, h1, rfl, ?_, ?_⟩
  · obtain ⟨s, hs, hs'⟩ := he
    exact ⟨s, (h5 s).2 ⟨hs, .inr ⟨u, v, huv, hs', hu, .inl rfl⟩⟩, hs'⟩
  · rintro ⟨s, hs, hs'⟩
    rcases ((h5 s).1 hs).2 with ⟨w, hw, hSw⟩ | ⟨a, b, hab, hw, _⟩
    · rw [hs', Finset.singleton_inj] at hw
      rw [← hw] at hSw
      exact hvn hSw
    · have := congrArg Finset.card (hs'.symm.trans hw)
      rw [Finset.card_pair hab] at this
      simp at this

/-- C193. Complexes without singular vertices end the program by an exception: the first stratum is empty and does not have a dimension. -/
theorem _root_.Aleph.C193_regular (inf : α) (invert : Bool) (threshold : α) (values : List α) (K : Complex α) (hK : WF K) (hv : ∀ s ∈ K, ∀ v ∈ s.vset, v < values.length) (d : ℕ)
    (hd : IsTopDimension K d) (hs : ∀ v, Has K {v} → ¬IsSingular invert threshold values v) : diagrams inf invert threshold values K = none := by
  obtain ⟨K0, K1, h1, h2, h3, h4, h5⟩ := C193_strata invert threshold values K hK hv d hd
  have h0 : K0 = [] := by
    rw [List.eq_nil_iff_forall_not_mem]
    intro s hs'
    obtain ⟨hsK, v, hv', hS⟩ := (h4 s).1 hs'
    exact hs v ⟨s, hsK, hv'⟩ hS
  unfold diagrams
  rw [h1, dimension_eq hK hd]
  simp only [Option.bind_eq_bind, Option.bind_some]
  have hnone : (if d = 2 then [K0, K0, K] else [K0, K1, K1, K]).mapM Complex.dimension = none := by
    rw [h0]
    split <;> simp [List.mapM_cons, Complex.dimension]
  have hcons : ∀ X pv, X.mapM Complex.dimension = none → consistent K X pv = none := by
    intro X pv h
    unfold consistent
    rw [h]
    split
    · cases K.dimension <;> rfl
    · rfl
  unfold calculateIntersectionHomology
  rw [hcons _ _ hnone]

/-- C193. A vertex without a value ends the program. -/
theorem _root_.Aleph.C193_missing (inf : α) (invert : Bool) (threshold : α) (values : List α) (K : Complex α) (v : ℕ) (x : α) (hv : (⟨[v], x⟩ : Simplex α) ∈ K) (hmiss : values.length ≤ v) :
    diagrams inf invert threshold values K = none := by
  have hfold : ∀ (l : List (Simplex α)) (L : Complex α), (⟨[v], x⟩ : Simplex α) ∈ l → l.foldlM (partitionStep (vertexPredicate invert threshold values) true) L = none := by
    intro l
    induction l with
    | nil => intro L h; simp at h
    | cons s l ih =>
      intro L h
      rw [List.foldlM_cons]
      rcases List.mem_cons.1 h with h | h
      · rw [← h]
        simp [partitionStep, vertexPredicate, List.getElem?_eq_none hmiss]
      · cases partitionStep (vertexPredicate invert threshold values) true L s with
        | none => rfl
        | some L' => exact ih L' h
  unfold diagrams strata filterWith
  rw [hfold K [] hv]
  rfl

/-- A triangle. -/
def triangle : Complex ℤ := [⟨[0], 0⟩, ⟨[1], 0⟩, ⟨[2], 0⟩, ⟨[1, 0], 1⟩, ⟨[2, 0], 1⟩, ⟨[2, 1], 1⟩, ⟨[2, 1, 0], 1⟩]

/-- A tetrahedron. -/
def tetrahedron : Complex ℤ := [⟨[0], 0⟩, ⟨[1], 0⟩, ⟨[2], 0⟩, ⟨[3], 0⟩, ⟨[1, 0], 1⟩, ⟨[2, 0], 1⟩, ⟨[2, 1], 1⟩, ⟨[3, 0], 1⟩, ⟨[3, 1], 1⟩, ⟨[3, 2], 1⟩, ⟨[2, 1, 0], 1⟩, ⟨[3, 1, 0], 1⟩,
  ⟨[3, 2, 0], 1⟩, ⟨[3, 2, 1], 1⟩, ⟨[3, 2, 1, 0], 1⟩]

theorem closed_of_powerset {K : Complex ℤ} (h : ∀ s ∈ K, ∀ t ∈ s.vset.powerset, t.Nonempty → ∃ u ∈ K, u.vset = t) : FaceClosed K := fun s hs t ht hne => h s hs t (Finset.mem_powerset.2 ht) hne

theorem triangle_filtration : IsFiltration triangle := ⟨⟨by decide, by decide, by decide⟩, closed_of_powerset (by decide +kernel), by unfold FacesFirst; decide +kernel⟩

theorem tetrahedron_filtration : IsFiltration tetrahedron := ⟨⟨by decide, by decide, by decide⟩, closed_of_powerset (by decide +kernel), by unfold FacesFirst; decide +kernel⟩

/-- A singular corner of a triangle. -/
example (invert : Bool) : ∃ Ds, diagrams 100 invert 5 [if invert then 7 else 3, 5, 5] triangle = some Ds := by
  obtain ⟨_, _, _, Ds, _, _, _, _, h⟩ := C193_diagrams_partial 100 invert 5 [if invert then 7 else 3, 5, 5] triangle triangle_filtration (by decide) (by decide +kernel +revert) 2 (.inl rfl)
    ⟨⟨⟨[2, 1, 0], 1⟩, by decide, by decide⟩, by decide +kernel⟩ ⟨0, ⟨⟨[0], 0⟩, by decide, by decide⟩, _, rfl, by cases invert <;> decide⟩
  exact ⟨Ds, h⟩

/-- Singular corners of a tetrahedron. -/
example : ∃ Ds, diagrams 100 false 5 [3, 4, 5, 6] tetrahedron = some Ds := by
  obtain ⟨_, _, _, Ds, _, _, _, _, h⟩ := C193_diagrams_partial 100 false 5 [3, 4, 5, 6] tetrahedron tetrahedron_filtration (by decide) (by decide +kernel) 3 (.inr ⟨rfl, rfl⟩)
    ⟨⟨⟨[3, 2, 1, 0], 1⟩, by decide, by decide⟩, by decide +kernel⟩ ⟨0, ⟨⟨[0], 0⟩, by decide, by decide⟩, _, rfl, by decide⟩
  exact ⟨Ds, h⟩

/-- With the inverted meaning, the edge between the vertices 3 and 0 belongs to the stratum, but the vertex 0 does not. -/
example : (∃ Ds, diagrams 100 true 5 [3, 4, 5, 6] tetrahedron = some Ds) ∧ ∃ X x, strata true 5 [3, 4, 5, 6] tetrahedron = some X ∧ X[1]? = some x ∧ Has x {3, 0} ∧ ¬Has x {0} := by
  have htop : IsTopDimension tetrahedron 3 := ⟨⟨⟨[3, 2, 1, 0], 1⟩, by decide, by decide⟩, by decide +kernel⟩
  obtain ⟨_, _, _, Ds, _, _, _, _, h⟩ := C193_inverted 100 5 [3, 4, 5, 6] tetrahedron tetrahedron_filtration (by decide) (by decide +kernel) htop ⟨3, ⟨⟨[3], 0⟩, by decide, by decide⟩, _, rfl, by decide⟩
  refine ⟨⟨Ds, h⟩, C193_not_closed 5 [3, 4, 5, 6] tetrahedron tetrahedron_filtration.wf (by decide +kernel) 3 htop (by decide) 3 0 ⟨_, rfl, by decide⟩ ?_ ⟨⟨[3, 0], 1⟩, by decide, by decide +kernel⟩⟩
  rintro ⟨x, hx, hx'⟩
  simp only [List.getElem?_cons_zero, Option.some.injEq] at hx
  rw [← hx] at hx'
  simp at hx'

/-- No singular vertices. -/
example : diagrams 100 false 5 [7, 7, 7] triangle = none :=
  C193_regular 100 false 5 [7, 7, 7] triangle triangle_filtration.wf (by decide +kernel) 2 ⟨⟨⟨[2, 1, 0], 1⟩, by decide, by decide⟩, by decide +kernel⟩ (by
    rintro v - ⟨x, hx, hx'⟩
    have : x = 7 := by simpa using List.mem_of_getElem? hx
    rw [this] at hx'
    simp at hx')

/-- A missing value. -/
example : diagrams 100 false 5 [7, 7] triangle = none := C193_missing 100 false 5 [7, 7] triangle 2 0 (by decide) (by decide)

/-- Different values. -/
example : ∃ r, standardize [1, 2, 4] = some r ∧ mean r = 0 ∧ variance r = 1 := by
  obtain ⟨_, _, _, r, h1, _, h2⟩ := (C193_standardize [1, 2, 4]).1 (fun h => by have := h 1 (by simp) 2 (by simp); norm_num at this)
  exact ⟨r, h1, h2⟩

end Aleph.SingularPoints
