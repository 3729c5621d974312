import Verif.Lemmas.SortedLevels
import Verif.Model.EccentricityExample
import Verif.Props.DataDescriptors
import Verif.Props.EdgeListReader
import Verif.Props.VietorisRips
import Verif.Props.VietorisRipsExample
import Verif.Spec.EccentricityExample

/-!
# C171: the example `vietoris_rips_eccentricity`
-/

namespace Aleph.EccentricityExample

open Finset Spec
open VietorisRipsExample (Context Failure distance)

variable {α : Type}

/-! ### Complexes with values at their vertices -/

section Values

variable [LinearOrder α]

theorem vertexGreatest {K : Complex α} (hK : WF K) (hc : FaceClosed K) (f : ℕ → α) (hv : ∀ s ∈ K, ∀ v, s.vset = {v} → s.data = f v)
    (hg : ∀ s ∈ K, 2 ≤ #s.vset → IsGreatest ((·.data) '' FacetsIn K s) s.data) : ∀ s ∈ K, IsGreatest (f '' s.vset) s.data := by
  suffices h : ∀ n, ∀ s ∈ K, #s.vset = n → IsGreatest (f '' s.vset) s.data from fun s hs => h _ s hs rfl
  intro n
  induction n using Nat.strong_induction_on with
  | _ n ih =>
    intro s hs hn
    have hpos := (hK.vset_nonempty hs).card_pos
    by_cases h1 : n = 1
    · obtain ⟨v, e⟩ := card_eq_one.1 (hn.trans h1)
      rw [hv s hs v e, e]
      simp
    · obtain ⟨⟨t, ⟨ht, hts, hcard⟩, e⟩, hub⟩ := hg s hs (by omega)
      have iht := ih #t.vset (by omega) t ht rfl
      simp only at e
      constructor
      · obtain ⟨v, hv', e'⟩ := iht.1
        exact ⟨v, hts hv', e'.trans e⟩
      · rintro _ ⟨v, hv', rfl⟩
        obtain ⟨w, hw, hwv⟩ : ∃ w ∈ s.vset, w ≠ v := exists_mem_ne (by omega) v
        have hve : v ∈ s.vset.erase w := mem_erase.2 ⟨hwv.symm, hv'⟩
        obtain ⟨u, hu, hu'⟩ := hc s hs (s.vset.erase w) (erase_subset _ _) ⟨v, hve⟩
        have hcu : #u.vset + 1 = #s.vset := by
          rw [hu', card_erase_of_mem hw]
          omega
        have := (ih #u.vset (by omega) u hu rfl).2 ⟨v, by rw [hu']; exact hve, rfl⟩
        exact this.trans (hub ⟨u, ⟨hu, by rw [hu']; exact erase_subset _ _, hcu⟩, rfl⟩)

theorem vertexLeast {K : Complex α} (hK : WF K) (hc : FaceClosed K) (f : ℕ → α) (hv : ∀ s ∈ K, ∀ v, s.vset = {v} → s.data = f v)
    (hg : ∀ s ∈ K, 2 ≤ #s.vset → IsLeast ((·.data) '' FacetsIn K s) s.data) : ∀ s ∈ K, IsLeast (f '' s.vset) s.data :=
  vertexGreatest (α := αᵒᵈ) (K := K) ⟨hK.normal, hK.nonempty, hK.distinct⟩ hc f hv hg

/-- The diagrams of a complex in the order of its values. -/
theorem star_run {L : Complex α} (hL : IsFiltration L) (hn : L.length ≤ idxMax) (hs : L.Pairwise fun s t => s.data ≤ t.data) {S : Finset (Finset ℕ)}
    (hset : ∀ t, Has L t ↔ t ∈ S) (f : ℕ → α) (hdata : ∀ s ∈ L, IsGreatest (f '' s.vset) s.data) {inf : α} (hinf : ∀ v, {v} ∈ S → f v ≠ inf) :
    ∃ Ds, calculatePersistenceDiagrams .twist .vector inf L = some Ds ∧ IsStarAnalysis inf f S (Ds.map fun D => (D.dimension, D.removeDiagonal.points)) := by
  have hval : ∀ s ∈ L, ∃ v, {v} ∈ S ∧ s.data = f v := by
    intro s hs'
    obtain ⟨v, hv, e⟩ := (hdata s hs').1
    refine ⟨v, (hset _).1 ?_, e.symm⟩
    exact hL.closed s hs' {v} (by simpa using hv) (by simp)
  obtain ⟨Ds, h1, h2⟩ := ordered_levels hL hn hs (inf := inf) (by
    intro s hs'
    obtain ⟨v, hv, e⟩ := hval s hs'
    rw [e]
    exact hinf v hv)
  refine ⟨Ds, h1, ?_, ?_⟩
  · have e1 : sets L = S := by
      ext t
      rw [mem_sets]
      exact hset t
    have e2 : sublevel L = fun x => {t ∈ S | ∀ v ∈ t, f v ≤ x} := by
      funext x
      ext t
      unfold Spec.sublevel
      rw [mem_sets, mem_filter, ← hset]
      constructor
      · rintro ⟨s, hs', rfl⟩
        obtain ⟨k1, k2⟩ := List.mem_filter.1 hs'
        refine ⟨⟨s, k1, rfl⟩, fun v hv => ((hdata s k1).2 ⟨v, hv, rfl⟩).trans (by simpa using k2)⟩
      · rintro ⟨⟨s, hs', rfl⟩, h⟩
        refine ⟨s, List.mem_filter.2 ⟨hs', ?_⟩, rfl⟩
        obtain ⟨v, hv, e⟩ := (hdata s hs').1
        rw [decide_eq_true_eq, ← e]
        exact h v hv
    have := h2.homology
    rwa [e1, e2] at this
  · intro E hE p hp
    obtain ⟨⟨s, hs', e⟩, h⟩ := h2.values E hE p hp
    refine ⟨by rw [e]; exact hval s hs', h.imp_right fun ⟨t, ht, e⟩ => by rw [e]; exact hval t ht⟩

end Values

/-- The filtrations of the Vietoris–Rips complex with values. -/
theorem filtered_run (o : Orders ℝ) {n : ℕ} {M : ℕ → ℕ → ℝ} {k : ℕ} {ε lo hi inf : ℝ} (f : ℕ → ℝ) (hlo : ∀ v < n, lo ≤ f v) (hhi : ∀ v < n, f v ≤ hi)
    (hinf : ∀ v < n, f v ≠ inf) (hsize : ripsSize n k ≤ idxMax) (st : Star) :
    ∃ K Ds, Rips.buildVietorisRipsWithValues o 0 lo n M ε k ((List.range n).map f) = some K ∧
      calculatePersistenceDiagrams .twist .vector inf (filtered lo hi ((List.range n).map f) K st) = some Ds ∧
      (st = .upper → IsStarAnalysis (α := ℝᵒᵈ) inf f (ripsBelow n M k ε) (Ds.map fun D : Diagram ℝ => (D.dimension, D.removeDiagonal.points))) ∧
      (st ≠ .upper → IsStarAnalysis inf f (ripsBelow n M k ε) (Ds.map fun D => (D.dimension, D.removeDiagonal.points))) := by
  set values := (List.range n).map f with hvalues
  have hlen : values.length = n := by simp [hvalues]
  have hget : ∀ v y, values[v]? = some y ↔ v < n ∧ y = f v := by
    intro v y
    by_cases hv : v < n
    · simp [hvalues, hv, eq_comm]
    · simp [hvalues, hv]
  obtain ⟨K, h1, hK, hhas, hd, hff, hsort⟩ := C28_vietoris_rips_values o (0 : ℝ) lo n M ε k values hlen (by
    intro x hx
    obtain ⟨v, hv, rfl⟩ := List.mem_map.1 hx
    exact hlo v (List.mem_range.1 hv))
  have hin : ∀ s ∈ K, ∀ v ∈ s.vset, v < n := fun s hs => ((hhas s.vset).1 ⟨s, hs, rfl⟩).2.2.1
  have hset : ∀ t, Has K t ↔ t ∈ ripsBelow n M k ε := by
    intro t
    rw [hhas, ripsBelow, mem_filter, mem_powerset]
    constructor
    · rintro ⟨g1, g2, g3, g4⟩
      exact ⟨fun v hv => mem_range.2 (g3 v hv), g1, g2, g4⟩
    · rintro ⟨g3, g1, g2, g4⟩
      exact ⟨g1, g2, fun v hv => mem_range.1 (g3 hv), g4⟩
  have hclosed : FaceClosed K := by
    intro s hs t hts hne
    obtain ⟨g1, g2, g3, g4⟩ := (hhas s.vset).1 ⟨s, hs, rfl⟩
    exact (hhas t).2 ⟨hne, (card_le_card hts).trans g2, fun v hv => g3 v (hts hv), fun u hu v hv => g4 u (hts hu) v (hts hv)⟩
  have hle : K.length ≤ idxMax := (PythonMatrix.length_le hK fun t ht => by
    obtain ⟨g1, g2, g3, -⟩ := (hhas t).1 ht
    exact ⟨g1, g2, g3⟩).trans hsize
  have hvn : ∀ v, {v} ∈ ripsBelow n M k ε → f v ≠ inf := by
    intro v hv
    rw [ripsBelow, mem_filter, mem_powerset] at hv
    exact hinf v (mem_range.1 (hv.1 (by simp)))
  have himg : ∀ s ∈ K, {y | ∃ v ∈ s.vset, values[v]? = some y} = f '' s.vset := by
    intro s hs
    ext y
    constructor
    · rintro ⟨v, hv, e⟩
      exact ⟨v, hv, ((hget v y).1 e).2.symm⟩
    · rintro ⟨v, hv, e⟩
      exact ⟨v, hv, (hget v y).2 ⟨hin s hs v hv, e.symm⟩⟩
  have hdata : ∀ s ∈ K, IsGreatest (f '' s.vset) s.data := fun s hs => by
    rw [← himg s hs]
    exact hd s hs
  have hone : ∀ s ∈ K, ∀ v, s.vset = {v} → s.data = f v := by
    intro s hs v e
    obtain ⟨w, hw, e'⟩ := (hdata s hs).1
    rw [e, coe_singleton, Set.mem_singleton_iff] at hw
    rw [← e', hw]
  -- complexes with the same simplices
  have hsame : ∀ K' : Complex ℝ, K'.map (·.vertices) = K.map (·.vertices) → WF K' ∧ FaceClosed K' ∧ (∀ t, Has K' t ↔ Has K t) ∧ K'.length = K.length := by
    intro K' e
    refine ⟨hK.of_vertices e, hclosed.of_vertices e, fun t => ?_, by simpa using congrArg List.length e⟩
    have hm : ∀ l : List ℕ, (∃ s ∈ K', s.vertices = l) ↔ ∃ s ∈ K, s.vertices = l := by
      intro l
      have := congrArg (l ∈ ·) e
      simpa using this
    constructor
    · rintro ⟨s, hs, rfl⟩
      obtain ⟨t, ht, e⟩ := (hm s.vertices).1 ⟨s, hs, rfl⟩
      exact ⟨t, ht, by unfold Simplex.vset; rw [e]⟩
    · rintro ⟨s, hs, rfl⟩
      obtain ⟨t, ht, e⟩ := (hm s.vertices).2 ⟨s, hs, rfl⟩
      exact ⟨t, ht, by unfold Simplex.vset; rw [e]⟩
  have hone' : ∀ K' : Complex ℝ, K'.map (·.vertices) = K.map (·.vertices) → (∀ s ∈ K, #s.vset < 2 → s ∈ K') → ∀ s ∈ K', ∀ v, s.vset = {v} → s.data = f v := by
    intro K' e hin' s hs v hv
    obtain ⟨w1, -, w3, -⟩ := hsame K' e
    obtain ⟨t, ht, e'⟩ := (w3 s.vset).1 ⟨s, hs, rfl⟩
    have : t ∈ K' := hin' t ht (by rw [e', hv]; simp)
    rw [w1.eq_of_vset hs this e'.symm]
    exact hone t ht v (e'.trans hv)
  -- sorting
  have hfil : ∀ (K' : Complex ℝ) (cmp : Simplex ℝ → Simplex ℝ → Option Bool), K'.map (·.vertices) = K.map (·.vertices) → FacesFirst (K'.sort (asLt cmp)) →
      IsFiltration (K'.sort (asLt cmp)) ∧ (K'.sort (asLt cmp)).length ≤ idxMax ∧ (∀ t, Has (K'.sort (asLt cmp)) t ↔ t ∈ ripsBelow n M k ε) ∧
      (∀ s, s ∈ K'.sort (asLt cmp) ↔ s ∈ K') := by
    intro K' cmp e hf
    obtain ⟨w1, w2, w3, w4⟩ := hsame K' e
    have hp := sort_perm K' (asLt cmp)
    refine ⟨⟨w1.perm hp, ?_, hf⟩, by rw [hp.length_eq, w4]; exact hle, ?_, fun s => hp.mem_iff⟩
    · intro s hs t hts hne
      obtain ⟨u, hu, e⟩ := w2 s (hp.mem_iff.1 hs) t hts hne
      exact ⟨u, hp.mem_iff.2 hu, e⟩
    · intro t
      rw [← hset, ← w3]
      unfold Has
      simp only [hp.mem_iff]
  have hin' : ∀ K' : Complex ℝ, K'.map (·.vertices) = K.map (·.vertices) → ∀ s ∈ K', ∀ v ∈ s.vset, v < values.length := by
    intro K' e s hs v hv
    obtain ⟨t, ht, e'⟩ := ((hsame K' e).2.2.1 s.vset).1 ⟨s, hs, rfl⟩
    rw [hlen]
    exact hin t ht v (by rw [e']; exact hv)
  cases st with
  | unused =>
    obtain ⟨Ds, g1, g2⟩ := star_run ⟨hK, hclosed, hff⟩ hle hsort hset f hdata hvn
    exact ⟨K, Ds, h1, g1, (by intro h; cases h), fun _ => g2⟩
  | lower =>
    obtain ⟨r1, r2, r3, -⟩ := C25_recalculateWeights_max lo hi false K hK hclosed (by
      intro s hs
      obtain ⟨v, hv, e⟩ := (hdata s hs).1
      rw [← e]
      exact hlo v (hin s hs v hv))
    have hd' := vertexGreatest (hsame _ r1).1 (hsame _ r1).2.1 f (hone' _ r1 r2) r3
    obtain ⟨-, hff'⟩ := C21_lower_star lo values _ (hsame _ r1).1 (hin' _ r1)
    obtain ⟨f1, f2, f3, f4⟩ := hfil _ _ r1 hff'
    have hs' := (C21_star_values lo hi values _ (hsame _ r1).1 (hin' _ r1)).1
    have hs2 : ((Complex.recalculateWeights lo hi true false K).sort (asLt (Filtration.lowerStar lo values))).Pairwise fun s t => s.data ≤ t.data := by
      refine hs'.imp_of_mem fun {s t} hs ht h => ?_
      obtain ⟨v, hv, e⟩ := (hd' s ((f4 s).1 hs)).1
      rw [← e]
      have ht' := hd' t ((f4 t).1 ht)
      refine h t.data ?_ ?_ v hv (f v) ((hget v _).2 ⟨by rw [← hlen]; exact hin' _ r1 s ((f4 s).1 hs) v hv, rfl⟩)
      · obtain ⟨w, hw, e'⟩ := ht'.1
        rw [← e']
        exact hlo w (by rw [← hlen]; exact hin' _ r1 t ((f4 t).1 ht) w hw)
      · intro w hw x hx
        rw [((hget w x).1 hx).2]
        exact ht'.2 ⟨w, hw, rfl⟩
    obtain ⟨Ds, g1, g2⟩ := star_run f1 f2 hs2 f3 f (fun s hs => hd' s ((f4 s).1 hs)) hvn
    exact ⟨K, Ds, h1, g1, (by intro h; cases h), fun _ => g2⟩
  | upper =>
    obtain ⟨r1, r2, r3, -⟩ := C25_recalculateWeights_min lo hi false K hK hclosed (by
      intro s hs
      obtain ⟨v, hv, e⟩ := (hdata s hs).1
      rw [← e]
      exact hhi v (hin s hs v hv))
    have hd' := vertexLeast (hsame _ r1).1 (hsame _ r1).2.1 f (hone' _ r1 r2) r3
    obtain ⟨-, hff'⟩ := C21_upper_star hi values _ (hsame _ r1).1 (hin' _ r1)
    obtain ⟨f1, f2, f3, f4⟩ := hfil _ _ r1 hff'
    have hs' := (C21_star_values lo hi values _ (hsame _ r1).1 (hin' _ r1)).2
    have hs2 : ((Complex.recalculateWeights lo hi false false K).sort (asLt (Filtration.upperStar hi values))).Pairwise fun s t => t.data ≤ s.data := by
      refine hs'.imp_of_mem fun {s t} hs ht h => ?_
      obtain ⟨v, hv, e⟩ := (hd' s ((f4 s).1 hs)).1
      rw [← e]
      have ht' := hd' t ((f4 t).1 ht)
      refine h t.data ?_ ?_ v hv (f v) ((hget v _).2 ⟨by rw [← hlen]; exact hin' _ r1 s ((f4 s).1 hs) v hv, rfl⟩)
      · obtain ⟨w, hw, e'⟩ := ht'.1
        rw [← e']
        exact hhi w (by rw [← hlen]; exact hin' _ r1 t ((f4 t).1 ht) w hw)
      · intro w hw x hx
        rw [((hget w x).1 hx).2]
        exact ht'.2 ⟨w, hw, rfl⟩
    obtain ⟨Ds, g1, g2⟩ : ∃ Ds : List (Diagram ℝ), calculatePersistenceDiagrams .twist .vector inf
          ((Complex.recalculateWeights lo hi false false K).sort (asLt (Filtration.upperStar hi values))) = some Ds ∧
        IsStarAnalysis (α := ℝᵒᵈ) inf f (ripsBelow n M k ε) (Ds.map fun D : Diagram ℝ => (D.dimension, D.removeDiagonal.points)) :=
      star_run (α := ℝᵒᵈ) (L := (Complex.recalculateWeights lo hi false false K).sort (asLt (Filtration.upperStar hi values)))
        ⟨⟨f1.wf.normal, f1.wf.nonempty, f1.wf.distinct⟩, f1.closed, f1.order⟩ f2 hs2 f3 f (fun s hs => hd' s ((f4 s).1 hs)) hvn
    exact ⟨K, Ds, h1, g1, fun _ => g2, fun h => absurd rfl h⟩

/-! ### Values -/

theorem foldl_min_least (l : List ℝ) (x : ℝ) : IsLeast {y | y ∈ x :: l} (l.foldl min x) := by
  induction l generalizing x with
  | nil => simp [IsLeast, lowerBounds]
  | cons b l ih =>
    rw [List.foldl_cons]
    obtain ⟨h1, h2⟩ := ih (min x b)
    constructor
    · rcases List.mem_cons.1 h1 with e | h
      · rcases min_choice x b with g | g
        · exact List.mem_cons.2 (Or.inl (e.trans g))
        · exact List.mem_cons_of_mem _ (List.mem_cons.2 (Or.inl (e.trans g)))
      · exact List.mem_cons_of_mem _ (List.mem_cons_of_mem _ h)
    · intro y hy
      have hb : l.foldl min (min x b) ≤ min x b := h2 (List.mem_cons.2 (Or.inl rfl))
      rcases List.mem_cons.1 hy with rfl | hy
      · exact hb.trans (min_le_left _ _)
      · rcases List.mem_cons.1 hy with rfl | hy
        · exact hb.trans (min_le_right _ _)
        · exact h2 (List.mem_cons_of_mem _ hy)

theorem foldl_max_greatest (l : List ℝ) (x : ℝ) : IsGreatest {y | y ∈ x :: l} (l.foldl max x) := by
  induction l generalizing x with
  | nil => simp [IsGreatest, upperBounds]
  | cons b l ih =>
    rw [List.foldl_cons]
    obtain ⟨h1, h2⟩ := ih (max x b)
    constructor
    · rcases List.mem_cons.1 h1 with e | h
      · rcases max_choice x b with g | g
        · exact List.mem_cons.2 (Or.inl (e.trans g))
        · exact List.mem_cons_of_mem _ (List.mem_cons.2 (Or.inl (e.trans g)))
      · exact List.mem_cons_of_mem _ (List.mem_cons_of_mem _ h)
    · intro y hy
      have hb : max x b ≤ l.foldl max (max x b) := h2 (List.mem_cons.2 (Or.inl rfl))
      rcases List.mem_cons.1 hy with rfl | hy
      · exact (le_max_left _ _).trans hb
      · rcases List.mem_cons.1 hy with rfl | hy
        · exact (le_max_right _ _).trans hb
        · exact h2 (List.mem_cons_of_mem _ hy)

theorem transform_spec {lo : ℝ} (hlo : lo ≤ 0) {n : ℕ} (hn : n ≠ 0) (e : ℕ → ℝ) :
    ∃ f : ℕ → ℝ, transform lo ((List.range n).map e) = .ok ((List.range n).map f) ∧ IsInverted lo n e f ∧ (∀ v < n, lo ≤ f v ∧ f v ≤ 1) := by
  obtain ⟨x, l, hl⟩ : ∃ x l, (List.range n).map e = x :: l := by
    cases h : (List.range n).map e with
    | nil => simp at h; omega
    | cons x l => exact ⟨x, l, rfl⟩
  have hset : {y | y ∈ x :: l} = {y | ∃ i < n, y = e i} := by
    ext y
    rw [← hl]
    simp [eq_comm]
  have h1 := foldl_min_least l x
  have h2 := foldl_max_greatest l x
  rw [hset] at h1 h2
  have hle : l.foldl min x ≤ l.foldl max x := h2.2 h1.1
  rw [hl]
  unfold transform
  simp only [← hl]
  by_cases heq : l.foldl max x - l.foldl min x = 0
  · refine ⟨fun _ => lo, by rw [if_pos heq, List.map_map]; rfl, ⟨_, _, h1, h2, fun i _ => ⟨fun h => absurd h ?_, fun _ => rfl⟩⟩, fun v _ => ⟨le_rfl, by linarith⟩⟩
    rw [sub_eq_zero.1 heq]
    exact lt_irrefl _
  · have hpos : 0 < l.foldl max x - l.foldl min x := lt_of_le_of_ne (by linarith) (Ne.symm heq)
    refine ⟨fun i => (l.foldl max x - e i) / (l.foldl max x - l.foldl min x), by rw [if_neg heq, List.map_map]; rfl,
      ⟨_, _, h1, h2, fun i _ => ⟨fun _ => div_mul_cancel₀ _ heq, fun h => absurd (by rw [h, sub_self]) heq⟩⟩, fun v hv => ⟨?_, ?_⟩⟩
    · refine hlo.trans (div_nonneg ?_ hpos.le)
      have := h2.2 ⟨v, hv, rfl⟩
      linarith
    · rw [div_le_one hpos]
      have := h1.2 ⟨v, hv, rfl⟩
      linarith

theorem numberOr_spec {c : Context ℝ} {default k : ℕ} {word : Option (List Char)} (h : IsOptionalNumber c.stoul default word k) : numberOr c default word = .ok k := by
  cases word with
  | none => rw [h.1 rfl]; rfl
  | some w => simp only [numberOr, h.2 w rfl]

theorem star_upper (word : Option (List Char)) : star word = .upper ↔ IsLetter word 'u' 'U' := by
  unfold IsLetter
  cases word with
  | none => simp [star]
  | some w =>
    simp only [star, Option.some.injEq, exists_eq_left', EdgeListReader.stripped_iff]
    split
    · simp_all
    · split <;> simp_all

/-! ### The program -/

/-- C171. What `vietoris_rips_eccentricity` writes: for each dimension below that of the Vietoris–Rips complex of the points, a header and the points of a diagram.  The value of a
point is one if it has the least eccentricity, and zero if it has the largest one.  The diagrams describe how the complex grows if points are added by ascending values,
or, with the argument `u`, by descending values; points on the diagonal are removed.  Missing, and wrong: if all eccentricities are equal, for instance for two points
(`C171_two_points`), all values are the lowest number; the largest dimension is not reported. -/
theorem _root_.Aleph.C171_output_partial (c : Context ℝ) (hroot : c.root = Real.sqrt) (lo hi : ℝ) (hlo : lo ≤ 0) (hhi : 1 ≤ hi) (hinf : 1 < c.inf) (o : Orders ℝ)
    (files : List Char → Option (List Char)) (input epsilon : List Char) (rest : List (List Char)) (pc : PointCloud ℝ) (rows : List (List ℝ))
    (hload : loadPoints c (files input) = .ok pc) (hpc : pc.Has rows) (hne : rows ≠ []) (k order : ℕ) (hk : IsOptionalNumber c.stoul (pc.d + 1) rest[0]? k)
    (horder : IsOptionalNumber c.stoul 1 rest[1]? order) (hone : order ≠ 0 ∨ rows.length ≠ 1) (hsize : ripsSize rows.length k ≤ idxMax) :
    ∃ e f Es texts, (∀ i < rows.length, IsEccentricity rows.length (pointDistance rows) order i (e i)) ∧ IsInverted lo rows.length e f ∧
      main c lo hi o files (input :: epsilon :: rest) = .ok (0, texts.flatten) ∧
      (IsLetter rest[2]? 'u' 'U' → IsStarAnalysis (α := ℝᵒᵈ) c.inf f (ripsBelow rows.length (pointDistance rows) k (c.convert epsilon)) Es) ∧
      (¬ IsLetter rest[2]? 'u' 'U' → IsStarAnalysis c.inf f (ripsBelow rows.length (pointDistance rows) k (c.convert epsilon)) Es) ∧
      List.Forall₂ (fun E t => IsRipsText (fun x => c.print (some x)) input E.1 E.2 t) Es texts := by
  have hn : pc.n = rows.length := hpc.count
  have hn0 : rows.length ≠ 0 := by simpa using hne
  have hd : ∀ u v, u < rows.length → v < rows.length → distance c pc u v = pointDistance rows u v := fun u v h1 h2 => (VietorisRipsExample.distances hroot hpc h1 h2).1
  have hnn : ∀ i j, 0 ≤ distance c pc i j := fun i j => by rw [distance, hroot]; exact Real.sqrt_nonneg _
  obtain ⟨e, e1, e2, e3⟩ := (C89_eccentricities rows.length (distance c pc) order hnn).1 hone
  have hmap : e = (List.range rows.length).map fun i => e.getD i 0 := by
    apply List.ext_getElem (by simp [e2])
    intro i h1 h2
    simp [List.getElem?_eq_getElem h1]
  obtain ⟨f, f1, f2, f3⟩ := transform_spec hlo hn0 fun i => e.getD i 0
  obtain ⟨K, Ds, r1, r2, r3, r4⟩ := filtered_run o (M := distance c pc) (k := k) (ε := c.convert epsilon) f (fun v hv => (f3 v hv).1) (fun v hv => (f3 v hv).2.trans hhi)
    (inf := c.inf) (fun v hv => ((f3 v hv).2.trans_lt hinf).ne) hsize (star rest[2]?)
  have hbelow : ripsBelow rows.length (distance c pc) k (c.convert epsilon) = ripsBelow rows.length (pointDistance rows) k (c.convert epsilon) := by
    unfold ripsBelow
    refine filter_congr fun t ht => ?_
    rw [mem_powerset] at ht
    refine and_congr_right fun _ => and_congr_right fun _ => ?_
    refine forall₂_congr fun u hu => forall₂_congr fun v hv => ?_
    rw [hd u v (mem_range.1 (ht hu)) (mem_range.1 (ht hv))]
  rw [hbelow] at r3 r4
  refine ⟨fun i => e.getD i 0, f, Ds.map fun D => (D.dimension, D.removeDiagonal.points), Ds.map (diagramBlock c input), ?_, f2, ?_, ?_, ?_, ?_⟩
  · intro i hi
    have hx := e3 i (e.getD i 0) (by rw [List.getD_eq_getElem _ _ (by omega), List.getElem?_eq_getElem (by omega)])
    unfold IsEccentricity at hx ⊢
    split at hx
    · rename_i h0
      rw [if_pos h0]
      have : {d | ∃ j < rows.length, j ≠ i ∧ d = distance c pc i j} = {d | ∃ j < rows.length, j ≠ i ∧ d = pointDistance rows i j} := by
        ext d
        refine exists_congr fun j => and_congr_right fun hj => ?_
        rw [hd i j hi hj]
      rwa [this] at hx
    · rename_i h0
      rw [if_neg h0]
      refine ⟨hx.1, hx.2.trans (sum_congr rfl fun j hj => ?_)⟩
      rw [hd i j hi (mem_range.1 (mem_erase.1 hj).2)]
  · unfold main diagrams arguments eccentricities
    rw [← hmap] at f1
    simp only [bind, Except.bind, hload, numberOr_spec hk, numberOr_spec horder, hn, e1, f1, r1, r2, List.flatMap_def]
  · intro h
    exact r3 ((star_upper _).2 h)
  · intro h
    exact r4 fun h' => h ((star_upper _).1 h')
  · rw [List.forall₂_map_left_iff, List.forall₂_map_right_iff, List.forall₂_same]
    intro D _
    refine ⟨_, _, Utilities.decimal_spec _, Utilities.decimal_spec _, ?_⟩
    unfold diagramBlock FunctionAnalysis.diagramText
    rfl

/-- C171, disagreement: the eccentricities of two points are equal, so that the values of both points are the lowest number. -/
theorem _root_.Aleph.C171_two_points (lo : ℝ) (rows : List (List ℝ)) (h2 : rows.length = 2) (order : ℕ) (e f : ℕ → ℝ)
    (he : ∀ i < rows.length, IsEccentricity rows.length (pointDistance rows) order i (e i)) (hf : IsInverted lo rows.length e f) : f 0 = lo ∧ f 1 = lo := by
  have hsymm : ∀ i j, pointDistance rows i j = pointDistance rows j i := by
    intro i j
    unfold pointDistance
    rw [List.zipWith_comm]
    have : (fun b a : ℝ => (a - b) ^ 2) = fun x y => (x - y) ^ 2 := by
      funext x y
      ring
    rw [this]
  have h01 : e 0 = e 1 := by
    have k0 := he 0 (by omega)
    have k1 := he 1 (by omega)
    refine DataDescriptors.isEccentricity_unique (i := 0) (by omega) k0 ?_
    rw [h2] at k1 ⊢
    unfold IsEccentricity at k1 ⊢
    split at k1
    · rename_i h0
      rw [if_pos h0]
      have : {d | ∃ j < 2, j ≠ 0 ∧ d = pointDistance rows 0 j} = {d | ∃ j < 2, j ≠ 1 ∧ d = pointDistance rows 1 j} := by
        ext d
        constructor
        · rintro ⟨j, hj, hj0, rfl⟩
          obtain rfl : j = 1 := by omega
          exact ⟨0, by omega, by omega, hsymm _ _⟩
        · rintro ⟨j, hj, hj0, rfl⟩
          obtain rfl : j = 0 := by omega
          exact ⟨1, by omega, by omega, hsymm _ _⟩
      rwa [this]
    · rename_i h0
      rw [if_neg h0]
      refine ⟨k1.1, k1.2.trans ?_⟩
      rw [show (range 2).erase 1 = {0} by decide, show (range 2).erase 0 = {1} by decide, sum_singleton, sum_singleton, hsymm]
  obtain ⟨least, largest, g1, g2, g3⟩ := hf
  have hset : {x | ∃ i < rows.length, x = e i} = {e 0} := by
    ext x
    constructor
    · rintro ⟨i, hi, rfl⟩
      have : i = 0 ∨ i = 1 := by omega
      rcases this with rfl | rfl
      · rfl
      · exact h01.symm
    · intro hx
      exact ⟨0, by omega, hx⟩
  rw [hset] at g1 g2
  have : least = largest := by rw [Set.mem_singleton_iff.1 g1.1, Set.mem_singleton_iff.1 g2.1]
  exact ⟨(g3 0 (by omega)).2 this, (g3 1 (by omega)).2 this⟩

/-- C171. With less than two arguments, the program does nothing but report failure.  It reads behind the end of an array if the file cannot be opened, or contains no points; and for
order zero if there is a single point. -/
theorem _root_.Aleph.C171_failures (c : Context ℝ) (hroot : c.root = Real.sqrt) (lo hi : ℝ) (o : Orders ℝ) (files : List Char → Option (List Char)) (input epsilon : List Char)
    (rest : List (List Char)) :
    main c lo hi o files [] = .ok (-1, []) ∧ main c lo hi o files [input] = .ok (-1, []) ∧
    (∀ pc k order, loadPoints c (files input) = .ok pc → IsOptionalNumber c.stoul (pc.d + 1) rest[0]? k → IsOptionalNumber c.stoul 1 rest[1]? order →
      pc.n = 0 ∨ pc.n = 1 ∧ order = 0 → main c lo hi o files (input :: epsilon :: rest) = .error .undefined) ∧
    (files input = none → ∃ pc, loadPoints c (files input) = .ok pc ∧ pc.n = 0) ∧
    (∀ text, files input = some text → ∀ pc, loadPoints c (files input) = .ok pc ↔ PointCloud.load c.convert text = some pc) ∧
    (∀ text, files input = some text → PointCloud.load c.convert text = none → main c lo hi o files (input :: epsilon :: rest) = .error .exception) ∧
    ∀ i < 2, ∀ w, rest[i]? = some w → c.stoul w = none → main c lo hi o files (input :: epsilon :: rest) = .error .exception := by
  refine ⟨rfl, rfl, ?_, ?_, ?_, ?_, ?_⟩
  · intro pc k order hload hk horder h
    unfold main diagrams arguments eccentricities
    rcases h with h | ⟨h, rfl⟩
    · simp only [bind, Except.bind, hload, numberOr_spec hk, numberOr_spec horder, h, DataDescriptors.eccentricities, if_true, transform]
    · have := (C89_eccentricities 1 (distance c pc) 0 fun i j => by rw [distance, hroot]; exact Real.sqrt_nonneg _).2 ⟨rfl, rfl⟩
      simp only [bind, Except.bind, hload, numberOr_spec hk, numberOr_spec horder, h, this]
  · intro h
    exact ⟨_, by rw [h]; rfl, rfl⟩
  · intro text h pc
    rw [h]
    unfold loadPoints
    cases hl : PointCloud.load c.convert text <;> simp only [hl] <;> simp
  · intro text h hl
    unfold main diagrams
    simp only [bind, Except.bind, h, loadPoints, hl]
  · intro i hi w hw hs
    have hl : (∃ pc, loadPoints c (files input) = .ok pc) ∨ loadPoints c (files input) = .error .exception := by
      unfold loadPoints
      cases files input with
      | none => exact Or.inl ⟨_, rfl⟩
      | some text => cases hl : PointCloud.load c.convert text <;> simp only [hl] <;> simp
    unfold main diagrams arguments
    rcases hl with ⟨pc, hl⟩ | hl
    · have hnum : ∀ d, numberOr c d (some w) = .error .exception := fun d => by simp only [numberOr, hs]
      have hi' : i = 0 ∨ i = 1 := by omega
      rcases hi' with rfl | rfl
      · simp only [bind, Except.bind, hl, hw, hnum]
      · cases h0 : numberOr c (pc.d + 1) rest[0]? with
        | ok k => simp only [bind, Except.bind, hl, hw, hnum, h0]
        | error x =>
          have : x = .exception := by
            cases h1 : rest[0]? with
            | none => rw [h1] at h0; cases h0
            | some w' =>
              rw [h1] at h0
              unfold numberOr at h0
              cases h2 : c.stoul w' with
              | none => simp only [h2] at h0; cases h0; rfl
              | some k => simp only [h2] at h0; cases h0
          simp only [bind, Except.bind, hl, h0, this]
    · simp only [bind, Except.bind, hl]

/-! ### Concrete points -/

theorem distance_demo (i j : ℕ) (hi : i < 3) (hj : j < 3) : pointDistance [[0], [1], [3]] i j = |([0, 1, 3].getD i 0 : ℝ) - [0, 1, 3].getD j 0| := by
  unfold pointDistance
  rw [← Real.sqrt_sq_eq_abs]
  congr 1
  interval_cases i <;> interval_cases j <;> simp

/-- The hypotheses of `C171_output_partial` hold for three points, whose values are not equal. -/
example : (⟨3, 1, [0, 1, 3]⟩ : PointCloud ℝ).Has [[0], [1], [3]] ∧ IsOptionalNumber (fun _ => some 0) 2 none 2 ∧ IsOptionalNumber (fun _ => some 0) 1 (some ['0']) 0 ∧
    IsLetter (some [' ', 'U']) 'u' 'U' ∧ ripsSize 3 2 ≤ idxMax ∧ IsInverted (-1000) 3 (fun i => [3, 2, 3].getD i 0) (fun i => [0, 1, 0].getD i 0) ∧
    ∀ i < 3, IsEccentricity 3 (pointDistance [[0], [1], [3]]) 0 i ([3, 2, 3].getD i 0) := by
  refine ⟨⟨rfl, by simp, rfl⟩, ⟨fun _ => rfl, by simp⟩, ⟨by simp, fun _ _ => rfl⟩, ⟨_, rfl, Or.inr ⟨⟨[' '], [], rfl, by simp [whitespace], by simp⟩, by simp [whitespace], by simp [whitespace]⟩⟩,
    by decide, ⟨2, 3, ⟨⟨1, by norm_num, by norm_num⟩, ?_⟩, ⟨⟨0, by norm_num, by norm_num⟩, ?_⟩, ?_⟩, ?_⟩
  · rintro _ ⟨i, hi, rfl⟩
    interval_cases i <;> norm_num
  · rintro _ ⟨i, hi, rfl⟩
    interval_cases i <;> norm_num
  · intro i hi
    interval_cases i <;> norm_num
  · intro i hi
    unfold IsEccentricity
    rw [if_pos rfl]
    constructor
    · refine ⟨if i = 0 then 2 else if i = 1 then 2 else 0, by split_ifs <;> norm_num, by split_ifs <;> omega, ?_⟩
      rw [distance_demo i _ hi (by split_ifs <;> norm_num)]
      interval_cases i <;> norm_num
    · rintro _ ⟨j, hj, -, rfl⟩
      rw [distance_demo i j hi hj]
      interval_cases i <;> interval_cases j <;> norm_num

end Aleph.EccentricityExample
