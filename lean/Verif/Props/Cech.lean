import Verif.Model.Cech
import Verif.Spec.Cech
import Verif.Props.Combine
import Verif.Props.VietorisRips
import Mathlib.Algebra.Order.Ring.Defs
import Mathlib.Topology.MetricSpace.Bounded
import Mathlib.Analysis.SpecialFunctions.Pow.NNReal
import Mathlib.Tactic.Linarith

/-!
# Čech complexes
-/

namespace Aleph

open Spec Finset

variable {α P : Type}

namespace Cech

/-- The simplices with `d` vertices. -/
def level [LinearOrder α] [Mul α] [OfNat α 2] (ball : List P → α) (root : α → α) (point : ℕ → P) (R : α) (n d : ℕ) :
    List (Simplex α) :=
  (((List.range n).sublistsLen d).reverse.filter fun c => ball (c.map point) ≤ R).map
    fun c => Simplex.ofRange c (2 * root (ball (c.map point)))

lemma runUntil_visit [LinearOrder α] [Mul α] [OfNat α 2] (ball : List P → α) (root : α → α) (point : ℕ → P) (R : α)
    (S : List (Simplex α)) (l : List (List ℕ)) :
    runUntil (visit ball root point R) S l =
      (S ++ (l.filter fun c => ball (c.map point) ≤ R).map
        fun c => Simplex.ofRange c (2 * root (ball (c.map point))), false) := by
  induction l generalizing S with
  | nil => simp [runUntil]
  | cons c l ih =>
    rw [runUntil, visit]
    by_cases h : ball (c.map point) ≤ R
    · simp only [h, if_true]
      rw [ih]
      simp [h]
    · simp only [h, if_false]
      rw [ih]
      simp [h]

lemma forEach_visit [LinearOrder α] [Mul α] [OfNat α 2] (ball : List P → α) (root : α → α) (point : ℕ → P) (R : α)
    (S : List (Simplex α)) (n d : ℕ) (hd : d ≤ n) :
    Combine.forEach (visit ball root point R) d (List.range n) S =
      (S ++ level ball root point R n d, false, List.range n) := by
  obtain ⟨l', h1, -, h3⟩ := C59_for_each_combination (visit ball root point R) d (List.range n) (by simpa using hd) S
  rw [runUntil_visit] at h1 h3
  rw [h1, h3 rfl]
  rfl

lemma loop_eq [LinearOrder α] [Mul α] [OfNat α 2] (ball : List P → α) (root : α → α) (point : ℕ → P) (R : α) (n : ℕ)
    (ds : List ℕ) (hds : ∀ d ∈ ds, d ≤ n)
    (hmono : ds.Pairwise fun d e => level ball root point R n d = [] → level ball root point R n e = [])
    (S : List (Simplex α)) :
    loop ball root point R ds (List.range n) S = S ++ ds.flatMap (level ball root point R n) := by
  induction ds generalizing S with
  | nil => simp [loop]
  | cons d ds ih =>
    rw [loop, forEach_visit _ _ _ _ _ _ _ (hds d (by simp))]
    simp only
    rw [List.pairwise_cons] at hmono
    split
    · next h =>
      have h0 : level ball root point R n d = [] := by
        rw [← List.length_eq_zero_iff]
        simp at h; simp [h]
      rw [List.flatMap_cons, h0]
      have : ds.flatMap (level ball root point R n) = [] := by
        rw [List.flatMap_eq_nil_iff]
        exact fun e he => hmono.1 e he h0
      rw [this]; simp
    · rw [ih (fun e he => hds e (by simp [he])) hmono.2]
      simp

end Cech

open Cech

lemma miniball_mono [LinearOrder α] {sq : P → P → α} {ball : List P → α} (hb : IsMiniball sq ball) {c e : List P}
    (hc : c ≠ []) (he : e ≠ []) (hce : c ⊆ e) : ball c ≤ ball e := by
  obtain ⟨⟨z, hz⟩, -⟩ := hb e he
  exact (hb c hc).2 ⟨z, fun p hp => hz p (hce hp)⟩

/-- **C62.**  The Čech complex of `n` points for the radius `r` contains exactly the non-empty sets of points whose closed
balls of radius `|r|` have a common point, each of them once; vertices have the default value (zero), every other
simplex the diameter of its smallest enclosing ball; the complex is a filtration sorted by these values. -/
theorem C62_cech [CommRing α] [LinearOrder α] [IsStrictOrderedRing α] (sq : P → P → α) (hsq : ∀ p, sq p p = 0)
    (hnn : ∀ p q, 0 ≤ sq p q) (ball : List P → α) (hb : IsMiniball sq ball) (root : α → α)
    (hroot : ∀ x y, 0 ≤ x → x ≤ y → 0 ≤ root x ∧ root x ≤ root y) (n : ℕ) (point : ℕ → P) (r : α) :
    ∃ L, buildCechComplex ball root 0 n point r = some L ∧ WF L ∧
      (∀ t : Finset ℕ, Has L t ↔ t.Nonempty ∧ (∀ v ∈ t, v < n) ∧ ∃ z, ∀ v ∈ t, sq (point v) z ≤ r ^ 2) ∧
      (∀ s ∈ L, #s.vset = 1 → s.data = 0) ∧
      (∀ s ∈ L, 2 ≤ #s.vset →
        ∃ b, IsLeast {x | ∃ z, ∀ v ∈ s.vset, sq (point v) z ≤ x} b ∧ s.data = 2 * root b) ∧
      FaceClosed L ∧ FacesFirst L ∧ L.Pairwise fun s t => s.data ≤ t.data := by
  classical
  set R := r * r with hR
  set lv := level ball root point R n with hlv
  -- the elements of the levels
  have hmem : ∀ d s, s ∈ lv d ↔ ∃ c : List ℕ, c.Sublist (List.range n) ∧ c.length = d ∧ ball (c.map point) ≤ R ∧
      s = Simplex.ofRange c (2 * root (ball (c.map point))) := by
    intro d s
    simp only [hlv, level, List.mem_map, List.mem_filter, List.mem_reverse, List.mem_sublistsLen, decide_eq_true_eq]
    constructor
    · rintro ⟨c, ⟨⟨h1, h2⟩, h3⟩, rfl⟩; exact ⟨c, h1, h2, h3, rfl⟩
    · rintro ⟨c, h1, h2, h3, rfl⟩; exact ⟨c, ⟨⟨h1, h2⟩, h3⟩, rfl⟩
  have hne : ∀ {c : List ℕ} {d : ℕ}, c.length = d → 1 ≤ d → c.map point ≠ [] := by
    intro c d h hd h'
    have := congrArg List.length h'
    simp at this; simp [this] at h; omega
  have hmono : (List.range' 2 (n - 1)).Pairwise fun d e => lv d = [] → lv e = [] := by
    have hlt : (List.range' 2 (n - 1)).Pairwise (· < ·) := List.pairwise_lt_range'
    refine hlt.imp_of_mem ?_
    intro d e hd _ hde h0
    rw [List.eq_nil_iff_forall_not_mem] at h0 ⊢
    intro s hs
    obtain ⟨c, h1, h2, h3, -⟩ := (hmem e s).1 hs
    have hd2 : 2 ≤ d := by simp [List.mem_range'_1] at hd; omega
    refine h0 (Simplex.ofRange (c.take d) (2 * root (ball ((c.take d).map point)))) ((hmem d _).2
      ⟨c.take d, (List.take_sublist d c).trans h1, by simp; omega, ?_, rfl⟩)
    refine le_trans (miniball_mono hb (hne (by simp; omega : (c.take d).length = d) (by omega)) (hne h2 (by omega)) ?_) h3
    exact List.map_subset _ (List.take_subset d c)
  set V : List (Simplex α) := (List.range n).map fun v => Simplex.ofVertex v 0 with hV
  set S := V ++ (List.range' 2 (n - 1)).flatMap lv with hS
  have hloop : Cech.loop ball root point R (List.range' 2 (n - 1)) (List.range n) V = S :=
    loop_eq _ _ _ _ _ _ (fun d hd => by simp [List.mem_range'_1] at hd; omega) hmono V
  have hsort : ∀ {c : List ℕ}, c.Sublist (List.range n) → c.Pairwise (· < ·) :=
    fun h => List.pairwise_lt_range.sublist h
  have hverts : ∀ {c : List ℕ} (x : α), c.Sublist (List.range n) → (Simplex.ofRange c x).vertices = c.reverse := by
    intro c x h
    have h1 : Normal c.reverse := by
      unfold Normal; rw [List.pairwise_reverse]; exact hsort h
    refine (ofRange_normal c x).ext h1 fun v => ?_
    rw [mem_ofRange, List.mem_reverse]
  have hvset : ∀ {c : List ℕ} (x : α), c.Sublist (List.range n) → (Simplex.ofRange c x).vset = c.toFinset := by
    intro c x h
    rw [Simplex.vset, hverts x h, List.toFinset_reverse]
  have hmemS : ∀ s, s ∈ S ↔ (∃ v < n, s = Simplex.ofVertex v 0) ∨ ∃ c : List ℕ, c.Sublist (List.range n) ∧
      2 ≤ c.length ∧ ball (c.map point) ≤ R ∧ s = Simplex.ofRange c (2 * root (ball (c.map point))) := by
    intro s
    rw [hS, List.mem_append, List.mem_flatMap]
    refine or_congr ?_ ?_
    · simp only [hV, List.mem_map, List.mem_range, eq_comm]
    · constructor
      · rintro ⟨d, hd, hs⟩
        obtain ⟨c, h1, h2, h3, h4⟩ := (hmem d s).1 hs
        simp only [List.mem_range'_1] at hd
        exact ⟨c, h1, by omega, h3, h4⟩
      · rintro ⟨c, h1, h2, h3, h4⟩
        have : c.length ≤ n := by simpa using h1.length_le
        exact ⟨c.length, by simp only [List.mem_range'_1]; omega, (hmem _ s).2 ⟨c, h1, rfl, h3, h4⟩⟩
  have hSne : ∀ s ∈ S, s.vertices ≠ [] := by
    intro s hs
    rcases (hmemS s).1 hs with ⟨v, hv, rfl⟩ | ⟨c, h1, h2, h3, rfl⟩
    · simp [Simplex.ofVertex]
    · rw [hverts _ h1]
      intro h
      rw [List.reverse_eq_nil_iff] at h
      simp [h] at h2
  have hSnormal : ∀ s ∈ S, Normal s.vertices := by
    intro s hs
    rcases (hmemS s).1 hs with ⟨v, hv, rfl⟩ | ⟨c, h1, h2, h3, rfl⟩
    · simp [Simplex.ofVertex, Normal]
    · exact ofRange_normal _ _
  have hlvmap : ∀ d, (lv d).map (·.vertices) =
      (((List.range n).sublistsLen d).reverse.filter fun c => ball (c.map point) ≤ R).map List.reverse := by
    intro d
    rw [hlv, level, List.map_map]
    refine List.map_congr_left ?_
    intro c hc
    simp only [List.mem_filter, List.mem_reverse, List.mem_sublistsLen] at hc
    exact hverts _ hc.1.1
  have hSnodup : (S.map (·.vertices)).Nodup := by
    rw [hS, List.map_append, List.nodup_append]
    refine ⟨?_, ?_, ?_⟩
    · rw [hV, List.map_map]
      refine List.Nodup.map ?_ List.nodup_range
      intro a b h
      simpa [Simplex.ofVertex] using h
    · rw [List.map_flatMap, List.nodup_flatMap]
      refine ⟨fun d _ => ?_, ?_⟩
      · rw [hlvmap]
        refine List.Nodup.map List.reverse_injective (List.Nodup.filter _ ?_)
        rw [List.nodup_reverse]
        exact List.nodup_sublistsLen d List.nodup_range
      · refine (List.pairwise_lt_range' (s := 2) (n := n - 1) (step := 1)).imp ?_
        intro d e hde
        rw [Function.onFun, List.disjoint_left]
        intro vs h1 h2
        rw [hlvmap] at h1 h2
        simp only [List.mem_map, List.mem_filter, List.mem_reverse, List.mem_sublistsLen] at h1 h2
        obtain ⟨c, ⟨⟨-, h1⟩, -⟩, rfl⟩ := h1
        obtain ⟨c', ⟨⟨-, h2⟩, -⟩, h3⟩ := h2
        have := congrArg List.length h3
        simp at this; omega
    · intro vs h1 vs' h2 h
      subst h
      rw [hV, List.map_map] at h1
      simp only [List.mem_map, List.mem_range, Function.comp, Simplex.ofVertex] at h1
      obtain ⟨v, -, rfl⟩ := h1
      simp only [List.mem_map, List.mem_flatMap, List.mem_range'_1] at h2
      obtain ⟨s, ⟨d, hd, hs⟩, h⟩ := h2
      obtain ⟨c, h1, h2, h3, rfl⟩ := (hmem d s).1 hs
      rw [hverts _ h1] at h
      have := congrArg List.length h
      simp at this; omega
  have hWF : WF S := ⟨hSnormal, hSne, hSnodup⟩
  have hins : Complex.insertRange [] S = (S, false) := by
    have := insertRange_nodup [] S hSne (by simpa using hSnodup)
    simpa using this
  -- the value of a simplex with at least two vertices
  have hleast : ∀ {c : List ℕ}, 2 ≤ c.length →
      IsLeast {x | ∃ z, ∀ v ∈ c.toFinset, sq (point v) z ≤ x} (ball (c.map point)) := by
    intro c hc
    have := hb (c.map point) (hne rfl (by omega))
    simpa using this
  have hball0 : ∀ {c : List ℕ}, 2 ≤ c.length → 0 ≤ ball (c.map point) := by
    intro c hc
    obtain ⟨⟨z, hz⟩, -⟩ := hleast hc
    obtain ⟨v, hv⟩ : ∃ v, v ∈ c.toFinset := by
      cases c with
      | nil => simp at hc
      | cons v c => exact ⟨v, by simp⟩
    exact le_trans (hnn _ _) (hz v hv)
  have hcardc : ∀ {c : List ℕ}, c.Sublist (List.range n) → #c.toFinset = c.length :=
    fun h => List.toFinset_card_of_nodup (List.nodup_range.sublist h)
  have hdata : ∀ s ∈ S, (#s.vset = 1 ∧ s.data = 0) ∨ (2 ≤ #s.vset ∧ ∃ b, 0 ≤ b ∧
      IsLeast {x | ∃ z, ∀ v ∈ s.vset, sq (point v) z ≤ x} b ∧ s.data = 2 * root b) := by
    intro s hs
    rcases (hmemS s).1 hs with ⟨v, hv, rfl⟩ | ⟨c, h1, h2, h3, rfl⟩
    · left; simp [Simplex.ofVertex, Simplex.vset]
    · right
      rw [hvset _ h1, hcardc h1]
      exact ⟨h2, _, hball0 h2, hleast h2, rfl⟩
  have hdmono : ∀ s ∈ S, ∀ t ∈ S, s.vset ⊂ t.vset → s.data ≤ t.data := by
    intro s hs t ht hst
    have hlt := card_lt_card hst
    rcases hdata t ht with ⟨h1, h2⟩ | ⟨h1, b, hb0, h2, h3⟩
    · have : 0 < #s.vset := card_pos.2 (hWF.vset_nonempty hs)
      omega
    · rw [h3]
      rcases hdata s hs with ⟨-, h4⟩ | ⟨-, b', hb0', h4, h5⟩
      · rw [h4]
        exact mul_nonneg (by norm_num) (hroot b b hb0 le_rfl).1
      · rw [h5]
        refine mul_le_mul_of_nonneg_left (hroot b' b hb0' ?_).2 (by norm_num)
        obtain ⟨⟨z, hz⟩, -⟩ := h2
        exact h4.2 ⟨z, fun v hv => hz v (hst.1 hv)⟩
  obtain ⟨k1, k2, k3⟩ := sort_data_spec hWF hdmono
  have hperm := sort_perm S (asLt (Filtration.data fun a b => decide (a < b)))
  have hhas : ∀ t : Finset ℕ, Has (Complex.sort S (asLt (Filtration.data fun a b => decide (a < b)))) t ↔
      t.Nonempty ∧ (∀ v ∈ t, v < n) ∧ ∃ z, ∀ v ∈ t, sq (point v) z ≤ r ^ 2 := by
    intro t
    have hR2 : r ^ 2 = R := by rw [hR, pow_two]
    unfold Has
    simp only [hperm.mem_iff]
    constructor
    · rintro ⟨s, hs, rfl⟩
      refine ⟨hWF.vset_nonempty hs, ?_⟩
      rcases (hmemS s).1 hs with ⟨v, hv, rfl⟩ | ⟨c, h1, h2, h3, rfl⟩
      · simp only [Simplex.ofVertex, Simplex.vset, List.toFinset_cons, List.toFinset_nil, insert_empty_eq,
          mem_singleton, forall_eq]
        exact ⟨hv, point v, by rw [hsq]; exact sq_nonneg r⟩
      · rw [hvset _ h1]
        obtain ⟨⟨z, hz⟩, -⟩ := hleast h2
        refine ⟨fun v hv => by simpa using h1.subset (List.mem_toFinset.1 hv), z, fun v hv => ?_⟩
        rw [hR2]
        exact (hz v hv).trans h3
    · rintro ⟨h1, h2, z, hz⟩
      set c := (List.range n).filter (· ∈ t) with hc
      have hct : c.toFinset = t := by
        ext v
        simp only [hc, List.mem_toFinset, List.mem_filter, List.mem_range, decide_eq_true_eq]
        exact ⟨fun h => h.2, fun h => ⟨h2 v h, h⟩⟩
      have hcs : c.Sublist (List.range n) := List.filter_sublist
      have hcl : c.length = #t := by rw [← hcardc hcs, hct]
      rcases Nat.lt_or_ge (#t) 2 with h | h
      · have : #t = 1 := by have := card_pos.2 h1; omega
        obtain ⟨v, rfl⟩ := card_eq_one.1 this
        exact ⟨Simplex.ofVertex v 0, (hmemS _).2 (Or.inl ⟨v, h2 v (by simp), rfl⟩), by
          simp [Simplex.ofVertex, Simplex.vset]⟩
      · refine ⟨_, (hmemS _).2 (Or.inr ⟨c, hcs, by omega, ?_, rfl⟩), by rw [hvset _ hcs, hct]⟩
        refine (hleast (by omega)).2 ⟨z, fun v hv => ?_⟩
        rw [← hR2]
        exact hz v (by rwa [hct] at hv)
  refine ⟨_, by unfold buildCechComplex; simp only [← hR]; rw [hloop, hins], k1, hhas, ?_, ?_, ?_, k2, k3⟩
  · intro s hs h
    rcases hdata s (hperm.subset hs) with h' | h'
    · exact h'.2
    · omega
  · intro s hs h
    rcases hdata s (hperm.subset hs) with h' | ⟨-, b, -, h1, h2⟩
    · omega
    · exact ⟨b, h1, h2⟩
  · intro s hs t ht h0
    obtain ⟨h1, h2, z, hz⟩ := (hhas _).1 ⟨s, hs, rfl⟩
    exact (hhas t).2 ⟨h0, fun v hv => h2 v (ht hv), z, fun v hv => hz v (ht hv)⟩

/-- Smallest enclosing balls exist in every proper metric space, in particular in Euclidean space. -/
theorem exists_isMiniball (P : Type) [PseudoMetricSpace P] [ProperSpace P] :
    ∃ ball : List P → ℝ, IsMiniball (fun p q => dist p q ^ 2) ball := by
  classical
  suffices h : ∀ c : List P, c ≠ [] → ∃ b : ℝ, IsLeast {s | ∃ z, ∀ p ∈ c, dist p z ^ 2 ≤ s} b by
    exact ⟨fun c => if hc : c ≠ [] then (h c hc).choose else 0, fun c hc => by
      simp only [hc, dite_true, ne_eq, not_false_eq_true]; exact (h c hc).choose_spec⟩
  intro c hc
  obtain ⟨p0, c', rfl⟩ : ∃ p0 c', c = p0 :: c' := by cases c with
    | nil => exact absurd rfl hc
    | cons p c => exact ⟨p, c, rfl⟩
  set c := p0 :: c'
  -- the largest squared distance to a given centre
  let f : P → ℝ := fun z => c.foldr (fun p m => max (dist p z ^ 2) m) 0
  have hf : ∀ z s, f z ≤ s ↔ 0 ≤ s ∧ ∀ p ∈ c, dist p z ^ 2 ≤ s := by
    intro z s
    show List.foldr (fun p m => max (dist p z ^ 2) m) 0 c ≤ s ↔ _
    clear f hc
    generalize c = l
    induction l with
    | nil => simp
    | cons p l ih =>
      simp only [List.foldr_cons, max_le_iff, ih, List.mem_cons, forall_eq_or_imp]
      tauto
  have hcont : Continuous f := by
    show Continuous fun z => List.foldr (fun p m => max (dist p z ^ 2) m) 0 c
    clear hf f hc
    generalize c = l
    induction l with
    | nil => exact continuous_const
    | cons p l ih =>
      simp only [List.foldr_cons]
      exact ((continuous_const.dist continuous_id).pow 2).max ih
  -- a minimum on a sufficiently large ball
  obtain ⟨z, hz, hmin⟩ := (isCompact_closedBall p0 (f p0 + 1)).exists_isMinOn
    ⟨p0, Metric.mem_closedBall_self (by
      have := ((hf p0 (f p0)).1 le_rfl).1; linarith)⟩ hcont.continuousOn
  refine ⟨f z, ⟨z, fun p hp => ((hf z _).1 le_rfl).2 p hp⟩, ?_⟩
  rintro s ⟨w, hw⟩
  have hws : f w ≤ s := (hf w s).2 ⟨le_trans (sq_nonneg _) (hw p0 (by simp [c])), hw⟩
  refine le_trans ?_ hws
  by_cases hin : w ∈ Metric.closedBall p0 (f p0 + 1)
  · exact hmin hin
  · have h0 := ((hf p0 (f p0)).1 le_rfl).1
    have h1 : f z ≤ f p0 := hmin (Metric.mem_closedBall_self (by linarith))
    have h2 := ((hf w (f w)).1 le_rfl).2 p0 (by simp [c])
    rw [Metric.mem_closedBall, dist_comm, not_le] at hin
    have h3 : (f p0 + 1) ^ 2 ≤ dist p0 w ^ 2 := pow_le_pow_left₀ (by linarith) hin.le 2
    nlinarith

/-- **C62.**  The same for real points with the real square root: the set of centres of the closed balls of radius `r`
that contain all points of a simplex is non-empty, and the value of a simplex is twice the smallest radius. -/
theorem C62_cech_real [PseudoMetricSpace P] (ball : List P → ℝ) (hb : IsMiniball (fun p q => dist p q ^ 2) ball) (n : ℕ)
    (point : ℕ → P) (r : ℝ) (hr : 0 ≤ r) :
    ∃ L, buildCechComplex ball Real.sqrt 0 n point r = some L ∧ WF L ∧
      (∀ t : Finset ℕ, Has L t ↔ t.Nonempty ∧ (∀ v ∈ t, v < n) ∧
        (⋂ v ∈ t, Metric.closedBall (point v) r).Nonempty) ∧
      (∀ s ∈ L, #s.vset = 1 → s.data = 0) ∧
      (∀ s ∈ L, 2 ≤ #s.vset → IsLeast {x | (⋂ v ∈ s.vset, Metric.closedBall (point v) x).Nonempty} (s.data / 2)) ∧
      FaceClosed L ∧ FacesFirst L ∧ L.Pairwise fun s t => s.data ≤ t.data := by
  have hne : ∀ (t : Finset ℕ) (x : ℝ), (⋂ v ∈ t, Metric.closedBall (point v) x).Nonempty ↔
      ∃ z, ∀ v ∈ t, dist (point v) z ≤ x := by
    intro t x
    simp only [Set.Nonempty, Set.mem_iInter, Metric.mem_closedBall, dist_comm]
  obtain ⟨L, h1, h2, h3, h4, h5, h6, h7, h8⟩ := C62_cech (fun p q : P => dist p q ^ 2) (fun p => by simp)
    (fun p q => sq_nonneg _) ball hb Real.sqrt (fun x y _ h => ⟨Real.sqrt_nonneg x, Real.sqrt_le_sqrt h⟩) n point r
  refine ⟨L, h1, h2, ?_, h4, ?_, h6, h7, h8⟩
  · intro t
    rw [h3, hne]
    simp only [pow_le_pow_iff_left₀ dist_nonneg hr two_ne_zero]
  · intro s hs hc
    obtain ⟨b, ⟨⟨z, hz⟩, hlow⟩, hd⟩ := h5 s hs hc
    rw [hd, mul_div_cancel_left₀ _ two_ne_zero]
    obtain ⟨v0, hv0⟩ : s.vset.Nonempty := card_pos.1 (by omega)
    refine ⟨?_, ?_⟩
    · simp only [Set.mem_ofPred_eq]
      rw [hne]
      exact ⟨z, fun v hv => Real.le_sqrt_of_sq_le (hz v hv)⟩
    · rintro x hx
      simp only [Set.mem_ofPred_eq] at hx
      rw [hne] at hx
      obtain ⟨w, hw⟩ := hx
      have hx0 : 0 ≤ x := le_trans dist_nonneg (hw v0 hv0)
      refine Real.sqrt_le_iff.2 ⟨hx0, hlow ⟨w, fun v hv => ?_⟩⟩
      exact pow_le_pow_left₀ dist_nonneg (hw v hv) 2

/-- The hypotheses are satisfied for points on the real line. -/
example : ∃ ball : List ℝ → ℝ, IsMiniball (fun p q => dist p q ^ 2) ball := exists_isMiniball ℝ

/-- The rational points 0, 1 and 3 with radius 1 (the smallest enclosing ball of points on a line is bounded by two of
them). -/
example :
    buildCechComplex (α := ℚ)
      (fun c : List ℚ => (((c.foldr max (c.headD 0)) - (c.foldr min (c.headD 0))) / 2) ^ 2)
      (fun x => if x = 1 / 4 then 1 / 2 else x) 0 3 (fun i => ([0, 1, 3] : List ℚ).getD i 0) 1 =
      some [⟨[0], 0⟩, ⟨[1], 0⟩, ⟨[2], 0⟩, ⟨[1, 0], 1⟩, ⟨[2, 1], 2⟩] := by decide +kernel

end Aleph
