import Verif.Spec.Stability
import Verif.Props.PersistentBetti
import Verif.Props.Hausdorff
import Verif.Props.Wasserstein
import Verif.Spec.Bottleneck
import Mathlib.Data.List.Sort
import Mathlib.Data.Prod.Lex
import Mathlib.Tactic.Linarith
import Mathlib.Tactic.Ring
import Mathlib.Tactic.FieldSimp

/-!
# C155: stability of persistence diagrams
-/

namespace Aleph.Stability

open Finset Spec

/-! ### Complexes given by a list of vertex lists and a function -/

section Basic

variable {α : Type}

/-- The complex with the simplices `V` and the data `f`. -/
def cplx (V : List (List ℕ)) (f : List ℕ → α) : Complex α := V.map fun v => ⟨v, f v⟩

theorem cplx_vertices (V : List (List ℕ)) (f : List ℕ → α) : (cplx V f).map (·.vertices) = V := by
  simp [cplx, Function.comp_def]

theorem exists_cplx [Inhabited α] {K : Complex α} (hK : (K.map (·.vertices)).Nodup) :
    ∃ f : List ℕ → α, (∀ s ∈ K, f s.vertices = s.data) ∧ K = cplx (K.map (·.vertices)) f := by
  classical
  let f : List ℕ → α := fun v => if h : ∃ s ∈ K, s.vertices = v then h.choose.data else default
  have hf : ∀ s ∈ K, f s.vertices = s.data := by
    intro s hs
    have h : ∃ t ∈ K, t.vertices = s.vertices := ⟨s, hs, rfl⟩
    have e : f s.vertices = h.choose.data := dif_pos h
    rw [e, List.inj_on_of_nodup_map hK h.choose_spec.1 hs h.choose_spec.2]
  refine ⟨f, hf, ?_⟩
  unfold cplx
  rw [List.map_map]
  conv_lhs => rw [← List.map_id K]
  refine List.map_congr_left fun s hs => ?_
  simp only [id, Function.comp, hf s hs]

theorem vsetAt_cplx (V : List (List ℕ)) (f : List ℕ → α) (i : ℕ) : vsetAt (cplx V f) i = (V[i]?.map List.toFinset).getD ∅ := by
  unfold vsetAt cplx
  rw [List.getElem?_map]
  cases V[i]? <;> rfl

theorem vsetAt_eq {V : List (List ℕ)} (f g : List ℕ → α) : vsetAt (cplx V f) = vsetAt (cplx V g) := by
  funext i; rw [vsetAt_cplx, vsetAt_cplx]

theorem length_cplx (V : List (List ℕ)) (f : List ℕ → α) : (cplx V f).length = V.length := by simp [cplx]

theorem dimAt_eq {V : List (List ℕ)} (f g : List ℕ → α) : dimAt (cplx V f) = dimAt (cplx V g) := by
  funext i; unfold dimAt; rw [vsetAt_eq f g]

theorem facets_eq {V : List (List ℕ)} (f g : List ℕ → α) : facets (cplx V f) = facets (cplx V g) := by
  funext i; unfold facets; rw [vsetAt_eq f g, length_cplx, length_cplx]

theorem mem_cplx {V : List (List ℕ)} {f : List ℕ → α} {s : Simplex α} : s ∈ cplx V f ↔ s.vertices ∈ V ∧ f s.vertices = s.data := by
  unfold cplx
  rw [List.mem_map]
  constructor
  · rintro ⟨v, hv, rfl⟩; exact ⟨hv, rfl⟩
  · rintro ⟨h1, h2⟩; exact ⟨_, h1, by rw [h2]⟩

theorem wf_cplx {V : List (List ℕ)} {f g : List ℕ → α} (h : WF (cplx V f)) : WF (cplx V g) := by
  refine ⟨fun s hs => ?_, fun s hs => ?_, by rw [cplx_vertices]; have := h.distinct; rwa [cplx_vertices] at this⟩
  · exact h.normal ⟨s.vertices, f s.vertices⟩ (mem_cplx.2 ⟨(mem_cplx.1 hs).1, rfl⟩)
  · exact h.nonempty ⟨s.vertices, f s.vertices⟩ (mem_cplx.2 ⟨(mem_cplx.1 hs).1, rfl⟩)

theorem closed_cplx {V : List (List ℕ)} {f g : List ℕ → α} (h : FaceClosed (cplx V f)) : FaceClosed (cplx V g) := by
  intro s hs t ht hne
  obtain ⟨u, hu, e⟩ := h ⟨s.vertices, f s.vertices⟩ (mem_cplx.2 ⟨(mem_cplx.1 hs).1, rfl⟩) t ht hne
  exact ⟨⟨u.vertices, g u.vertices⟩, mem_cplx.2 ⟨(mem_cplx.1 hu).1, rfl⟩, e⟩

theorem order_cplx {V : List (List ℕ)} {f : List ℕ → α} : FacesFirst (cplx V f) ↔ V.Pairwise fun s t => ¬ t.toFinset ⊂ s.toFinset := by
  unfold FacesFirst cplx
  rw [List.pairwise_map]
  rfl

theorem filtration_cplx {V : List (List ℕ)} {f g : List ℕ → α} (h : IsFiltration (cplx V f)) : IsFiltration (cplx V g) :=
  ⟨wf_cplx h.wf, closed_cplx h.closed, order_cplx.2 (order_cplx.1 h.order)⟩

theorem sorted_cplx [LE α] {V : List (List ℕ)} {f : List ℕ → α} :
    (cplx V f).Pairwise (fun s t => s.data ≤ t.data) ↔ V.Pairwise fun s t => f s ≤ f t := by
  unfold cplx
  rw [List.pairwise_map]

theorem perm_cplx {V W : List (List ℕ)} {f : List ℕ → α} (h : V.Perm W) : (cplx V f).Perm (cplx W f) := h.map _

theorem pairing_cplx {V : List (List ℕ)} {f g : List ℕ → α} {inc : Bool} {p : List (ℕ × ℕ)} (h : IsComplexPairing (cplx V f) inc p) :
    IsComplexPairing (cplx V g) inc p := by
  unfold IsComplexPairing at h ⊢
  rw [facets_eq g f, dimAt_eq g f, length_cplx]
  rwa [length_cplx] at h

theorem dataD_cplx (inf : α) {V : List (List ℕ)} {f : List ℕ → α} {i : ℕ} (hi : i < V.length) :
    dataD inf (cplx V f) i = f V[i] := by
  simp [dataD, cplx, List.getElem?_eq_getElem hi]

end Basic

variable {α : Type} [Field α] [LinearOrder α] [IsStrictOrderedRing α]

/-! ### Correspondences of points -/

theorem PointWithin.trans {inf ε δ : α} {p q r : α × α} (h : PointWithin inf ε p q) (h' : PointWithin inf δ q r) :
    PointWithin inf (ε + δ) p r := by
  have tri : ∀ {a b c : α}, |a - b| ≤ ε → |b - c| ≤ δ → |a - c| ≤ ε + δ := fun h1 h2 =>
    (abs_sub_le _ _ _).trans (add_le_add h1 h2)
  refine ⟨tri h.1 h'.1, ?_⟩
  rcases h.2 with ⟨h1, h2⟩ | ⟨h1, h2, h3⟩ <;> rcases h'.2 with ⟨g1, g2⟩ | ⟨g1, g2, g3⟩
  · exact Or.inl ⟨h1, g2⟩
  · exact absurd h2 g1
  · exact absurd g1 h2
  · exact Or.inr ⟨h1, g2, tri h3 g3⟩

theorem forall₂_trans {β : Type} {R S T : β → β → Prop} (hT : ∀ a b c, R a b → S b c → T a c) {A B C : List β}
    (h : List.Forall₂ R A B) (h' : List.Forall₂ S B C) : List.Forall₂ T A C := by
  induction h generalizing C with
  | nil => cases h'; exact .nil
  | cons h _ ih =>
    cases h' with
    | cons h1 h2 => exact .cons (hT _ _ _ h h1) (ih h2)

theorem pointsWithin_trans {inf ε δ : α} {P Q R : List (α × α)} (h : PointsWithin inf ε P Q) (h' : PointsWithin inf δ Q R) :
    PointsWithin inf (ε + δ) P R := by
  obtain ⟨P', h1, h2⟩ := h
  obtain ⟨Q', g1, g2⟩ := h'
  obtain ⟨P'', e1, e2⟩ := (congrFun (congrFun (List.forall₂_comp_perm_eq_perm_comp_forall₂ (r := PointWithin inf ε)) P') Q').mp ⟨Q, h2, g1.symm⟩
  exact ⟨P'', e1.symm.trans h1, forall₂_trans (fun _ _ _ => PointWithin.trans) e2 g2⟩

omit [IsStrictOrderedRing α] in
theorem pointsWithin_perm {inf ε : α} {P P' Q Q' : List (α × α)} (h : PointsWithin inf ε P Q) (hP : P.Perm P') (hQ : Q.Perm Q') :
    PointsWithin inf ε P' Q' := by
  obtain ⟨A, h1, h2⟩ := h
  obtain ⟨A', e1, e2⟩ := (congrFun (congrFun (List.forall₂_comp_perm_eq_perm_comp_forall₂ (r := PointWithin inf ε)) A) Q').mp ⟨Q, h2, hQ⟩
  exact ⟨A', e1.symm.trans (h1.trans hP), e2⟩

/-! ### A common order -/

omit [IsStrictOrderedRing α] in
/-- The same order serves two functions. -/
theorem within_same_order (inf : α) {ε : α} {U : List (List ℕ)} {f g : List ℕ → α} (hU : IsFiltration (cplx U f)) (hn : U.length ≤ idxMax)
    (hfg : ∀ v ∈ U, |f v - g v| ≤ ε) (hf : ∀ v ∈ U, f v ≠ inf) (hg : ∀ v ∈ U, g v ≠ inf) {inc : Bool} {p : List (ℕ × ℕ)}
    (hp : IsComplexPairing (cplx U f) inc p) (d : ℕ) :
    List.Forall₂ (PointWithin inf ε) (diagramPoints inf (cplx U f) d p) (diagramPoints inf (cplx U g) d p) := by
  obtain ⟨f1, -, -, -⟩ := pairFacts hU (by rw [length_cplx]; exact hn)
  have hpairs : ∀ ij ∈ p, ij.1 < U.length ∧ (ij.2 < U.length ∨ ij.2 = idxMax) := by
    rintro ⟨i, j⟩ hij
    rcases (hp.2.2 i j).1 hij with h | ⟨h1, h, _⟩
    · have := f1 _ _ h
      rw [length_cplx] at this
      exact ⟨this.1, Or.inl this.2.1⟩
    · have := h.1
      rw [length_cplx] at this
      exact ⟨this, Or.inr h1⟩
  have hlt : ∀ h : List ℕ → α, ∀ ij ∈ p, ij.1 < (cplx U h).length := by
    intro h ij hij
    rw [length_cplx]; exact (hpairs ij hij).1
  rw [diagramPoints_eq_map inf (hlt f), diagramPoints_eq_map inf (hlt g), dimAt_eq g f, List.forall₂_map_left_iff,
    List.forall₂_map_right_iff, List.forall₂_same]
  rintro ⟨i, j⟩ hij
  obtain ⟨hi, hj⟩ := hpairs _ (List.mem_filter.1 hij).1
  refine ⟨?_, ?_⟩
  · rw [dataD_cplx inf hi, dataD_cplx inf hi]
    exact hfg _ (List.getElem_mem hi)
  · rcases hj with hj | hj
    · right
      simp only [dataD_cplx inf hj]
      exact ⟨hf _ (List.getElem_mem hj), hg _ (List.getElem_mem hj), hfg _ (List.getElem_mem hj)⟩
    · left
      simp only at hj
      subst hj
      have : ∀ h : List ℕ → α, dataD inf (cplx U h) idxMax = inf := by
        intro h
        have : (cplx U h).length ≤ idxMax := by rw [length_cplx]; exact hn
        simp [dataD, List.getElem?_eq_none this]
      exact ⟨this f, this g⟩

/-- Faces do not have larger values. -/
def Mono (V : List (List ℕ)) (f : List ℕ → α) : Prop := ∀ s ∈ V, ∀ t ∈ V, s.toFinset ⊂ t.toFinset → f s ≤ f t

omit [Field α] [IsStrictOrderedRing α] in
theorem mono_of_sorted {V : List (List ℕ)} {f : List ℕ → α} (h1 : V.Pairwise fun s t => ¬ t.toFinset ⊂ s.toFinset)
    (h2 : V.Pairwise fun s t => f s ≤ f t) : Mono V f := by
  intro s hs t ht hst
  obtain ⟨i, hi, rfl⟩ := List.getElem_of_mem hs
  obtain ⟨j, hj, rfl⟩ := List.getElem_of_mem ht
  rcases lt_trichotomy i j with h | h | h
  · exact List.pairwise_iff_getElem.1 h2 i j hi hj h
  · subst h; exact le_rfl
  · exact absurd hst (List.pairwise_iff_getElem.1 h1 j i hj hi h)

/-- The data of a sorted complex on the simplices `V`. -/
structure Sorts (V : List (List ℕ)) (f : List ℕ → α) (W : List (List ℕ)) : Prop where
  perm : W.Perm V
  faces : W.Pairwise fun s t => ¬ t.toFinset ⊂ s.toFinset
  sorted : W.Pairwise fun s t => f s ≤ f t

omit [Field α] [IsStrictOrderedRing α] in
theorem Sorts.filtration {V : List (List ℕ)} {f : List ℕ → α} {W : List (List ℕ)} (h : Sorts V f W) {g : List ℕ → α} (hwf : WF (cplx V g))
    (hc : FaceClosed (cplx V g)) : IsFiltration (cplx W f) := by
  have hp : (cplx V g).Perm (cplx W g) := perm_cplx h.perm.symm
  refine ⟨wf_cplx (hwf.perm hp.symm), closed_cplx (f := g) ?_, order_cplx.2 h.faces⟩
  intro s hs t ht hne
  obtain ⟨u, hu, e⟩ := hc s (hp.mem_iff.2 hs) t ht hne
  exact ⟨u, hp.mem_iff.1 hu, e⟩

omit [Field α] [IsStrictOrderedRing α] in
/-- Functions without strict inversions have a common order. -/
theorem exists_common {V : List (List ℕ)} {f g : List ℕ → α} (hf : Mono V f) (hg : Mono V g)
    (hV : ∀ v ∈ V, v.Nodup) (h : ∀ a ∈ V, ∀ b ∈ V, f a < f b → g a ≤ g b) : ∃ U, Sorts V f U ∧ Sorts V g U := by
  let key : List ℕ → α ×ₗ α ×ₗ ℕ := fun v => toLex (f v, toLex (g v, v.length))
  have hp : (V.insertionSort fun u v => key u ≤ key v).Perm V := List.perm_insertionSort _ _
  have : Std.Total fun u v => key u ≤ key v := ⟨fun a b => le_total (key a) (key b)⟩
  have : IsTrans (List ℕ) fun u v => key u ≤ key v := ⟨fun a b c h1 h2 => le_trans h1 h2⟩
  have hs : (V.insertionSort fun u v => key u ≤ key v).Pairwise fun u v => key u ≤ key v := List.pairwise_insertionSort _ _
  have hkey : ∀ a b, key a ≤ key b ↔ f a < f b ∨ f a = f b ∧ (g a < g b ∨ g a = g b ∧ a.length ≤ b.length) := by
    intro a b
    rw [Prod.Lex.le_iff]
    simp only [key, ofLex_toLex]
    rw [Prod.Lex.le_iff]
    simp only [ofLex_toLex]
  have hs' := List.Pairwise.and_mem.1 hs
  refine ⟨_, ⟨hp, ?_, ?_⟩, ⟨hp, ?_, ?_⟩⟩
  all_goals
    refine hs'.imp ?_
    rintro a b ⟨ha, hb, hab⟩
    rw [hp.mem_iff] at ha hb
    rw [hkey] at hab
  · intro hba
    have h1 := hf b hb a ha hba
    have h2 := hg b hb a ha hba
    have h3 := card_lt_card hba
    rw [List.toFinset_card_of_nodup (hV a ha), List.toFinset_card_of_nodup (hV b hb)] at h3
    rcases hab with h | ⟨_, h | ⟨_, h⟩⟩
    · exact absurd h (not_lt.2 h1)
    · exact absurd h (not_lt.2 h2)
    · omega
  · rcases hab with h | ⟨h, _⟩
    · exact h.le
    · exact h.le
  · intro hba
    have h1 := hf b hb a ha hba
    have h2 := hg b hb a ha hba
    have h3 := card_lt_card hba
    rw [List.toFinset_card_of_nodup (hV a ha), List.toFinset_card_of_nodup (hV b hb)] at h3
    rcases hab with h | ⟨_, h | ⟨_, h⟩⟩
    · exact absurd h (not_lt.2 h1)
    · exact absurd h (not_lt.2 h2)
    · omega
  · rcases hab with h' | ⟨_, h | ⟨h, _⟩⟩
    · exact h a ha b hb h'
    · exact h.le
    · exact h.le

/-- The assumptions about the simplices. -/
structure Good (V : List (List ℕ)) (g : List ℕ → α) : Prop where
  wf : WF (cplx V g)
  closed : FaceClosed (cplx V g)
  size : V.length ≤ idxMax

/-- The points of the diagrams differ by at most `ε`, for all orders. -/
def Near (inf : α) (V : List (List ℕ)) (inc : Bool) (d : ℕ) (ε : α) (f g : List ℕ → α) : Prop :=
  ∀ W W', Sorts V f W → Sorts V g W' → ∀ p p', IsComplexPairing (cplx W f) inc p → IsComplexPairing (cplx W' g) inc p' →
    PointsWithin inf ε (diagramPoints inf (cplx W f) d p) (diagramPoints inf (cplx W' g) d p')

omit [IsStrictOrderedRing α] in
theorem near_base (inf : α) {V : List (List ℕ)} {f g : List ℕ → α} (hV : Good V f) (hf : Mono V f) (hg : Mono V g)
    (h : ∀ a ∈ V, ∀ b ∈ V, f a < f b → g a ≤ g b) {ε : α} (hfg : ∀ v ∈ V, |f v - g v| ≤ ε) (hfi : ∀ v ∈ V, f v ≠ inf)
    (hgi : ∀ v ∈ V, g v ≠ inf) (inc : Bool) (d : ℕ) : Near inf V inc d ε f g := by
  have hnd : ∀ v ∈ V, v.Nodup := by
    intro v hv
    exact (hV.wf.normal ⟨v, f v⟩ (mem_cplx.2 ⟨hv, rfl⟩)).imp fun h => ne_of_gt h
  obtain ⟨U, hU, hU'⟩ := exists_common hf hg hnd h
  intro W W' hW hW' p p' hp hp'
  have fU := hU.filtration hV.wf hV.closed
  have fU' := hU'.filtration hV.wf hV.closed
  have fW := hW.filtration hV.wf hV.closed
  have fW' := hW'.filtration hV.wf hV.closed
  have size : ∀ {W : List (List ℕ)} (_ : W.Perm V) (h : List ℕ → α), (cplx W h).length ≤ idxMax := by
    intro W hW h
    rw [length_cplx, hW.length_eq]; exact hV.size
  obtain ⟨q, -, hq, -, -⟩ := C51_pipeline inf (cplx U f) fU (size hU.perm f) inc
  have e1 := diagramPoints_perm inf fU fW (perm_cplx (hU.perm.trans hW.perm.symm)) (size hU.perm f) (sorted_cplx.2 hU.sorted) (sorted_cplx.2 hW.sorted) hq hp d
  have e2 := diagramPoints_perm inf fU' fW' (perm_cplx (hU'.perm.trans hW'.perm.symm)) (size hU.perm g) (sorted_cplx.2 hU'.sorted) (sorted_cplx.2 hW'.sorted) (pairing_cplx hq) hp' d
  have hm : ∀ v ∈ U, v ∈ V := fun v hv => hU.perm.mem_iff.1 hv
  have e3 := within_same_order inf fU (by rw [hU.perm.length_eq]; exact hV.size) (fun v hv => hfg v (hm v hv)) (fun v hv => hfi v (hm v hv)) (fun v hv => hgi v (hm v hv)) hq d
  exact pointsWithin_perm ⟨_, List.Perm.refl _, e3⟩ e1 e2

/-! ### Interpolation -/

/-- Pairs whose order is reversed. -/
def inversions (V : List (List ℕ)) (f g : List ℕ → α) : Finset (List ℕ × List ℕ) :=
  {ab ∈ V.toFinset ×ˢ V.toFinset | f ab.1 < f ab.2 ∧ g ab.2 < g ab.1}

omit [Field α] [IsStrictOrderedRing α] in
theorem mem_inversions {V : List (List ℕ)} {f g : List ℕ → α} {a b : List ℕ} :
    (a, b) ∈ inversions V f g ↔ (a ∈ V ∧ b ∈ V) ∧ f a < f b ∧ g b < g a := by
  simp [inversions]

/-- The value between two functions. -/
def mix (t : α) (f g : List ℕ → α) : List ℕ → α := fun v => (1 - t) * f v + t * g v

theorem near_of_inversions (inf : α) (S : α → Prop) (hne : ∀ x, S x → x ≠ inf)
    (hS : ∀ x y t, 0 < t → t < 1 → S x → S y → S ((1 - t) * x + t * y)) {V : List (List ℕ)} (inc : Bool) (d : ℕ) : ∀ (n : ℕ) (f g : List ℕ → α), #(inversions V f g) = n →
    Good V f → Mono V f → Mono V g → (∀ v ∈ V, S (f v)) → (∀ v ∈ V, S (g v)) → ∀ ε, (∀ v ∈ V, |f v - g v| ≤ ε) →
    Near inf V inc d ε f g := by
  intro n
  induction n using Nat.strong_induction_on with
  | _ n ih =>
    intro f g hn hV hf hg hfi hgi ε hε
    by_cases hinv : (inversions V f g).Nonempty
    · -- the first time at which two values of an inversion agree
      let τ : List ℕ × List ℕ → α := fun ab => (f ab.2 - f ab.1) / ((f ab.2 - f ab.1) + (g ab.1 - g ab.2))
      obtain ⟨⟨a0, b0⟩, h0, hmin⟩ := exists_min_image _ τ hinv
      have h0' := mem_inversions.1 h0
      set t := τ (a0, b0) with ht
      have hden : 0 < (f b0 - f a0) + (g a0 - g b0) := by linarith [h0'.2.1, h0'.2.2]
      have htd : t * ((f b0 - f a0) + (g a0 - g b0)) = f b0 - f a0 := by
        rw [ht]; exact div_mul_cancel₀ _ (ne_of_gt hden)
      have ht0 : 0 < t := div_pos (by linarith [h0'.2.1]) hden
      have ht1 : t < 1 := by
        rw [ht]; exact (div_lt_one hden).2 (by linarith [h0'.2.2])
      have hmix : ∀ v, mix t f g v = (1 - t) * f v + t * g v := fun _ => rfl
      have hmono : Mono V (mix t f g) := by
        intro s hs u hu hsu
        rw [hmix, hmix]
        have h1 := mul_le_mul_of_nonneg_left (hf s hs u hu hsu) (show 0 ≤ 1 - t by linarith)
        have h2 := mul_le_mul_of_nonneg_left (hg s hs u hu hsu) ht0.le
        linarith
      have hinf : ∀ v ∈ V, S (mix t f g v) := fun v hv => hS _ _ t ht0 ht1 (hfi v hv) (hgi v hv)
      have d1 : ∀ v ∈ V, |f v - mix t f g v| ≤ t * ε := by
        intro v hv
        have e : f v - mix t f g v = t * (f v - g v) := by rw [hmix]; ring
        rw [e, abs_mul, abs_of_pos ht0]
        exact mul_le_mul_of_nonneg_left (hε v hv) ht0.le
      have d2 : ∀ v ∈ V, |mix t f g v - g v| ≤ (1 - t) * ε := by
        intro v hv
        have e : mix t f g v - g v = (1 - t) * (f v - g v) := by rw [hmix]; ring
        rw [e, abs_mul, abs_of_pos (by linarith)]
        exact mul_le_mul_of_nonneg_left (hε v hv) (by linarith)
      have first : ∀ a ∈ V, ∀ b ∈ V, f a < f b → mix t f g a ≤ mix t f g b := by
        intro a ha b hb hab
        by_contra hlt
        rw [not_le, hmix, hmix] at hlt
        have hgg : g b < g a := by
          by_contra hge
          have h1 := mul_lt_mul_of_pos_left hab (show 0 < 1 - t by linarith)
          have h2 := mul_le_mul_of_nonneg_left (not_lt.1 hge) ht0.le
          linarith
        have hm := hmin (a, b) (mem_inversions.2 ⟨⟨ha, hb⟩, hab, hgg⟩)
        have hd : 0 < (f b - f a) + (g a - g b) := by linarith
        have := (le_div_iff₀ hd).1 hm
        nlinarith
      have sub : inversions V (mix t f g) g ⊂ inversions V f g := by
        rw [Finset.ssubset_iff_of_subset]
        · refine ⟨(a0, b0), h0, fun h => ?_⟩
          have := (mem_inversions.1 h).2.1
          rw [hmix, hmix] at this
          nlinarith
        · rintro ⟨a, b⟩ hab
          rw [mem_inversions] at hab ⊢
          obtain ⟨h1, h2, h3⟩ := hab
          refine ⟨h1, ?_, h3⟩
          rw [hmix, hmix] at h2
          by_contra hge
          have h4 := mul_le_mul_of_nonneg_left (not_lt.1 hge) (show 0 ≤ 1 - t by linarith)
          have h5 := mul_lt_mul_of_pos_left h3 ht0
          linarith
      have hV' : Good V (mix t f g) := ⟨wf_cplx hV.wf, closed_cplx hV.closed, hV.size⟩
      have n1 := near_base inf hV hf hmono first d1 (fun v hv => hne _ (hfi v hv)) (fun v hv => hne _ (hinf v hv)) inc d
      have n2 := ih _ (by rw [← hn]; exact card_lt_card sub) (mix t f g) g rfl hV' hmono hg hinf hgi _ d2
      intro W W' hW hW' p p' hp hp'
      have hnd : ∀ v ∈ V, v.Nodup := by
        intro v hv
        exact (hV.wf.normal ⟨v, f v⟩ (mem_cplx.2 ⟨hv, rfl⟩)).imp fun h => ne_of_gt h
      obtain ⟨U, hU, -⟩ := exists_common hmono hmono hnd (fun _ _ _ _ h => h.le)
      obtain ⟨q, -, hq, -, -⟩ := C51_pipeline inf (cplx U (mix t f g)) (hU.filtration hV.wf hV.closed)
        (by rw [length_cplx, hU.perm.length_eq]; exact hV.size) inc
      have := pointsWithin_trans (n1 W U hW hU p q hp hq) (n2 U W' hU hW' q p' hq hp')
      rwa [show t * ε + (1 - t) * ε = ε by ring] at this
    · refine near_base inf hV hf hg (fun a ha b hb hab => ?_) hε (fun v hv => hne _ (hfi v hv)) (fun v hv => hne _ (hgi v hv)) inc d
      by_contra hlt
      exact hinv ⟨(a, b), mem_inversions.2 ⟨⟨ha, hb⟩, hab, not_le.1 hlt⟩⟩

/-- Stability for data in a convex set `S` without `inf`. -/
theorem stability_aux (inf : α) (S : α → Prop) (hne : ∀ x, S x → x ≠ inf)
    (hS : ∀ x y t, 0 < t → t < 1 → S x → S y → S ((1 - t) * x + t * y)) {K L : Complex α} (hK : IsFiltration K) (hL : IsFiltration L)
    (hn : K.length ≤ idxMax) (hs : K.Pairwise fun s t => s.data ≤ t.data) (hs' : L.Pairwise fun s t => s.data ≤ t.data)
    (hinf : ∀ s ∈ K, S s.data) (hinf' : ∀ s ∈ L, S s.data) {ε : α} (hε : DataWithin ε K L) {inc : Bool} {p q : List (ℕ × ℕ)}
    (h1 : IsComplexPairing K inc p) (g1 : IsComplexPairing L inc q) (d : ℕ) :
    PointsWithin inf ε (diagramPoints inf K d p) (diagramPoints inf L d q) := by
  have : Inhabited α := ⟨0⟩
  obtain ⟨f, hf, eK⟩ := exists_cplx hK.wf.distinct
  obtain ⟨g, hg, eL⟩ := exists_cplx hL.wf.distinct
  set V := K.map (·.vertices) with hV
  set W := L.map (·.vertices) with hW
  have memV : ∀ v ∈ V, ∃ s ∈ K, s.vertices = v := fun v hv => List.mem_map.1 hv
  have memW : ∀ v ∈ V, ∃ s ∈ L, s.vertices = v := fun v hv => List.mem_map.1 (hε.simplices.mem_iff.1 hv)
  rw [eK] at h1 hK hs hn ⊢
  rw [eL] at g1 hL hs' ⊢
  have sV : Sorts V f V := ⟨List.Perm.refl _, order_cplx.1 hK.order, sorted_cplx.1 hs⟩
  have sW : Sorts V g W := ⟨hε.simplices.symm, order_cplx.1 hL.order, sorted_cplx.1 hs'⟩
  have gm : Mono V g := by
    have := mono_of_sorted sW.faces sW.sorted
    intro s hs t ht hst
    exact this s (hε.simplices.mem_iff.1 hs) t (hε.simplices.mem_iff.1 ht) hst
  refine near_of_inversions inf S hne hS inc d _ f g rfl ⟨hK.wf, hK.closed, by rwa [length_cplx] at hn⟩ (mono_of_sorted sV.faces sV.sorted) gm
    ?_ ?_ ε ?_ V W sV sW p q h1 g1
  · intro v hv
    obtain ⟨s, hs, rfl⟩ := memV v hv
    rw [hf s hs]; exact hinf s hs
  · intro v hv
    obtain ⟨s, hs, rfl⟩ := memW v hv
    rw [hg s hs]; exact hinf' s hs
  · intro v hv
    obtain ⟨s, hs, rfl⟩ := memV v hv
    obtain ⟨t, ht, e⟩ := memW _ hv
    have := hε.data s hs t ht e.symm
    rw [hf s hs, ← e, hg t ht]
    exact this

/-- C155. If the data of two complexes with the same simplices differs by at most `ε`, then the points of their diagrams correspond to each
other one by one such that creation and destruction differ by at most `ε`, in every dimension; points that are never destroyed
correspond to such points.  This holds for all algorithms, column containers and with or without dualization. -/
theorem _root_.Aleph.C155_stability (inf : α) (K L : Complex α) (hK : IsFiltration K) (hL : IsFiltration L) (hn : K.length ≤ idxMax)
    (hs : K.Pairwise fun s t => s.data ≤ t.data) (hs' : L.Pairwise fun s t => s.data ≤ t.data)
    (hinf : ∀ s ∈ K, s.data < inf) (hinf' : ∀ s ∈ L, s.data < inf) (ε : α) (hε : DataWithin ε K L)
    (inc : Bool) (a a' : Algorithm) (k k' : Kind) (dualize dualize' : Bool) :
    ∃ Ds Es, calculatePersistenceDiagrams a k inf K dualize inc = some Ds ∧
      calculatePersistenceDiagrams a' k' inf L dualize' inc = some Es ∧
      ∀ d, PointsWithin inf ε (pointsOfDimension d Ds) (pointsOfDimension d Es) := by
  have hn' : L.length ≤ idxMax := by
    have := hε.simplices.length_eq
    simp only [List.length_map] at this
    omega
  obtain ⟨p, Ds, h1, h2, h3⟩ := C51_pipeline inf K hK hn inc
  obtain ⟨q, Es, g1, g2, g3⟩ := C51_pipeline inf L hL hn' inc
  refine ⟨Ds, Es, h3 _ _ _, g3 _ _ _, fun d => ?_⟩
  rw [pointsOfDimension_eq h2, pointsOfDimension_eq g2]
  refine stability_aux inf (· < inf) (fun x h => ne_of_lt h) ?_ hK hL hn hs hs' hinf hinf' hε h1 g1 d
  intro x y t h0 ht hx hy
  have e1 := mul_lt_mul_of_pos_left hx (show 0 < 1 - t by linarith)
  have e2 := mul_lt_mul_of_pos_left hy h0
  linarith

/-! ### Superlevel sets -/

/-- The complex with negated data. -/
def negate (K : Complex α) : Complex α := K.map fun s => ⟨s.vertices, -s.data⟩

omit [LinearOrder α] [IsStrictOrderedRing α] in
theorem vsetAt_negate (K : Complex α) : vsetAt (negate K) = vsetAt K := by
  funext i
  unfold vsetAt negate
  rw [List.getElem?_map]
  cases K[i]? <;> rfl

omit [LinearOrder α] [IsStrictOrderedRing α] in
theorem length_negate (K : Complex α) : (negate K).length = K.length := by simp [negate]

omit [LinearOrder α] [IsStrictOrderedRing α] in
theorem vertices_negate (K : Complex α) : (negate K).map (·.vertices) = K.map (·.vertices) := by
  simp [negate, Function.comp_def]

omit [LinearOrder α] [IsStrictOrderedRing α] in
theorem mem_negate {K : Complex α} {s : Simplex α} : s ∈ negate K ↔ ∃ t ∈ K, s = ⟨t.vertices, -t.data⟩ := by
  unfold negate
  rw [List.mem_map]
  exact ⟨fun ⟨t, h, e⟩ => ⟨t, h, e.symm⟩, fun ⟨t, h, e⟩ => ⟨t, h, e.symm⟩⟩

omit [LinearOrder α] [IsStrictOrderedRing α] in
theorem filtration_negate {K : Complex α} (h : IsFiltration K) : IsFiltration (negate K) := by
  refine ⟨⟨?_, ?_, by rw [vertices_negate]; exact h.wf.distinct⟩, ?_, ?_⟩
  · intro s hs
    obtain ⟨t, ht, rfl⟩ := mem_negate.1 hs
    exact h.wf.normal t ht
  · intro s hs
    obtain ⟨t, ht, rfl⟩ := mem_negate.1 hs
    exact h.wf.nonempty t ht
  · intro s hs τ hτ hne
    obtain ⟨t, ht, rfl⟩ := mem_negate.1 hs
    obtain ⟨u, hu, e⟩ := h.closed t ht τ hτ hne
    exact ⟨⟨u.vertices, -u.data⟩, mem_negate.2 ⟨u, hu, rfl⟩, e⟩
  · unfold FacesFirst negate
    rw [List.pairwise_map]
    exact h.order

omit [LinearOrder α] [IsStrictOrderedRing α] in
theorem pairing_negate {K : Complex α} {inc : Bool} {p : List (ℕ × ℕ)} (h : IsComplexPairing K inc p) : IsComplexPairing (negate K) inc p := by
  unfold IsComplexPairing at h ⊢
  have e1 : facets (negate K) = facets K := by funext i; unfold facets; rw [vsetAt_negate, length_negate]
  have e2 : dimAt (negate K) = dimAt K := by funext i; unfold dimAt; rw [vsetAt_negate]
  rw [e1, e2, length_negate]; exact h

omit [LinearOrder α] [IsStrictOrderedRing α] in
theorem diagramPoints_negate (inf : α) (K : Complex α) (d : ℕ) (p : List (ℕ × ℕ)) :
    diagramPoints (-inf) (negate K) d p = (diagramPoints inf K d p).map fun q => (-q.1, -q.2) := by
  have e2 : dimAt (negate K) = dimAt K := by funext i; unfold dimAt; rw [vsetAt_negate]
  unfold diagramPoints
  rw [e2, List.map_filterMap]
  refine List.filterMap_congr ?_
  rintro ⟨i, j⟩ _
  simp only [negate, List.getElem?_map]
  cases K[i]? <;> cases K[j]? <;> rfl

omit [IsStrictOrderedRing α] in
theorem pointsWithin_neg {inf ε : α} {P Q : List (α × α)} (h : PointsWithin (-inf) ε (P.map fun q => (-q.1, -q.2)) (Q.map fun q => (-q.1, -q.2))) :
    PointsWithin inf ε P Q := by
  obtain ⟨P', h1, h2⟩ := h
  have hinv : ∀ l : List (α × α), (l.map fun q => (-q.1, -q.2)).map (fun q => (-q.1, -q.2)) = l := by
    intro l; simp [Function.comp_def]
  have habs : ∀ x y : α, |(-x) - (-y)| = |x - y| := by
    intro x y
    rw [show -x - -y = -(x - y) by ring, abs_neg]
  refine ⟨P'.map fun q => (-q.1, -q.2), ?_, ?_⟩
  · have := h1.map fun q : α × α => (-q.1, -q.2)
    rwa [hinv] at this
  · rw [List.forall₂_map_right_iff] at h2
    rw [List.forall₂_map_left_iff]
    refine h2.imp ?_
    rintro ⟨a, b⟩ ⟨x, y⟩ ⟨e1, e2⟩
    simp only at e1 e2
    refine ⟨?_, ?_⟩
    · have := habs (-a) x
      rw [neg_neg] at this
      simp only
      rw [← this]
      simpa using e1
    · simp only
      rcases e2 with ⟨e2, e3⟩ | ⟨e2, e3, e4⟩
      · exact Or.inl ⟨by rw [e2, neg_neg], neg_inj.1 e3⟩
      · refine Or.inr ⟨fun h => e2 (by rw [← h, neg_neg]), fun h => e3 (by rw [h]), ?_⟩
        have := habs (-b) y
        rw [neg_neg] at this
        rw [← this]
        simpa using e4

/-- C155. The same for complexes sorted by descending data, as for superlevel sets. -/
theorem _root_.Aleph.C155_stability_superlevel (inf : α) (K L : Complex α) (hK : IsFiltration K) (hL : IsFiltration L) (hn : K.length ≤ idxMax)
    (hs : K.Pairwise fun s t => t.data ≤ s.data) (hs' : L.Pairwise fun s t => t.data ≤ s.data)
    (hinf : ∀ s ∈ K, s.data < inf) (hinf' : ∀ s ∈ L, s.data < inf) (ε : α) (hε : DataWithin ε K L)
    (inc : Bool) (a a' : Algorithm) (k k' : Kind) (dualize dualize' : Bool) :
    ∃ Ds Es, calculatePersistenceDiagrams a k inf K dualize inc = some Ds ∧
      calculatePersistenceDiagrams a' k' inf L dualize' inc = some Es ∧
      ∀ d, PointsWithin inf ε (pointsOfDimension d Ds) (pointsOfDimension d Es) := by
  have hn' : L.length ≤ idxMax := by
    have := hε.simplices.length_eq
    simp only [List.length_map] at this
    omega
  obtain ⟨p, Ds, h1, h2, h3⟩ := C51_pipeline inf K hK hn inc
  obtain ⟨q, Es, g1, g2, g3⟩ := C51_pipeline inf L hL hn' inc
  refine ⟨Ds, Es, h3 _ _ _, g3 _ _ _, fun d => ?_⟩
  rw [pointsOfDimension_eq h2, pointsOfDimension_eq g2]
  apply pointsWithin_neg
  rw [← diagramPoints_negate, ← diagramPoints_negate]
  have hsort : ∀ {M : Complex α}, M.Pairwise (fun s t => t.data ≤ s.data) → (negate M).Pairwise fun s t => s.data ≤ t.data := by
    intro M hM
    unfold negate
    rw [List.pairwise_map]
    exact hM.imp fun h => neg_le_neg h
  have hgt : ∀ {M : Complex α}, (∀ s ∈ M, s.data < inf) → ∀ s ∈ negate M, -inf < s.data := by
    intro M hM s hs
    obtain ⟨t, ht, rfl⟩ := mem_negate.1 hs
    exact neg_lt_neg (hM t ht)
  refine stability_aux (-inf) (-inf < ·) (fun x h => ne_of_gt h) ?_ (filtration_negate hK) (filtration_negate hL) (by rw [length_negate]; exact hn)
    (hsort hs) (hsort hs') (hgt hinf) (hgt hinf') ⟨by rw [vertices_negate, vertices_negate]; exact hε.simplices, ?_⟩ (pairing_negate h1) (pairing_negate g1) d
  · intro x y t h0 ht hx hy
    have e1 := mul_lt_mul_of_pos_left hx (show 0 < 1 - t by linarith)
    have e2 := mul_lt_mul_of_pos_left hy h0
    linarith
  · intro s hs t ht e
    obtain ⟨u, hu, rfl⟩ := mem_negate.1 hs
    obtain ⟨v, hv, rfl⟩ := mem_negate.1 ht
    have := hε.data u hu v hv e
    simp only
    rw [show -u.data - -v.data = -(u.data - v.data) by ring, abs_neg]
    exact this

/-! ### Distances between diagrams -/

omit [Field α] [LinearOrder α] [IsStrictOrderedRing α] in
theorem forall₂_get {β γ : Type} {R : β → γ → Prop} {A : List β} {B : List γ} (h : List.Forall₂ R A B) :
    ∃ hl : A.length = B.length, ∀ i : Fin A.length, R A[i] B[Fin.cast hl i] := by
  refine ⟨h.length_eq, fun i => ?_⟩
  have := (List.forall₂_iff_get.1 h).2 i i.2 (by have := h.length_eq; omega)
  simpa using this

omit [IsStrictOrderedRing α] in
/-- A correspondence of two lists yields a matching of their first parts; the partners of points without partner are in the other parts. -/
theorem exists_matching_aux {inf ε : α} {A A' B B' : List (α × α)} (h' : PointsWithin inf ε (A ++ A') (B ++ B')) :
    ∃ m : Finset (Fin A.length × Fin B.length), IsMatching m ∧ (∀ x ∈ m, PointWithin inf ε A[x.1] B[x.2]) ∧
      (∀ i, (∀ j, (i, j) ∉ m) → ∃ q ∈ B', PointWithin inf ε A[i] q) ∧
      (∀ j, (∀ i, (i, j) ∉ m) → ∃ p ∈ A', PointWithin inf ε p B[j]) := by
  obtain ⟨R, hR, hRB⟩ := h'
  obtain ⟨e, he⟩ := perm_equiv hR.symm
  obtain ⟨hl, hw⟩ := forall₂_get hRB
  obtain ⟨e', hw'⟩ : ∃ e' : Fin (A ++ A').length ≃ Fin (B ++ B').length, ∀ i k, e' i = k → PointWithin inf ε (A ++ A')[i] (B ++ B')[k] := by
    refine ⟨e.trans (finCongr hl), ?_⟩
    rintro i k rfl
    rw [he i]
    exact hw (e i)
  have hlA : ∀ i : Fin A.length, (i : ℕ) < (A ++ A').length := fun i => by have := i.2; rw [List.length_append]; omega
  have hlB : ∀ i : Fin B.length, (i : ℕ) < (B ++ B').length := fun i => by have := i.2; rw [List.length_append]; omega
  have gA : ∀ i : Fin A.length, (A ++ A')[(⟨i, hlA i⟩ : Fin _)] = A[i] := fun i => List.getElem_append_left i.2
  have gB : ∀ i : Fin B.length, (B ++ B')[(⟨i, hlB i⟩ : Fin _)] = B[i] := fun i => List.getElem_append_left i.2
  refine ⟨univ.filter fun x => e' ⟨x.1, hlA x.1⟩ = ⟨x.2, hlB x.2⟩, ⟨?_, ?_⟩, ?_, ?_, ?_⟩
  · intro i j j' h1 h2
    have h1 := (mem_filter.1 h1).2
    have h2 := (mem_filter.1 h2).2
    simp only at h1 h2
    rw [h1] at h2
    exact Fin.ext (by simpa using congrArg Fin.val h2)
  · intro i i' j h1 h2
    have h1 := (mem_filter.1 h1).2
    have h2 := (mem_filter.1 h2).2
    simp only at h1 h2
    rw [← h2] at h1
    have := e'.injective h1
    exact Fin.ext (by simpa using congrArg Fin.val this)
  · rintro ⟨i, j⟩ hx
    have hx := (mem_filter.1 hx).2
    have := hw' _ _ hx
    simp only at this
    rw [gA, gB] at this
    exact this
  · intro i hi
    have := hw' ⟨i, hlA i⟩ _ rfl
    rw [gA] at this
    refine ⟨_, ?_, this⟩
    have hge : B.length ≤ (e' ⟨i, hlA i⟩ : ℕ) := by
      by_contra hlt
      rw [not_le] at hlt
      exact hi ⟨_, hlt⟩ (mem_filter.2 ⟨mem_univ _, rfl⟩)
    rw [Fin.getElem_fin, List.getElem_append_right hge]
    exact List.getElem_mem _
  · intro j hj
    have := hw' (e'.symm ⟨j, hlB j⟩) _ (e'.apply_symm_apply _)
    rw [gB] at this
    refine ⟨_, ?_, this⟩
    have hge : A.length ≤ (e'.symm ⟨j, hlB j⟩ : ℕ) := by
      by_contra hlt
      rw [not_le] at hlt
      refine hj ⟨_, hlt⟩ (mem_filter.2 ⟨mem_univ _, ?_⟩)
      exact e'.apply_symm_apply _
    rw [Fin.getElem_fin, List.getElem_append_right hge]
    exact List.getElem_mem _

omit [IsStrictOrderedRing α] in
/-- A correspondence of two lists yields a matching of the points that are kept; the partners of points without partner are not kept. -/
theorem exists_matching {inf ε : α} {P Q : List (α × α)} (h : PointsWithin inf ε P Q) (keep : α × α → Bool) :
    ∃ m : Finset (Fin (P.filter keep).length × Fin (Q.filter keep).length), IsMatching m ∧
      (∀ x ∈ m, PointWithin inf ε (P.filter keep)[x.1] (Q.filter keep)[x.2]) ∧
      (∀ i, (∀ j, (i, j) ∉ m) → ∃ q, keep q = false ∧ PointWithin inf ε (P.filter keep)[i] q) ∧
      (∀ j, (∀ i, (i, j) ∉ m) → ∃ p, keep p = false ∧ PointWithin inf ε p (Q.filter keep)[j]) := by
  have hp : ∀ l : List (α × α), l.Perm (l.filter keep ++ l.filter fun x => !keep x) := fun l => (List.filter_append_perm keep l).symm
  have hno : ∀ (l : List (α × α)), ∀ x ∈ l.filter (fun x => !keep x), keep x = false := fun l x hx => by simpa using (List.mem_filter.1 hx).2
  obtain ⟨m, hm, h1, h2, h3⟩ := exists_matching_aux (pointsWithin_perm h (hp P) (hp Q))
  refine ⟨m, hm, h1, fun i hi => ?_, fun j hj => ?_⟩
  · obtain ⟨q, hq, hw⟩ := h2 i hi
    exact ⟨q, hno _ q hq, hw⟩
  · obtain ⟨q, hq, hw⟩ := h3 j hj
    exact ⟨q, hno _ q hq, hw⟩

/-- The distance to the diagonal. -/
def toDiagonal (p : α × α) : α := infinityDistance p ((p.1 + p.2) / 2, (p.1 + p.2) / 2)

theorem toDiagonal_eq (p : α × α) : toDiagonal p = |p.2 - p.1| / 2 := (C36_projection p).2

/-- Points that are neither on the diagonal nor without destruction. -/
def keep (inf : α) (p : α × α) : Bool := !decide (p.1 = p.2) && !decide (p.2 = inf)

theorem keep_within {inf ε : α} {p q : α × α} (h : PointWithin inf ε p q) (hp : p.2 ≠ inf) : infinityDistance p q ≤ ε := by
  rw [C37_infinity_distance]
  rcases h.2 with ⟨h1, _⟩ | ⟨_, _, h2⟩
  · exact absurd h1 hp
  · exact max_le h.1 h2

theorem alone_left {inf ε : α} {p q : α × α} (h : PointWithin inf ε p q) (hp : p.2 ≠ inf) (hq : keep inf q = false) : toDiagonal p ≤ ε := by
  rw [toDiagonal_eq, div_le_iff₀ two_pos]
  rcases h.2 with ⟨h1, _⟩ | ⟨_, h2, h3⟩
  · exact absurd h1 hp
  · have hd : q.1 = q.2 := by
      by_contra hne
      simp [keep, hne, h2] at hq
    calc |p.2 - p.1| = |(p.2 - q.2) - (p.1 - q.1)| := by rw [hd]; congr 1; ring
      _ ≤ |p.2 - q.2| + |p.1 - q.1| := abs_sub _ _
      _ ≤ ε + ε := add_le_add h3 h.1
      _ = ε * 2 := by ring

omit [IsStrictOrderedRing α] in
theorem pointWithin_symm {inf ε : α} {p q : α × α} (h : PointWithin inf ε p q) : PointWithin inf ε q p := by
  refine ⟨by rw [abs_sub_comm]; exact h.1, ?_⟩
  rcases h.2 with ⟨h1, h2⟩ | ⟨h1, h2, h3⟩
  · exact Or.inl ⟨h2, h1⟩
  · exact Or.inr ⟨h2, h1, by rw [abs_sub_comm]; exact h3⟩

omit [Field α] [IsStrictOrderedRing α] in
theorem finite_of_mem {inf : α} {P : List (α × α)} {p : α × α} (h : p ∈ P.filter (keep inf)) : p.2 ≠ inf := by
  have := (List.mem_filter.1 h).2
  simp [keep] at this
  exact this.2

/-- The matching of two diagrams without diagonal and unpaired points. -/
theorem matching_within {inf ε : α} {P Q : List (α × α)} (h : PointsWithin inf ε P Q) :
    ∃ m : Finset (Fin (P.filter (keep inf)).length × Fin (Q.filter (keep inf)).length), IsMatching m ∧
      (∀ x ∈ m, infinityDistance (P.filter (keep inf))[x.1] (Q.filter (keep inf))[x.2] ≤ ε) ∧
      (∀ i, (∀ j, (i, j) ∉ m) → toDiagonal (P.filter (keep inf))[i] ≤ ε) ∧
      (∀ j, (∀ i, (i, j) ∉ m) → toDiagonal (Q.filter (keep inf))[j] ≤ ε) := by
  obtain ⟨m, hm, h1, h2, h3⟩ := exists_matching h (keep inf)
  refine ⟨m, hm, fun x hx => keep_within (h1 x hx) (finite_of_mem (List.getElem_mem _)), ?_, ?_⟩
  · intro i hi
    obtain ⟨q, hq, hw⟩ := h2 i hi
    exact alone_left hw (finite_of_mem (List.getElem_mem _)) hq
  · intro j hj
    obtain ⟨p, hp, hw⟩ := h3 j hj
    exact alone_left (pointWithin_symm hw) (finite_of_mem (List.getElem_mem _)) hp

omit [Field α] [IsStrictOrderedRing α] in
theorem clean_points (inf : α) (D : Diagram α) : ((D.removeDiagonal).removeUnpaired inf).points = D.points.filter (keep inf) := by
  unfold Diagram.removeUnpaired Diagram.removeDiagonal Diagram.isUnpaired keep
  rw [List.filter_filter]
  refine List.filter_congr fun p _ => ?_
  rw [Bool.and_comm]

omit [Field α] [LinearOrder α] [IsStrictOrderedRing α] in
theorem points_of_mem {inf : α} {K : Complex α} (hK : IsFiltration K) (hn : K.length ≤ idxMax) {inc : Bool} {a : Algorithm} {k : Kind} {dualize : Bool}
    {Ds : List (Diagram α)} (h : calculatePersistenceDiagrams a k inf K dualize inc = some Ds) {D : Diagram α} (hD : D ∈ Ds) :
    pointsOfDimension D.dimension Ds = D.points := by
  obtain ⟨p, Ds', -, h2, h3⟩ := C51_pipeline inf K hK hn inc
  rw [h3 a k dualize] at h
  obtain rfl : Ds' = Ds := Option.some.inj h
  rw [pointsOfDimension_eq h2, ((h2.2 D).1 hD).2]

/-- C155. Bottleneck stability: the Bottleneck distance of the diagrams, without points on the diagonal and points that are never destroyed, is
at most the largest difference of the data. -/
theorem _root_.Aleph.C155_bottleneck (inf : α) (K L : Complex α) (hK : IsFiltration K) (hL : IsFiltration L) (hn : K.length ≤ idxMax)
    (hs : K.Pairwise fun s t => s.data ≤ t.data) (hs' : L.Pairwise fun s t => s.data ≤ t.data)
    (hinf : ∀ s ∈ K, s.data < inf) (hinf' : ∀ s ∈ L, s.data < inf) (ε : α) (h0 : 0 ≤ ε) (hε : DataWithin ε K L)
    (inc : Bool) (a a' : Algorithm) (k k' : Kind) (dualize dualize' : Bool) (Ds Es : List (Diagram α))
    (hDs : calculatePersistenceDiagrams a k inf K dualize inc = some Ds)
    (hEs : calculatePersistenceDiagrams a' k' inf L dualize' inc = some Es) (D E : Diagram α) (hD : D ∈ Ds) (hE : E ∈ Es)
    (hdim : D.dimension = E.dimension) (w : α)
    (hw : IsBottleneck infinityDistance (fun p => infinityDistance p ((p.1 + p.2) / 2, (p.1 + p.2) / 2))
      ((D.removeDiagonal).removeUnpaired inf).points ((E.removeDiagonal).removeUnpaired inf).points w) : w ≤ ε := by
  obtain ⟨Ds', Es', h1, h2, h3⟩ := C155_stability inf K L hK hL hn hs hs' hinf hinf' ε hε inc a a' k k' dualize dualize'
  rw [hDs] at h1; rw [hEs] at h2
  obtain rfl := Option.some.inj h1
  obtain rfl := Option.some.inj h2
  have hn' : L.length ≤ idxMax := by
    have := hε.simplices.length_eq
    simp only [List.length_map] at this
    omega
  have h := h3 D.dimension
  rw [points_of_mem hK hn hDs hD, hdim, points_of_mem hL hn' hEs hE] at h
  rw [clean_points, clean_points] at hw
  obtain ⟨m, hm, e1, e2, e3⟩ := matching_within h
  exact hw.2 ⟨h0, m, hm, e1, e2, e3⟩

/-- The cost of a matching whose pairs and single points cost at most `pw ε`. -/
theorem matchingCost_le {pw : α → α} {ε : α} (hpw : ∀ x, 0 ≤ x → 0 ≤ pw x) (hmono : ∀ x y, 0 ≤ x → x ≤ y → pw x ≤ pw y) {A B : List (α × α)}
    {m : Finset (Fin A.length × Fin B.length)} (hm : IsMatching m) (e1 : ∀ x ∈ m, infinityDistance A[x.1] B[x.2] ≤ ε)
    (e2 : ∀ i, (∀ j, (i, j) ∉ m) → toDiagonal A[i] ≤ ε) (e3 : ∀ j, (∀ i, (i, j) ∉ m) → toDiagonal B[j] ≤ ε) :
    matchingCost (fun p q => pw (infinityDistance p q)) (fun p => pw (infinityDistance p ((p.1 + p.2) / 2, (p.1 + p.2) / 2))) A B m ≤
      (A.length + B.length : ℕ) * pw ε := by
  have hnn : ∀ p q : α × α, 0 ≤ pw (infinityDistance p q) := fun p q => hpw _ (infinityDistance_nonneg p q)
  unfold matchingCost
  have c1 : ∑ x ∈ m, pw (infinityDistance A[x.1] B[x.2]) ≤ #m • pw ε :=
    sum_le_card_nsmul _ _ _ fun x hx => hmono _ _ (infinityDistance_nonneg _ _) (e1 x hx)
  have c2 : ∑ i with ∀ j, (i, j) ∉ m, pw (infinityDistance A[i] ((A[i].1 + A[i].2) / 2, (A[i].1 + A[i].2) / 2)) ≤
      #{i : Fin A.length | ∀ j, (i, j) ∉ m} • pw ε :=
    sum_le_card_nsmul _ _ _ fun i hi => hmono _ _ (infinityDistance_nonneg _ _) (e2 i (mem_filter.1 hi).2)
  have c3 : ∑ j with ∀ i, (i, j) ∉ m, pw (infinityDistance B[j] ((B[j].1 + B[j].2) / 2, (B[j].1 + B[j].2) / 2)) ≤
      #{j : Fin B.length | ∀ i, (i, j) ∉ m} • pw ε :=
    sum_le_card_nsmul _ _ _ fun j hj => hmono _ _ (infinityDistance_nonneg _ _) (e3 j (mem_filter.1 hj).2)
  have hcount : #m + #{i : Fin A.length | ∀ j, (i, j) ∉ m} ≤ A.length := by
    have hi : #m = #(m.image Prod.fst) := by
      rw [card_image_of_injOn]
      rintro ⟨i, j⟩ hx ⟨i', j'⟩ hx' he
      simp only at he
      subst he
      rw [hm.left _ _ _ hx hx']
    rw [hi, ← card_union_of_disjoint]
    · exact (card_le_univ _).trans (by simp)
    · rw [Finset.disjoint_left]
      intro i hi hi'
      obtain ⟨⟨i', j⟩, hx, rfl⟩ := mem_image.1 hi
      exact (mem_filter.1 hi').2 j hx
  have hcount' : #{j : Fin B.length | ∀ i, (i, j) ∉ m} ≤ B.length := (card_le_univ _).trans (by simp)
  have hε0 : 0 ≤ pw ε ∨ A.length + B.length = 0 := by
    rcases Nat.eq_zero_or_pos (A.length + B.length) with h0 | h0
    · exact Or.inr h0
    · left
      by_cases hA : 0 < A.length
      · let i : Fin A.length := ⟨0, hA⟩
        by_cases hi : ∀ j, (i, j) ∉ m
        · exact (hnn _ _).trans (hmono _ _ (infinityDistance_nonneg _ _) (e2 i hi))
        · push Not at hi
          obtain ⟨j, hj⟩ := hi
          exact (hnn _ _).trans (hmono _ _ (infinityDistance_nonneg _ _) (e1 _ hj))
      · have hB : 0 < B.length := by omega
        let j : Fin B.length := ⟨0, hB⟩
        by_cases hj : ∀ i, (i, j) ∉ m
        · exact (hnn _ _).trans (hmono _ _ (infinityDistance_nonneg _ _) (e3 j hj))
        · push Not at hj
          obtain ⟨i, hi⟩ := hj
          exact (hnn _ _).trans (hmono _ _ (infinityDistance_nonneg _ _) (e1 _ hi))
  refine (add_le_add (add_le_add c1 c2) c3).trans ?_
  rw [← add_nsmul, ← add_nsmul, nsmul_eq_mul]
  rcases hε0 with h0 | h0
  · exact mul_le_mul_of_nonneg_right (Nat.cast_le.2 (by omega)) h0
  · rw [show #m + #{i : Fin A.length | ∀ j, (i, j) ∉ m} + #{j : Fin B.length | ∀ i, (i, j) ∉ m} = 0 by omega, h0]

/-- C155. The distance calculated by `wassersteinDistance` for these diagrams is the root of a cost of at most the power of `ε` for each of their
points. -/
theorem _root_.Aleph.C155_wasserstein [Archimedean α] (inf : α) (K L : Complex α) (hK : IsFiltration K) (hL : IsFiltration L) (hn : K.length ≤ idxMax)
    (hs : K.Pairwise fun s t => s.data ≤ t.data) (hs' : L.Pairwise fun s t => s.data ≤ t.data)
    (hinf : ∀ s ∈ K, s.data < inf) (hinf' : ∀ s ∈ L, s.data < inf) (ε : α) (hε : DataWithin ε K L)
    (inc : Bool) (a a' : Algorithm) (k k' : Kind) (dualize dualize' : Bool) (Ds Es : List (Diagram α))
    (hDs : calculatePersistenceDiagrams a k inf K dualize inc = some Ds)
    (hEs : calculatePersistenceDiagrams a' k' inf L dualize' inc = some Es) (D E : Diagram α) (hD : D ∈ Ds) (hE : E ∈ Es)
    (hdim : D.dimension = E.dimension) (pw rt : α → α) (top : α) (hpw : ∀ x, 0 ≤ x → 0 ≤ pw x) (hmono : ∀ x y, 0 ≤ x → x ≤ y → pw x ≤ pw y)
    (htop : matchingCost (fun p q => pw (infinityDistance p q)) (fun p => pw (infinityDistance p ((p.1 + p.2) / 2, (p.1 + p.2) / 2)))
      ((D.removeDiagonal).removeUnpaired inf).points ((E.removeDiagonal).removeUnpaired inf).points ∅ < top) :
    ∃ w rounds, (∀ n, rounds ≤ n → wassersteinDistance pw rt top infinityDistance ((D.removeDiagonal).removeUnpaired inf)
        ((E.removeDiagonal).removeUnpaired inf) n = some (.ok (rt w))) ∧
      w ≤ (((D.removeDiagonal).removeUnpaired inf).points.length + ((E.removeDiagonal).removeUnpaired inf).points.length : ℕ) * pw ε := by
  obtain ⟨Ds', Es', h1, h2, h3⟩ := C155_stability inf K L hK hL hn hs hs' hinf hinf' ε hε inc a a' k k' dualize dualize'
  rw [hDs] at h1; rw [hEs] at h2
  obtain rfl := Option.some.inj h1
  obtain rfl := Option.some.inj h2
  have hn' : L.length ≤ idxMax := by
    have := hε.simplices.length_eq
    simp only [List.length_map] at this
    omega
  have h := h3 D.dimension
  rw [points_of_mem hK hn hDs hD, hdim, points_of_mem hL hn' hEs hE] at h
  have hnn : ∀ p q : α × α, 0 ≤ pw (infinityDistance p q) := fun p q => hpw _ (infinityDistance_nonneg p q)
  obtain ⟨w, hw, rounds, hr⟩ := C36_optimal_matching pw rt top infinityDistance ((D.removeDiagonal).removeUnpaired inf)
    ((E.removeDiagonal).removeUnpaired inf) hdim hnn htop
  refine ⟨w, rounds, hr, ?_⟩
  rw [clean_points, clean_points] at hw ⊢
  obtain ⟨m, hm, e1, e2, e3⟩ := matching_within h
  refine (hw.2 ⟨m, hm, rfl⟩).trans ?_
  exact matchingCost_le hpw hmono hm e1 e2 e3

/-! ### A concrete case: the order of vertices and edges is reversed -/

/-- A path with three vertices. -/
def pathA : Complex ℚ := [⟨[0], 0⟩, ⟨[1], 1⟩, ⟨[2], 2⟩, ⟨[1, 0], 3⟩, ⟨[2, 1], 4⟩]

/-- The same path with different data; its simplices are in a different order. -/
def pathB : Complex ℚ := [⟨[1], 0⟩, ⟨[0], 1⟩, ⟨[2], 3 / 2⟩, ⟨[2, 1], 3⟩, ⟨[1, 0], 7 / 2⟩]

theorem pathA_filtration : IsFiltration pathA :=
  ⟨⟨by decide, by decide, by decide⟩, Closed1.faceClosed (by decide) (by unfold Closed1; decide +kernel), by unfold FacesFirst; decide⟩

theorem pathB_filtration : IsFiltration pathB :=
  ⟨⟨by decide, by decide, by decide⟩, Closed1.faceClosed (by decide) (by unfold Closed1; decide +kernel), by unfold FacesFirst; decide⟩

example : pathA.length ≤ idxMax ∧ pathA.Pairwise (fun s t => s.data ≤ t.data) ∧ pathB.Pairwise (fun s t => s.data ≤ t.data) ∧
    (∀ s ∈ pathA, s.data < 100) ∧ (∀ s ∈ pathB, s.data < 100) ∧ DataWithin 1 pathA pathB :=
  ⟨by decide, by decide +kernel, by decide +kernel, by decide +kernel, by decide +kernel, ⟨by decide, by decide +kernel⟩⟩

/-- The diagrams; the difference `1` is attained, so that no smaller bound holds. -/
example : calculatePersistenceDiagrams .standard .vector 100 pathA true true = some [⟨0, [(0, 100), (1, 3), (2, 4)]⟩] ∧
    calculatePersistenceDiagrams .standard .vector 100 pathB true true = some [⟨0, [(0, 100), (1, 7 / 2), (3 / 2, 3)]⟩] := by
  decide +kernel

end Aleph.Stability
