import Verif.Lemmas.Curvature
import Verif.Spec.Euler
import Mathlib.Tactic.Linarith
import Mathlib.Tactic.Ring
import Mathlib.Tactic.FieldSimp
import Mathlib.Analysis.SpecialFunctions.Trigonometric.Inverse
import Mathlib.Algebra.BigOperators.Ring.Finset

/-!
# Degrees of vertices and angle defects
-/

namespace Aleph.Curvature

open Finset Spec

variable {α : Type}

/-! ## Degrees -/

/-- The map `D` counts the elements of `L`. -/
structure Counts (L : List ℕ) (D : List (ℕ × ℕ)) : Prop where
  sorted : D.Pairwise fun p q => p.1 < q.1
  mem : ∀ v d, (v, d) ∈ D ↔ 0 < d ∧ d = L.count v

theorem mem_increment {D : List (ℕ × ℕ)} (h : D.Pairwise fun p q => p.1 < q.1) (v u d : ℕ) :
    (u, d) ∈ increment v D ↔ (u ≠ v ∧ (u, d) ∈ D) ∨ (u = v ∧ ((∃ e, (v, e) ∈ D ∧ d = e + 1) ∨ (∀ e, (v, e) ∉ D) ∧ d = 1)) := by
  induction D with
  | nil => simp [increment]
  | cons p D ih =>
    obtain ⟨x, e⟩ := p
    have h1 := (List.pairwise_cons.1 h).1
    have ih := ih (List.pairwise_cons.1 h).2
    unfold increment
    split
    · next hlt =>
      have hno : ∀ e', (v, e') ∉ (x, e) :: D := by
        intro e' he
        rcases List.mem_cons.1 he with he | he
        · rw [Prod.mk.injEq] at he; omega
        · have := h1 _ he; simp only at this; omega
      rw [List.mem_cons]
      constructor
      · rintro (he | he)
        · rw [Prod.mk.injEq] at he
          exact Or.inr ⟨he.1, Or.inr ⟨hno, he.2⟩⟩
        · by_cases hu : u = v
          · subst hu; exact absurd he (hno d)
          · exact Or.inl ⟨hu, he⟩
      · rintro (⟨_, he⟩ | ⟨hu, ⟨e', he', _⟩ | ⟨_, hd⟩⟩)
        · exact Or.inr he
        · exact absurd he' (hno e')
        · exact Or.inl (by rw [hu, hd])
    · split
      · next hlt heq =>
        subst heq
        have hno : ∀ e', (v, e') ∉ D := by
          intro e' he
          have := h1 _ he; simp only at this; omega
        constructor
        · intro he
          rcases List.mem_cons.1 he with he | he
          · rw [Prod.mk.injEq] at he
            exact Or.inr ⟨he.1, Or.inl ⟨e, by simp, he.2⟩⟩
          · refine Or.inl ⟨?_, List.mem_cons_of_mem _ he⟩
            intro hu
            rw [hu] at he
            exact hno d he
        · rintro (⟨hu, he⟩ | ⟨hu, ⟨e', he', hd⟩ | ⟨hn, _⟩⟩)
          · rcases List.mem_cons.1 he with he | he
            · rw [Prod.mk.injEq] at he; exact absurd he.1 hu
            · exact List.mem_cons_of_mem _ he
          · rcases List.mem_cons.1 he' with he | he
            · rw [Prod.mk.injEq] at he
              rw [hu, hd, he.2]
              exact List.mem_cons_self
            · exact absurd he (hno e')
          · exact absurd List.mem_cons_self (hn e)
      · next hlt hne =>
        rw [List.mem_cons, ih, List.mem_cons]
        constructor
        · rintro (he | ⟨hu, he⟩ | ⟨hu, ⟨e', he', hd⟩ | ⟨hn, hd⟩⟩)
          · rw [Prod.mk.injEq] at he
            exact Or.inl ⟨by omega, Or.inl (by rw [he.1, he.2])⟩
          · exact Or.inl ⟨hu, Or.inr he⟩
          · exact Or.inr ⟨hu, Or.inl ⟨e', List.mem_cons_of_mem _ he', hd⟩⟩
          · refine Or.inr ⟨hu, Or.inr ⟨?_, hd⟩⟩
            intro e' he
            rcases List.mem_cons.1 he with he | he
            · rw [Prod.mk.injEq] at he; exact hne he.1
            · exact hn e' he
        · rintro (⟨hu, he | he⟩ | ⟨hu, ⟨e', he', hd⟩ | ⟨hn, hd⟩⟩)
          · exact Or.inl he
          · exact Or.inr (Or.inl ⟨hu, he⟩)
          · rcases List.mem_cons.1 he' with he | he
            · rw [Prod.mk.injEq] at he; exact absurd he.1 hne
            · exact Or.inr (Or.inr ⟨hu, Or.inl ⟨e', he, hd⟩⟩)
          · exact Or.inr (Or.inr ⟨hu, Or.inr ⟨fun e' he => hn e' (List.mem_cons_of_mem _ he), hd⟩⟩)

theorem increment_sorted {D : List (ℕ × ℕ)} (h : D.Pairwise fun p q => p.1 < q.1) (v : ℕ) :
    (increment v D).Pairwise fun p q => p.1 < q.1 := by
  induction D with
  | nil => simp [increment]
  | cons p D ih =>
    obtain ⟨x, e⟩ := p
    obtain ⟨h1, h2⟩ := List.pairwise_cons.1 h
    unfold increment
    split
    · next hlt =>
      refine List.pairwise_cons.2 ⟨?_, h⟩
      intro q hq
      rcases List.mem_cons.1 hq with rfl | hq
      · exact hlt
      · have := h1 q hq; simp only at this ⊢; omega
    · split
      · exact List.pairwise_cons.2 ⟨h1, h2⟩
      · next hlt hne =>
        refine List.pairwise_cons.2 ⟨?_, ih h2⟩
        rintro ⟨u, d⟩ hq
        rcases (mem_increment h2 v u d).1 hq with ⟨_, hq⟩ | ⟨hu, _⟩
        · exact h1 _ hq
        · simp only; omega

theorem counts_increment {L : List ℕ} {D : List (ℕ × ℕ)} (h : Counts L D) (v : ℕ) : Counts (L ++ [v]) (increment v D) := by
  refine ⟨increment_sorted h.sorted v, ?_⟩
  intro u d
  rw [mem_increment h.sorted, List.count_append, List.count_singleton]
  constructor
  · rintro (⟨hu, hd⟩ | ⟨hu, ⟨e, he, hd⟩ | ⟨hn, hd⟩⟩)
    · rw [h.mem] at hd
      have : (v == u) = false := by simp [Ne.symm hu]
      rw [this]
      exact ⟨hd.1, by simpa using hd.2⟩
    · rw [h.mem] at he
      subst hu
      simp
      omega
    · subst hu
      have : L.count u = 0 := by
        by_contra h0
        exact hn _ ((h.mem u _).2 ⟨by omega, rfl⟩)
      simp
      omega
  · rintro ⟨h1, h2⟩
    by_cases hu : u = v
    · subst hu
      right
      refine ⟨rfl, ?_⟩
      simp at h2
      rcases Nat.eq_zero_or_pos (L.count u) with h0 | h0
      · right
        refine ⟨?_, by omega⟩
        intro e he
        rw [h.mem] at he
        omega
      · left
        exact ⟨L.count u, (h.mem _ _).2 ⟨h0, rfl⟩, h2⟩
    · left
      have : (v == u) = false := by simp [Ne.symm hu]
      rw [this] at h2
      exact ⟨hu, (h.mem _ _).2 ⟨h1, by simpa using h2⟩⟩

theorem counts_foldl {L : List ℕ} {D : List (ℕ × ℕ)} (h : Counts L D) (M : List ℕ) :
    Counts (L ++ M) (M.foldl (fun D v => increment v D) D) := by
  induction M generalizing L D with
  | nil => simpa using h
  | cons v M ih =>
    have := ih (counts_increment h v)
    rw [List.append_assoc] at this
    exact this

theorem counts_complex (K : Complex α) : Counts ((List.filter (fun s => Complex.dim s ≠ 0) K).flatMap (·.vertices))
    (K.foldl (fun degrees s =>
      if Complex.dim s ≠ 0 then s.vertices.foldl (fun degrees v => increment v degrees) degrees else degrees) []) := by
  have h : ∀ (L : List ℕ) (D : List (ℕ × ℕ)), Counts L D →
      Counts (L ++ (List.filter (fun s => Complex.dim s ≠ 0) K).flatMap (·.vertices)) (K.foldl (fun degrees s =>
      if Complex.dim s ≠ 0 then s.vertices.foldl (fun degrees v => increment v degrees) degrees else degrees) D) := by
    induction K with
    | nil => intro L D h; simpa using h
    | cons s K ih =>
      intro L D h
      rw [List.foldl_cons, List.filter_cons]
      by_cases hd : Complex.dim s ≠ 0
      · rw [if_pos hd, if_pos (by simpa using hd), List.flatMap_cons, ← List.append_assoc]
        exact ih _ _ (counts_foldl h s.vertices)
      · rw [if_neg hd, if_neg (by simpa using hd)]
        exact ih _ _ h
  exact h [] [] ⟨List.Pairwise.nil, by simp; omega⟩

theorem degree_count {K : Complex α} (hK : WF K) (v : ℕ) :
    ((List.filter (fun s => Complex.dim s ≠ 0) K).flatMap (·.vertices)).count v = degree (sets K) v := by
  unfold degree
  rw [← count_sets hK]
  have h : ∀ L : Complex α, (∀ s ∈ L, s ∈ K) → ((List.filter (fun s => Complex.dim s ≠ 0) L).flatMap (·.vertices)).count v =
      L.countP fun s => v ∈ s.vset ∧ 2 ≤ #s.vset := by
    intro L hL
    induction L with
    | nil => rfl
    | cons s L ih =>
      have hs := hL s (by simp)
      have ih := ih fun t ht => hL t (by simp [ht])
      have hd := dim_add_one hK hs
      rw [List.filter_cons, List.countP_cons, ← ih]
      by_cases h2 : Complex.dim s ≠ 0
      · rw [if_pos (by simpa using h2), List.flatMap_cons, List.count_append, add_comm]
        congr 1
        have hnd := (hK.normal s hs).nodup
        by_cases hv : v ∈ s.vertices
        · rw [List.count_eq_one_of_mem hnd hv, if_pos]
          rw [decide_eq_true_eq]
          exact ⟨List.mem_toFinset.2 hv, by omega⟩
        · rw [List.count_eq_zero_of_not_mem hv, if_neg]
          rw [decide_eq_true_eq]
          exact fun h => hv (List.mem_toFinset.1 h.1)
      · rw [if_neg (by simpa using h2), if_neg, add_zero]
        rw [decide_eq_true_eq]
        rintro ⟨_, h3⟩
        omega
  exact h K fun _ h => h

/-- A map with ascending keys is determined by its elements. -/
theorem sorted_eq_map {D : List (ℕ × ℕ)} (h : D.Pairwise fun p q => p.1 < q.1) (vs : List ℕ) (hv : vs.Pairwise (· < ·)) (g : ℕ → ℕ)
    (hm : ∀ v d, (v, d) ∈ D ↔ v ∈ vs ∧ d = g v) : D = vs.map fun v => (v, g v) := by
  have hp : D.Perm (vs.map fun v => (v, g v)) := by
    rw [List.perm_ext_iff_of_nodup]
    · rintro ⟨v, d⟩
      rw [hm, List.mem_map]
      constructor
      · rintro ⟨h1, h2⟩; exact ⟨v, h1, by rw [h2]⟩
      · rintro ⟨u, h1, h2⟩
        rw [Prod.mk.injEq] at h2
        rw [← h2.1, ← h2.2]
        exact ⟨h1, rfl⟩
    · exact h.imp fun {p q} hpq he => by rw [he] at hpq; omega
    · rw [List.nodup_iff_pairwise_ne, List.pairwise_map]
      exact hv.imp fun {a b} hab he => by rw [Prod.mk.injEq] at he; omega
  refine hp.eq_of_pairwise (le := fun p q : ℕ × ℕ => p.1 < q.1) ?_ h ?_
  · intro p q _ _ h1 h2; omega
  · rw [List.pairwise_map]; exact hv

/-- C82. Partial: the result lists the degrees of all vertices that are not isolated, in ascending order of the vertices. -/
theorem _root_.Aleph.C82_degrees_partial (K : Complex α) (hK : WF K) (vs : List ℕ) (hs : vs.Pairwise (· < ·))
    (hv : ∀ v, v ∈ vs ↔ 0 < degree (sets K) v) : degrees K = vs.map (degree (sets K)) := by
  have h := counts_complex K
  unfold degrees
  rw [sorted_eq_map h.sorted vs hs (degree (sets K))]
  · rw [List.map_map]; rfl
  · intro v d
    rw [h.mem, degree_count hK, hv]
    constructor
    · rintro ⟨h1, h2⟩; exact ⟨by omega, h2⟩
    · rintro ⟨h1, h2⟩; exact ⟨by omega, h2⟩

/-- C82. It lists the degrees of all vertices, as documented, if and only if there are no isolated vertices. -/
theorem _root_.Aleph.C82_degrees_iff (K : Complex α) (hK : WF K) (hcl : FaceClosed K) (vs : List ℕ) (hs : vs.Pairwise (· < ·))
    (hv : ∀ v, v ∈ vs ↔ {v} ∈ sets K) : degrees K = vs.map (degree (sets K)) ↔ ∀ v ∈ vs, 0 < degree (sets K) v := by
  have h1 : degrees K = (vs.filter fun v => 0 < degree (sets K) v).map (degree (sets K)) := by
    apply C82_degrees_partial K hK _ (hs.filter _)
    intro v
    rw [List.mem_filter, decide_eq_true_eq]
    constructor
    · exact fun h => h.2
    · intro h
      refine ⟨(hv v).2 ?_, h⟩
      unfold degree at h
      obtain ⟨τ, hτ⟩ := card_pos.1 h
      rw [mem_filter] at hτ
      obtain ⟨s, hs, rfl⟩ := mem_sets.1 hτ.1
      obtain ⟨t, ht, he⟩ := hcl s hs {v} (singleton_subset_iff.2 hτ.2.1) (singleton_nonempty v)
      exact mem_sets.2 ⟨t, ht, he⟩
  rw [h1]
  constructor
  · intro h
    have h2 := congrArg List.length h
    rw [List.length_map, List.length_map] at h2
    have h3 := List.length_filter_eq_length_iff.1 h2
    intro v hv
    exact of_decide_eq_true (h3 v hv)
  · intro h
    rw [List.filter_eq_self.2]
    intro v hv
    exact decide_eq_true (h v hv)

/-- C82. The sum of the degrees is the sum of the numbers of vertices of all simplices that are not vertices; in a graph, this is twice the
number of edges. -/
theorem _root_.Aleph.C82_handshake (K : Complex α) (hK : WF K) :
    (degrees K).sum = ∑ τ ∈ sets K with 2 ≤ #τ, #τ ∧
    ((∀ s ∈ K, #s.vset ≤ 2) → (degrees K).sum = 2 * #{τ ∈ sets K | #τ = 2}) := by
  have hsum : (degrees K).sum = ∑ τ ∈ sets K with 2 ≤ #τ, #τ := by
    set V := (sets K).biUnion id with hV
    have h1 : degrees K = ((V.filter fun v => 0 < degree (sets K) v).sort (· ≤ ·)).map (degree (sets K)) := by
      apply C82_degrees_partial K hK
      · exact (Finset.sortedLT_sort _).pairwise
      · intro v
        rw [mem_sort, mem_filter]
        constructor
        · exact fun h => h.2
        · intro h
          refine ⟨?_, h⟩
          obtain ⟨τ, hτ⟩ := card_pos.1 h
          rw [mem_filter] at hτ
          exact mem_biUnion.2 ⟨τ, hτ.1, hτ.2.1⟩
    have h2 : (degrees K).sum = ∑ v ∈ V, degree (sets K) v := by
      rw [h1, ← List.sum_toFinset _ (sort_nodup _ _), sort_toFinset, sum_filter]
      apply sum_congr rfl
      intro v _
      split <;> omega
    rw [h2]
    have h3 : ∀ v, degree (sets K) v = #((sets K |>.filter fun τ => 2 ≤ #τ).bipartiteAbove (fun v τ => v ∈ τ) v) := by
      intro v
      unfold degree bipartiteAbove
      rw [filter_filter]
      congr 1
      apply filter_congr
      intro τ _
      exact and_comm
    rw [sum_congr rfl fun v _ => h3 v, sum_card_bipartiteAbove_eq_sum_card_bipartiteBelow]
    apply sum_congr rfl
    intro τ hτ
    unfold bipartiteBelow
    congr 1
    ext v
    rw [mem_filter]
    constructor
    · exact fun h => h.2
    · exact fun h => ⟨mem_biUnion.2 ⟨τ, (mem_filter.1 hτ).1, h⟩, h⟩
  refine ⟨hsum, ?_⟩
  intro h2
  rw [hsum]
  have h3 : {τ ∈ sets K | 2 ≤ #τ} = {τ ∈ sets K | #τ = 2} := by
    apply filter_congr
    intro τ hτ
    obtain ⟨s, hs, rfl⟩ := mem_sets.1 hτ
    have := h2 s hs
    omega
  rw [h3, sum_congr rfl (fun τ hτ => (mem_filter.1 hτ).2), sum_const, smul_eq_mul, mul_comm]

/-- An edge and an isolated vertex: two degrees for three vertices. -/
example : degrees ([⟨[0], ()⟩, ⟨[1], ()⟩, ⟨[2], ()⟩, ⟨[2, 0], ()⟩] : Complex Unit) = [1, 1] ∧
    Complex.vertices ([⟨[0], ()⟩, ⟨[1], ()⟩, ⟨[2], ()⟩, ⟨[2, 0], ()⟩] : Complex Unit) = [0, 1, 2] := by decide +kernel

/-! ## Angle defects -/

theorem vertexSet_spec (s : Simplex α) : (vertexSet s).Pairwise (· < ·) ∧ (∀ v, v ∈ vertexSet s ↔ v ∈ s.vset) ∧
    (vertexSet s).length = #s.vset := by
  have hp : (vertexSet s).Perm s.vertices.dedup := List.perm_insertionSort _ _
  have hnd : (vertexSet s).Nodup := hp.nodup_iff.2 (List.nodup_dedup _)
  refine ⟨?_, ?_, ?_⟩
  · have h1 : (vertexSet s).Pairwise (· ≤ ·) := List.pairwise_insertionSort _ _
    exact h1.imp₂ (fun a b hab hne => by omega) hnd
  · intro v
    rw [hp.mem_iff, List.mem_dedup]
    exact List.mem_toFinset.symm
  · rw [hp.length_eq]
    exact (List.card_toFinset s.vertices).symm

theorem top_dimension {K : Complex α} (hK : WF K) (n : ℕ) : IsTopDimension K n ↔ K.dimension = some n := by
  unfold Complex.dimension
  have hmax : ∀ (L : Complex α), (∀ s ∈ L, Complex.dim s ≤ (L.map Complex.dim).foldr max 0) ∧
      (L ≠ [] → ∃ s ∈ L, Complex.dim s = (L.map Complex.dim).foldr max 0) := by
    intro L
    induction L with
    | nil => simp
    | cons s L ih =>
      rw [List.map_cons, List.foldr_cons]
      constructor
      · intro t ht
        rcases List.mem_cons.1 ht with rfl | ht
        · exact le_max_left _ _
        · exact (ih.1 t ht).trans (le_max_right _ _)
      · intro _
        rcases le_total (Complex.dim s) ((L.map Complex.dim).foldr max 0) with h | h
        · rw [max_eq_right h]
          by_cases hL : L = []
          · subst hL
            refine ⟨s, by simp, ?_⟩
            simp at h ⊢
            exact h
          · obtain ⟨t, ht, he⟩ := ih.2 hL
            exact ⟨t, by simp [ht], he⟩
        · rw [max_eq_left h]
          exact ⟨s, by simp, rfl⟩
  by_cases hne : K = []
  · subst hne
    constructor
    · rintro ⟨⟨s, hs, _⟩, _⟩; simp at hs
    · intro h; simp at h
  · rw [if_neg (by simpa using hne), Option.some.injEq]
    obtain ⟨h1, h2⟩ := hmax K
    obtain ⟨t, ht, he⟩ := h2 hne
    constructor
    · rintro ⟨⟨s, hs, hc⟩, h3⟩
      have h4 := h1 s hs
      have h5 := dim_add_one hK hs
      have h6 := dim_add_one hK ht
      have h7 := h3 t ht
      omega
    · intro h
      refine ⟨⟨t, ht, ?_⟩, ?_⟩
      · have := dim_add_one hK ht; omega
      · intro s hs
        have := dim_add_one hK hs
        have := h1 s hs
        omega

/-- C83. The `n`-degree of a simplex is the number of simplices of the dimension `n` of the complex that contain it; there is an exception if
the complex is empty. -/
theorem _root_.Aleph.C83_n_degree (K : Complex α) (hK : WF K) (s : Simplex α) :
    (∀ n, IsTopDimension K n → nDegree K s = some #{τ ∈ sets K | #τ = n + 1 ∧ s.vset ⊆ τ}) ∧
    (K = [] → nDegree K s = none) := by
  constructor
  · intro n hn
    unfold nDegree
    rw [(top_dimension hK n).1 hn, Option.map_some, range_eq hK, List.countP_filter, ← count_sets hK]
    congr 1
    apply List.countP_congr
    intro t _
    obtain ⟨s1, s2, s3⟩ := vertexSet_spec s
    obtain ⟨t1, t2, t3⟩ := vertexSet_spec t
    have hm := mem_setIntersection (fun a b : ℕ => decide (a < b)) (by simp) (by
      intro x y z h1 h2
      simp only [decide_eq_true_eq] at *
      omega) (by
      intro x y h
      simp only [decide_eq_true_eq]
      omega) (vertexSet s) (vertexSet t) (s1.imp (by simp)) (t1.imp (by simp))
    have hsub := setIntersection_sublist (fun a b : ℕ => decide (a < b)) (vertexSet s) (vertexSet t)
    simp only [Bool.and_eq_true, beq_iff_eq, decide_eq_true_eq]
    have : (setIntersection (fun a b : ℕ => decide (a < b)) (vertexSet s) (vertexSet t)).length = (vertexSet s).length ↔ s.vset ⊆ t.vset := by
      constructor
      · intro h v hv
        have he := hsub.eq_of_length h
        rw [← s2, ← he, hm] at hv
        exact (t2 v).1 hv.2
      · intro h
        apply le_antisymm hsub.length_le
        apply (List.Nodup.subperm (s1.imp fun {a b} hab => by omega) _).length_le
        intro v hv
        exact (hm v).2 ⟨hv, (t2 v).2 (h ((s2 v).1 hv))⟩
    rw [this, and_comm]
  · rintro rfl
    rfl

/-- C83. The angle defects of a complex of dimension `n`: one value for each simplex of dimension `n - 2`, namely the full angle minus the
dihedral angle of a regular `n`-simplex for each `n`-simplex around it.  There are no values below dimension two. -/
theorem _root_.Aleph.C83_defects (K : Complex α) (hK : WF K) (n : ℕ) (hn : IsTopDimension K n) :
    (n < 2 → angleDefectCurvature K = some []) ∧
    (2 ≤ n → angleDefectCurvature K = some ((List.filter (fun s => #s.vset = n - 1) K).map fun s =>
      2 * Real.pi - Real.arccos (1 / n) * #{τ ∈ sets K | #τ = n + 1 ∧ s.vset ⊆ τ})) := by
  have hd := (top_dimension hK n).1 hn
  constructor
  · intro h
    unfold angleDefectCurvature
    rw [hd]
    simp only [if_pos h]
  · intro h
    unfold angleDefectCurvature
    rw [hd]
    simp only
    rw [if_neg (by omega), range_eq hK, show n - 2 + 1 = n - 1 by omega]
    have hm : ∀ l : List (Simplex α), (l.mapM fun s => (nDegree K s).map fun d => 2 * Real.pi - Real.arccos (1 / (n : ℝ)) * (d : ℝ)) =
        some (l.map fun s => 2 * Real.pi - Real.arccos (1 / n) * #{τ ∈ sets K | #τ = n + 1 ∧ s.vset ⊆ τ}) := by
      intro l
      induction l with
      | nil => rfl
      | cons s l ih =>
        rw [List.mapM_cons, ih, (C83_n_degree K hK s).1 n hn]
        rfl
    exact hm _

/-- C83. The sum of all defects, by double counting. -/
theorem _root_.Aleph.C83_total (K : Complex α) (hK : WF K) (hcl : FaceClosed K) (n : ℕ) (hn : IsTopDimension K n) (h2 : 2 ≤ n) :
    ∃ l, angleDefectCurvature K = some l ∧ l.sum = 2 * Real.pi * #{σ ∈ sets K | #σ = n - 1} -
      Real.arccos (1 / n) * ((n + 1).choose 2 * #{τ ∈ sets K | #τ = n + 1}) := by
  refine ⟨_, (C83_defects K hK n hn).2 h2, ?_⟩
  rw [sum_sets hK (fun σ => #σ = n - 1) (fun σ => 2 * Real.pi - Real.arccos (1 / n) * #{τ ∈ sets K | #τ = n + 1 ∧ σ ⊆ τ}),
    sum_sub_distrib, sum_const, nsmul_eq_mul, mul_comm _ (2 * Real.pi), ← mul_sum (a := Real.arccos (1 / n))]
  congr 2
  have h3 : ∀ σ : Finset ℕ, #{τ ∈ sets K | #τ = n + 1 ∧ σ ⊆ τ} = #((sets K |>.filter fun τ => #τ = n + 1).bipartiteAbove (fun σ τ => σ ⊆ τ) σ) := by
    intro σ
    unfold bipartiteAbove
    rw [filter_filter]
  have h4 : ∑ σ ∈ sets K with #σ = n - 1, #{τ ∈ sets K | #τ = n + 1 ∧ σ ⊆ τ} = (n + 1).choose 2 * #{τ ∈ sets K | #τ = n + 1} := by
    rw [sum_congr rfl fun σ _ => h3 σ, sum_card_bipartiteAbove_eq_sum_card_bipartiteBelow]
    have h5 : ∀ τ ∈ {τ ∈ sets K | #τ = n + 1}, #(({σ ∈ sets K | #σ = n - 1} : Finset (Finset ℕ)).bipartiteBelow (fun σ τ => σ ⊆ τ) τ) =
        (n + 1).choose 2 := by
      intro τ hτ
      obtain ⟨h6, h7⟩ := mem_filter.1 hτ
      have h8 : ({σ ∈ sets K | #σ = n - 1} : Finset (Finset ℕ)).bipartiteBelow (fun σ τ => σ ⊆ τ) τ = powersetCard (n - 1) τ := by
        ext σ
        unfold bipartiteBelow
        rw [mem_filter, mem_filter, mem_powersetCard]
        constructor
        · rintro ⟨⟨_, h8⟩, h9⟩; exact ⟨h9, h8⟩
        · rintro ⟨h9, h8⟩
          obtain ⟨s, hs, rfl⟩ := mem_sets.1 h6
          obtain ⟨t, ht, he⟩ := hcl s hs σ h9 (card_pos.1 (by omega))
          exact ⟨⟨mem_sets.2 ⟨t, ht, he⟩, h8⟩, h9⟩
      rw [h8, card_powersetCard, h7]
      have := Nat.choose_symm (n := n + 1) (k := 2) (by omega)
      rw [← this]
      congr 1
    rw [sum_congr rfl h5, sum_const, smul_eq_mul, mul_comm]
  exact_mod_cast h4

/-- C83. The theorem of Gauss and Bonnet: if each edge of a two-dimensional complex belongs to two triangles, the angle defects sum up
to the Euler characteristic times the full angle. -/
theorem _root_.Aleph.C83_gauss_bonnet (K : Complex α) (hK : WF K) (hcl : FaceClosed K) (hn : IsTopDimension K 2)
    (he : ∀ σ ∈ sets K, #σ = 2 → #(cofaces (sets K) σ) = 2) :
    ∃ l, angleDefectCurvature K = some l ∧ l.sum = 2 * Real.pi * euler K := by
  obtain ⟨l, h1, h2⟩ := C83_total K hK hcl 2 hn le_rfl
  refine ⟨l, h1, ?_⟩
  rw [h2]
  have harc : Real.arccos (1 / (2 : ℕ)) = Real.pi / 3 := by
    have hp := Real.pi_pos
    have h3 := Real.arccos_cos (x := Real.pi / 3) (by positivity) (by linarith)
    rw [Real.cos_pi_div_three] at h3
    exact_mod_cast h3
  rw [harc]
  have heuler : euler K = #{σ ∈ sets K | #σ = 1} - #{σ ∈ sets K | #σ = 2} + #{σ ∈ sets K | #σ = 3} := by
    unfold euler
    have h3 : ∀ t ∈ sets K, ((-1 : ℤ)) ^ (#t - 1) = (if #t = 1 then 1 else 0) - (if #t = 2 then 1 else 0) + if #t = 3 then 1 else 0 := by
      intro t ht
      have h4 := (vset_nonempty hK ht).card_pos
      obtain ⟨s, hs, rfl⟩ := mem_sets.1 ht
      have h5 := hn.2 s hs
      have : #s.vset = 1 ∨ #s.vset = 2 ∨ #s.vset = 3 := by omega
      rcases this with h | h | h <;> rw [h] <;> norm_num
    rw [sum_congr rfl h3, sum_add_distrib, sum_sub_distrib]
    simp only [sum_boole]
  have hcount : 2 * #{σ ∈ sets K | #σ = 2} = 3 * #{τ ∈ sets K | #τ = 3} := by
    have h3 : ∀ σ ∈ {σ ∈ sets K | #σ = 2}, #((sets K |>.filter fun τ => #τ = 3).bipartiteAbove (fun σ τ => σ ⊆ τ) σ) = 2 := by
      intro σ hσ
      obtain ⟨h4, h5⟩ := mem_filter.1 hσ
      rw [← he σ h4 h5]
      congr 1
      ext τ
      unfold bipartiteAbove
      rw [mem_filter, mem_filter, mem_cofaces]
      rw [h5]
      tauto
    have h6 : ∀ τ ∈ {τ ∈ sets K | #τ = 3}, #(({σ ∈ sets K | #σ = 2} : Finset (Finset ℕ)).bipartiteBelow (fun σ τ => σ ⊆ τ) τ) = 3 := by
      intro τ hτ
      obtain ⟨h6, h7⟩ := mem_filter.1 hτ
      have h8 : ({σ ∈ sets K | #σ = 2} : Finset (Finset ℕ)).bipartiteBelow (fun σ τ => σ ⊆ τ) τ = powersetCard 2 τ := by
        ext σ
        unfold bipartiteBelow
        rw [mem_filter, mem_filter, mem_powersetCard]
        constructor
        · rintro ⟨⟨_, h8⟩, h9⟩; exact ⟨h9, h8⟩
        · rintro ⟨h9, h8⟩
          obtain ⟨s, hs, rfl⟩ := mem_sets.1 h6
          obtain ⟨t, ht, he⟩ := hcl s hs σ h9 (card_pos.1 (by omega))
          exact ⟨⟨mem_sets.2 ⟨t, ht, he⟩, h8⟩, h9⟩
      rw [h8, card_powersetCard, h7]
      rfl
    have := sum_card_bipartiteAbove_eq_sum_card_bipartiteBelow (s := {σ ∈ sets K | #σ = 2}) (t := {τ ∈ sets K | #τ = 3})
      (fun σ τ : Finset ℕ => σ ⊆ τ)
    rw [sum_congr rfl h3, sum_congr rfl h6, sum_const, sum_const, smul_eq_mul, smul_eq_mul] at this
    omega
  have hc3 : (3 : ℕ).choose 2 = 3 := rfl
  have hcount' : (2 : ℝ) * (#{σ ∈ sets K | #σ = 2} : ℝ) = 3 * (#{τ ∈ sets K | #τ = 3} : ℝ) := by exact_mod_cast hcount
  rw [heuler]
  push_cast
  simp only [hc3]
  push_cast
  linear_combination Real.pi * hcount'

/-- The boundary of a tetrahedron satisfies the hypotheses of the theorem of Gauss and Bonnet. -/
example : let K : Complex Unit := [⟨[0], ()⟩, ⟨[1], ()⟩, ⟨[2], ()⟩, ⟨[3], ()⟩, ⟨[1, 0], ()⟩, ⟨[2, 0], ()⟩, ⟨[3, 0], ()⟩, ⟨[2, 1], ()⟩, ⟨[3, 1], ()⟩,
      ⟨[3, 2], ()⟩, ⟨[2, 1, 0], ()⟩, ⟨[3, 1, 0], ()⟩, ⟨[3, 2, 0], ()⟩, ⟨[3, 2, 1], ()⟩]
    (∀ s ∈ K, Normal s.vertices ∧ s.vertices ≠ []) ∧ (K.map (·.vertices)).Nodup ∧
    (∀ t ∈ sets K, ∀ u ∈ t.powerset, u.Nonempty → u ∈ sets K) ∧ K.dimension = some 2 ∧
    (∀ σ ∈ sets K, #σ = 2 → #(cofaces (sets K) σ) = 2) := by
  decide +kernel

end Aleph.Curvature
