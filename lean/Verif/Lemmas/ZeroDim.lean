import Verif.Lemmas.UnionFind
import Verif.Lemmas.LowSpan
import Verif.Lemmas.Conversions
import Verif.Props.TieBreak
import Verif.Props.UnionFind

/-! Path components and persistence pairs of vertices. -/

namespace Aleph

open Finset Aleph.Spec ParentMap

variable {α : Type} {K : Complex α}

theorem lt_of_vsetAt {i : ℕ} {s : Finset ℕ} (hs : s.Nonempty) (h : vsetAt K i = s) : i < K.length := by
  by_contra hi
  have : vsetAt K i = ∅ := by simp [vsetAt, List.getElem?_eq_none (by omega : K.length ≤ i)]
  rw [this] at h
  rw [← h] at hs
  simp at hs

theorem vsetAt_unique (hK : WF K) {i j : ℕ} {s : Finset ℕ} (hs : s.Nonempty) (h : vsetAt K i = s)
    (h' : vsetAt K j = s) : i = j :=
  vsetAt_inj hK (lt_of_vsetAt hs h) (lt_of_vsetAt hs h') (h.trans h'.symm)

theorem mem_facets_edge {k a b i : ℕ} (hab : a ≠ b) (hk : vsetAt K k = {a, b}) :
    i ∈ facets K k ↔ vsetAt K i = {a} ∨ vsetAt K i = {b} := by
  unfold facets
  rw [mem_filter, mem_range, hk, card_pair hab]
  constructor
  · rintro ⟨_, h1, h2⟩
    obtain ⟨x, hx⟩ := card_eq_one.1 (by omega : #(vsetAt K i) = 1)
    rw [hx] at h1 ⊢
    have : x ∈ ({a, b} : Finset ℕ) := h1 (by simp)
    simp only [mem_insert, mem_singleton] at this
    rcases this with rfl | rfl
    · exact Or.inl rfl
    · exact Or.inr rfl
  · rintro (h | h)
    · exact ⟨lt_of_vsetAt (by simp) h, by rw [h]; simp, by rw [h]; rfl⟩
    · exact ⟨lt_of_vsetAt (by simp) h, by rw [h]; simp, by rw [h]; rfl⟩

theorem edge_of_mem_facets {k i v : ℕ} (hi : vsetAt K i = {v}) (h : i ∈ facets K k) :
    ∃ b, v ≠ b ∧ vsetAt K k = {v, b} := by
  unfold facets at h
  rw [mem_filter, hi] at h
  obtain ⟨_, h1, h2⟩ := h
  rw [card_singleton] at h2
  obtain ⟨a, b, hab, he⟩ := card_eq_two.1 h2.symm
  rw [he] at h1 ⊢
  have : v ∈ ({a, b} : Finset ℕ) := h1 (by simp)
  simp only [mem_insert, mem_singleton] at this
  rcases this with rfl | rfl
  · exact ⟨b, hab, rfl⟩
  · exact ⟨a, hab.symm, by rw [pair_comm]⟩

theorem exists_pos (hc : FaceClosed K) {k v : ℕ} (h : v ∈ vsetAt K k) : ∃ i, vsetAt K i = {v} := by
  obtain ⟨i, _, h2⟩ := exists_vsetAt hc (t := {v})
    (lt_of_vsetAt ⟨v, h⟩ rfl) (by simpa using h) (by simp)
  exact ⟨i, h2⟩

theorem Spec.Joined.mono {t t' a b : ℕ} (h : t ≤ t') (hj : Joined K t a b) : Joined K t' a b :=
  Relation.EqvGen.mono (fun _ _ ⟨h1, k, h2, h3⟩ => ⟨h1, k, lt_of_lt_of_le h2 h, h3⟩) _ _ hj

theorem Spec.Joined.vertex (hc : FaceClosed K) {t a b : ℕ} (h : Joined K t a b) :
    (∃ i, vsetAt K i = {a}) ↔ ∃ i, vsetAt K i = {b} := by
  unfold Joined at h
  induction h with
  | refl _ => exact Iff.rfl
  | symm _ _ _ ih => exact ih.symm
  | trans _ _ _ _ _ ih ih' => exact ih.trans ih'
  | rel a b h =>
    obtain ⟨_, k, _, hk⟩ := h
    exact ⟨fun _ => exists_pos hc (k := k) (by rw [hk]; simp),
      fun _ => exists_pos hc (k := k) (by rw [hk]; simp)⟩

theorem Spec.Joined.span (hK : WF K) (hc : FaceClosed K) {t a b : ℕ} (h : Joined K t a b) :
    ∀ i j, vsetAt K i = {a} → vsetAt K j = {b} →
      ind {i} + ind {j} ∈ spanLt (fun k => ind (facets K k)) t := by
  have h0 := h
  unfold Joined at h
  induction h with
  | refl a =>
    intro i j hi hj
    rw [vsetAt_unique hK (by simp) hi hj, vec_add_self]
    exact Submodule.zero_mem _
  | symm a b hab ih =>
    intro i j hi hj
    rw [add_comm]
    exact ih hab j i hj hi
  | trans a b c hab hbc ih ih' =>
    intro i j hi hj
    obtain ⟨m, hm⟩ := (Spec.Joined.vertex hc (show Joined K t a b from hab)).1 ⟨i, hi⟩
    have := Submodule.add_mem _ (ih hab i m hi hm) (ih' hbc m j hm hj)
    have he : ind {i} + ind {m} + (ind {m} + ind {j}) = ind {i} + ind {j} := by
      rw [add_assoc, ← add_assoc (ind {m}), vec_add_self, zero_add]
    rwa [he] at this
  | rel a b h =>
    obtain ⟨hne, k, hk, hkab⟩ := h
    intro i j hi hj
    have : ind {i} + ind {j} = ind (facets K k) := by
      have hij : i ≠ j := by
        rintro rfl
        rw [hi] at hj
        exact hne (singleton_injective hj)
      funext x
      have hx : x ∈ facets K k ↔ x = i ∨ x = j := by
        rw [mem_facets_edge hne hkab]
        constructor
        · rintro (h | h)
          · exact Or.inl (vsetAt_unique hK (by simp) h hi)
          · exact Or.inr (vsetAt_unique hK (by simp) h hj)
        · rintro (rfl | rfl)
          · exact Or.inl hi
          · exact Or.inr hj
      simp only [Pi.add_apply, ind, mem_singleton, hx]
      by_cases h1 : x = i
      · have h2 : x ≠ j := fun h => hij (h1.symm.trans h)
        simp [h1, hij]
      · by_cases h2 : x = j <;> simp [h1, h2]
        exact fun h => absurd h hij.symm
    rw [this]
    exact mem_spanLt_self _ hk

open Classical in
/-- A vertex is the youngest one in the boundary of a chain exactly if it is not the oldest vertex
of its component. -/
theorem low_iff_not_oldest (hK : WF K) (hc : FaceClosed K) {i v t : ℕ} (hv : vsetAt K i = {v}) :
    (∃ w ∈ spanLt (fun k => ind (facets K k)) t, IsLow w i) ↔ ¬ OldestAt K t i := by
  constructor
  · rintro ⟨w, hw, hlow⟩ ⟨v', hv', hold⟩
    rw [hv] at hv'
    cases singleton_injective hv'
    let S : Finset ℕ := {x ∈ range K.length | ∃ y, vsetAt K x = {y} ∧ Joined K t v y}
    have hS : ∀ x, x ∈ S ↔ ∃ y, vsetAt K x = {y} ∧ Joined K t v y := by
      intro x
      simp only [S, mem_filter, mem_range]
      constructor
      · exact fun h => h.2
      · rintro ⟨y, hy, h⟩
        exact ⟨lt_of_vsetAt (by simp) hy, y, hy, h⟩
    have hphi : ∀ w ∈ spanLt (fun k => ind (facets K k)) t, ∑ x ∈ S, w x = 0 := by
      intro w hw
      unfold spanLt at hw
      induction hw using Submodule.span_induction with
      | zero => simp
      | add x y _ _ hx hy => simp only [Pi.add_apply, sum_add_distrib, hx, hy, add_zero]
      | smul a x _ hx => simp only [Pi.smul_apply, smul_eq_mul, ← mul_sum, hx, mul_zero]
      | mem x hx =>
        obtain ⟨k, hk, rfl⟩ := hx
        simp only [ind]
        rw [sum_ite_mem, sum_const, nsmul_eq_mul, mul_one]
        rcases (S ∩ facets K k).eq_empty_or_nonempty with he | ⟨x, hx⟩
        · rw [he]; rfl
        · rw [mem_inter, hS] at hx
          obtain ⟨⟨y, hy1, hy2⟩, hxf⟩ := hx
          obtain ⟨b, hyb, hkb⟩ := edge_of_mem_facets hy1 hxf
          obtain ⟨j, hj⟩ := exists_pos hc (k := k) (v := b) (by rw [hkb]; simp)
          have hjb : Joined K t v b := .trans _ _ _ hy2 (.rel _ _ ⟨hyb, k, hk, hkb⟩)
          have : S ∩ facets K k = {x, j} := by
            ext z
            rw [mem_inter, hS, mem_facets_edge hyb hkb, mem_insert, mem_singleton]
            constructor
            · rintro ⟨_, h | h⟩
              · exact Or.inl (vsetAt_unique hK (by simp) h hy1)
              · exact Or.inr (vsetAt_unique hK (by simp) h hj)
            · rintro (rfl | rfl)
              · exact ⟨⟨y, hy1, hy2⟩, Or.inl hy1⟩
              · exact ⟨⟨b, hj, hjb⟩, Or.inr hj⟩
          have hxj : x ≠ j := by
            rintro rfl
            rw [hy1] at hj
            exact hyb (singleton_injective hj)
          rw [this, card_pair hxj]
          decide
    have h0 := hphi w hw
    have hiS : i ∈ S := (hS i).2 ⟨v, hv, .refl _⟩
    rw [← add_sum_erase S _ hiS, sum_eq_zero (s := S.erase i), add_zero] at h0
    · exact hlow.1 h0
    · intro x hx
      obtain ⟨hne, hxS⟩ := mem_erase.1 hx
      obtain ⟨y, hy, hj⟩ := (hS x).1 hxS
      have := hold x y hy hj
      exact hlow.2 x (by omega)
  · intro h
    have : ∃ i' w, vsetAt K i' = {w} ∧ Joined K t v w ∧ i' < i := by
      by_contra hno
      apply h
      refine ⟨v, hv, ?_⟩
      intro i' w h1 h2
      by_contra hlt
      exact hno ⟨i', w, h1, h2, by omega⟩
    obtain ⟨i', w, h1, h2, h3⟩ := this
    refine ⟨_, Joined.span hK hc h2 i i' hv h1, ?_, ?_⟩
    · simp [ind, show i ≠ i' by omega]
    · intro z hz
      simp [ind, show z ≠ i by omega, show z ≠ i' by omega]

theorem persPair_vertex_iff (hK : WF K) (hc : FaceClosed K) {i v j : ℕ} (hv : vsetAt K i = {v}) :
    PersPair (facets K) i j ↔ OldestAt K j i ∧ ¬ OldestAt K (j + 1) i := by
  rw [persPair_iff, low_iff_not_oldest hK hc hv, low_iff_not_oldest hK hc hv, not_not, and_comm]

theorem Spec.OldestAt.mono {t t' i : ℕ} (h : t ≤ t') (ho : OldestAt K t' i) : OldestAt K t i := by
  obtain ⟨v, hv, ho⟩ := ho
  exact ⟨v, hv, fun i' w h1 h2 => ho i' w h1 (Spec.Joined.mono h h2)⟩

theorem oldest_zero (hK : WF K) {i v : ℕ} (hv : vsetAt K i = {v}) : OldestAt K 0 i := by
  refine ⟨v, hv, ?_⟩
  intro i' w h1 h2
  have : v = w := by
    unfold Joined at h2
    clear h1 hv
    induction h2 with
    | refl _ => rfl
    | symm _ _ _ ih => exact ih.symm
    | trans _ _ _ _ _ ih ih' => exact ih.trans ih'
    | rel a b h => obtain ⟨_, k, hk, _⟩ := h; omega
  subst this
  exact (vsetAt_unique hK (by simp) hv h1).le

theorem dimAt_zero_iff (hK : WF K) {i : ℕ} :
    (i < K.length ∧ dimAt K i = 0) ↔ ∃ v, vsetAt K i = {v} := by
  constructor
  · rintro ⟨h1, h2⟩
    have := (vsetAt_nonempty hK h1).card_pos
    unfold dimAt at h2
    exact card_eq_one.1 (by omega)
  · rintro ⟨v, hv⟩
    exact ⟨lt_of_vsetAt (by simp) hv, by simp [dimAt, hv]⟩

theorem unpaired_vertex_iff (hK : IsFiltration K) (hn : K.length ≤ idxMax) {i v : ℕ}
    (hv : vsetAt K i = {v}) :
    Unpaired (facets K) K.length i ↔ OldestAt K K.length i := by
  have hf := pairFacts hK hn
  have hp := fun j => persPair_vertex_iff hK.wf hK.closed (j := j) hv
  constructor
  · rintro ⟨_, h⟩
    have : ∀ t ≤ K.length, OldestAt K t i := by
      intro t
      induction t with
      | zero => intro _; exact oldest_zero hK.wf hv
      | succ t ih =>
        intro ht
        by_contra hno
        exact (h t).1 ((hp t).2 ⟨ih (by omega), hno⟩)
    exact this _ le_rfl
  · intro h
    refine ⟨lt_of_vsetAt (by simp) hv, fun j => ⟨?_, ?_⟩⟩
    · intro hpp
      have := (hf.lt _ _ hpp).2.1
      exact ((hp j).1 hpp).2 (Spec.OldestAt.mono (by omega) h)
    · intro hpp
      have := (hf.lt _ _ hpp).2.2
      have h0 := ((dimAt_zero_iff hK.wf).2 ⟨v, hv⟩).2
      omega

/-! ### The loop -/

/-- Loop invariant after `t` simplices. -/
structure ZeroInv (K : Complex α) (t : ℕ) (p : ParentMap) (rep : ℕ → ℕ) : Prop where
  repr : Represents (· ∈ K.vertices) p rep
  joined : ∀ a ∈ K.vertices, ∀ b ∈ K.vertices, rep a = rep b ↔ Joined K t a b
  oldest : ∀ a ∈ K.vertices, ∀ i, vsetAt K i = {rep a} → OldestAt K t i

theorem mem_vertices_iff (hK : WF K) {v : ℕ} : v ∈ K.vertices ↔ ∃ i, vsetAt K i = {v} := by
  rw [(C22_vertices K hK).2]
  constructor
  · rintro ⟨s, hs, h⟩
    obtain ⟨i, hi⟩ := List.mem_iff_getElem?.1 hs
    exact ⟨i, by rw [vsetAt_some hi, h]⟩
  · rintro ⟨i, hi⟩
    have hl := lt_of_vsetAt (by simp) hi
    exact ⟨K[i], List.getElem_mem hl, by rw [← hi, vsetAt_some (List.getElem?_eq_getElem hl)]⟩

theorem index_vertex (hK : WF K) {i v : ℕ} (h : vsetAt K i = {v}) : K.index [v] = some i := by
  rw [index_eq_some hK]
  have hl := lt_of_vsetAt (by simp) h
  refine ⟨K[i], List.getElem?_eq_getElem hl, ?_⟩
  rw [vsetAt_some (List.getElem?_eq_getElem hl)] at h
  have hn := hK.normal _ (List.getElem_mem hl)
  apply Normal.ext hn (by simp [Normal])
  intro x
  have : x ∈ K[i].vset ↔ x ∈ ({v} : Finset ℕ) := by rw [h]
  simpa [Simplex.vset] using this

theorem ZeroInv.oldest_iff (hK : WF K) {t : ℕ} {p : ParentMap} {rep : ℕ → ℕ} (h : ZeroInv K t p rep)
    {i : ℕ} : OldestAt K t i ↔ ∃ r ∈ K.vertices, rep r = r ∧ vsetAt K i = {r} := by
  constructor
  · rintro ⟨v, hv, ho⟩
    have hvV : v ∈ K.vertices := (mem_vertices_iff hK).2 ⟨i, hv⟩
    have hrV := h.repr.rep_mem hvV
    have hrr := h.repr.rep_rep hvV
    obtain ⟨j, hj⟩ := (mem_vertices_iff hK).1 hrV
    obtain ⟨w, hw, ho'⟩ := h.oldest v hvV j hj
    rw [hj] at hw
    cases singleton_injective hw
    have h1 : Joined K t v (rep v) := (h.joined _ hvV _ hrV).1 hrr.symm
    have h2 := ho j _ hj h1
    have h3 := ho' i v hv (.symm _ _ h1)
    have : i = j := le_antisymm h2 h3
    subst this
    rw [hv] at hj
    have e := singleton_injective hj
    exact ⟨v, hvV, e.symm, hv⟩
  · rintro ⟨r, hr, hrr, hi⟩
    rw [← hrr] at hi
    exact h.oldest r hr i hi

theorem joined_of_rep {t : ℕ} {rep : ℕ → ℕ}
    (h2 : ∀ a b k, a ≠ b → k < t → vsetAt K k = {a, b} → rep a = rep b) {a b : ℕ}
    (h : Joined K t a b) : rep a = rep b := by
  unfold Joined at h
  induction h with
  | refl _ => rfl
  | symm _ _ _ ih => exact ih.symm
  | trans _ _ _ _ _ ih ih' => exact ih.trans ih'
  | rel a b h => obtain ⟨hne, k, hk, hab⟩ := h; exact h2 a b k hne hk hab


/-- Establishes the invariant for the next step. -/
theorem ZeroInv.succ (hK : WF K) (hc : FaceClosed K) {t : ℕ} {p p' : ParentMap} {rep rep' : ℕ → ℕ}
    (h : ZeroInv K t p rep) (hr : Represents (· ∈ K.vertices) p' rep')
    (h1 : ∀ a ∈ K.vertices, ∀ b ∈ K.vertices, rep a = rep b → rep' a = rep' b)
    (h2 : ∀ a b, a ≠ b → vsetAt K t = {a, b} → rep' a = rep' b)
    (h3 : ∀ a ∈ K.vertices, ∀ b ∈ K.vertices, rep' a = rep' b → Joined K (t + 1) a b)
    (h4 : ∀ a ∈ K.vertices, ∃ b ∈ K.vertices, rep' a = rep b ∧ ∀ c ∈ K.vertices,
      rep' c = rep' a → ∀ i j, vsetAt K i = {rep b} → vsetAt K j = {rep c} → i ≤ j) :
    ZeroInv K (t + 1) p' rep' := by
  have hmem : ∀ {k v}, v ∈ vsetAt K k → v ∈ K.vertices := fun hv =>
    (mem_vertices_iff hK).2 (exists_pos hc hv)
  have hj : ∀ a ∈ K.vertices, ∀ b ∈ K.vertices, rep' a = rep' b ↔ Joined K (t + 1) a b := by
    intro a ha b hb
    refine ⟨h3 a ha b hb, joined_of_rep ?_⟩
    intro x y k hxy hk hkxy
    have hx : x ∈ K.vertices := hmem (k := k) (by rw [hkxy]; simp)
    have hy : y ∈ K.vertices := hmem (k := k) (by rw [hkxy]; simp)
    rcases Nat.lt_succ_iff_lt_or_eq.1 hk with hlt | rfl
    · exact h1 x hx y hy ((h.joined x hx y hy).2 (.rel _ _ ⟨hxy, k, hlt, hkxy⟩))
    · exact h2 x y hxy hkxy
  refine ⟨hr, hj, ?_⟩
  intro a ha i hi
  refine ⟨_, hi, ?_⟩
  intro i' w hw hjw
  have hwV : w ∈ K.vertices := (mem_vertices_iff hK).2 ⟨i', hw⟩
  have hraV := hr.rep_mem ha
  have hrw := (hj _ hraV _ hwV).2 hjw
  rw [hr.rep_rep ha] at hrw
  obtain ⟨b, hb, hab, hold⟩ := h4 a ha
  rw [hab] at hi
  have hrwV := h.repr.rep_mem hwV
  obtain ⟨j, hj'⟩ := (mem_vertices_iff hK).1 hrwV
  have l1 := hold w hwV hrw.symm i j hi hj'
  obtain ⟨v, hv, ho⟩ := h.oldest w hwV j hj'
  rw [hj'] at hv
  cases singleton_injective hv
  have := ho i' w hw ((h.joined _ hrwV _ hwV).1 (h.repr.rep_rep hwV))
  omega

theorem joined_succ_of_no_edge {t : ℕ} (hne : ¬ ∃ a b, a ≠ b ∧ vsetAt K t = {a, b}) {a b : ℕ} :
    Joined K (t + 1) a b ↔ Joined K t a b := by
  constructor
  · intro h
    refine Relation.EqvGen.mono ?_ _ _ h
    rintro x y ⟨hxy, k, hk, hkxy⟩
    refine ⟨hxy, k, ?_, hkxy⟩
    rcases Nat.lt_succ_iff_lt_or_eq.1 hk with hlt | rfl
    · exact hlt
    · exact absurd ⟨x, y, hxy, hkxy⟩ hne
  · exact Spec.Joined.mono (Nat.le_succ t)

/-- The pairs found by one step. -/
def StepPairs [DecidableEq α] (diag : Bool) (inf : α) (K : Complex α) (t : ℕ) (new : List (ℕ × ℕ)) : Prop :=
  new.Nodup ∧ ∀ i j, (i, j) ∈ new ↔ j = t ∧ PersPair (facets K) i t ∧ dimAt K i = 0 ∧
    (diag = true ∨ dataD inf K i ≠ dataD inf K t)

theorem stepPairs_nil [DecidableEq α] {diag : Bool} {inf : α} (hK : IsFiltration K)
    (hn : K.length ≤ idxMax) {t : ℕ} (h : ∀ i, OldestAt K t i → OldestAt K (t + 1) i) :
    StepPairs diag inf K t [] := by
  refine ⟨List.nodup_nil, fun i j => ⟨by simp, ?_⟩⟩
  rintro ⟨_, hp, hd, _⟩
  obtain ⟨v, hv⟩ := (dimAt_zero_iff hK.wf).1 ⟨((pairFacts hK hn).lt _ _ hp).1, hd⟩
  have := (persPair_vertex_iff hK.wf hK.closed hv).1 hp
  exact absurd (h i this.1) this.2

theorem stepPairs_one [DecidableEq α] {diag : Bool} {inf : α} (hK : IsFiltration K)
    (hn : K.length ≤ idxMax) {t i v : ℕ} (hv : vsetAt K i = {v})
    (h1 : OldestAt K t i) (h2 : ¬ OldestAt K (t + 1) i)
    (h : ∀ i', OldestAt K t i' → i' ≠ i → OldestAt K (t + 1) i') :
    StepPairs diag inf K t
      (if diag || decide (dataD inf K i ≠ dataD inf K t) then [(i, t)] else []) := by
  have hiff : ∀ i', (PersPair (facets K) i' t ∧ dimAt K i' = 0) ↔ i' = i := by
    intro i'
    constructor
    · rintro ⟨hp, hd⟩
      obtain ⟨v, hv⟩ := (dimAt_zero_iff hK.wf).1 ⟨((pairFacts hK hn).lt _ _ hp).1, hd⟩
      have := (persPair_vertex_iff hK.wf hK.closed hv).1 hp
      by_contra hne
      exact this.2 (h i' this.1 hne)
    · rintro rfl
      exact ⟨(persPair_vertex_iff hK.wf hK.closed hv).2 ⟨h1, h2⟩, ((dimAt_zero_iff hK.wf).2 ⟨v, hv⟩).2⟩
  refine ⟨by split <;> simp, fun i' j => ?_⟩
  have e : (j = t ∧ PersPair (facets K) i' t ∧ dimAt K i' = 0 ∧
      (diag = true ∨ dataD inf K i' ≠ dataD inf K t)) ↔
      (j = t ∧ i' = i ∧ (diag = true ∨ dataD inf K i' ≠ dataD inf K t)) := by
    rw [← hiff i']; tauto
  rw [e]
  split
  · next hc =>
    rw [Bool.or_eq_true, decide_eq_true_eq] at hc
    simp only [List.mem_singleton, Prod.mk.injEq]
    constructor
    · rintro ⟨rfl, rfl⟩; exact ⟨rfl, rfl, hc⟩
    · rintro ⟨rfl, rfl, _⟩; exact ⟨rfl, rfl⟩
  · next hc =>
    rw [Bool.or_eq_true, decide_eq_true_eq] at hc
    simp only [List.not_mem_nil, false_iff]
    rintro ⟨rfl, rfl, h'⟩
    exact hc h'

theorem zeroDim_step [DecidableEq α] (diag leftFirst : Bool) (inf : α) (hK : IsFiltration K)
    (hn : K.length ≤ idxMax) {t : ℕ} {s : Simplex α} (hs : K[t]? = some s) {st : ZeroDimState α}
    {rep : ℕ → ℕ} (h : ZeroInv K t st.uf rep) :
    ∃ st' rep' new, zeroDimStep diag leftFirst K st s = some st' ∧ ZeroInv K (t + 1) st'.uf rep' ∧
      st'.pairing = st.pairing ++ new ∧
      st'.points = st.points ++ new.map (fun ij => (dataD inf K ij.1, dataD inf K ij.2)) ∧
      StepPairs diag inf K t new := by
  have hw := hK.wf
  have hsm := List.mem_of_getElem? hs
  have hnorm := hw.normal _ hsm
  have hv := vsetAt_some hs
  have htl : t < K.length := (List.getElem?_eq_some_iff.1 hs).1
  have hcard : s.vertices.length = #s.vset := hnorm.length_eq
  have hne := vsetAt_nonempty hw htl
  rw [hv] at hne
  have hpos := hne.card_pos
  have hdim : s.dimension = some (s.vertices.length - 1) := by
    unfold Simplex.dimension
    cases hl : s.vertices with
    | nil => rw [hl] at hcard; simp at hcard; omega
    | cons a l => simp
  unfold zeroDimStep
  rw [hdim]
  by_cases h2 : s.vertices.length = 2
  · obtain ⟨u, v, huv⟩ := List.length_eq_two.1 h2
    have huv' : u ≠ v := by
      have := hnorm.nodup
      rw [huv] at this
      simpa using this
    have hvs : vsetAt K t = {u, v} := by rw [hv, Simplex.vset, huv]; simp
    have huV : u ∈ K.vertices := (mem_vertices_iff hw).2 (exists_pos hK.closed (k := t) (by rw [hvs]; simp))
    have hvV : v ∈ K.vertices := (mem_vertices_iff hw).2 (exists_pos hK.closed (k := t) (by rw [hvs]; simp))
    have hpair : ∀ {a b}, a ≠ b → vsetAt K t = {a, b} → (a = u ∧ b = v) ∨ (a = v ∧ b = u) := by
      intro a b hab he
      rw [hvs] at he
      have ha : a ∈ ({u, v} : Finset ℕ) := by rw [he]; simp
      have hb : b ∈ ({u, v} : Finset ℕ) := by rw [he]; simp
      simp only [mem_insert, mem_singleton] at ha hb
      rcases ha with rfl | rfl <;> rcases hb with rfl | rfl <;> simp_all
    have hedge : Joined K (t + 1) u v := .rel _ _ ⟨huv', t, Nat.lt_succ_self t, hvs⟩
    obtain ⟨p1, e1, r1⟩ := h.repr.find huV
    obtain ⟨p2, e2, r2⟩ := r1.find hvV
    have hI2 : ZeroInv K t p2 rep := ⟨r2, h.joined, h.oldest⟩
    by_cases hab : rep u = rep v
    · refine ⟨{ st with uf := p2 }, rep, [], ?_, ?_, by simp, by simp, ?_⟩
      · simp [huv, e1, e2, hab]
      · refine hI2.succ hw hK.closed r2 (fun _ _ _ _ h => h) ?_ ?_ ?_
        · intro a b hne he
          rcases hpair hne he with ⟨rfl, rfl⟩ | ⟨rfl, rfl⟩
          · exact hab
          · exact hab.symm
        · intro a ha b hb hr
          exact Spec.Joined.mono (Nat.le_succ t) ((h.joined a ha b hb).1 hr)
        · intro a ha
          refine ⟨a, ha, rfl, ?_⟩
          intro c _ hc i j hi hj
          rw [hc] at hj
          exact (vsetAt_unique hw (by simp) hi hj).le
      · apply stepPairs_nil hK hn
        have hI3 : ZeroInv K (t + 1) p2 rep := by
          refine hI2.succ hw hK.closed r2 (fun _ _ _ _ h => h) ?_ ?_ ?_
          · intro a b hne he
            rcases hpair hne he with ⟨rfl, rfl⟩ | ⟨rfl, rfl⟩
            · exact hab
            · exact hab.symm
          · intro a ha b hb hr
            exact Spec.Joined.mono (Nat.le_succ t) ((h.joined a ha b hb).1 hr)
          · intro a ha
            refine ⟨a, ha, rfl, ?_⟩
            intro c _ hc i j hi hj
            rw [hc] at hj
            exact (vsetAt_unique hw (by simp) hi hj).le
        intro i hi
        rw [hI3.oldest_iff hw]
        exact (hI2.oldest_iff hw).1 hi
    · obtain ⟨ai, hai⟩ := (mem_vertices_iff hw).1 (h.repr.rep_mem huV)
      obtain ⟨bi, hbi⟩ := (mem_vertices_iff hw).1 (h.repr.rep_mem hvV)
      have hne' : ai ≠ bi := by
        rintro rfl
        rw [hai] at hbi
        exact hab (singleton_injective hbi)
      -- the younger vertex `y` and the older one `o`
      obtain ⟨y, o, yi, oi, hy, ho, hyi, hoi, hlt, hyo⟩ : ∃ y o yi oi, 
          (y = (if ai < bi then rep v else rep u)) ∧ (o = if ai < bi then rep u else rep v) ∧
          (yi = if ai < bi then bi else ai) ∧ (oi = if ai < bi then ai else bi) ∧ oi < yi ∧
          ((y = rep u ∧ o = rep v) ∨ (y = rep v ∧ o = rep u)) := by
        refine ⟨_, _, _, _, rfl, rfl, rfl, rfl, ?_, ?_⟩
        · split <;> omega
        · split
          · exact Or.inr ⟨rfl, rfl⟩
          · exact Or.inl ⟨rfl, rfl⟩
      have hyv : vsetAt K yi = {y} := by rw [hyi, hy]; split <;> assumption
      have hov : vsetAt K oi = {o} := by rw [hoi, ho]; split <;> assumption
      have hyV : y ∈ K.vertices := (mem_vertices_iff hw).2 ⟨_, hyv⟩
      have hoV : o ∈ K.vertices := (mem_vertices_iff hw).2 ⟨_, hov⟩
      have hry : rep y = y := by
        rcases hyo with ⟨e, _⟩ | ⟨e, _⟩ <;> rw [e]
        · exact h.repr.rep_rep huV
        · exact h.repr.rep_rep hvV
      have hro : rep o = o := by
        rcases hyo with ⟨_, e⟩ | ⟨_, e⟩ <;> rw [e]
        · exact h.repr.rep_rep hvV
        · exact h.repr.rep_rep huV
      have hyone : y ≠ o := by
        rintro rfl
        have := vsetAt_unique hw (by simp) hyv hov
        omega
      have hjyo : Joined K (t + 1) y o := by
        have l := Nat.le_succ t
        have ju : Joined K (t + 1) u (rep u) := Spec.Joined.mono l
          ((h.joined _ huV _ (h.repr.rep_mem huV)).1 (h.repr.rep_rep huV).symm)
        have jv : Joined K (t + 1) v (rep v) := Spec.Joined.mono l
          ((h.joined _ hvV _ (h.repr.rep_mem hvV)).1 (h.repr.rep_rep hvV).symm)
        have j : Joined K (t + 1) (rep u) (rep v) :=
          .trans _ _ _ (.symm _ _ ju) (.trans _ _ _ hedge jv)
        rcases hyo with ⟨e, e'⟩ | ⟨e, e'⟩ <;> rw [e, e']
        · exact j
        · exact .symm _ _ j
      obtain ⟨p3, e3, r3⟩ := r2.merge leftFirst hyV hoV
      rw [hry, hro] at r3
      have hI3 : ZeroInv K (t + 1) p3 (fun x => if rep x = y then o else rep x) := by
        refine hI2.succ hw hK.closed r3 ?_ ?_ ?_ ?_
        · intro a _ b _ hr
          simp only [hr]
        · intro a b hne he
          rcases hpair hne he with ⟨rfl, rfl⟩ | ⟨rfl, rfl⟩ <;>
            rcases hyo with ⟨rfl, rfl⟩ | ⟨rfl, rfl⟩ <;> simp
        · intro a ha b hb hr
          have hup : ∀ x ∈ K.vertices, Joined K (t + 1) x (if rep x = y then o else rep x) := by
            intro x hx
            have : Joined K (t + 1) x (rep x) := Spec.Joined.mono (Nat.le_succ t)
              ((h.joined _ hx _ (h.repr.rep_mem hx)).1 (h.repr.rep_rep hx).symm)
            split
            · next e => rw [e] at this; exact .trans _ _ _ this hjyo
            · exact this
          have h1 := hup a ha
          have h2 := hup b hb
          rw [hr] at h1
          exact .trans _ _ _ h1 (.symm _ _ h2)
        · intro a ha
          have key : ∃ b ∈ K.vertices, (if rep a = y then o else rep a) = rep b := by
            split
            · exact ⟨o, hoV, hro.symm⟩
            · exact ⟨a, ha, rfl⟩
          obtain ⟨b, hb, hab'⟩ := key
          refine ⟨b, hb, hab', ?_⟩
          intro c _ hc i j hi hj
          simp only [hab'] at hc
          by_cases e : rep c = y
          · rw [if_pos e] at hc
            rw [← hc] at hi
            rw [e] at hj
            have := vsetAt_unique hw (by simp) hi hov
            have := vsetAt_unique hw (by simp) hj hyv
            omega
          · rw [if_neg e] at hc
            rw [hc] at hj
            exact (vsetAt_unique hw (by simp) hi hj).le
      have hyl := lt_of_vsetAt (by simp) hyv
      have hcr : K.get yi = some K[yi] := by
        unfold Complex.get; exact List.getElem?_eq_getElem hyl
      have hdy : dataD inf K yi = K[yi].data := by simp [dataD, List.getElem?_eq_getElem hyl]
      have hdt : dataD inf K t = s.data := by simp [dataD, hs]
      have hidx : K.index s.vertices = some t := (index_eq_some hw).2 ⟨s, hs, rfl⟩
      have hstep := stepPairs_one (diag := diag) (inf := inf) hK hn (t := t) hyv
        ((hI2.oldest_iff hw).2 ⟨y, hyV, hry, hyv⟩)
        (by
          rw [hI3.oldest_iff hw]
          rintro ⟨r, _, hr, hri⟩
          rw [hyv] at hri
          cases singleton_injective hri
          simp only [hry, if_true] at hr
          exact hyone hr.symm)
        (by
          intro i' hi' hne
          obtain ⟨r, hrV, hrr, hri⟩ := (hI2.oldest_iff hw).1 hi'
          rw [hI3.oldest_iff hw]
          refine ⟨r, hrV, ?_, hri⟩
          have : r ≠ y := by
            rintro rfl
            exact hne (vsetAt_unique hw (by simp) hri hyv)
          simp only [hrr, if_neg this])
      refine ⟨⟨p3, st.points ++ (if diag || decide (dataD inf K yi ≠ dataD inf K t) then [(yi, t)] else []).map
          (fun ij => (dataD inf K ij.1, dataD inf K ij.2)),
          st.pairing ++ (if diag || decide (dataD inf K yi ≠ dataD inf K t) then [(yi, t)] else [])⟩,
          _, _, ?_, hI3, rfl, rfl, hstep⟩
      simp only [huv, List.getElem?_cons_zero, List.getElem?_cons_succ, e1, e2, if_neg hab,
        index_vertex hw hai, index_vertex hw hbi, ← hy, ← ho, ← hyi, hcr, e3]
      rw [huv] at hidx
      simp only [hidx, hdy, hdt]
      have : ¬ (List.length [u, v] - 1 ≠ 1) := by simp
      rw [if_neg this]
      split
      · simp [hdy, hdt]
      · simp
  · have hnoedge : ¬ ∃ a b, a ≠ b ∧ vsetAt K t = {a, b} := by
      rintro ⟨a, b, hab, he⟩
      rw [hv] at he
      rw [he, card_pair hab] at hcard
      exact h2 hcard
    have : s.vertices.length - 1 ≠ 1 := by omega
    refine ⟨st, rep, [], by simp only [if_pos this], ⟨h.repr, ?_, ?_⟩, by simp, by simp, ?_⟩
    · intro a ha b hb
      rw [joined_succ_of_no_edge hnoedge]
      exact h.joined a ha b hb
    · intro a ha i hi
      obtain ⟨v, hv, ho⟩ := h.oldest a ha i hi
      exact ⟨v, hv, fun i' w h1 h2 => ho i' w h1 ((joined_succ_of_no_edge hnoedge).1 h2)⟩
    · apply stepPairs_nil hK hn
      rintro i ⟨v, hv, ho⟩
      exact ⟨v, hv, fun i' w h1 h2 => ho i' w h1 ((joined_succ_of_no_edge hnoedge).1 h2)⟩

theorem zeroInv_init (hK : WF K) : ZeroInv K 0 (ofRange K.vertices) id := by
  refine ⟨Represents.ofRange _, ?_, ?_⟩
  · intro a _ b _
    constructor
    · intro h
      simp only [id_eq] at h
      subst h
      exact .refl _
    · intro h
      exact joined_of_rep (fun _ _ k _ hk _ => absurd hk (Nat.not_lt_zero k)) h
  · intro a _ i hi
    exact oldest_zero hK hi

end Aleph
