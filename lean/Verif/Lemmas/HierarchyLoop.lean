import Verif.Lemmas.HierarchyLevels
import Verif.Props.ZeroDim
import Mathlib.Data.List.Forall2

/-!
# The extended persistence hierarchy: the loop over the filtration
-/

namespace Aleph.Hierarchy

open Finset Aleph.Spec Aleph.Spec.Hierarchy ParentMap

variable {α : Type} {S : Complex α}

/-! ### Merges -/

theorem oldest_unique {t i j y z : ℕ} (hi : vsetAt S i = {y}) (hj : vsetAt S j = {z}) (h1 : OldestAt S t i) (h2 : OldestAt S t j)
    (h : Joined S t y z) : y = z := by
  obtain ⟨y', hy', h1⟩ := h1
  obtain ⟨z', hz', h2⟩ := h2
  rw [hi] at hy'
  rw [hj] at hz'
  cases singleton_injective hy'
  cases singleton_injective hz'
  have l1 := h1 j z hj h
  have l2 := h2 i y hi (.symm _ _ h)
  have : i = j := by omega
  subst this
  rw [hi] at hj
  exact singleton_injective hj

theorem Merges.ne (hS : WF S) {t y o : ℕ} (h : Merges S t y o) : y ≠ o := by
  rintro rfl
  obtain ⟨u, v, i, j, _, _, h1, h2, h3, _⟩ := h
  have := vsetAt_unique hS (by simp) h1 h2
  omega

theorem Merges.unique (hS : WF S) {t y o y' o' : ℕ} (h : Merges S t y o) (h' : Merges S t y' o') : y = y' ∧ o = o' := by
  obtain ⟨u, v, i, j, huv, ht, h1, h2, h3, h4, h5, h6, h7⟩ := h
  obtain ⟨u', v', i', j', huv', ht', h1', h2', h3', h4', h5', h6', h7'⟩ := h'
  rw [ht] at ht'
  rcases pair_eq huv ht' with ⟨rfl, rfl⟩ | ⟨rfl, rfl⟩
  · exact ⟨oldest_unique h1 h1' h4 h4' (.trans _ _ _ (.symm _ _ h6) h6'), oldest_unique h2 h2' h5 h5' (.trans _ _ _ (.symm _ _ h7) h7')⟩
  · have e1 := oldest_unique h1 h2' h4 h5' (.trans _ _ _ (.symm _ _ h6) h7')
    have e2 := oldest_unique h2 h1' h5 h4' (.trans _ _ _ (.symm _ _ h7) h6')
    subst e1
    subst e2
    have := vsetAt_unique hS (by simp) h1 h2'
    have := vsetAt_unique hS (by simp) h2 h1'
    omega

theorem Merges.joined {t y o : ℕ} (h : Merges S t y o) : Joined S (t + 1) y o := by
  obtain ⟨u, v, i, j, huv, ht, h1, h2, h3, h4, h5, h6, h7⟩ := h
  have l := Nat.le_succ t
  exact .trans _ _ _ (.symm _ _ (Spec.Joined.mono l h6)) (.trans _ _ _ (.rel _ _ ⟨huv, t, Nat.lt_succ_self t, ht⟩) (Spec.Joined.mono l h7))

theorem Merges.not_joined (hS : WF S) {t y o : ℕ} (h : Merges S t y o) : ¬ Joined S t y o := by
  intro hj
  have hne := Merges.ne hS h
  obtain ⟨u, v, i, j, huv, ht, h1, h2, h3, h4, h5, h6, h7⟩ := h
  exact hne (oldest_unique h1 h2 h4 h5 hj)

theorem Merges.positions {t y o : ℕ} (h : Merges S t y o) : ∃ i j, vsetAt S i = {y} ∧ vsetAt S j = {o} ∧ j < i ∧ OldestAt S t i ∧ OldestAt S t j := by
  obtain ⟨u, v, i, j, huv, ht, h1, h2, h3, h4, h5, h6, h7⟩ := h
  exact ⟨i, j, h1, h2, h3, h4, h5⟩

theorem Merges.no_edge {t : ℕ} (h : ¬ ∃ a b, a ≠ b ∧ vsetAt S t = {a, b}) {y o : ℕ} : ¬ Merges S t y o := by
  rintro ⟨u, v, i, j, huv, ht, _⟩
  exact h ⟨u, v, huv, ht⟩

theorem Merges.same_component (hS : WF S) {t u v : ℕ} (ht : vsetAt S t = {u, v}) (huv : u ≠ v) (hj : Joined S t u v) {y o : ℕ} : ¬ Merges S t y o := by
  intro h
  apply Merges.not_joined hS h
  obtain ⟨u', v', i, j, huv', ht', h1, h2, h3, h4, h5, h6, h7⟩ := h
  rw [ht] at ht'
  rcases pair_eq huv ht' with ⟨rfl, rfl⟩ | ⟨rfl, rfl⟩
  · exact .trans _ _ _ (.symm _ _ h6) (.trans _ _ _ hj h7)
  · exact .trans _ _ _ (.symm _ _ h6) (.trans _ _ _ (.symm _ _ hj) h7)

/-- The destroyed vertex is not the oldest one of its component any more. -/
theorem Merges.destroyed (hS : WF S) {t y o i : ℕ} (h : Merges S t y o) (hi : vsetAt S i = {y}) : ¬ OldestAt S (t + 1) i := by
  rintro ⟨y', hy', ho⟩
  rw [hi] at hy'
  cases singleton_injective hy'
  have hj := Merges.joined h
  obtain ⟨i', j, h1, h2, h3, _⟩ := Merges.positions h
  have := vsetAt_unique hS (by simp) h1 hi
  have := ho j o h2 hj
  omega

theorem Latest.joined {t o c : ℕ} (h : Latest S t o c) : Joined S t c o := by
  rcases h with ⟨rfl, _⟩ | ⟨t', ht', hm, _⟩
  · exact .refl _
  · exact Spec.Joined.mono ht' (Merges.joined hm)

theorem Latest.vertex {t o c j : ℕ} (h : Latest S t o c) (ho : vsetAt S j = {o}) : ∃ i, vsetAt S i = {c} := by
  rcases h with ⟨rfl, _⟩ | ⟨t', ht', hm, _⟩
  · exact ⟨j, ho⟩
  · obtain ⟨i, _, hi, _⟩ := Merges.positions hm
    exact ⟨i, hi⟩

theorem Latest.succ {t o c : ℕ} (h : Latest S t o c) (hno : ∀ y, Merges S t y o → ¬ Lasting S t y) : Latest S (t + 1) o c := by
  rcases h with ⟨rfl, h⟩ | ⟨t', ht', hm, hl, h⟩
  · refine .inl ⟨rfl, fun t' ht' y => ?_⟩
    rcases Nat.lt_succ_iff_lt_or_eq.mp ht' with ht' | rfl
    · exact h t' ht' y
    · exact hno y
  · refine .inr ⟨t', by omega, hm, hl, fun t'' h1 h2 y => ?_⟩
    rcases Nat.lt_succ_iff_lt_or_eq.mp h2 with h2 | rfl
    · exact h t'' h1 h2 y
    · exact hno y

theorem Latest.new {t o y : ℕ} (hm : Merges S t y o) (hl : Lasting S t y) : Latest S (t + 1) o y :=
  .inr ⟨t, Nat.lt_succ_self t, hm, hl, fun t'' h1 h2 => by omega⟩

theorem Latest.unique (hS : WF S) {t o c c' : ℕ} (h : Latest S t o c) (h' : Latest S t o c') : c = c' := by
  rcases h with ⟨rfl, h⟩ | ⟨t1, ht1, hm, hl, h⟩ <;> rcases h' with ⟨rfl, h'⟩ | ⟨t2, ht2, hm', hl', h'⟩
  · rfl
  · exact absurd hl' (h t2 ht2 _ hm')
  · exact absurd hl (h' t1 ht1 _ hm)
  · rcases Nat.lt_trichotomy t1 t2 with hlt | rfl | hlt
    · exact absurd hl' (h t2 hlt ht2 _ hm')
    · exact (Merges.unique hS hm hm').1
    · exact absurd hl (h' t1 hlt ht1 _ hm)

/-! ### The loop -/

variable [LinearOrder α]

/-- The edges of the hierarchy before position `t`. -/
def EdgesOf (S : Complex α) (t : ℕ) (edges : List (ℕ × ℕ)) : Prop :=
  ∃ ts : List ℕ, ts.Pairwise (· < ·) ∧ List.Forall₂ (fun k e => Lasting S k e.2 ∧ ParentRule S k e.1 e.2) ts edges ∧
    ∀ k, k ∈ ts ↔ k < t ∧ ∃ y o, Merges S k y o ∧ Lasting S k y

/-- Invariant of the loop. -/
structure Inv (S : Complex α) (t : ℕ) (st : State) : Prop where
  zero : ∃ rep, ZeroInv S t st.uf rep
  latest : ∀ i r, vsetAt S i = {r} → OldestAt S t i → Latest S t r (st.critical r)
  nodup : st.pairing.Nodup
  pairing : ∀ i j, (i, j) ∈ st.pairing ↔ j < t ∧ PersPair (facets S) i j ∧ dimAt S i = 0
  edges : EdgesOf S t st.edges

omit [LinearOrder α] in
theorem pairing_succ [DecidableEq α] {t : ℕ} {d : α} {l new : List (ℕ × ℕ)} (h1 : l.Nodup)
    (h2 : ∀ i j, (i, j) ∈ l ↔ j < t ∧ PersPair (facets S) i j ∧ dimAt S i = 0) (hnew : StepPairs true d S t new) :
    (l ++ new).Nodup ∧ ∀ i j, (i, j) ∈ l ++ new ↔ j < t + 1 ∧ PersPair (facets S) i j ∧ dimAt S i = 0 := by
  constructor
  · refine List.nodup_append.2 ⟨h1, hnew.1, ?_⟩
    rintro ⟨i, j⟩ hij ⟨i', j'⟩ hij' he
    cases he
    have := ((h2 _ _).1 hij).1
    have := ((hnew.2 _ _).1 hij').1
    omega
  · intro i j
    rw [List.mem_append, h2, hnew.2]
    constructor
    · rintro (⟨a, b⟩ | ⟨rfl, b, c, _⟩)
      · exact ⟨by omega, b⟩
      · exact ⟨by omega, b, c⟩
    · rintro ⟨a, b⟩
      rcases Nat.lt_succ_iff_lt_or_eq.1 a with a | rfl
      · exact Or.inl ⟨a, b⟩
      · exact Or.inr ⟨rfl, b.1, b.2, .inl rfl⟩

theorem EdgesOf.succ_none {t : ℕ} {edges : List (ℕ × ℕ)} (h : EdgesOf S t edges) (hno : ∀ y o, Merges S t y o → ¬ Lasting S t y) :
    EdgesOf S (t + 1) edges := by
  obtain ⟨ts, h1, h2, h3⟩ := h
  refine ⟨ts, h1, h2, fun k => ?_⟩
  rw [h3]
  constructor
  · rintro ⟨h, r⟩
    exact ⟨by omega, r⟩
  · rintro ⟨h, y, o, r⟩
    rcases Nat.lt_succ_iff_lt_or_eq.1 h with h | rfl
    · exact ⟨h, y, o, r⟩
    · exact absurd r.2 (hno y o r.1)

theorem EdgesOf.succ_one {t : ℕ} {edges : List (ℕ × ℕ)} (h : EdgesOf S t edges) {p y o : ℕ} (hm : Merges S t y o) (hl : Lasting S t y)
    (hp : ParentRule S t p y) : EdgesOf S (t + 1) (edges ++ [(p, y)]) := by
  obtain ⟨ts, h1, h2, h3⟩ := h
  refine ⟨ts ++ [t], ?_, List.rel_append h2 (.cons ⟨hl, hp⟩ .nil), fun k => ?_⟩
  · rw [List.pairwise_append]
    refine ⟨h1, by simp, fun a ha b hb => ?_⟩
    rw [List.mem_singleton] at hb
    subst hb
    exact ((h3 a).1 ha).1
  · rw [List.mem_append, h3, List.mem_singleton]
    constructor
    · rintro (⟨h, r⟩ | rfl)
      · exact ⟨by omega, r⟩
      · exact ⟨by omega, y, o, hm, hl⟩
    · rintro ⟨h, r⟩
      rcases Nat.lt_succ_iff_lt_or_eq.1 h with h | rfl
      · exact .inl ⟨h, r⟩
      · exact .inr rfl

theorem step_spec (hS : IsFiltration S) (hn : S.length ≤ idxMax) (lf : Bool) {bfs : List ℕ → List (ℕ × ℕ) → ℕ → ℕ → ℕ} (hbfs : IsSearch bfs)
    {tags : List (List ℕ × ℕ)} (htags : ∀ s ∈ S, ∀ u v, s.vertices = [u, v] → ∃ c, tags.lookup s.vertices = some c ∧ Tag S u v c)
    {t : ℕ} {s : Simplex α} (hs : S[t]? = some s) {st : State} (h : Inv S t st) :
    ∃ st', step lf bfs S tags st s = some st' ∧ Inv S (t + 1) st' := by
  have hw := hS.wf
  obtain ⟨rep, hz⟩ := h.zero
  obtain ⟨st0, rep0, new, e0, hI, hp, _, hnew⟩ := zeroDim_step true lf s.data hS hn hs (st := ⟨st.uf, [], st.pairing⟩) hz
  obtain ⟨hnd, hpairs⟩ := pairing_succ h.nodup h.pairing hnew
  simp only at hp
  rw [← hp] at hnd hpairs
  -- nothing changes except for the disjoint sets
  have hsame : (∀ y o, ¬ Merges S t y o) → ∀ i r, vsetAt S i = {r} → OldestAt S (t + 1) i → Latest S (t + 1) r (st.critical r) := by
    intro hno i r hi ho
    exact Latest.succ (h.latest i r hi (Spec.OldestAt.mono (Nat.le_succ t) ho)) fun y hm => absurd hm (hno y r)
  rcases edge_cases hS hs with ⟨u, v, iu, iv, huv, hne, hvs, hiu, hiv, _, _⟩ | ⟨h0, h1, h2⟩
  · have huV : u ∈ S.vertices := (mem_vertices_iff hw).2 ⟨_, hiu⟩
    have hvV : v ∈ S.vertices := (mem_vertices_iff hw).2 ⟨_, hiv⟩
    obtain ⟨p1, e1, r1⟩ := hz.repr.find huV
    obtain ⟨p2, e2, r2⟩ := r1.find hvV
    have hdim : s.dimension = some 1 := by simp [Simplex.dimension, huv]
    by_cases hab : rep u = rep v
    · have hno : ∀ y o, ¬ Merges S t y o := fun y o => Merges.same_component hw hvs hne ((hz.joined u huV v hvV).1 hab)
      refine ⟨{ st with uf := p2 }, by simp only [step, huv, e1, e2, if_pos hab], ?_⟩
      simp only [zeroDimStep, hdim, huv, ne_eq, not_true, if_false, List.getElem?_cons_zero, List.getElem?_cons_succ, e1, e2, if_pos hab,
        Option.some.injEq] at e0
      subst e0
      exact ⟨⟨rep0, hI⟩, hsame hno, hnd, hpairs, h.edges.succ_none fun y o hm => absurd hm (hno y o)⟩
    · obtain ⟨ai, hai⟩ := (mem_vertices_iff hw).1 (hz.repr.rep_mem huV)
      obtain ⟨bi, hbi⟩ := (mem_vertices_iff hw).1 (hz.repr.rep_mem hvV)
      have hne' : ai ≠ bi := by
        rintro rfl
        rw [hai] at hbi
        exact hab (singleton_injective hbi)
      have ju : Joined S t u (rep u) := (hz.joined _ huV _ (hz.repr.rep_mem huV)).1 (hz.repr.rep_rep huV).symm
      have jv : Joined S t v (rep v) := (hz.joined _ hvV _ (hz.repr.rep_mem hvV)).1 (hz.repr.rep_rep hvV).symm
      obtain ⟨y, o, yi, oi, hy, ho, hyi, hyv, hov, hlt, hyo⟩ : ∃ y o yi oi, (y = (if ai < bi then rep v else rep u)) ∧
          (o = if ai < bi then rep u else rep v) ∧ (yi = if ai < bi then bi else ai) ∧ vsetAt S yi = {y} ∧ vsetAt S oi = {o} ∧ oi < yi ∧
          ((y = rep u ∧ o = rep v) ∨ (y = rep v ∧ o = rep u)) := by
        by_cases hlt : ai < bi
        · exact ⟨rep v, rep u, bi, ai, by simp [hlt], by simp [hlt], by simp [hlt], hbi, hai, hlt, .inr ⟨rfl, rfl⟩⟩
        · exact ⟨rep u, rep v, ai, bi, by simp [hlt], by simp [hlt], by simp [hlt], hai, hbi, by omega, .inl ⟨rfl, rfl⟩⟩
      have hyold : OldestAt S t yi := by
        rcases hyo with ⟨e, _⟩ | ⟨e, _⟩
        · exact hz.oldest u huV yi (by rw [hyv, e])
        · exact hz.oldest v hvV yi (by rw [hyv, e])
      have hoold : OldestAt S t oi := by
        rcases hyo with ⟨_, e⟩ | ⟨_, e⟩
        · exact hz.oldest v hvV oi (by rw [hov, e])
        · exact hz.oldest u huV oi (by rw [hov, e])
      have hm : Merges S t y o := by
        rcases hyo with ⟨e, e'⟩ | ⟨e, e'⟩
        · exact ⟨u, v, yi, oi, hne, hvs, hyv, hov, hlt, hyold, hoold, by rw [e]; exact ju, by rw [e']; exact jv⟩
        · exact ⟨v, u, yi, oi, hne.symm, by rw [hvs, pair_comm], hyv, hov, hlt, hyold, hoold, by rw [e]; exact jv, by rw [e']; exact ju⟩
      have hyV : y ∈ S.vertices := (mem_vertices_iff hw).2 ⟨_, hyv⟩
      have hoV : o ∈ S.vertices := (mem_vertices_iff hw).2 ⟨_, hov⟩
      obtain ⟨p3, e3, _⟩ := r2.merge lf hyV hoV
      have ly := h.latest yi y hyv hyold
      have lo := h.latest oi o hov hoold
      obtain ⟨cyi, hcyi⟩ := Latest.vertex ly hyv
      obtain ⟨coi, hcoi⟩ := Latest.vertex lo hov
      obtain ⟨sy, hsy1, hsy2, hsy3, hfy, hiy⟩ := vertex_at hw hyv
      obtain ⟨so, hso1, hso2, hso3, hfo, hio⟩ := vertex_at hw hov
      obtain ⟨scy, hscy, _, _, hfcy, hicy⟩ := vertex_at hw hcyi
      obtain ⟨sco, hsco, _, _, hfco, hico⟩ := vertex_at hw hcoi
      have hidx : S.index [u, v] = some t := (index_eq_some hw).2 ⟨s, hs, huv⟩
      have hget : S.get yi = some sy := hsy1
      simp only [zeroDimStep, hdim, huv, ne_eq, not_true, if_false, List.getElem?_cons_zero, List.getElem?_cons_succ, e1, e2, if_neg hab,
        index_vertex hw hai, index_vertex hw hbi, ← hy, ← ho, ← hyi, hget, e3, hidx, Bool.true_or, if_true, Option.some.injEq] at e0
      subst e0
      have hlast : Lasting S t y ↔ sy.data ≠ s.data := by
        constructor
        · rintro ⟨i, hi, hd⟩ he
          apply hd
          rw [vsetAt_unique hw (by simp) hi hyv]
          exact ⟨sy, s, hsy1, hs, he⟩
        · intro hd
          refine ⟨yi, hyv, ?_⟩
          rintro ⟨a, b, ea, eb, he⟩
          rw [hsy1] at ea
          rw [hs] at eb
          cases ea
          cases eb
          exact hd he
      have hroot : ∀ i r, vsetAt S i = {r} → OldestAt S (t + 1) i → r ≠ y := by
        rintro i r hi hr rfl
        exact Merges.destroyed hw hm hi hr
      have hother : ∀ i r, vsetAt S i = {r} → OldestAt S (t + 1) i → (r ≠ o ∨ ¬ Lasting S t y) → Latest S (t + 1) r (st.critical r) := by
        intro i r hi hr hcond
        refine Latest.succ (h.latest i r hi (Spec.OldestAt.mono (Nat.le_succ t) hr)) fun y' hm' => ?_
        obtain ⟨rfl, rfl⟩ := Merges.unique hw hm hm'
        rcases hcond with hcond | hcond
        · exact absurd rfl hcond
        · exact hcond
      by_cases hd : sy.data = s.data
      · have hnl : ¬ Lasting S t y := fun hl => hlast.1 hl hd
        refine ⟨⟨p3, Function.update st.critical y o, st.pairing ++ [(yi, t)], st.edges⟩, ?_, ⟨rep0, hI⟩, ?_, hnd, hpairs, ?_⟩
        · simp only [step, huv, e1, e2, if_neg hab, index_vertex hw hai, index_vertex hw hbi, ← hy, ← ho, hfy, hfo, hfcy, hfco, hiy, hidx, e3,
            if_pos hd]
        · intro i r hi hr
          show Latest S (t + 1) r (Function.update st.critical y o r)
          rw [Function.update_of_ne (hroot i r hi hr)]
          exact hother i r hi hr (.inr hnl)
        · refine h.edges.succ_none fun y' o' hm' => ?_
          obtain ⟨rfl, rfl⟩ := Merges.unique hw hm hm'
          exact hnl
      · have hl : Lasting S t y := hlast.2 hd
        have hcne : st.critical y ≠ st.critical o := by
          intro he
          apply Merges.not_joined hw hm
          have h1 := Latest.joined ly
          have h2 := Latest.joined lo
          rw [he] at h1
          exact .trans _ _ _ (.symm _ _ h1) h2
        have hcine : cyi ≠ coi := by
          rintro rfl
          rw [hcyi] at hcoi
          exact hcne (singleton_injective hcoi)
        obtain ⟨two, etwo, hrule⟩ : ∃ two, exactlyTwo lf bfs S tags
            (if cyi < coi then (st.critical y, scy.data) else (st.critical o, sco.data)).2 s.data
            (if cyi < coi then (st.critical y, scy.data) else (st.critical o, sco.data)).1
            (if cyi < coi then st.critical o else st.critical y) = some two ∧
            ParentRule S t (if two then st.critical o else o) y := by
          by_cases hc : cyi < coi
          · simp only [if_pos hc]
            obtain ⟨two, e, hr⟩ := exactlyTwo_spec hw lf hbfs htags hscy hcyi hs hcne
            refine ⟨two, e, o, _, _, _, _, cyi, coi, hm, ly, lo, .inl ⟨rfl, rfl⟩, hcyi, hcoi, hc, ?_⟩
            rcases hr with ⟨rfl, hr⟩ | ⟨rfl, hr⟩
            · exact .inl ⟨rfl, hr⟩
            · exact .inr ⟨rfl, hr⟩
          · simp only [if_neg hc]
            obtain ⟨two, e, hr⟩ := exactlyTwo_spec hw lf hbfs htags hsco hcoi hs hcne.symm
            refine ⟨two, e, o, _, _, _, _, coi, cyi, hm, ly, lo, .inr ⟨rfl, rfl⟩, hcoi, hcyi, by omega, ?_⟩
            rcases hr with ⟨rfl, hr⟩ | ⟨rfl, hr⟩
            · exact .inl ⟨rfl, hr⟩
            · exact .inr ⟨rfl, hr⟩
        refine ⟨⟨p3, Function.update st.critical o y, st.pairing ++ [(yi, t)], st.edges ++ [(if two then st.critical o else o, y)]⟩, ?_, ⟨rep0, hI⟩, ?_, hnd,
          hpairs, h.edges.succ_one hm hl hrule⟩
        · simp only [step, huv, e1, e2, if_neg hab, index_vertex hw hai, index_vertex hw hbi, ← hy, ← ho, hfy, hfo, hfcy, hfco, hiy, hidx, e3,
            if_neg hd, hicy, hico, etwo]
        · intro i r hi hr
          by_cases hro : r = o
          · subst hro
            show Latest S (t + 1) r (Function.update st.critical r y r)
            rw [Function.update_self]
            exact Latest.new hm hl
          · show Latest S (t + 1) r (Function.update st.critical o y r)
            rw [Function.update_of_ne hro]
            exact hother i r hi hr (.inl hro)
  · have hno : ∀ y o, ¬ Merges S t y o := fun y o => Merges.no_edge h2
    have hd : ∃ d, s.dimension = some d ∧ d ≠ 1 := by
      unfold Simplex.dimension
      cases hv : s.vertices with
      | nil => exact absurd hv h0
      | cons a l =>
        refine ⟨l.length, by simp, ?_⟩
        intro hl
        obtain ⟨b, rfl⟩ := List.length_eq_one_iff.1 hl
        exact h1 a b hv
    obtain ⟨d, hd1, hd2⟩ := hd
    simp only [zeroDimStep, hd1, if_pos hd2, Option.some.injEq] at e0
    subst e0
    refine ⟨st, ?_, ⟨rep0, hI⟩, hsame hno, hnd, hpairs, h.edges.succ_none fun y o hm => absurd hm (hno y o)⟩
    rw [step]
    split
    · rename_i he
      exact absurd he h0
    · rename_i u v he
      exact absurd he (h1 u v)
    · rfl

theorem loop_inv (hS : IsFiltration S) (hn : S.length ≤ idxMax) (lf : Bool) {bfs : List ℕ → List (ℕ × ℕ) → ℕ → ℕ → ℕ} (hbfs : IsSearch bfs)
    {tags : List (List ℕ × ℕ)} (htags : ∀ s ∈ S, ∀ u v, s.vertices = [u, v] → ∃ c, tags.lookup s.vertices = some c ∧ Tag S u v c)
    (post pre : Complex α) (hpp : S = pre ++ post) {st : State} (h : Inv S pre.length st) :
    ∃ st', post.foldlM (step lf bfs S tags) st = some st' ∧ Inv S S.length st' := by
  induction post generalizing pre st with
  | nil =>
    rw [List.append_nil] at hpp
    subst hpp
    exact ⟨st, rfl, h⟩
  | cons s post ih =>
    have hs : S[pre.length]? = some s := by rw [hpp]; simp
    obtain ⟨st', e, h'⟩ := step_spec hS hn lf hbfs htags hs h
    rw [List.foldlM_cons, e]
    exact ih (pre ++ [s]) (by rw [hpp]; simp) (by simpa using h')

theorem inv_init (hS : WF S) : Inv S 0 ⟨ofRange S.vertices, id, [], []⟩ :=
  ⟨⟨id, zeroInv_init hS⟩, fun _ r _ _ => .inl ⟨rfl, fun t' ht' => absurd ht' (Nat.not_lt_zero t')⟩, List.nodup_nil, by simp,
    [], List.Pairwise.nil, .nil, by simp⟩

end Aleph.Hierarchy
