import Verif.Props.ZeroDim
import Verif.Spec.ZeroDimFunctor

/-!
# C142: calls of the functor in zero-dimensional persistence
-/

namespace Aleph

open Finset Aleph.Spec ParentMap

namespace Visitor

variable {σ α : Type} [DecidableEq α] {K : Complex α}

/-- The entries that are reported. -/
def kept (diag : Bool) (p : (α × α) × (ℕ × ℕ)) : Bool := diag || decide (p.1.1 ≠ p.1.2)

theorem step_spec (diag leftFirst : Bool) (inf : α) (hK : IsFiltration K)
    (hn : K.length ≤ idxMax) {t : ℕ} {s : Simplex α} (hs : K[t]? = some s) {st : ZeroDimState α}
    {rep : ℕ → ℕ} (h : ZeroInv K t st.uf rep) :
    ∃ st' rep' new, ZeroInv K (t + 1) st'.uf rep' ∧ zeroDimStep diag leftFirst K st s = some st' ∧
      ((¬ Bridges K t ∧ new = []) ∨ (Bridges K t ∧ ∃ c, MergeCall K t c ∧ new = [c])) ∧
      (∃ ps, List.Forall₂ (EntryOf K inf) new ps ∧ st'.points = st.points ++ (ps.filter (kept diag)).map (·.1) ∧
        st'.pairing = st.pairing ++ (ps.filter (kept diag)).map (·.2)) ∧
      ∀ {σ : Type} (F : Visitor σ α) (x : σ), F.step diag leftFirst K (st, x) s =
        (new.foldlM (Call.on F) x).map fun x => (st', x) := by
  have hw := hK.wf
  obtain ⟨st', rep', _, e, hI, _⟩ := zeroDim_step diag leftFirst inf hK hn hs h
  have hsm := List.mem_of_getElem? hs
  have hnorm := hw.normal _ hsm
  have hv := vsetAt_some hs
  have htl : t < K.length := (List.getElem?_eq_some_iff.1 hs).1
  have hcard : s.vertices.length = #s.vset := hnorm.length_eq
  have hne := vsetAt_nonempty hw htl
  rw [hv] at hne
  have hpos := hne.card_pos
  have hdim : s.dimension = some (s.vertices.length - 1) := by
    unfold Simplex.dimension
    cases hl : s.vertices with
    | nil => rw [hl] at hcard; simp at hcard; omega
    | cons a l => simp
  have hbr : Bridges K t → s.vertices.length = 2 := by
    rintro ⟨a, b, hab, he, _⟩
    rw [hv] at he
    rw [hcard, he, card_pair hab]
  by_cases h2 : s.vertices.length = 2
  · obtain ⟨u, v, huv⟩ := List.length_eq_two.1 h2
    have huv' : u ≠ v := by
      have := hnorm.nodup
      rw [huv] at this
      simpa using this
    have hvs : vsetAt K t = {u, v} := by rw [hv, Simplex.vset, huv]; simp
    have huV : u ∈ K.vertices := (mem_vertices_iff hw).2 (exists_pos hK.closed (k := t) (by rw [hvs]; simp))
    have hvV : v ∈ K.vertices := (mem_vertices_iff hw).2 (exists_pos hK.closed (k := t) (by rw [hvs]; simp))
    obtain ⟨p1, e1, r1⟩ := h.repr.find huV
    obtain ⟨p2, e2, r2⟩ := r1.find hvV
    have hd : ¬ (s.vertices.length - 1 ≠ 1) := by omega
    have g0 : s.vertices[0]? = some u := by rw [huv]; rfl
    have g1 : s.vertices[1]? = some v := by rw [huv]; rfl
    by_cases hab : rep u = rep v
    · have hst : st' = { st with uf := p2 } := by
        unfold zeroDimStep at e
        simp only [hdim, if_neg hd, g0, g1, e1, e2, if_pos hab] at e
        exact (Option.some.inj e).symm
      refine ⟨st', rep', [], hI, e, Or.inl ⟨?_, rfl⟩, ⟨[], .nil, by simp [hst], by simp [hst]⟩, ?_⟩
      · rintro ⟨a, b, hne, he, hj⟩
        refine hj ?_
        have hJ := (h.joined u huV v hvV).1 hab
        rw [hvs] at he
        have ha : a ∈ ({u, v} : Finset ℕ) := by rw [he]; simp
        have hb : b ∈ ({u, v} : Finset ℕ) := by rw [he]; simp
        simp only [mem_insert, mem_singleton] at ha hb
        rcases ha with rfl | rfl <;> rcases hb with rfl | rfl
        · exact absurd rfl hne
        · exact hJ
        · exact .symm _ _ hJ
        · exact absurd rfl hne
      · intro σ F x
        unfold step
        simp only [hdim, if_neg hd, g0, g1, e1, e2, if_pos hab, hst]
        rfl
    · have hnj : ¬ Joined K t u v := fun hj => hab ((h.joined u huV v hvV).2 hj)
      obtain ⟨ai, hai⟩ := (mem_vertices_iff hw).1 (h.repr.rep_mem huV)
      obtain ⟨bi, hbi⟩ := (mem_vertices_iff hw).1 (h.repr.rep_mem hvV)
      have hne' : ai ≠ bi := by
        rintro rfl
        rw [hai] at hbi
        exact hab (singleton_injective hbi)
      have hal := lt_of_vsetAt (by simp) hai
      have hbl := lt_of_vsetAt (by simp) hbi
      have ju : Joined K t u (rep u) := (h.joined _ huV _ (h.repr.rep_mem huV)).1 (h.repr.rep_rep huV).symm
      have jv : Joined K t v (rep v) := (h.joined _ hvV _ (h.repr.rep_mem hvV)).1 (h.repr.rep_rep hvV).symm
      have oa := h.oldest u huV ai hai
      have ob := h.oldest v hvV bi hbi
      have hform : ∀ {i w}, vsetAt K i = {w} → ∀ hl : i < K.length, K[i]? = some ⟨[w], K[i].data⟩ := by
        intro i w hiw hl
        obtain ⟨s', h1, h2⟩ := (index_eq_some hw).1 (index_vertex hw hiw)
        have h3 : K[i]? = some K[i] := List.getElem?_eq_getElem hl
        rw [h3] at h1
        have h4 : K[i] = s' := Option.some.inj h1
        rw [h3, ← h2, ← h4]
      have hsf : K[t]? = some ⟨[u, v], s.data⟩ := by rw [hs, ← huv]
      have hidx : K.index s.vertices = some t := (index_eq_some hw).2 ⟨s, hs, rfl⟩
      have hbridge : Bridges K t := ⟨u, v, huv', hvs, hnj⟩
      rcases Nat.lt_or_gt_of_ne hne' with hlt | hlt
      · have hcr : K.get bi = some K[bi] := by unfold Complex.get; exact List.getElem?_eq_getElem hbl
        obtain ⟨p3, e3, r3⟩ := r2.merge leftFirst (h.repr.rep_mem hvV) (h.repr.rep_mem huV)
        refine ⟨st', rep', [.merge (rep v) (rep u) K[bi].data s.data u v], hI, e,
          Or.inr ⟨hbridge, .merge (rep v) (rep u) K[bi].data s.data u v, ⟨hsf, hnj, Or.inr ⟨ju, jv⟩, bi, ai, hform hbi hbl, hai, ob, oa, hlt⟩, rfl⟩, ⟨[((K[bi].data, s.data), (bi, t))], .cons ⟨rfl, hbi, hvs⟩ .nil, ?_⟩, ?_⟩
        · unfold zeroDimStep at e
          simp only [hdim, if_neg hd, g0, g1, e1, e2, if_neg hab, index_vertex hw hai, index_vertex hw hbi, if_pos hlt, hcr,
            e3, hidx] at e
          split at e
          · next hc => rw [← Option.some.inj e, List.filter_cons_of_pos (by exact hc)]; simp
          · next hc => rw [← Option.some.inj e, List.filter_cons_of_neg (by exact hc)]; simp
        intro σ F x
        unfold zeroDimStep at e
        unfold step
        simp only [hdim, if_neg hd, g0, g1, e1, e2, if_neg hab, index_vertex hw hai, index_vertex hw hbi, if_pos hlt, hcr,
          e3, hidx] at e ⊢
        simp only [List.foldlM_cons, List.foldlM_nil, Call.on]
        cases hF : F.merge (rep v) (rep u) K[bi].data s.data u v x with
        | none => rfl
        | some y =>
          simp only [Option.bind_eq_bind, Option.bind_some, Option.pure_def, Option.map_some]
          split at e
          · next hc => rw [if_pos hc, ← Option.some.inj e]
          · next hc => rw [if_neg hc, ← Option.some.inj e]
      · have hcr : K.get ai = some K[ai] := by unfold Complex.get; exact List.getElem?_eq_getElem hal
        have hnl : ¬ ai < bi := by omega
        obtain ⟨p3, e3, r3⟩ := r2.merge leftFirst (h.repr.rep_mem huV) (h.repr.rep_mem hvV)
        refine ⟨st', rep', [.merge (rep u) (rep v) K[ai].data s.data u v], hI, e,
          Or.inr ⟨hbridge, .merge (rep u) (rep v) K[ai].data s.data u v, ⟨hsf, hnj, Or.inl ⟨ju, jv⟩, ai, bi, hform hai hal, hbi, oa, ob, hlt⟩, rfl⟩, ⟨[((K[ai].data, s.data), (ai, t))], .cons ⟨rfl, hai, hvs⟩ .nil, ?_⟩, ?_⟩
        · unfold zeroDimStep at e
          simp only [hdim, if_neg hd, g0, g1, e1, e2, if_neg hab, index_vertex hw hai, index_vertex hw hbi, if_neg hnl, hcr,
            e3, hidx] at e
          split at e
          · next hc => rw [← Option.some.inj e, List.filter_cons_of_pos (by exact hc)]; simp
          · next hc => rw [← Option.some.inj e, List.filter_cons_of_neg (by exact hc)]; simp
        intro σ F x
        unfold zeroDimStep at e
        unfold step
        simp only [hdim, if_neg hd, g0, g1, e1, e2, if_neg hab, index_vertex hw hai, index_vertex hw hbi, if_neg hnl, hcr,
          e3, hidx] at e ⊢
        simp only [List.foldlM_cons, List.foldlM_nil, Call.on]
        cases hF : F.merge (rep u) (rep v) K[ai].data s.data u v x with
        | none => rfl
        | some y =>
          simp only [Option.bind_eq_bind, Option.bind_some, Option.pure_def, Option.map_some]
          split at e
          · next hc => rw [if_pos hc, ← Option.some.inj e]
          · next hc => rw [if_neg hc, ← Option.some.inj e]
  · have hd : s.vertices.length - 1 ≠ 1 := by omega
    have hst : st' = st := by
      unfold zeroDimStep at e
      simp only [hdim, if_pos hd] at e
      exact (Option.some.inj e).symm
    refine ⟨st', rep', [], hI, e, Or.inl ⟨fun hb => h2 (hbr hb), rfl⟩, ⟨[], .nil, by simp [hst], by simp [hst]⟩, ?_⟩
    intro σ F x
    unfold step
    simp only [hdim, if_pos hd, hst]
    rfl

theorem loop_spec (diag leftFirst : Bool) (inf : α) (hK : IsFiltration K)
    (hn : K.length ≤ idxMax) (post pre : Complex α) (st : ZeroDimState α) (rep : ℕ → ℕ)
    (hpp : K = pre ++ post) (h : ZeroInv K pre.length st.uf rep) :
    ∃ st' rep' ts calls, ZeroInv K K.length st'.uf rep' ∧
      post.foldlM (zeroDimStep diag leftFirst K) st = some st' ∧
      ts.Pairwise (· < ·) ∧ (∀ t, t ∈ ts ↔ pre.length ≤ t ∧ Bridges K t) ∧ List.Forall₂ (MergeCall K) ts calls ∧
      (∃ ps, List.Forall₂ (EntryOf K inf) calls ps ∧ st'.points = st.points ++ (ps.filter (kept diag)).map (·.1) ∧
        st'.pairing = st.pairing ++ (ps.filter (kept diag)).map (·.2)) ∧
      ∀ {σ : Type} (F : Visitor σ α) (x : σ), post.foldlM (F.step diag leftFirst K) (st, x) =
        (calls.foldlM (Call.on F) x).map fun x => (st', x) := by
  induction post generalizing pre st rep with
  | nil =>
    rw [List.append_nil] at hpp
    subst hpp
    refine ⟨st, rep, [], [], h, rfl, List.Pairwise.nil, ?_, .nil, ⟨[], .nil, by simp, by simp⟩, fun F x => rfl⟩
    intro t
    refine ⟨fun h => absurd h List.not_mem_nil, ?_⟩
    rintro ⟨h1, u, v, _, h2, _⟩
    have := lt_of_vsetAt (by simp) h2
    omega
  | cons s post ih =>
    have hs : K[pre.length]? = some s := by rw [hpp]; simp
    obtain ⟨st', rep', new, hI, e, hnew, ⟨ps, p1, p2, p3⟩, hF⟩ := step_spec diag leftFirst inf hK hn hs h
    obtain ⟨st'', rep'', ts, calls, hI', e', hts, hm, hf, ⟨ps', p1', p2', p3'⟩, hG⟩ :=
      ih (pre ++ [s]) st' rep' (by rw [hpp]; simp) (by simpa using hI)
    rw [List.length_append, List.length_singleton] at hm
    have hrun : ∀ {σ : Type} (F : Visitor σ α) (x : σ), (s :: post).foldlM (F.step diag leftFirst K) (st, x) =
        ((new ++ calls).foldlM (Call.on F) x).map fun x => (st'', x) := by
      intro σ F x
      rw [List.foldlM_cons, hF, List.foldlM_append]
      cases List.foldlM (Call.on F) x new with
      | none => rfl
      | some y => exact hG F y
    have hps : ∃ ps, List.Forall₂ (EntryOf K inf) (new ++ calls) ps ∧ st''.points = st.points ++ (ps.filter (kept diag)).map (·.1) ∧
        st''.pairing = st.pairing ++ (ps.filter (kept diag)).map (·.2) :=
      ⟨ps ++ ps', List.rel_append p1 p1', by rw [p2', p2]; simp, by rw [p3', p3]; simp⟩
    have hz : (s :: post).foldlM (zeroDimStep diag leftFirst K) st = some st'' := by
      rw [List.foldlM_cons, e]; exact e'
    rcases hnew with ⟨hb, rfl⟩ | ⟨hb, c, hc, rfl⟩
    · refine ⟨st'', rep'', ts, calls, hI', hz, hts, ?_, hf, hps, hrun⟩
      intro t
      rw [hm]
      constructor
      · rintro ⟨h1, h2⟩; exact ⟨by omega, h2⟩
      · rintro ⟨h1, h2⟩
        refine ⟨?_, h2⟩
        rcases Nat.lt_or_ge pre.length t with h3 | h3
        · exact h3
        · have : t = pre.length := by omega
          subst this
          exact absurd h2 hb
    · refine ⟨st'', rep'', pre.length :: ts, c :: calls, hI', hz, ?_, ?_, .cons hc hf, hps, hrun⟩
      · refine List.pairwise_cons.2 ⟨?_, hts⟩
        intro t ht
        have := ((hm t).1 ht).1
        omega
      · intro t
        rw [List.mem_cons, hm]
        constructor
        · rintro (rfl | ⟨h1, h2⟩)
          · exact ⟨le_rfl, hb⟩
          · exact ⟨by omega, h2⟩
        · rintro ⟨h1, h2⟩
          rcases Nat.lt_or_ge pre.length t with h3 | h3
          · exact Or.inr ⟨h3, h2⟩
          · exact Or.inl (by omega)

omit [DecidableEq α] in
theorem roots_spec (inf : α) (hK : WF K) (rs : List ℕ) (hrs : ∀ r ∈ rs, r ∈ K.vertices)
    (st : List (α × α) × List (ℕ × ℕ)) :
    ∃ st' is calls, rs.foldlM (zeroDimRoot inf K) st = some st' ∧ List.Forall₂ (fun i r => vsetAt K i = {r}) is rs ∧
      List.Forall₂ (RootCall K) is calls ∧
      (∃ qs, List.Forall₂ (EntryOf K inf) calls qs ∧ st'.1 = st.1 ++ qs.map (·.1) ∧ st'.2 = st.2 ++ qs.map (·.2)) ∧
      ∀ {σ : Type} (F : Visitor σ α) (x : σ), rs.foldlM (F.rootStep inf K) (st, x) =
        (calls.foldlM (Call.on F) x).map fun x => (st', x) := by
  induction rs generalizing st with
  | nil => exact ⟨st, [], [], rfl, .nil, .nil, ⟨[], .nil, by simp, by simp⟩, fun F x => rfl⟩
  | cons r rs ih =>
    obtain ⟨i, hi⟩ := (mem_vertices_iff hK).1 (hrs r List.mem_cons_self)
    have hil := lt_of_vsetAt (by simp) hi
    have hidx := index_vertex hK hi
    obtain ⟨s, h1, h2⟩ := (index_eq_some hK).1 hidx
    have hfind : K.find [r] = some s := by
      rw [← h2]
      exact hK.find_eq (List.mem_of_getElem? h1)
    obtain ⟨st', is, calls, e, hf, hc, ⟨qs, q1, q2, q3⟩, hF⟩ := ih (fun r hr => hrs r (List.mem_cons_of_mem _ hr))
      (st.1 ++ [(s.data, inf)], st.2 ++ [(i, idxMax)])
    refine ⟨st', i :: is, .root r s.data :: calls, ?_, .cons hi hf, .cons ?_ hc,
      ⟨((s.data, inf), (i, idxMax)) :: qs, .cons ⟨rfl, hi, rfl⟩ q1, by rw [q2]; simp, by rw [q3]; simp⟩, ?_⟩
    · rw [List.foldlM_cons]
      unfold zeroDimRoot
      rw [hfind, hidx]
      exact e
    · show K[i]? = some ⟨[r], s.data⟩
      rw [h1, ← h2]
    · intro σ F x
      rw [List.foldlM_cons, List.foldlM_cons]
      unfold rootStep
      rw [hfind, hidx]
      simp only [Call.on]
      cases F.root r s.data x with
      | none => rfl
      | some y => exact hF F y

omit [DecidableEq α] in
theorem init_spec {σ : Type} (F : Visitor σ α) (vs : List ℕ) (x : σ) :
    vs.foldlM (fun x v => F.init v x) x = (vs.map Call.init).foldlM (Call.on F) x := by
  induction vs generalizing x with
  | nil => rfl
  | cons v vs ih =>
    rw [List.map_cons, List.foldlM_cons, List.foldlM_cons]
    simp only [Call.on]
    cases F.init v x with
    | none => rfl
    | some y => exact ih y

/-- C142. For every filtered complex there is one sequence of calls that every functor receives, before the calculation
returns the same diagram and the same pairing as without a functor: one call of `initialize` for each vertex, in ascending
order; one call for each edge that joins two components, in the order of the filtration; one call for each component of the
complex. If a call throws, no further calls are made. The diagram and the pairing have one entry for each of the latter calls, in the same
order, except for components of zero persistence if they are not requested. -/
theorem _root_.Aleph.C142_calls (diag leftFirst : Bool) (inf : α) (K : Complex α) (hK : IsFiltration K)
    (hn : K.length ≤ idxMax) :
    ∃ ts merges is roots ps qs out, zeroDimensional diag leftFirst inf K = some out ∧
      ts.Pairwise (· < ·) ∧ (∀ t, t ∈ ts ↔ Bridges K t) ∧ List.Forall₂ (MergeCall K) ts merges ∧
      is.Nodup ∧ (∀ i, i ∈ is ↔ OldestAt K K.length i) ∧ List.Forall₂ (RootCall K) is roots ∧
      List.Forall₂ (EntryOf K inf) merges ps ∧ List.Forall₂ (EntryOf K inf) roots qs ∧
      out.1 = (ps.filter (fun p => diag || decide (p.1.1 ≠ p.1.2)) ++ qs).map (·.1) ∧
      out.2 = (ps.filter (fun p => diag || decide (p.1.1 ≠ p.1.2)) ++ qs).map (·.2) ∧
      ∀ {σ : Type} (F : Visitor σ α) (x : σ), F.run diag leftFirst inf K x =
        ((K.vertices.map Call.init ++ merges ++ roots).foldlM (Call.on F) x).map fun x => (out, x) := by
  have hw := hK.wf
  obtain ⟨st, rep, ts, merges, hI, e, h1, h2, h3, ⟨ps, p1, p2, p3⟩, hF⟩ := loop_spec diag leftFirst inf hK hn K []
    ⟨ofRange K.vertices, [], []⟩ id rfl (zeroInv_init hw)
  obtain ⟨p', rs, er, _, rn, hrs⟩ := hI.repr.roots
  obtain ⟨out, is, roots, e', hf, hc, ⟨qs, q1, q2, q3⟩, hG⟩ := roots_spec inf hw rs (fun r hr => ((hrs r).1 hr).1) (st.points, st.pairing)
  refine ⟨ts, merges, is, roots, ps, qs, out, ?_, h1, fun t => (h2 t).trans (by simp), h3, ?_, ?_, hc, p1, q1, ?_, ?_, ?_⟩
  · unfold zeroDimensional
    rw [e]
    simp only [er]
    exact e'
  · have key : ∀ {is' : List ℕ} {rs' : List ℕ}, List.Forall₂ (fun i r => vsetAt K i = {r}) is' rs' → rs'.Nodup → is'.Nodup := by
      intro is' rs' h
      induction h with
      | nil => intro _; exact List.nodup_nil
      | @cons i r is' rs' h hf ih =>
        intro hnd
        rw [List.nodup_cons] at hnd ⊢
        refine ⟨?_, ih hnd.2⟩
        intro hi
        obtain ⟨r', hr', he⟩ := (List.forall₂_iff_get.1 hf |> fun ⟨hl, hg⟩ => by
          obtain ⟨n, hn, rfl⟩ := List.mem_iff_getElem.1 hi
          exact ⟨rs'[n]'(hl ▸ hn), List.getElem_mem _, hg n hn (hl ▸ hn)⟩ :
          ∃ r' ∈ rs', vsetAt K i = {r'})
        rw [h] at he
        rw [singleton_injective he] at hnd
        exact hnd.1 hr'
    exact key hf rn
  · intro i
    rw [hI.oldest_iff hw]
    obtain ⟨hl, hg⟩ := List.forall₂_iff_get.1 hf
    constructor
    · intro hi
      obtain ⟨n, hn, rfl⟩ := List.mem_iff_getElem.1 hi
      have hr : rs[n]'(hl ▸ hn) ∈ rs := List.getElem_mem _
      exact ⟨_, ((hrs _).1 hr).1, ((hrs _).1 hr).2, hg n hn (hl ▸ hn)⟩
    · rintro ⟨r, hr, hrr, hi⟩
      obtain ⟨n, hn, he⟩ := List.mem_iff_getElem.1 ((hrs r).2 ⟨hr, hrr⟩)
      have h5 := hg n (hl ▸ hn) hn
      simp only [List.get_eq_getElem] at h5
      rw [he] at h5
      rw [vsetAt_unique hw (by simp) hi h5]
      exact List.getElem_mem _
  · rw [q2]
    simp only
    rw [p2, List.nil_append, List.map_append]
    rfl
  · rw [q3]
    simp only
    rw [p3, List.nil_append, List.map_append]
    rfl
  · intro σ F x
    unfold run
    rw [init_spec, List.append_assoc, List.foldlM_append]
    cases List.foldlM (Call.on F) x (K.vertices.map Call.init) with
    | none => rfl
    | some y =>
      simp only [hF F y, Option.bind_eq_bind, Option.bind_some, List.foldlM_append]
      cases List.foldlM (Call.on F) y merges with
      | none => rfl
      | some z =>
        simp only [Option.map_some, Option.bind_some, er]
        exact hG F z

/-- The edges of a path of three vertices join two components each. -/
example : IsFiltration pathGraph ∧ pathGraph.length ≤ idxMax :=
  ⟨⟨⟨by decide, by decide, by decide⟩, Closed1.faceClosed (by decide) (by unfold Closed1; decide),
    by unfold FacesFirst; decide⟩, by decide⟩

end Visitor

end Aleph
