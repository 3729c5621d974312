import Verif.Model.CliqueCommunities
import Verif.Spec.CliqueCommunities
import Verif.Props.CliqueGraph
import Verif.Props.UnionFind
import Verif.Props.AdjacencyMatrixReader
import Verif.Lemmas.Conversions

/-!
Communities of cliques in a complex.
-/

namespace Aleph

open Finset Spec ParentMap

variable {α : Type}

theorem connectedComponents_represents (leftFirst : Bool) (K edges : Complex α) (hK : WF K) (hc : FaceClosed K)
    (he : edges.Perm (K.range 1)) :
    ∃ p ms, connectedComponents leftFirst K edges = some p ∧ Represents (· ∈ K.vertices) p (repOf ms) ∧
      ∀ a b, (a, b) ∈ ms ↔ ∃ e ∈ K, e.vertices = [a, b] := by
  have hV := (C22_vertices K hK).2
  have hE := (C22_dimension K hK).2.2 1
  have main : ∀ (es : List (Simplex α)) (p : ParentMap) (ms : List (ℕ × ℕ)), (∀ e ∈ es, e ∈ K.range 1) →
      Represents (· ∈ K.vertices) p (repOf ms) →
      ∃ p' ms', (es.foldlM (fun p s =>
        match s.vertices[0]?, s.vertices[1]? with
        | some u, some v => if u < v then p.merge leftFirst v u else p.merge leftFirst u v
        | _, _ => none) p) = some p' ∧ Represents (· ∈ K.vertices) p' (repOf ms') ∧
        ∀ a b, (a, b) ∈ ms' ↔ (a, b) ∈ ms ∨ ∃ e ∈ es, e.vertices = [a, b] := by
    intro es
    induction es with
    | nil => intro p ms _ h; exact ⟨p, ms, rfl, h, by simp⟩
    | cons e es ih =>
      intro p ms hes h
      have heK := hes e List.mem_cons_self
      have hed : Complex.dim e = 1 := by
        unfold Complex.range at heK
        rw [List.mem_filter, beq_iff_eq] at heK
        exact heK.2
      have heK' : e ∈ K := ((hE e).1 heK).1
      obtain ⟨u, v, huv, hlt⟩ := edge_vertices hK heK' hed
      have hmem : ∀ x, x ∈ e.vset → x ∈ K.vertices := by
        intro x hx
        obtain ⟨t, ht, hts⟩ := hc e heK' {x} (by simpa using hx) ⟨x, by simp⟩
        exact (hV x).2 ⟨t, ht, hts⟩
      have hu : u ∈ K.vertices := hmem u (by simp [Simplex.vset, huv])
      have hv : v ∈ K.vertices := hmem v (by simp [Simplex.vset, huv])
      obtain ⟨p1, h1, h2⟩ := h.merge leftFirst hu hv
      obtain ⟨p', ms', h3, h4, h5⟩ := ih p1 ((u, v) :: ms) (fun x hx => hes x (List.mem_cons_of_mem _ hx)) h2
      refine ⟨p', ms', ?_, h4, ?_⟩
      · rw [List.foldlM_cons]
        simp only [huv, List.getElem?_cons_zero, List.getElem?_cons_succ, if_neg (not_lt.2 hlt.le), h1]
        exact h3
      · intro a b
        rw [h5, List.mem_cons]
        constructor
        · rintro ((h | h) | ⟨e', he', h⟩)
          · cases h; exact Or.inr ⟨e, List.mem_cons_self, huv⟩
          · exact Or.inl h
          · exact Or.inr ⟨e', List.mem_cons_of_mem _ he', h⟩
        · rintro (h | ⟨e', he', h⟩)
          · exact Or.inl (Or.inr h)
          · rcases List.mem_cons.1 he' with rfl | he'
            · rw [huv] at h; cases h; exact Or.inl (Or.inl rfl)
            · exact Or.inr ⟨e', he', h⟩
  obtain ⟨p, ms, h1, h2, h3⟩ := main edges _ [] (fun e h => he.mem_iff.1 h) (Represents.ofRange K.vertices)
  refine ⟨p, ms, h1, h2, ?_⟩
  intro a b
  rw [h3]
  constructor
  · rintro (h | ⟨e, h, hv⟩)
    · cases h
    · exact ⟨e, ((hE e).1 (he.mem_iff.1 h)).1, hv⟩
  · rintro ⟨e, h, hv⟩
    refine Or.inr ⟨e, he.mem_iff.2 ?_, hv⟩
    unfold Complex.range
    rw [List.mem_filter, beq_iff_eq]
    exact ⟨h, by unfold Complex.dim; rw [hv]; rfl⟩

theorem mapM_exists {β γ : Type} {f : β → Option γ} {l : List β} (h : ∀ x ∈ l, ∃ y, f x = some y) :
    ∃ ys, l.mapM f = some ys ∧ List.Forall₂ (fun x y => f x = some y) l ys := by
  induction l with
  | nil => exact ⟨[], rfl, .nil⟩
  | cons a l ih =>
    obtain ⟨y, hy⟩ := h a List.mem_cons_self
    obtain ⟨ys, e, hf⟩ := ih fun x hx => h x (List.mem_cons_of_mem _ hx)
    refine ⟨y :: ys, ?_, .cons hy hf⟩
    rw [List.mapM_cons, hy, e]
    rfl

namespace CliqueCommunities

theorem simplicesOf_spec {K : Complex α} (hK : WF K) {l : List ℕ} (hl : l.Nodup) (h : ∀ i ∈ l, i < K.length) :
    ∃ c, simplicesOf K l = some c ∧ c.Nodup ∧ ∀ s, s ∈ c ↔ ∃ i ∈ l, K[i]? = some s := by
  have hp : (l.insertionSort (· ≤ ·)).Perm l := List.perm_insertionSort _ _
  obtain ⟨ys, e, hf⟩ := mapM_exists (f := K.get) (l := l.insertionSort (· ≤ ·)) (by
    intro i hi
    have := h i (hp.mem_iff.1 hi)
    exact ⟨K[i], List.getElem?_eq_getElem this⟩)
  have hp' := List.perm_insertionSort (fun s t : Simplex α => Simplex.lt t s = false) ys
  refine ⟨ys.insertionSort (fun s t : Simplex α => Simplex.lt t s = false), ?_, ?_, ?_⟩
  · unfold simplicesOf
    rw [e]
  · rw [hp'.nodup_iff]
    have hn := hp.nodup_iff.2 hl
    generalize l.insertionSort (· ≤ ·) = l' at hf hn
    clear e hp hp'
    induction hf with
    | nil => exact List.nodup_nil
    | @cons i s l' ys his hf ih =>
      rw [List.nodup_cons] at hn ⊢
      refine ⟨?_, ih hn.2⟩
      intro hs
      obtain ⟨n, hn', hsn⟩ := List.mem_iff_getElem.1 hs
      obtain ⟨hlen, hg⟩ := List.forall₂_iff_get.1 hf
      have h1 := hg n (hlen ▸ hn') hn'
      simp only [List.get_eq_getElem] at h1
      rw [hsn] at h1
      unfold Complex.get at h1 his
      obtain ⟨a1, a2⟩ := List.getElem?_eq_some_iff.1 h1
      obtain ⟨b1, b2⟩ := List.getElem?_eq_some_iff.1 his
      have : l'[n]'(hlen ▸ hn') = i := (List.Nodup.getElem_inj_iff hK.nodup).1 (a2.trans b2.symm)
      exact hn.1 (this ▸ List.getElem_mem _)
  · intro s
    rw [hp'.mem_iff]
    obtain ⟨hlen, hg⟩ := List.forall₂_iff_get.1 hf
    constructor
    · intro hs
      obtain ⟨n, hn', hsn⟩ := List.mem_iff_getElem.1 hs
      have h1 := hg n (hlen ▸ hn') hn'
      simp only [List.get_eq_getElem] at h1
      rw [hsn] at h1
      exact ⟨_, hp.mem_iff.1 (List.getElem_mem _), h1⟩
    · rintro ⟨i, hi, his⟩
      obtain ⟨n, hn', hin⟩ := List.mem_iff_getElem.1 (hp.mem_iff.2 hi)
      have h1 := hg n hn' (hlen ▸ hn')
      simp only [List.get_eq_getElem] at h1
      rw [hin] at h1
      unfold Complex.get at h1
      rw [his] at h1
      rw [Option.some.inj h1]
      exact List.getElem_mem _

theorem collectAll_spec {K : Complex α} (hK : WF K) {V : ℕ → Prop} {rep : ℕ → ℕ} (hV : ∀ u, V u → u < K.length)
    (rs : List ℕ) (p : ParentMap) (h : Represents V p rep) (hrs : ∀ r ∈ rs, V r) :
    ∃ cs, collectAll K p rs = some cs ∧
      List.Forall₂ (fun r c => c.Nodup ∧ ∀ s, s ∈ c ↔ ∃ i, V i ∧ rep i = rep r ∧ K[i]? = some s) rs cs := by
  induction rs generalizing p with
  | nil => exact ⟨[], rfl, .nil⟩
  | cons r rs ih =>
    obtain ⟨p', l, h1, h2, h3, h4⟩ := h.get (hrs r List.mem_cons_self)
    obtain ⟨c, c1, c2, c3⟩ := simplicesOf_spec hK h3 fun i hi => hV i ((h4 i).1 hi).1
    obtain ⟨cs, e, hf⟩ := ih p' h2 fun r hr => hrs r (List.mem_cons_of_mem _ hr)
    refine ⟨c :: cs, ?_, .cons ⟨c2, ?_⟩ hf⟩
    · simp only [collectAll, h1, c1, e]
    · intro s
      rw [c3]
      constructor
      · rintro ⟨i, hi, hs⟩
        exact ⟨i, ((h4 i).1 hi).1, ((h4 i).1 hi).2, hs⟩
      · rintro ⟨i, h1, h2, hs⟩
        exact ⟨i, (h4 i).2 ⟨h1, h2⟩, hs⟩

theorem faceClosed_perm {K L : Complex α} (hc : FaceClosed K) (h : L.Perm K) : FaceClosed L := by
  intro s hs t hts htn
  obtain ⟨s', hs', e⟩ := hc s (h.mem_iff.1 hs) t hts htn
  exact ⟨s', h.mem_iff.2 hs', e⟩

/-- The communities of the simplices of a complex. -/
theorem communities_spec [LinearOrder α] (o : Orders α) (leftFirst : Bool) {K : Complex α} (hK : WF K) {k : ℕ} (hk : 1 ≤ k) :
    ∃ cs, communities o leftFirst K k = some cs ∧ (∀ c ∈ cs, ∀ s ∈ c, s ∈ K) ∧
      IsCommunities (Has K) k (cs.map fun c => c.map (·.vertices)) := by
  obtain ⟨C, hC, hCw, hCc, hCd⟩ := C56_clique_graph max K hK k
  have hCp := (sortData_spec hCw).1
  generalize hC' : C.sort (asLt (Filtration.data fun a b => decide (a < b))) = C' at hCp
  have hw' : WF C' := hCw.perm hCp
  have hc' : FaceClosed C' := faceClosed_perm hCc hCp
  obtain ⟨p, ms, hp, hR, hms⟩ := connectedComponents_represents leftFirst C' (o.simps (C'.range 1)) hw' hc' (o.simps_perm _)
  -- the elements of the structure
  have hV : ∀ i, i ∈ C'.vertices ↔ ∃ s, K[i]? = some s ∧ #s.vset = k + 1 := by
    intro i
    rw [(C22_vertices C' hw').2]
    constructor
    · rintro ⟨s, hs, he⟩
      rcases (hCd {i} s.data).1 ⟨s, hCp.mem_iff.1 hs, he, rfl⟩ with ⟨j, t, h1, h2, h3, _⟩ | ⟨a, b, t, t', h1, h2, _, _, _, _, h7, h8, _⟩
      · cases singleton_injective h3
        exact ⟨t, h1, h2⟩
      · exfalso
        have hab : a ≠ b := by
          rintro rfl
          rw [h1] at h2
          cases h2
          unfold Simplex.lt at h7
          rw [lexLt_irrefl] at h7
          cases h7
        have := card_pair hab
        rw [← h8] at this
        simp at this
    · rintro ⟨t, h1, h2⟩
      obtain ⟨s, hs, he, _⟩ := (hCd {i} t.data).2 (Or.inl ⟨i, t, h1, h2, rfl, rfl⟩)
      exact ⟨s, hCp.mem_iff.2 hs, he⟩
  have hVl : ∀ i, i ∈ C'.vertices → i < K.length := by
    intro i hi
    obtain ⟨s, hs, _⟩ := (hV i).1 hi
    exact (List.getElem?_eq_some_iff.1 hs).1
  -- adjacency
  have hadj : ∀ a b, a ≠ b → ((a, b) ∈ ms ∨ (b, a) ∈ ms ↔ ∃ s t, K[a]? = some s ∧ K[b]? = some t ∧ #s.vset = k + 1 ∧
      #t.vset = k + 1 ∧ #(s.vset ∩ t.vset) = k) := by
    intro a b hab
    have hset : ((a, b) ∈ ms ∨ (b, a) ∈ ms) ↔ ∃ x, HasData C {a, b} x := by
      constructor
      · rintro (h | h)
        · obtain ⟨e, he, hv⟩ := (hms a b).1 h
          exact ⟨e.data, e, hCp.mem_iff.1 he, by rw [Simplex.vset, hv]; simp, rfl⟩
        · obtain ⟨e, he, hv⟩ := (hms b a).1 h
          exact ⟨e.data, e, hCp.mem_iff.1 he, by rw [Simplex.vset, hv]; simp [pair_comm], rfl⟩
      · rintro ⟨x, e, he, hv, _⟩
        have he' := hCp.mem_iff.2 he
        have hn := hw'.normal e he'
        have hd : Complex.dim e = 1 := by
          have := hn.length_eq
          change e.vertices.length = #e.vset at this
          unfold Complex.dim
          rw [this, hv, card_pair hab]
        obtain ⟨u, v, huv, _⟩ := edge_vertices hw' he' hd
        have h1 : ({a, b} : Finset ℕ) = {u, v} := by
          rw [← hv, Simplex.vset, huv]; simp
        have ha : a ∈ ({u, v} : Finset ℕ) := by rw [← h1]; simp
        have hb : b ∈ ({u, v} : Finset ℕ) := by rw [← h1]; simp
        simp only [mem_insert, mem_singleton] at ha hb
        rcases ha with rfl | rfl <;> rcases hb with rfl | rfl
        · exact absurd rfl hab
        · exact Or.inl ((hms _ _).2 ⟨e, he', huv⟩)
        · exact Or.inr ((hms _ _).2 ⟨e, he', huv⟩)
        · exact absurd rfl hab
    rw [hset]
    constructor
    · rintro ⟨x, hx⟩
      rcases (hCd {a, b} x).1 hx with ⟨j, t, _, _, h3, _⟩ | ⟨i, j, s, t, h1, h2, h3, h4, _, h6, _, h8, _⟩
      · have := card_pair hab
        rw [h3] at this
        simp at this
      · have ha : a ∈ ({i, j} : Finset ℕ) := by rw [← h8]; simp
        have hb : b ∈ ({i, j} : Finset ℕ) := by rw [← h8]; simp
        simp only [mem_insert, mem_singleton] at ha hb
        rcases ha with rfl | rfl <;> rcases hb with rfl | rfl
        · exact absurd rfl hab
        · exact ⟨s, t, h1, h2, h3, h4, h6⟩
        · exact ⟨t, s, h2, h1, h4, h3, by rw [inter_comm]; exact h6⟩
        · exact absurd rfl hab
    · rintro ⟨s, t, h1, h2, h3, h4, h5⟩
      have hne : s.vertices ≠ t.vertices := by
        intro he
        obtain ⟨a1, a2⟩ := List.getElem?_eq_some_iff.1 h1
        obtain ⟨b1, b2⟩ := List.getElem?_eq_some_iff.1 h2
        have hst := hK.eq_of_vertices (List.mem_of_getElem? h1) (List.mem_of_getElem? h2) he
        exact hab ((List.Nodup.getElem_inj_iff hK.nodup).1 (a2.trans (hst.trans b2.symm)))
      rcases lexLt_total hne with hlt | hlt
      · exact ⟨_, (hCd {a, b} _).2 (Or.inr ⟨a, b, s, t, h1, h2, h3, h4, hk, h5, hlt, rfl, rfl⟩)⟩
      · exact ⟨_, (hCd {a, b} _).2 (Or.inr ⟨b, a, t, s, h2, h1, h4, h3, hk, by rw [inter_comm]; exact h5, hlt, pair_comm _ _, rfl⟩)⟩
  have hmsne : ∀ a b, (a, b) ∈ ms → a ≠ b := by
    intro a b h
    obtain ⟨e, he, hv⟩ := (hms a b).1 h
    have := (hw'.normal e he).nodup
    rw [hv] at this
    simpa using this
  have hto : ∀ a b, Connected ms a b → SameCommunity (Has K) k (vsetAt K a) (vsetAt K b) := by
    intro a b h
    unfold Connected at h
    induction h with
    | refl _ => exact .refl _
    | symm _ _ _ ih => exact .symm _ _ ih
    | trans _ _ _ _ _ ih ih' => exact .trans _ _ _ ih ih'
    | rel a b h =>
      obtain ⟨s, t, h1, h2, h3, h4, h5⟩ := (hadj a b (hmsne a b h)).1 (Or.inl h)
      refine .rel _ _ ?_
      rw [vsetAt_some h1, vsetAt_some h2]
      exact ⟨⟨s, List.mem_of_getElem? h1, rfl⟩, ⟨t, List.mem_of_getElem? h2, rfl⟩, h3, h4, h5⟩
  have huniq : ∀ {i j : ℕ} {s t : Simplex α}, K[i]? = some s → K[j]? = some t → s.vset = t.vset → i = j := by
    intro i j s t h1 h2 he
    have hst := hK.eq_of_vset (List.mem_of_getElem? h1) (List.mem_of_getElem? h2) he
    obtain ⟨a1, a2⟩ := List.getElem?_eq_some_iff.1 h1
    obtain ⟨b1, b2⟩ := List.getElem?_eq_some_iff.1 h2
    exact (List.Nodup.getElem_inj_iff hK.nodup).1 (a2.trans (hst.trans b2.symm))
  have hfrom : ∀ x y, SameCommunity (Has K) k x y → x = y ∨ ∃ i j s t, K[i]? = some s ∧ K[j]? = some t ∧ s.vset = x ∧ t.vset = y ∧
      Connected ms i j := by
    intro x y h
    unfold SameCommunity at h
    induction h with
    | refl _ => exact Or.inl rfl
    | symm _ _ _ ih =>
      rcases ih with rfl | ⟨i, j, s, t, h1, h2, h3, h4, h5⟩
      · exact Or.inl rfl
      · exact Or.inr ⟨j, i, t, s, h2, h1, h4, h3, .symm _ _ h5⟩
    | trans x y z _ _ ih ih' =>
      rcases ih with rfl | ⟨i, j, s, t, h1, h2, h3, h4, h5⟩
      · exact ih'
      · rcases ih' with rfl | ⟨i', j', s', t', g1, g2, g3, g4, g5⟩
        · exact Or.inr ⟨i, j, s, t, h1, h2, h3, h4, h5⟩
        · have : j = i' := huniq h2 g1 (h4.trans g3.symm)
          subst this
          exact Or.inr ⟨i, j', s, t', h1, g2, h3, g4, .trans _ _ _ h5 g5⟩
    | rel x y h =>
      obtain ⟨⟨s, hs, rfl⟩, ⟨t, ht, rfl⟩, h1, h2, h3⟩ := h
      obtain ⟨i, hi⟩ := List.mem_iff_getElem?.1 hs
      obtain ⟨j, hj⟩ := List.mem_iff_getElem?.1 ht
      refine Or.inr ⟨i, j, s, t, hi, hj, rfl, rfl, ?_⟩
      have hij : i ≠ j := by
        rintro rfl
        rw [hi] at hj
        cases hj
        rw [inter_self] at h3
        omega
      rcases (hadj i j hij).2 ⟨s, t, hi, hj, h1, h2, h3⟩ with h | h
      · exact .rel _ _ h
      · exact .symm _ _ (.rel _ _ h)
  obtain ⟨p', roots, hr1, hr2, hr3, hr4⟩ := hR.roots
  have hpr := List.perm_insertionSort (· ≤ ·) roots.dedup
  rw [hr3.dedup] at hpr
  generalize hrs : roots.insertionSort (· ≤ ·) = rs at hpr
  have hrn : rs.Nodup := hpr.nodup_iff.2 hr3
  have hrm : ∀ r, r ∈ rs ↔ r ∈ C'.vertices ∧ repOf ms r = r := fun r => by rw [hpr.mem_iff, hr4]
  obtain ⟨cs, hcs, hf⟩ := collectAll_spec hK hVl rs p' hr2 fun r hr => ((hrm r).1 hr).1
  have hcom : communities o leftFirst K k = some cs := by
    unfold communities CliqueGraph.getMax
    simp only [hC, hC', hp, hr1, hr3.dedup, hrs]
    exact hcs
  obtain ⟨hlen, hg⟩ := List.forall₂_iff_get.1 hf
  simp only [List.get_eq_getElem] at hg
  have hmemc : ∀ c, c ∈ cs ↔ ∃ n, ∃ h : n < cs.length, cs[n] = c := fun c => List.mem_iff_getElem
  have hsK : ∀ c ∈ cs, ∀ s ∈ c, s ∈ K := by
    intro c hc s hs
    obtain ⟨n, hn, rfl⟩ := (hmemc c).1 hc
    obtain ⟨i, _, _, his⟩ := ((hg n (hlen ▸ hn) hn).2 s).1 hs
    exact List.mem_of_getElem? his
  -- two simplices, and the numbers of their communities
  have hsame : ∀ n (hn : n < cs.length) n' (hn' : n' < cs.length) s s', s ∈ cs[n] → s' ∈ cs[n'] →
      (n = n' ↔ SameCommunity (Has K) k s.vset s'.vset) := by
    intro n hn n' hn' s s' hs hs'
    obtain ⟨i, hi, hri, his⟩ := ((hg n (hlen ▸ hn) hn).2 s).1 hs
    obtain ⟨j, hj, hrj, hjs⟩ := ((hg n' (hlen ▸ hn') hn').2 s').1 hs'
    have e1 := ((hrm _).1 (List.getElem_mem (hlen ▸ hn : n < rs.length))).2
    have e2 := ((hrm _).1 (List.getElem_mem (hlen ▸ hn' : n' < rs.length))).2
    constructor
    · rintro rfl
      have := hto i j ((repOf_eq_iff ms i j).1 (hri.trans hrj.symm))
      rwa [vsetAt_some his, vsetAt_some hjs] at this
    · intro h
      have hij : repOf ms i = repOf ms j := by
        rcases hfrom _ _ h with he | ⟨a, b, t, t', h1, h2, h3, h4, h5⟩
        · rw [huniq his hjs he]
        · rw [huniq his h1 h3.symm, huniq hjs h2 h4.symm]
          exact (repOf_eq_iff ms a b).2 h5
      rw [hri, hrj, e1, e2] at hij
      exact (List.Nodup.getElem_inj_iff hrn).1 hij
  refine ⟨cs, hcom, hsK, ⟨?_, ?_, ?_, ?_, ?_⟩⟩
  · intro c hc
    obtain ⟨c0, hc0, rfl⟩ := List.mem_map.1 hc
    obtain ⟨n, hn, rfl⟩ := (hmemc c0).1 hc0
    have hr := (hrm _).1 (List.getElem_mem (hlen ▸ hn : n < rs.length))
    obtain ⟨s, hs, _⟩ := (hV _).1 hr.1
    intro he
    have hin := ((hg n (hlen ▸ hn) hn).2 s).2 ⟨_, hr.1, rfl, hs⟩
    rw [List.map_eq_nil_iff] at he
    rw [he] at hin
    cases hin
  · intro c hc vs hvs
    obtain ⟨c0, hc0, rfl⟩ := List.mem_map.1 hc
    obtain ⟨s, hs, rfl⟩ := List.mem_map.1 hvs
    exact hK.normal s (hsK c0 hc0 s hs)
  · intro t
    constructor
    · rintro ⟨c, hc, vs, hvs, rfl⟩
      obtain ⟨c0, hc0, rfl⟩ := List.mem_map.1 hc
      obtain ⟨s, hs, rfl⟩ := List.mem_map.1 hvs
      obtain ⟨n, hn, rfl⟩ := (hmemc c0).1 hc0
      obtain ⟨i, hi, _, his⟩ := ((hg n (hlen ▸ hn) hn).2 s).1 hs
      obtain ⟨s', h1, h2⟩ := (hV i).1 hi
      rw [his] at h1
      cases h1
      exact ⟨⟨s, List.mem_of_getElem? his, rfl⟩, h2⟩
    · rintro ⟨⟨s, hs, rfl⟩, hcard⟩
      obtain ⟨i, hi⟩ := List.mem_iff_getElem?.1 hs
      have hiV := (hV i).2 ⟨s, hi, hcard⟩
      have hroot : repOf ms i ∈ rs := (hrm _).2 ⟨hR.rep_mem hiV, hR.rep_rep hiV⟩
      obtain ⟨n, hn, he⟩ := List.mem_iff_getElem.1 hroot
      refine ⟨_, List.mem_map_of_mem (List.getElem_mem (hlen ▸ hn : n < cs.length)), s.vertices, List.mem_map_of_mem ?_, rfl⟩
      refine ((hg n hn (hlen ▸ hn)).2 s).2 ⟨i, hiV, ?_, hi⟩
      rw [he, hR.rep_rep hiV]
  · have hfl : (cs.map fun c => c.map (·.vertices)).flatten = cs.flatten.map (·.vertices) := by
      rw [List.map_flatten]
    rw [hfl]
    refine List.Nodup.map_on ?_ ?_
    · intro s hs t ht he
      obtain ⟨c, hc, hsc⟩ := List.mem_flatten.1 hs
      obtain ⟨c', hc', htc⟩ := List.mem_flatten.1 ht
      exact hK.eq_of_vertices (hsK c hc s hsc) (hsK c' hc' t htc) he
    · rw [List.nodup_flatten]
      refine ⟨?_, ?_⟩
      · intro c hc
        obtain ⟨n, hn, rfl⟩ := (hmemc c).1 hc
        exact (hg n (hlen ▸ hn) hn).1
      · rw [List.pairwise_iff_getElem]
        intro a b ha hb hab
        rw [List.disjoint_left]
        intro s hs hs'
        have := (hsame a ha b hb s s hs hs').2 (.refl _)
        omega
  · intro c hc c' hc' vs hvs ws hws
    obtain ⟨c0, hc0, rfl⟩ := List.mem_map.1 hc
    obtain ⟨s, hs, rfl⟩ := List.mem_map.1 hvs
    obtain ⟨n, hn, rfl⟩ := (hmemc c0).1 hc0
    obtain ⟨c0', hc0', rfl⟩ := List.mem_map.1 hc'
    obtain ⟨s', hs', rfl⟩ := List.mem_map.1 hws
    obtain ⟨n', hn', rfl⟩ := (hmemc c0').1 hc0'
    rw [show s.vertices.toFinset = s.vset from rfl, show s'.vertices.toFinset = s'.vset from rfl, ← hsame n hn n' hn' s s' hs hs']
    constructor
    · intro he
      rw [he] at hvs
      obtain ⟨s2, hs2, he2⟩ := List.mem_map.1 hvs
      have : s2 = s := hK.eq_of_vertices (hsK _ hc0' s2 hs2) (hsK _ hc0 s hs) he2
      subst this
      exact (hsame n hn n' hn' s2 s2 hs hs2).2 (.refl _)
    · rintro rfl
      rfl

theorem _root_.Aleph.Spec.IsCommunities.congr {P Q : Finset ℕ → Prop} {k : ℕ} {cs : List (List (List ℕ))} (h : IsCommunities P k cs)
    (hPQ : ∀ t, #t = k + 1 → (P t ↔ Q t)) : IsCommunities Q k cs := by
  have hs : ∀ x y, SameCommunity P k x y ↔ SameCommunity Q k x y := by
    have : (fun s t => P s ∧ P t ∧ #s = k + 1 ∧ #t = k + 1 ∧ #(s ∩ t) = k) =
        fun s t => Q s ∧ Q t ∧ #s = k + 1 ∧ #t = k + 1 ∧ #(s ∩ t) = k := by
      funext s t
      apply propext
      constructor
      · rintro ⟨h1, h2, h3, h4, h5⟩
        exact ⟨(hPQ s h3).1 h1, (hPQ t h4).1 h2, h3, h4, h5⟩
      · rintro ⟨h1, h2, h3, h4, h5⟩
        exact ⟨(hPQ s h3).2 h1, (hPQ t h4).2 h2, h3, h4, h5⟩
    intro x y
    unfold SameCommunity
    rw [this]
  refine ⟨h.nonempty, h.descending, fun t => ?_, h.once, fun c hc c' hc' vs hvs ws hws => ?_⟩
  · rw [h.cliques]
    exact ⟨fun ⟨a, b⟩ => ⟨(hPQ t b).1 a, b⟩, fun ⟨a, b⟩ => ⟨(hPQ t b).2 a, b⟩⟩
  · rw [h.together c hc c' hc' vs hvs ws hws, hs]

end CliqueCommunities

end Aleph
