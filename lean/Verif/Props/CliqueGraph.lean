import Verif.Model.CliqueGraph
import Verif.Spec.Rips
import Verif.Lemmas.Rips
import Verif.Lemmas.History
import Verif.Props.Complex

/-!
# C56: clique graphs
-/

namespace Aleph

open Finset Spec CliqueGraph

variable {α : Type}

theorem mapM_some_map {β γ : Type} {f : β → Option γ} {g : β → γ} {l : List β} (h : ∀ x ∈ l, f x = some (g x)) :
    l.mapM f = some (l.map g) := by
  induction l with
  | nil => rfl
  | cons a l ih =>
    rw [List.mapM_cons, h a List.mem_cons_self, ih fun x hx => h x (List.mem_cons_of_mem _ hx)]
    rfl

theorem mem_pushCoface {f : List ℕ} {i : ℕ} {m : List (List ℕ × List ℕ)}
    (hm : m.Pairwise fun a b => Simplex.lexLt a.1 b.1 = true) :
    ((pushCoface f i m).Pairwise fun a b => Simplex.lexLt a.1 b.1 = true) ∧
    (∀ g, g ∈ (pushCoface f i m).map Prod.fst ↔ g = f ∨ g ∈ m.map Prod.fst) ∧
    (∀ g l, g ≠ f → ((g, l) ∈ pushCoface f i m ↔ (g, l) ∈ m)) ∧
    (∀ l, (f, l) ∈ m → (f, l ++ [i]) ∈ pushCoface f i m) ∧
    (f ∉ m.map Prod.fst → (f, [i]) ∈ pushCoface f i m) := by
  induction m with
  | nil => simp [pushCoface]; tauto
  | cons p m ih =>
    obtain ⟨g, l⟩ := p
    rw [List.pairwise_cons] at hm
    obtain ⟨h1, h2, h3, h4, h5⟩ := ih hm.2
    rw [pushCoface]
    by_cases hfg : Simplex.lexLt f g = true
    · rw [if_pos hfg]
      have hne : f ≠ g := by rintro rfl; rw [lexLt_irrefl] at hfg; cases hfg
      have hnm : ∀ l', (f, l') ∉ m := by
        intro l' hl'
        have := lexLt_trans hfg (hm.1 _ hl')
        rw [lexLt_irrefl] at this; cases this
      refine ⟨?_, ?_, ?_, ?_, ?_⟩
      · refine List.pairwise_cons.2 ⟨?_, List.pairwise_cons.2 ⟨hm.1, hm.2⟩⟩
        intro b hb
        rcases List.mem_cons.1 hb with rfl | hb
        · exact hfg
        · exact lexLt_trans hfg (hm.1 b hb)
      · intro g'; simp
      · intro g' l' hg'
        simp [hg']
      · intro l' hl'
        rcases List.mem_cons.1 hl' with h | h
        · cases h; exact absurd rfl hne
        · exact absurd h (hnm l')
      · intro _; simp
    · rw [if_neg hfg]
      by_cases hgf : Simplex.lexLt g f = true
      · rw [if_pos hgf]
        have hne : f ≠ g := by rintro rfl; rw [lexLt_irrefl] at hgf; cases hgf
        refine ⟨?_, ?_, ?_, ?_, ?_⟩
        · refine List.pairwise_cons.2 ⟨?_, h1⟩
          rintro ⟨b, lb⟩ hb
          rcases (h2 b).1 (List.mem_map_of_mem (f := Prod.fst) hb) with rfl | hb'
          · exact hgf
          · obtain ⟨⟨b', lb'⟩, hb'', rfl⟩ := List.mem_map.1 hb'
            exact hm.1 (b', lb') hb''
        · intro g'
          rw [List.map_cons, List.mem_cons, h2, List.map_cons, List.mem_cons]
          tauto
        · intro g' l' hg'
          rw [List.mem_cons, List.mem_cons, h3 g' l' hg']
        · intro l' hl'
          rcases List.mem_cons.1 hl' with h | h
          · cases h; exact absurd rfl hne
          · exact List.mem_cons_of_mem _ (h4 l' h)
        · intro hf
          exact List.mem_cons_of_mem _ (h5 fun h => hf (by rw [List.map_cons]; exact List.mem_cons_of_mem _ h))
      · rw [if_neg hgf]
        have he : f = g := by
          by_contra hne
          rcases lexLt_total hne with h | h
          · exact hfg h
          · exact hgf h
        subst he
        have hnm : ∀ l', (f, l') ∉ m := by
          intro l' hl'
          have := hm.1 _ hl'
          rw [lexLt_irrefl] at this; cases this
        refine ⟨List.pairwise_cons.2 ⟨fun b hb => hm.1 b hb, hm.2⟩, ?_, ?_, ?_, ?_⟩
        · intro g'; simp
        · intro g' l' hg'; simp [hg']
        · intro l' hl'
          rcases List.mem_cons.1 hl' with h | h
          · cases h; simp
          · exact absurd h (hnm l')
        · intro hf; exact absurd (by simp) hf

/-- The map after a sequence of insertions. -/
theorem pushAll_spec (P : List (List ℕ × ℕ)) (f : List ℕ) (l : List ℕ) :
    (f, l) ∈ P.foldl (fun m p => pushCoface p.1 p.2 m) [] ↔
      l ≠ [] ∧ l = (P.filter fun p => p.1 = f).map Prod.snd := by
  have key : ((P.foldl (fun m p => pushCoface p.1 p.2 m) []).Pairwise fun a b => Simplex.lexLt a.1 b.1 = true) ∧
      (∀ f l, (f, l) ∈ P.foldl (fun m p => pushCoface p.1 p.2 m) [] ↔
        l ≠ [] ∧ l = (P.filter fun p => p.1 = f).map Prod.snd) := by
    induction P using List.reverseRecOn with
    | nil => simp
    | append_singleton P p ih =>
      obtain ⟨hs, hm⟩ := ih
      obtain ⟨f0, i⟩ := p
      rw [List.foldl_append]
      simp only [List.foldl_cons, List.foldl_nil]
      obtain ⟨h1, h2, h3, h4, h5⟩ := mem_pushCoface (f := f0) (i := i) hs
      refine ⟨h1, ?_⟩
      intro f l
      rw [List.filter_append, List.map_append]
      by_cases hf : f = f0
      · subst hf
        have e : ((List.filter (fun p => decide (p.1 = f)) [(f, i)]).map Prod.snd) = [i] := by simp
        rw [e]
        have hex : (f, (P.filter fun p => p.1 = f).map Prod.snd ++ [i]) ∈
            pushCoface f i (P.foldl (fun m p => pushCoface p.1 p.2 m) []) := by
          by_cases hn : (P.filter fun p => p.1 = f).map Prod.snd = []
          · rw [hn]
            apply h5
            intro hc
            obtain ⟨⟨f', l'⟩, hc', rfl⟩ := List.mem_map.1 hc
            exact ((hm _ _).1 hc').1 (((hm _ _).1 hc').2.trans hn)
          · exact h4 _ ((hm _ _).2 ⟨hn, rfl⟩)
        constructor
        · intro hl
          have : l = (P.filter fun p => p.1 = f).map Prod.snd ++ [i] := by
            by_contra hne
            have hp := h1
            have hne' : ((f, l) : List ℕ × List ℕ) ≠ (f, (P.filter fun p => p.1 = f).map Prod.snd ++ [i]) := by
              intro h; exact hne (Prod.ext_iff.1 h).2
            have hnd : ((pushCoface f i (P.foldl (fun m p => pushCoface p.1 p.2 m) [])).map Prod.fst).Nodup := by
              rw [List.Nodup, List.pairwise_map]
              refine hp.imp ?_
              intro a b hab he
              rw [he, lexLt_irrefl] at hab; cases hab
            exact hne' (List.inj_on_of_nodup_map hnd hl hex rfl)
          subst this
          simp
        · rintro ⟨_, rfl⟩
          exact hex
      · have e : ((List.filter (fun p => decide (p.1 = f)) [(f0, i)]).map Prod.snd) = [] := by
          simp [Ne.symm hf]
        rw [e, List.append_nil, h3 f l hf, hm]
  exact key.2 f l

theorem mem_indexPairs {l : List ℕ} {u v : ℕ} : (u, v) ∈ indexPairs l ↔ [u, v].Sublist l := by
  induction l with
  | nil => simp [indexPairs]
  | cons a l ih =>
    rw [indexPairs, List.mem_append, ih]
    constructor
    · rintro (h | h)
      · obtain ⟨w, hw, e⟩ := List.mem_map.1 h
        cases e
        exact List.Sublist.cons_cons _ (List.singleton_sublist.2 hw)
      · exact h.cons _
    · intro h
      cases h with
      | cons _ h => exact Or.inr h
      | cons_cons _ h => exact Or.inl (List.mem_map.2 ⟨v, List.singleton_sublist.1 h, rfl⟩)

/-- The position of a simplex. -/
theorem index_of_mem {K : Complex α} (hK : WF K) {s : Simplex α} (hs : s ∈ K) :
    ∃ i, K.index s.vertices = some i ∧ K[i]? = some s := by
  obtain ⟨i, hi⟩ := List.mem_iff_getElem?.1 hs
  exact ⟨i, (index_eq_some hK).2 ⟨s, hi, rfl⟩, hi⟩

theorem simplexMap_spec {K : Complex α} (hK : WF K) (k : ℕ) :
    ∃ sm, simplexMap K k = some sm ∧
      (∀ s i, (s, i) ∈ sm ↔ K[i]? = some s ∧ s.vset.card = k + 1) ∧
      sm.Pairwise fun a b => Simplex.lt a.1 b.1 = true := by
  have hr := (C22_dimension K hK).2.2 k
  have hmem : ∀ s, s ∈ (K.range k).insertionSort (fun s t => Simplex.lt t s = false) ↔ s ∈ K ∧ s.vset.card = k + 1 := by
    intro s
    rw [List.mem_insertionSort, hr]
  have e : simplexMap K k = some (((K.range k).insertionSort (fun s t => Simplex.lt t s = false)).map
      fun s => (s, (K.index s.vertices).getD 0)) := by
    refine mapM_some_map ?_
    intro s hs
    obtain ⟨i, hi, _⟩ := index_of_mem hK ((hmem s).1 hs).1
    rw [hi]; rfl
  refine ⟨_, e, ?_, ?_⟩
  · intro s i
    rw [List.mem_map]
    constructor
    · rintro ⟨t, ht, h⟩
      obtain ⟨j, hj, hj'⟩ := index_of_mem hK ((hmem t).1 ht).1
      rw [hj] at h
      cases h
      exact ⟨hj', ((hmem s).1 ht).2⟩
    · rintro ⟨hi, hc⟩
      refine ⟨s, (hmem s).2 ⟨List.mem_of_getElem? hi, hc⟩, ?_⟩
      rw [(index_eq_some hK).2 ⟨s, hi, rfl⟩]; rfl
  · rw [List.pairwise_map]
    have hnd : ((K.range k).insertionSort (fun s t => Simplex.lt t s = false)).Nodup :=
      (List.perm_insertionSort _ _).nodup_iff.2 (hK.nodup.filter _)
    have : Std.Total (fun s t : Simplex α => Simplex.lt t s = false) := ⟨fun s t => by
      simp only [lt_iff]
      by_contra h
      push Not at h
      have h1 := Bool.eq_true_of_not_eq_false h.1
      have h2 := Bool.eq_true_of_not_eq_false h.2
      have := lexLt_trans h1 h2
      rw [lexLt_irrefl] at this; cases this⟩
    have : IsTrans (Simplex α) (fun s t => Simplex.lt t s = false) := ⟨fun s t u h1 h2 => by
      simp only [lt_iff] at *
      by_contra h
      have h3 := Bool.eq_true_of_not_eq_false h
      by_cases e : s.vertices = t.vertices
      · rw [e] at h3; rw [h3] at h2; cases h2
      · rcases lexLt_total e with h4 | h4
        · have := lexLt_trans h3 h4
          rw [this] at h2; cases h2
        · rw [h4] at h1; cases h1⟩
    have hp : ((K.range k).insertionSort (fun s t => Simplex.lt t s = false)).Pairwise _ :=
      List.pairwise_insertionSort (fun s t : Simplex α => Simplex.lt t s = false) (K.range k)
    refine (hp.and hnd).imp_of_mem ?_
    intro s t hs ht h
    have hne : s.vertices ≠ t.vertices := fun he => h.2 (hK.eq_of_vertices ((hmem s).1 hs).1 ((hmem t).1 ht).1 he)
    rcases lexLt_total hne with h4 | h4
    · exact h4
    · have h5 := h.1
      rw [lt_iff, h4] at h5; cases h5

theorem cofaceMap_eq (sm : List (Simplex α × ℕ)) :
    cofaceMap sm = (sm.flatMap fun p => p.1.faces.map fun f => (f, p.2)).foldl (fun m p => pushCoface p.1 p.2 m) [] := by
  unfold cofaceMap
  generalize ([] : List (List ℕ × List ℕ)) = m0
  induction sm generalizing m0 with
  | nil => rfl
  | cons p sm ih =>
    rw [List.foldl_cons, ih, List.flatMap_cons, List.foldl_append, List.foldl_map]

theorem cofaces_filter {sm : List (Simplex α × ℕ)} (hn : ∀ p ∈ sm, Normal p.1.vertices) (f : List ℕ) :
    ((sm.flatMap fun p => p.1.faces.map fun g => (g, p.2)).filter fun p => p.1 = f).map Prod.snd =
      (sm.filter fun p => f ∈ p.1.faces).map Prod.snd := by
  induction sm with
  | nil => rfl
  | cons p sm ih =>
    rw [List.flatMap_cons, List.filter_append, List.map_append, ih fun q hq => hn q (List.mem_cons_of_mem _ hq)]
    have hnd := faces_nodup (hn p List.mem_cons_self)
    have e : ((p.1.faces.map fun g => (g, p.2)).filter fun q => decide (q.1 = f)).map Prod.snd =
        List.replicate (p.1.faces.count f) p.2 := by
      rw [List.filter_map, List.map_map, List.eq_replicate_iff]
      constructor
      · rw [List.length_map, List.count, ← List.countP_eq_length_filter]
        congr 1
        funext g
        simp [beq_eq_decide]
      · intro x hx
        obtain ⟨g, _, rfl⟩ := List.mem_map.1 hx
        rfl
    rw [e, hnd.count, List.filter_cons]
    by_cases hf : f ∈ p.1.faces <;> simp [hf]

/-- Two different `k`-simplices have a common face of dimension `k - 1` exactly if they share `k` vertices. -/
theorem common_face_iff {s t : Simplex α} (hs : Normal s.vertices) (ht : Normal t.vertices) {k : ℕ}
    (hcs : s.vset.card = k + 1) (hct : t.vset.card = k + 1) (hne : s.vset ≠ t.vset) :
    (∃ f, f ∈ s.faces ∧ f ∈ t.faces) ↔ 1 ≤ k ∧ (s.vset ∩ t.vset).card = k := by
  have hlt : (s.vset ∩ t.vset).card ≤ k := by
    by_contra h
    have h1 : (s.vset ∩ t.vset) = s.vset := Finset.eq_of_subset_of_card_le inter_subset_left (by omega)
    have h2 : (s.vset ∩ t.vset) = t.vset := Finset.eq_of_subset_of_card_le inter_subset_right (by omega)
    exact hne (h1.symm.trans h2)
  constructor
  · rintro ⟨f, h1, h2⟩
    obtain ⟨hn, hne', h3, h4⟩ := (mem_faces_iff hs).1 h1
    obtain ⟨_, _, h5, h6⟩ := (mem_faces_iff ht).1 h2
    have h7 : f.toFinset.card ≤ (s.vset ∩ t.vset).card := card_le_card (subset_inter h3 h5)
    have h8 : 0 < f.toFinset.card := by
      rw [← hn.length_eq]
      exact List.length_pos_iff.2 hne'
    omega
  · rintro ⟨h1, h2⟩
    refine ⟨vlist (s.vset ∩ t.vset), (mem_faces_iff hs).2 ?_, (mem_faces_iff ht).2 ?_⟩ <;>
    · rw [vlist_toFinset]
      refine ⟨vlist_normal _, vlist_ne_nil (card_pos.1 (by omega)), ?_, by omega⟩
      first | exact inter_subset_left | exact inter_subset_right

theorem sublist_pair {β : Type} {R : β → β → Prop} {l : List β} (h : l.Pairwise R) (hirr : ∀ a, ¬ R a a)
    (hasym : ∀ a b, R a b → ¬ R b a) {a b : β} : [a, b].Sublist l ↔ a ∈ l ∧ b ∈ l ∧ R a b := by
  constructor
  · intro hs
    have hp := h.sublist hs
    simp at hp
    exact ⟨hs.subset (by simp), hs.subset (by simp), hp⟩
  · rintro ⟨ha, hb, hr⟩
    induction l with
    | nil => cases ha
    | cons c l ih =>
      rw [List.pairwise_cons] at h
      rcases List.mem_cons.1 ha with rfl | ha'
      · rcases List.mem_cons.1 hb with rfl | hb'
        · exact absurd hr (hirr _)
        · exact List.Sublist.cons_cons _ (List.singleton_sublist.2 hb')
      · rcases List.mem_cons.1 hb with rfl | hb'
        · exact absurd (h.1 _ ha') (hasym _ _ hr)
        · exact (ih h.2 ha' hb').cons _

/-- C56. The clique graph of degree `k` has one vertex for each `k`-simplex, named by the position of the simplex and with
its data, and an edge for each two `k`-simplices that share a face of dimension `k - 1`, i.e. share `k` vertices; the data
of an edge is the functor applied to the data of the smaller and the larger simplex with respect to `operator<`.  The
result is a graph: it is well formed and closed under faces. -/
theorem C56_clique_graph (f : α → α → α) (K : Complex α) (hK : WF K) (k : ℕ) :
    ∃ L, CliqueGraph.get f K k = some L ∧ WF L ∧ FaceClosed L ∧
      ∀ t x, HasData L t x ↔
        (∃ i s, K[i]? = some s ∧ s.vset.card = k + 1 ∧ t = {i} ∧ x = s.data) ∨
        ∃ i j s s', K[i]? = some s ∧ K[j]? = some s' ∧ s.vset.card = k + 1 ∧ s'.vset.card = k + 1 ∧
          1 ≤ k ∧ (s.vset ∩ s'.vset).card = k ∧ s.lt s' = true ∧ t = {i, j} ∧ x = f s.data s'.data := by
  obtain ⟨sm, hsm, hmem, hpw⟩ := simplexMap_spec hK k
  have hnorm : ∀ p ∈ sm, Normal p.1.vertices := fun p hp =>
    hK.normal _ (List.mem_of_getElem? ((hmem p.1 p.2).1 hp).1)
  -- the index pairs
  have hpairs : ∀ u v, (u, v) ∈ ((cofaceMap sm).flatMap fun p => if p.2.length ≥ 2 then indexPairs p.2 else []) ↔
      ∃ s s', K[u]? = some s ∧ K[v]? = some s' ∧ s.vset.card = k + 1 ∧ s'.vset.card = k + 1 ∧
          1 ≤ k ∧ (s.vset ∩ s'.vset).card = k ∧ s.lt s' = true := by
    intro u v
    have hlen : ∀ l : List ℕ, (u, v) ∈ (if l.length ≥ 2 then indexPairs l else []) ↔ [u, v].Sublist l := by
      intro l
      rw [← mem_indexPairs]
      by_cases h : l.length ≥ 2
      · rw [if_pos h]
      · rw [if_neg h, mem_indexPairs]
        constructor
        · intro h'; cases h'
        · intro h'; have := h'.length_le; simp at this; omega
    have hsub : ∀ g, [u, v].Sublist ((sm.filter fun p => g ∈ p.1.faces).map Prod.snd) ↔
        ∃ s s', (s, u) ∈ sm ∧ (s', v) ∈ sm ∧ g ∈ s.faces ∧ g ∈ s'.faces ∧ s.lt s' = true := by
      intro g
      have hfp := hpw.sublist (List.filter_sublist (p := fun p => decide (g ∈ p.1.faces)))
      have hsp := fun a b => sublist_pair (a := a) (b := b) hfp
        (by intro a h; rw [lt_iff, lexLt_irrefl] at h; cases h)
        (by
          intro a b h1 h2
          rw [lt_iff] at h1 h2
          have := lexLt_trans h1 h2
          rw [lexLt_irrefl] at this; cases this)
      constructor
      · intro h
        obtain ⟨l, hl, he⟩ := List.sublist_map_iff.1 h
        match l, he with
        | [(s, u'), (s', v')], he =>
          simp at he
          obtain ⟨rfl, rfl⟩ := he
          obtain ⟨h1, h2, h3⟩ := (hsp _ _).1 hl
          rw [List.mem_filter, decide_eq_true_eq] at h1 h2
          exact ⟨s, s', h1.1, h2.1, h1.2, h2.2, h3⟩
      · rintro ⟨s, s', h1, h2, h3, h4, h5⟩
        have := (hsp (s, u) (s', v)).2 ⟨List.mem_filter.2 ⟨h1, by simpa using h3⟩,
          List.mem_filter.2 ⟨h2, by simpa using h4⟩, h5⟩
        exact this.map Prod.snd
    have hne : ∀ s s' : Simplex α, (s, u) ∈ sm → (s', v) ∈ sm → s.lt s' = true → s.vset ≠ s'.vset := by
      intro s s' h1 h2 h3 he
      have := hK.eq_of_vset (List.mem_of_getElem? ((hmem _ _).1 h1).1) (List.mem_of_getElem? ((hmem _ _).1 h2).1) he
      rw [this, lt_iff, lexLt_irrefl] at h3; cases h3
    rw [List.mem_flatMap]
    constructor
    · rintro ⟨⟨g, l⟩, hgl, h⟩
      rw [cofaceMap_eq, pushAll_spec, cofaces_filter hnorm] at hgl
      rw [hlen] at h
      change List.Sublist _ l at h
      rw [hgl.2, hsub] at h
      obtain ⟨s, s', h1, h2, h3, h4, h5⟩ := h
      obtain ⟨a1, a2⟩ := (hmem _ _).1 h1
      obtain ⟨b1, b2⟩ := (hmem _ _).1 h2
      obtain ⟨c1, c2⟩ := (common_face_iff (hnorm _ h1) (hnorm _ h2) a2 b2 (hne s s' h1 h2 h5)).1 ⟨g, h3, h4⟩
      exact ⟨s, s', a1, b1, a2, b2, c1, c2, h5⟩
    · rintro ⟨s, s', a1, b1, a2, b2, c1, c2, h5⟩
      have h1 := (hmem s u).2 ⟨a1, a2⟩
      have h2 := (hmem s' v).2 ⟨b1, b2⟩
      obtain ⟨g, h3, h4⟩ := (common_face_iff (hnorm _ h1) (hnorm _ h2) a2 b2 (hne s s' h1 h2 h5)).2 ⟨c1, c2⟩
      have hs := (hsub g).2 ⟨s, s', h1, h2, h3, h4, h5⟩
      refine ⟨(g, (sm.filter fun p => g ∈ p.1.faces).map Prod.snd), ?_, (hlen _).2 hs⟩
      rw [cofaceMap_eq, pushAll_spec, cofaces_filter hnorm]
      refine ⟨?_, rfl⟩
      intro he
      rw [he] at hs
      cases hs
  -- the edges
  obtain ⟨es, hes, hesm⟩ : ∃ es, edges f K (cofaceMap sm) = some es ∧
      ∀ e, e ∈ es ↔ ∃ i j s s', K[i]? = some s ∧ K[j]? = some s' ∧ s.vset.card = k + 1 ∧ s'.vset.card = k + 1 ∧
          1 ≤ k ∧ (s.vset ∩ s'.vset).card = k ∧ s.lt s' = true ∧ e = Simplex.ofRange [i, j] (f s.data s'.data) := by
    by_cases hK0 : K = []
    · subst hK0
      have h0 : ((cofaceMap sm).flatMap fun p => if p.2.length ≥ 2 then indexPairs p.2 else []) = [] := by
        rw [List.eq_nil_iff_forall_not_mem]
        rintro ⟨u, v⟩ h
        obtain ⟨s, _, h1, _⟩ := (hpairs u v).1 h
        simp at h1
      refine ⟨[], ?_, ?_⟩
      · unfold edges; rw [h0]; rfl
      · intro e
        simp
    · obtain ⟨s0, hs0⟩ := List.exists_mem_of_ne_nil _ hK0
      refine ⟨_, mapM_some_map (g := fun p => Simplex.ofRange [p.1, p.2]
        (f ((K[p.1]?).getD s0).data ((K[p.2]?).getD s0).data)) ?_, ?_⟩
      · rintro ⟨u, v⟩ h
        obtain ⟨s, s', h1, h2, _⟩ := (hpairs u v).1 h
        simp only [edge, Complex.get, h1, h2, Option.getD_some]
      · intro e
        rw [List.mem_map]
        constructor
        · rintro ⟨⟨u, v⟩, h, rfl⟩
          obtain ⟨s, s', h1, h2, h3, h4, h5, h6, h7⟩ := (hpairs u v).1 h
          refine ⟨u, v, s, s', h1, h2, h3, h4, h5, h6, h7, ?_⟩
          simp only [h1, h2, Option.getD_some]
        · rintro ⟨u, v, s, s', h1, h2, h3, h4, h5, h6, h7, rfl⟩
          refine ⟨(u, v), (hpairs u v).2 ⟨s, s', h1, h2, h3, h4, h5, h6, h7⟩, ?_⟩
          simp only [h1, h2, Option.getD_some]
  -- insertion
  have hv : ∀ e ∈ sm.map (fun p => Simplex.ofVertex p.2 p.1.data), e.vertices ≠ [] := by
    intro e he
    obtain ⟨p, _, rfl⟩ := List.mem_map.1 he
    simp [Simplex.ofVertex]
  have hvn : ∀ e ∈ sm.map (fun p => Simplex.ofVertex p.2 p.1.data), Normal e.vertices := by
    intro e he
    obtain ⟨p, _, rfl⟩ := List.mem_map.1 he
    simp [Simplex.ofVertex, Normal]
  have hov : ∀ (u v : ℕ) (d : α), (Simplex.ofRange [u, v] d).vset = {u, v} := by
    intro u v d
    ext x
    unfold Simplex.vset
    rw [List.mem_toFinset, mem_ofRange]
    simp
  have hoe : ∀ e ∈ es, e.vertices ≠ [] := by
    intro e he
    obtain ⟨i, j, s, s', _, _, _, _, _, _, _, rfl⟩ := (hesm e).1 he
    intro h0
    have h1 := hov i j (f s.data s'.data)
    rw [Simplex.vset, h0] at h1
    have : i ∈ ({i, j} : Finset ℕ) := by simp
    rw [← h1] at this
    simp at this
  have hon : ∀ e ∈ es, Normal e.vertices := by
    intro e he
    obtain ⟨i, j, s, s', _, _, _, _, _, _, _, rfl⟩ := (hesm e).1 he
    exact ofRange_normal _ _
  obtain ⟨L1, hL1, _, hL1b, hL1c⟩ := insertRange_spec ([] : Complex α) _ hv
  have hw1 : WF L1 := by
    have := insertRange_wf (K := ([] : Complex α)) WF.nil hvn
    rw [hL1] at this; exact this
  obtain ⟨L, hL, hLa, hLb, hLc⟩ := insertRange_spec L1 _ hoe
  have hw : WF L := by
    have := insertRange_wf hw1 hon
    rw [hL] at this; exact this
  have hne2 : ∀ (i j : ℕ) (s s' : Simplex α), K[i]? = some s → K[j]? = some s' → s.lt s' = true → i ≠ j := by
    intro i j s s' h1 h2 h3 he
    subst he
    rw [h1] at h2; cases h2
    rw [lt_iff, lexLt_irrefl] at h3; cases h3
  have hvert : ∀ i x, HasData L {i} x ↔ ∃ s, K[i]? = some s ∧ s.vset.card = k + 1 ∧ x = s.data := by
    intro i x
    constructor
    · rintro ⟨e, he, hset, rfl⟩
      rcases hLb e he with h | h
      · rcases hL1b e h with h | h
        · cases h
        · obtain ⟨⟨s, i'⟩, hp, rfl⟩ := List.mem_map.1 h
          simp [Simplex.ofVertex, Simplex.vset] at hset
          subst hset
          exact ⟨s, ((hmem _ _).1 hp).1, ((hmem _ _).1 hp).2, rfl⟩
      · obtain ⟨a, b, s, s', h1, h2, _, _, _, _, h3, rfl⟩ := (hesm e).1 h
        exfalso
        rw [hov] at hset
        have := hne2 a b s s' h1 h2 h3
        have h4 := Finset.card_pair this
        rw [hset] at h4
        simp at h4
    · rintro ⟨s, h1, h2, rfl⟩
      have hp := (hmem s i).2 ⟨h1, h2⟩
      obtain ⟨e, he, hev⟩ := hL1c _ (List.mem_map_of_mem (f := fun p => Simplex.ofVertex p.2 p.1.data) hp)
      refine ⟨e, hLa e he, ?_, ?_⟩
      · unfold Simplex.vset; rw [hev]; simp [Simplex.ofVertex]
      · rcases hL1b e he with h | h
        · cases h
        · obtain ⟨⟨s2, i'⟩, hp', rfl⟩ := List.mem_map.1 h
          simp [Simplex.ofVertex] at hev
          subst hev
          have := ((hmem _ _).1 hp').1
          rw [h1] at this; cases this; rfl
  have hall : ∀ t x, HasData L t x ↔
        (∃ i s, K[i]? = some s ∧ s.vset.card = k + 1 ∧ t = {i} ∧ x = s.data) ∨
        ∃ i j s s', K[i]? = some s ∧ K[j]? = some s' ∧ s.vset.card = k + 1 ∧ s'.vset.card = k + 1 ∧
          1 ≤ k ∧ (s.vset ∩ s'.vset).card = k ∧ s.lt s' = true ∧ t = {i, j} ∧ x = f s.data s'.data := by
    intro t x
    constructor
    · rintro ⟨e, he, hset, rfl⟩
      rcases hLb e he with h | h
      · rcases hL1b e h with h | h
        · cases h
        · obtain ⟨⟨s, i'⟩, hp, rfl⟩ := List.mem_map.1 h
          left
          refine ⟨i', s, ((hmem _ _).1 hp).1, ((hmem _ _).1 hp).2, ?_, rfl⟩
          rw [← hset]; simp [Simplex.ofVertex, Simplex.vset]
      · obtain ⟨a, b, s, s', h1, h2, h4, h5, h6, h7, h3, rfl⟩ := (hesm e).1 h
        right
        exact ⟨a, b, s, s', h1, h2, h4, h5, h6, h7, h3, by rw [← hset, hov], rfl⟩
    · rintro (⟨i, s, h1, h2, rfl, rfl⟩ | ⟨i, j, s, s', h1, h2, h3, h4, h5, h6, h7, rfl, rfl⟩)
      · exact (hvert i s.data).2 ⟨s, h1, h2, rfl⟩
      · have hin := (hesm _).2 ⟨i, j, s, s', h1, h2, h3, h4, h5, h6, h7, rfl⟩
        obtain ⟨e, he, hev⟩ := hLc _ hin
        have hset : e.vset = {i, j} := by
          rw [← hov i j (f s.data s'.data)]; unfold Simplex.vset; rw [hev]
        refine ⟨e, he, hset, ?_⟩
        have hij := hne2 i j s s' h1 h2 h7
        rcases hLb e he with h | h
        · exfalso
          rcases hL1b e h with h | h
          · cases h
          · obtain ⟨⟨s2, i'⟩, hp, rfl⟩ := List.mem_map.1 h
            have h4 := Finset.card_pair hij
            rw [← hset] at h4
            simp [Simplex.ofVertex, Simplex.vset] at h4
        · obtain ⟨a, b, r, r', g1, g2, _, _, _, _, g7, rfl⟩ := (hesm e).1 h
          rw [hov] at hset
          have hab := hne2 a b r r' g1 g2 g7
          have ha : a = i ∨ a = j := by
            have : a ∈ ({i, j} : Finset ℕ) := hset ▸ by simp
            simpa using this
          have hb : b = i ∨ b = j := by
            have : b ∈ ({i, j} : Finset ℕ) := hset ▸ by simp
            simpa using this
          rcases ha with rfl | rfl
          · rcases hb with rfl | rfl
            · exact absurd rfl hab
            · rw [h1] at g1; rw [h2] at g2; cases g1; cases g2; rfl
          · rcases hb with rfl | rfl
            · exfalso
              rw [h1] at g2; rw [h2] at g1; cases g1; cases g2
              rw [lt_iff] at g7 h7
              have := lexLt_trans g7 h7
              rw [lexLt_irrefl] at this; cases this
            · exact absurd rfl hab
  refine ⟨L, ?_, hw, ?_, hall⟩
  · unfold CliqueGraph.get
    simp only [hsm, hes, hL1, hL]
  · intro e he t hts hne
    have hd : HasData L e.vset e.data := ⟨e, he, rfl, rfl⟩
    rcases (hall _ _).1 hd with ⟨i, s, h1, h2, h3, h4⟩ | ⟨i, j, s, s', h1, h2, h3, h4, h5, h6, h7, h8, h9⟩
    · rw [h3] at hts
      rcases Finset.subset_singleton_iff.1 hts with rfl | rfl
      · exact absurd rfl hne.ne_empty
      · exact ⟨e, he, h3⟩
    · rw [h8] at hts
      have hi : ∃ u ∈ L, u.vset = {i} := by
        obtain ⟨u, hu, hu', _⟩ := (hvert i s.data).2 ⟨s, h1, h3, rfl⟩
        exact ⟨u, hu, hu'⟩
      have hj : ∃ u ∈ L, u.vset = {j} := by
        obtain ⟨u, hu, hu', _⟩ := (hvert j s'.data).2 ⟨s', h2, h4, rfl⟩
        exact ⟨u, hu, hu'⟩
      by_cases hit : i ∈ t
      · by_cases hjt : j ∈ t
        · refine ⟨e, he, ?_⟩
          rw [h8]
          refine Finset.Subset.antisymm ?_ hts
          intro x hx
          rcases mem_insert.1 hx with rfl | hx
          · exact hit
          · rw [mem_singleton.1 hx]; exact hjt
        · have : t = {i} := by
            refine Finset.Subset.antisymm ?_ (singleton_subset_iff.2 hit)
            intro x hx
            rcases mem_insert.1 (hts hx) with rfl | h
            · simp
            · rw [mem_singleton.1 h] at hx; exact absurd hx hjt
          rw [this]; exact hi
      · have : t = {j} := by
          obtain ⟨y, hy⟩ := hne
          have hyj : ∀ x ∈ t, x = j := by
            intro x hx
            rcases mem_insert.1 (hts hx) with rfl | h
            · exact absurd hx hit
            · exact mem_singleton.1 h
          ext x
          rw [mem_singleton]
          exact ⟨hyj x, fun h => by rw [h, ← hyj y hy]; exact hy⟩
        rw [this]; exact hj

/-- C56. With the default weights an edge has the larger data of its two simplices. -/
theorem C56_maximum [LinearOrder α] (K : Complex α) (hK : WF K) (k : ℕ) :
    ∃ L, CliqueGraph.getMax K k = some L ∧
      ∀ i j x, i ≠ j → (HasData L {i, j} x ↔
        ∃ s s', K[i]? = some s ∧ K[j]? = some s' ∧ s.vset.card = k + 1 ∧ s'.vset.card = k + 1 ∧
          1 ≤ k ∧ (s.vset ∩ s'.vset).card = k ∧ x = max s.data s'.data) := by
  obtain ⟨L, hL, _, _, h⟩ := C56_clique_graph max K hK k
  refine ⟨L, hL, ?_⟩
  intro i j x hij
  rw [h]
  constructor
  · rintro (⟨a, s, _, _, h3, _⟩ | ⟨a, b, s, s', h1, h2, h3, h4, h5, h6, h7, h8, h9⟩)
    · have := Finset.card_pair hij
      rw [h3] at this; simp at this
    · have hab : (a = i ∧ b = j) ∨ (a = j ∧ b = i) := by
        have ha : a ∈ ({i, j} : Finset ℕ) := h8 ▸ by simp
        have hb : b ∈ ({i, j} : Finset ℕ) := h8 ▸ by simp
        have hi : i ∈ ({a, b} : Finset ℕ) := h8 ▸ by simp
        have hj : j ∈ ({a, b} : Finset ℕ) := h8 ▸ by simp
        simp only [mem_insert, mem_singleton] at ha hb hi hj
        omega
      rcases hab with ⟨rfl, rfl⟩ | ⟨rfl, rfl⟩
      · exact ⟨s, s', h1, h2, h3, h4, h5, h6, h9⟩
      · exact ⟨s', s, h2, h1, h4, h3, h5, by rw [inter_comm]; exact h6, by rw [max_comm]; exact h9⟩
  · rintro ⟨s, s', h1, h2, h3, h4, h5, h6, rfl⟩
    right
    have hne : s.vertices ≠ s'.vertices := by
      intro he
      have e1 := (index_eq_some hK).2 ⟨s, h1, he⟩
      have e2 := (index_eq_some hK).2 ⟨s', h2, rfl⟩
      rw [e1] at e2; cases e2; exact hij rfl
    rcases lexLt_total hne with h7 | h7
    · exact ⟨i, j, s, s', h1, h2, h3, h4, h5, h6, h7, rfl, rfl⟩
    · exact ⟨j, i, s', s, h2, h1, h4, h3, h5, by rw [inter_comm]; exact h6, h7, Finset.pair_comm _ _, max_comm _ _⟩

/-- Two triangles with a common edge: their clique graph is an edge. -/
example : WF ([⟨[2, 1, 0], 5⟩, ⟨[3, 2, 1], 7⟩, ⟨[2, 1], 3⟩] : Complex ℕ) ∧
    CliqueGraph.getMax ([⟨[2, 1, 0], 5⟩, ⟨[3, 2, 1], 7⟩, ⟨[2, 1], 3⟩] : Complex ℕ) 2 =
      some [⟨[0], 5⟩, ⟨[1], 7⟩, ⟨[1, 0], 7⟩] :=
  ⟨⟨by decide, by decide, by decide⟩, by decide⟩

end Aleph
