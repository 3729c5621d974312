import Verif.Model.EdgeListReader
import Verif.Spec.Graphs
import Verif.Spec.Strings
import Verif.Spec.Conversions
import Verif.Lemmas.Filtration
import Verif.Lemmas.Rips
import Verif.Props.Strings
import Verif.Props.AdjacencyMatrixReader
import Verif.Props.MatrixReader

/-!
# C77: edge lists
-/

namespace Aleph

open Finset Spec

variable {α : Type}

/-! ### The lexicographic order -/

theorem lex_strictTotal : StrictTotalOn (α := α) Proper (fun s t => some (s.lt t)) := by
  refine ⟨fun _ _ _ _ => rfl, ?_, ?_, ?_⟩
  · intro s _; simp [lt_iff, lexLt_irrefl]
  · intro s t u _ _ _ h1 h2
    simp only [Option.some.injEq, lt_iff] at *
    exact lexLt_trans h1 h2
  · intro s t _ _ hne
    simp only [Option.some.injEq, lt_iff]
    exact lexLt_total fun e => hne (by unfold Simplex.vset; rw [e])

/-- Sorting by vertices: faces precede cofaces. -/
theorem sortLex_facesFirst {K : Complex α} (hK : WF K) : FacesFirst (K.sort Simplex.lt) := by
  have h : K.sort Simplex.lt = K.sort (asLt fun s t => some (s.lt t)) := rfl
  rw [h]
  refine sort_facesFirst hK lex_strictTotal (fun s hs => ⟨hK.normal s hs, hK.nonempty s hs⟩) ?_
  intro s hs t ht hss
  rw [Option.some.injEq, lt_iff]
  exact lexLt_of_ssubset (hK.normal s hs) (hK.normal t ht) hss

namespace EdgeListReader

/-! ### Sets of simplices -/

/-- The elements of a list without later duplicates. -/
def firsts (l : List (Simplex α)) : List (Simplex α) :=
  l.foldl (fun S s => if S.any (fun t => t.eq s) then S else S ++ [s]) []

theorem firsts_append (l : List (Simplex α)) (s : Simplex α) : firsts (l ++ [s]) =
    if (firsts l).any (fun t => t.eq s) then firsts l else firsts l ++ [s] := by
  simp [firsts, List.foldl_append]

theorem firsts_spec (l : List (Simplex α)) :
    (∀ t, t ∈ firsts l ↔ ∃ pre post, l = pre ++ t :: post ∧ ∀ s ∈ pre, s.vertices ≠ t.vertices) ∧
    ((firsts l).map (·.vertices)).Nodup ∧ ∀ s ∈ l, ∃ t ∈ firsts l, t.vertices = s.vertices := by
  induction l using List.reverseRecOn with
  | nil => simp [firsts]
  | append_singleton l s ih =>
    obtain ⟨h1, h2, h3⟩ := ih
    have hany : (firsts l).any (fun t => t.eq s) = true ↔ ∃ t ∈ firsts l, t.vertices = s.vertices := by
      simp [List.any_eq_true, Simplex.eq]
    have hany' : (∃ t ∈ firsts l, t.vertices = s.vertices) ↔ ∃ t ∈ l, t.vertices = s.vertices := by
      constructor
      · rintro ⟨t, ht, he⟩
        obtain ⟨pre, post, rfl, _⟩ := (h1 t).1 ht
        exact ⟨t, by simp, he⟩
      · rintro ⟨t, ht, he⟩
        obtain ⟨u, hu, hu'⟩ := h3 t ht
        exact ⟨u, hu, hu'.trans he⟩
    have hold : ∀ t, t ∈ firsts l → ∃ pre post, l ++ [s] = pre ++ t :: post ∧ ∀ s ∈ pre, s.vertices ≠ t.vertices := by
      intro t ht
      obtain ⟨pre, post, rfl, hp⟩ := (h1 t).1 ht
      exact ⟨pre, post ++ [s], by simp, hp⟩
    have hnew : ∀ t, (∃ pre post, l ++ [s] = pre ++ t :: post ∧ ∀ s ∈ pre, s.vertices ≠ t.vertices) →
        t ∈ firsts l ∨ t = s ∧ ∀ u ∈ l, u.vertices ≠ s.vertices := by
      rintro t ⟨pre, post, he, hp⟩
      rcases List.eq_nil_or_concat post with rfl | ⟨q, x, rfl⟩
      · have := List.append_inj' he rfl
        obtain ⟨rfl, h⟩ := this
        simp at h
        subst h
        exact Or.inr ⟨rfl, hp⟩
      · left
        rw [h1]
        rw [List.concat_eq_append, ← List.cons_append, ← List.append_assoc] at he
        have := List.append_inj' he rfl
        exact ⟨pre, q, this.1, hp⟩
    rw [firsts_append]
    by_cases ha : (firsts l).any (fun t => t.eq s) = true
    · rw [if_pos ha]
      have ha' := hany'.1 (hany.1 ha)
      refine ⟨fun t => ⟨hold t, fun h => ?_⟩, h2, ?_⟩
      · rcases hnew t h with h | ⟨_, h⟩
        · exact h
        · obtain ⟨u, hu, he⟩ := ha'
          exact absurd he (h u hu)
      · intro u hu
        rcases List.mem_append.1 hu with hu | hu
        · exact h3 u hu
        · rw [List.mem_singleton] at hu
          subst hu
          exact hany.1 ha
    · rw [if_neg ha]
      have ha' : ∀ t ∈ l, t.vertices ≠ s.vertices := by
        intro t ht he
        exact ha (hany.2 (hany'.2 ⟨t, ht, he⟩))
      refine ⟨fun t => ⟨fun h => ?_, fun h => ?_⟩, ?_, ?_⟩
      · rcases List.mem_append.1 h with h | h
        · exact hold t h
        · rw [List.mem_singleton] at h
          subst h
          exact ⟨l, [], rfl, ha'⟩
      · rcases hnew t h with h | ⟨rfl, _⟩
        · exact List.mem_append_left _ h
        · simp
      · rw [List.map_append, List.nodup_append]
        refine ⟨h2, by simp, ?_⟩
        intro a ha1 b hb hab
        obtain ⟨t, ht, rfl⟩ := List.mem_map.1 ha1
        simp at hb
        subst hb
        exact ha (hany.2 ⟨t, ht, hab⟩)
      · intro u hu
        rcases List.mem_append.1 hu with hu | hu
        · obtain ⟨t, ht, he⟩ := h3 u hu
          exact ⟨t, List.mem_append_left _ ht, he⟩
        · rw [List.mem_singleton] at hu
          subst hu
          exact ⟨u, by simp, rfl⟩

theorem simplexSet_perm (l : List (Simplex α)) : (simplexSet l).Perm (firsts l) := List.perm_insertionSort _ _

theorem simplexSet_mem (l : List (Simplex α)) (t : Simplex α) :
    t ∈ simplexSet l ↔ ∃ pre post, l = pre ++ t :: post ∧ ∀ s ∈ pre, s.vertices ≠ t.vertices := by
  rw [(simplexSet_perm l).mem_iff]
  exact (firsts_spec l).1 t

theorem simplexSet_nodup (l : List (Simplex α)) : ((simplexSet l).map (·.vertices)).Nodup :=
  ((simplexSet_perm l).map _).nodup_iff.2 (firsts_spec l).2.1

/-! ### The complex -/

/-- Vertices of edges. -/
def ends [Zero α] (E : List (ℕ × ℕ × α)) : List (Simplex α) :=
  E.flatMap fun e => [Simplex.ofVertex e.1 0, Simplex.ofVertex e.2.1 0]

def edgesOf (E : List (ℕ × ℕ × α)) : List (Simplex α) := E.map fun e => Simplex.ofRange [e.1, e.2.1] e.2.2

theorem vset_ofRange (vs : List ℕ) (d : α) : (Simplex.ofRange vs d).vset = vs.toFinset := by
  ext x; simp [Simplex.vset, mem_ofRange]

theorem mem_vertexSet [Zero α] (E : List (ℕ × ℕ × α)) (s : Simplex α) :
    s ∈ simplexSet (ends E) ↔ ∃ e ∈ E, ∃ x, (x = e.1 ∨ x = e.2.1) ∧ s = ⟨[x], 0⟩ := by
  have hmem : ∀ s, s ∈ ends E ↔ ∃ e ∈ E, ∃ x, (x = e.1 ∨ x = e.2.1) ∧ s = (⟨[x], 0⟩ : Simplex α) := by
    intro s
    simp only [ends, List.mem_flatMap, List.mem_cons, List.not_mem_nil, or_false, Simplex.ofVertex]
    refine exists_congr fun e => and_congr_right fun _ => ?_
    constructor
    · rintro (rfl | rfl)
      · exact ⟨_, Or.inl rfl, rfl⟩
      · exact ⟨_, Or.inr rfl, rfl⟩
    · rintro ⟨x, rfl | rfl, rfl⟩ <;> simp
  rw [(simplexSet_perm _).mem_iff]
  constructor
  · intro h
    obtain ⟨pre, post, he, _⟩ := ((firsts_spec (ends E)).1 s).1 h
    exact (hmem s).1 (by rw [he]; simp)
  · intro h
    obtain ⟨t, ht, he⟩ := (firsts_spec (ends E)).2.2 s ((hmem s).2 h)
    obtain ⟨pre, post, he', _⟩ := ((firsts_spec (ends E)).1 t).1 ht
    obtain ⟨e, _, x, _, rfl⟩ := (hmem t).1 (by rw [he']; simp)
    obtain ⟨e', _, x', _, rfl⟩ := h
    simp only [List.cons.injEq, and_true] at he
    subst he
    exact ht

/-- The complex for a list of edges. -/
def complexOf [Zero α] (E : List (ℕ × ℕ × α)) : Complex α :=
  (Complex.insertRange [] (simplexSet (simplexSet (ends E) ++ edgesOf E))).1

theorem complexOf_spec [Zero α] (E : List (ℕ × ℕ × α)) :
    IsFiltration (complexOf E) ∧ ∀ t a, HasData (complexOf E) t a ↔ EdgeListData E t a := by
  have hmem0 : ∀ s ∈ simplexSet (ends E) ++ edgesOf E, Normal s.vertices ∧ s.vertices ≠ [] := by
    intro s hs
    rcases List.mem_append.1 hs with hs | hs
    · obtain ⟨e, _, x, _, rfl⟩ := (mem_vertexSet E s).1 hs
      simp [Normal]
    · obtain ⟨e, _, rfl⟩ := List.mem_map.1 hs
      refine ⟨ofRange_normal _ _, ?_⟩
      intro h
      have : e.1 ∈ (Simplex.ofRange [e.1, e.2.1] e.2.2).vertices := by rw [mem_ofRange]; simp
      rw [h] at this
      simp at this
  have hsub : ∀ s ∈ simplexSet (simplexSet (ends E) ++ edgesOf E), s ∈ simplexSet (ends E) ++ edgesOf E := by
    intro s hs
    obtain ⟨pre, post, he, _⟩ := (simplexSet_mem _ s).1 hs
    rw [he]; simp
  have hK : complexOf E = simplexSet (simplexSet (ends E) ++ edgesOf E) := by
    unfold complexOf
    rw [insertRange_nodup]
    · simp
    · exact fun s hs => (hmem0 s (hsub s hs)).2
    · simpa using simplexSet_nodup _
  have hwf : WF (complexOf E) := by
    rw [hK]
    exact ⟨fun s hs => (hmem0 s (hsub s hs)).1, fun s hs => (hmem0 s (hsub s hs)).2, simplexSet_nodup _⟩
  have hvert : ∀ e ∈ E, ∀ x, x = e.1 ∨ x = e.2.1 → (⟨[x], 0⟩ : Simplex α) ∈ complexOf E := by
    intro e he x hx
    rw [hK, simplexSet_mem]
    have := (mem_vertexSet E ⟨[x], 0⟩).2 ⟨e, he, x, hx, rfl⟩
    obtain ⟨a, b, hab⟩ := List.append_of_mem this
    refine ⟨a, b ++ edgesOf E, by rw [hab]; simp, ?_⟩
    intro s hs h
    have hnd := simplexSet_nodup (ends E)
    rw [hab, List.map_append, List.nodup_append] at hnd
    exact hnd.2.2 _ (List.mem_map_of_mem hs) _ (List.mem_map_of_mem List.mem_cons_self) h
  have hshape : ∀ e : ℕ × ℕ × α, e.1 ≠ e.2.1 → (Simplex.ofRange [e.1, e.2.1] e.2.2).vertices.length = 2 := by
    intro e hne
    rw [(ofRange_normal _ _).length_eq]
    have := vset_ofRange [e.1, e.2.1] e.2.2
    unfold Simplex.vset at this
    rw [this]
    simp [hne]
  have hloop : ∀ e : ℕ × ℕ × α, e.1 = e.2.1 → (Simplex.ofRange [e.1, e.2.1] e.2.2).vertices = [e.1] := by
    intro e he
    apply (ofRange_normal _ _).ext (by simp [Normal])
    intro x
    rw [mem_ofRange]
    simp [he]
  have hdata : ∀ t a, HasData (complexOf E) t a ↔ EdgeListData E t a := by
    intro t a
    constructor
    · rintro ⟨s, hs, rfl, rfl⟩
      have hs0 := hs
      rw [hK, simplexSet_mem] at hs
      obtain ⟨pre, post, he, hpre⟩ := hs
      have hin : s ∈ simplexSet (ends E) ++ edgesOf E := by rw [he]; simp
      by_cases hv : s ∈ simplexSet (ends E)
      · obtain ⟨e, he', x, hx, rfl⟩ := (mem_vertexSet E s).1 hv
        have := EdgeListData.vertex (E := E) e.1 e.2.1 e.2.2 x he' hx
        simpa [Simplex.vset] using this
      · -- the element is an edge
        have hlen : (simplexSet (ends E)).length ≤ pre.length := by
          by_contra hlt
          push Not at hlt
          have h1 : (simplexSet (ends E) ++ edgesOf E)[pre.length]? = some s := by rw [he]; simp
          rw [List.getElem?_append_left hlt] at h1
          exact hv (List.mem_of_getElem? h1)
        obtain ⟨q, hq⟩ : ∃ q, pre = simplexSet (ends E) ++ q := by
          have h1 := congrArg (List.take (simplexSet (ends E)).length) he
          rw [List.take_left, List.take_append_of_le_length hlen] at h1
          refine ⟨pre.drop (simplexSet (ends E)).length, ?_⟩
          have h2 := List.take_append_drop (simplexSet (ends E)).length pre
          rw [← h1] at h2
          exact h2.symm
        subst hq
        rw [List.append_assoc] at he
        have he := List.append_cancel_left he
        unfold edgesOf at he
        rw [List.map_eq_append_iff] at he
        obtain ⟨E1, E2, rfl, h1, h2⟩ := he
        rw [List.map_eq_cons_iff] at h2
        obtain ⟨e, E3, rfl, rfl, _⟩ := h2
        have hne : e.1 ≠ e.2.1 := by
          intro heq
          have hx : (⟨[e.1], 0⟩ : Simplex α) ∈ simplexSet (ends (E1 ++ e :: E3)) :=
            (mem_vertexSet _ _).2 ⟨e, by simp, e.1, Or.inl rfl, rfl⟩
          exact hpre _ (List.mem_append_left _ hx) (hloop e heq).symm
        rw [vset_ofRange]
        have := EdgeListData.edge e.1 e.2.1 e.2.2 E1 E3 rfl hne (by
          intro e' he' heq
          have h3 : Simplex.ofRange [e'.1, e'.2.1] e'.2.2 ∈ q := by
            rw [← h1]; exact List.mem_map_of_mem he'
          refine hpre _ (List.mem_append_right _ h3) ?_
          apply (ofRange_normal _ _).ext (ofRange_normal _ _)
          intro x
          rw [mem_ofRange, mem_ofRange]
          have := congrArg (x ∈ ·) heq
          simpa using this)
        have h5 : ([e.1, e.2.1] : List ℕ).toFinset = {e.1, e.2.1} := by simp
        rw [h5]
        exact this
    · intro h
      cases h with
      | vertex u v w x hmem hx => exact ⟨_, hvert _ hmem x hx, by simp [Simplex.vset], rfl⟩
      | edge u v w E1 E3 hE hne hfirst =>
        refine ⟨Simplex.ofRange [u, v] a, ?_, by rw [vset_ofRange]; simp, rfl⟩
        rw [hK, simplexSet_mem]
        refine ⟨simplexSet (ends E) ++ edgesOf E1, edgesOf E3, ?_, ?_⟩
        · conv_lhs => rw [hE]
          simp [edgesOf, hE]
        · intro s hs heq
          have h2 := hshape (u, v, a) hne
          simp only at h2
          rcases List.mem_append.1 hs with hs | hs
          · obtain ⟨e, _, x, _, rfl⟩ := (mem_vertexSet E s).1 hs
            rw [← heq] at h2
            simp at h2
          · obtain ⟨e', he', rfl⟩ := List.mem_map.1 hs
            refine hfirst e' he' ?_
            have h3 := congrArg List.toFinset heq
            have h4 := vset_ofRange [e'.1, e'.2.1] e'.2.2
            have h5 := vset_ofRange [u, v] a
            unfold Simplex.vset at h4 h5
            rw [h4, h5] at h3
            simpa using h3
  refine ⟨⟨hwf, ?_, ?_⟩, hdata⟩
  · intro s hs t ht hne
    have hd := (hdata s.vset s.data).1 ⟨s, hs, rfl, rfl⟩
    generalize s.data = a at hd
    generalize hv : s.vset = T at hd ht
    cases hd with
    | vertex u v w x hmem hx =>
      rcases Finset.subset_singleton_iff.1 ht with rfl | rfl
      · exact absurd hne (by simp)
      · exact ⟨s, hs, hv⟩
    | edge u v w E1 E3 hE hne' hfirst =>
      have hmem : (u, v, a) ∈ E := by rw [hE]; simp
      rcases AdjacencyMatrixReader.subset_pair ht with rfl | rfl | rfl | rfl
      · exact absurd hne (by simp)
      · exact ⟨_, hvert _ hmem u (Or.inl rfl), by simp [Simplex.vset]⟩
      · exact ⟨_, hvert _ hmem v (Or.inr rfl), by simp [Simplex.vset]⟩
      · exact ⟨s, hs, hv⟩
  · rw [hK]
    have hwf' : WF (firsts (simplexSet (ends E) ++ edgesOf E)) := by
      have := hwf
      rw [hK] at this
      exact this.perm (simplexSet_perm _).symm
    exact sortLex_facesFirst hwf'

/-! ### Numbers of labels -/

theorem labelID_append {L : List (List Char)} {a : List Char} (h : a ∈ L) (L' : List (List Char)) :
    labelID (L ++ L') a = labelID L a := by
  unfold labelID
  congr 2
  rw [List.takeWhile_append]
  rw [if_neg]
  intro hlen
  have := (List.takeWhile_prefix (fun b => decide (b ≠ a)) (l := L)).eq_of_length hlen
  rw [List.takeWhile_eq_self_iff] at this
  simpa using this a h

theorem labelID_new {L : List (List Char)} {a : List Char} (h : a ∉ L) (L' : List (List Char)) :
    labelID (L ++ a :: L') a = L.toFinset.card := by
  unfold labelID
  congr 2
  rw [List.takeWhile_append, if_pos]
  · simp
  · rw [List.takeWhile_eq_self_iff.2]
    intro x hx
    simp only [ne_eq, decide_eq_true_eq]
    rintro rfl
    exact h hx

/-- C77. Labels are numbered consecutively in the order of their first occurrence. -/
theorem _root_.Aleph.C77_numbering (L : List (List Char)) :
    (∀ a ∈ L, labelID L a < L.toFinset.card) ∧ (∀ n < L.toFinset.card, ∃ a ∈ L, labelID L a = n) ∧
    (∀ a ∈ L, ∀ b ∈ L, labelID L a = labelID L b → a = b) ∧
    ∀ pre a b post, L = pre ++ [a] ++ post → a ∉ pre → b ∈ post → b ∉ pre → b ≠ a → labelID L a < labelID L b := by
  have key : ∀ L : List (List Char), (∀ a ∈ L, labelID L a < L.toFinset.card) ∧
      (∀ n < L.toFinset.card, ∃ a ∈ L, labelID L a = n) ∧
      (∀ a ∈ L, ∀ b ∈ L, labelID L a = labelID L b → a = b) := by
    intro L
    induction L using List.reverseRecOn with
    | nil => simp
    | append_singleton L x ih =>
      obtain ⟨i1, i2, i3⟩ := ih
      by_cases hx : x ∈ L
      · have hm : ∀ a, a ∈ L ++ [x] ↔ a ∈ L := by
          intro a; simp; rintro rfl; exact hx
        have hc : (L ++ [x]).toFinset = L.toFinset := by ext a; rw [List.mem_toFinset, List.mem_toFinset, hm]
        rw [hc]
        refine ⟨?_, ?_, ?_⟩
        · intro a ha
          rw [hm] at ha
          rw [labelID_append ha]; exact i1 a ha
        · intro n hn
          obtain ⟨a, ha, he⟩ := i2 n hn
          exact ⟨a, (hm a).2 ha, by rw [labelID_append ha]; exact he⟩
        · intro a ha b hb
          rw [hm] at ha hb
          rw [labelID_append ha, labelID_append hb]
          exact i3 a ha b hb
      · have hc : (L ++ [x]).toFinset.card = L.toFinset.card + 1 := by
          rw [List.toFinset_append, List.toFinset_cons, List.toFinset_nil]
          rw [Finset.union_insert, Finset.union_empty, Finset.card_insert_of_notMem]
          simpa using hx
        have hn := labelID_new hx []
        rw [hc]
        refine ⟨?_, ?_, ?_⟩
        · intro a ha
          rcases List.mem_append.1 ha with ha | ha
          · rw [labelID_append ha]; have := i1 a ha; omega
          · rw [List.mem_singleton] at ha
            subst ha
            omega
        · intro n hlt
          rcases Nat.lt_succ_iff_lt_or_eq.1 hlt with h | rfl
          · obtain ⟨a, ha, he⟩ := i2 n h
            exact ⟨a, List.mem_append_left _ ha, by rw [labelID_append ha]; exact he⟩
          · exact ⟨x, by simp, hn⟩
        · intro a ha b hb he
          replace ha := List.mem_append.1 ha
          replace hb := List.mem_append.1 hb
          rcases ha with ha | ha <;> rcases hb with hb | hb
          · rw [labelID_append ha, labelID_append hb] at he
            exact i3 a ha b hb he
          · rw [List.mem_singleton] at hb
            rw [hb, labelID_append ha, hn] at he
            have := i1 a ha
            omega
          · rw [List.mem_singleton] at ha
            rw [ha, labelID_append hb, hn] at he
            have := i1 b hb
            omega
          · rw [List.mem_singleton] at ha hb
            rw [ha, hb]
  refine ⟨(key L).1, (key L).2.1, (key L).2.2, ?_⟩
  rintro pre a b post rfl ha hb hb' hne
  rw [List.append_assoc, List.singleton_append, labelID_new ha]
  obtain ⟨p1, p2, rfl, hp⟩ := List.eq_append_cons_of_mem hb
  rw [show pre ++ a :: (p1 ++ b :: p2) = (pre ++ a :: p1) ++ b :: p2 by simp, labelID_new]
  · apply Finset.card_lt_card
    rw [Finset.ssubset_iff_of_subset]
    · exact ⟨a, by simp, by simpa using ha⟩
    · intro x hx
      rw [List.mem_toFinset] at hx ⊢
      exact List.mem_append_left _ hx
  · simp [hb', hne, hp]

/-- The numbers the reader gives to labels: those of the labels it knows already, and new ones. -/
def numberOf (M : List (List Char × ℕ)) (L : List (List Char)) (a : List Char) : ℕ :=
  (M.lookup a).getD (labelID (L.filter fun b => (M.lookup b).isNone) a)

/-- The invariant of the labels. -/
structure Inv (M : List (List Char × ℕ)) (L : List (List Char)) (st : State α) : Prop where
  known : ∀ a n, M.lookup a = some n → st.labels.lookup a = some n
  new : ∀ a ∈ L, M.lookup a = none → st.labels.lookup a = some (labelID (L.filter fun b => (M.lookup b).isNone) a)
  other : ∀ a, a ∉ L → M.lookup a = none → st.labels.lookup a = none
  next : st.lastID = (L.filter fun b => (M.lookup b).isNone).toFinset.card

theorem Inv.lookup {M : List (List Char × ℕ)} {L : List (List Char)} {st : State α} (h : Inv M L st) {a : List Char} (ha : a ∈ L) :
    st.labels.lookup a = some (numberOf M L a) := by
  unfold numberOf
  cases hM : M.lookup a with
  | some n => rw [h.known a n hM]; rfl
  | none => rw [h.new a ha hM]; rfl

theorem numberOf_append {M : List (List Char × ℕ)} {L : List (List Char)} {a : List Char} (ha : a ∈ L) (L' : List (List Char)) :
    numberOf M (L ++ L') a = numberOf M L a := by
  unfold numberOf
  cases hM : M.lookup a with
  | some n => rfl
  | none =>
    simp only [Option.getD_none, List.filter_append]
    apply labelID_append
    rw [List.mem_filter]
    exact ⟨ha, by rw [hM]; rfl⟩

theorem lookup_append_single (l : List (List Char × ℕ)) (s : List Char) (n : ℕ) (a : List Char) :
    (l ++ [(s, n)]).lookup a = match l.lookup a with
      | some m => some m
      | none => if a = s then some n else none := by
  induction l with
  | nil =>
    simp only [List.nil_append, List.lookup]
    by_cases h : a = s
    · subst h; simp
    · rw [beq_false_of_ne h, if_neg h]
  | cons p l ih =>
    obtain ⟨b, m⟩ := p
    simp only [List.cons_append, List.lookup]
    cases hb : a == b with
    | true => rfl
    | false => exact ih

theorem register_inv {M : List (List Char × ℕ)} {L : List (List Char)} {st : State α} (h : Inv M L st) (s : List Char) :
    Inv M (L ++ [s]) (register st s) ∧ (register st s).edges = st.edges ∧ (register st s).vertices = st.vertices := by
  unfold register
  have hold : ∀ a ∈ L, M.lookup a = none → labelID ((L ++ [s]).filter fun b => (M.lookup b).isNone) a =
      labelID (L.filter fun b => (M.lookup b).isNone) a := by
    intro a ha hM
    rw [List.filter_append]
    exact labelID_append (List.mem_filter.2 ⟨ha, by rw [hM]; rfl⟩) _
  cases hs : st.labels.lookup s with
  | some n =>
    simp only [and_true]
    have hcase : s ∈ L ∨ ∃ m, M.lookup s = some m := by
      by_contra hc
      push Not at hc
      have := h.other s hc.1 (by
        cases hM : M.lookup s with
        | none => rfl
        | some m => exact absurd hM (hc.2 m))
      rw [this] at hs
      cases hs
    refine ⟨h.known, ?_, fun a ha => h.other a fun hL => ha (List.mem_append_left _ hL), ?_⟩
    · intro a ha hM
      have haL : a ∈ L := by
        rcases List.mem_append.1 ha with ha | ha
        · exact ha
        · rw [List.mem_singleton] at ha
          subst ha
          rcases hcase with h | ⟨m, hm⟩
          · exact h
          · rw [hM] at hm; cases hm
      rw [hold a haL hM]
      exact h.new a haL hM
    · rw [h.next]
      congr 1
      ext a
      simp only [List.mem_toFinset, List.mem_filter, List.mem_append, List.mem_singleton]
      constructor
      · rintro ⟨h1, h2⟩; exact ⟨Or.inl h1, h2⟩
      · rintro ⟨h1 | rfl, h2⟩
        · exact ⟨h1, h2⟩
        · rcases hcase with h | ⟨m, hm⟩
          · exact ⟨h, h2⟩
          · rw [hm] at h2; simp at h2
  | none =>
    simp only [and_true]
    have hsL : s ∉ L := fun hL => by rw [h.lookup hL] at hs; cases hs
    have hsM : M.lookup s = none := by
      cases hM : M.lookup s with
      | none => rfl
      | some m => rw [h.known s m hM] at hs; cases hs
    refine ⟨?_, ?_, ?_, ?_⟩
    · intro a n ha
      simp only [lookup_append_single, h.known a n ha]
    · intro a ha hM
      rcases List.mem_append.1 ha with ha | ha
      · simp only [lookup_append_single, h.new a ha hM, hold a ha hM]
      · rw [List.mem_singleton] at ha
        subst ha
        simp only [lookup_append_single, hs, if_true]
        rw [h.next, List.filter_append]
        simp only [List.filter_cons, hsM, Option.isNone_none, if_true, List.filter_nil]
        rw [labelID_new]
        intro hc
        exact hsL (List.mem_filter.1 hc).1
    · intro a ha hM
      have h1 : a ∉ L := fun hL => ha (List.mem_append_left _ hL)
      have h2 : a ≠ s := by rintro rfl; exact ha (by simp)
      simp only [lookup_append_single, h.other a h1 hM, if_neg h2]
    · simp only
      rw [h.next, List.filter_append]
      simp only [List.filter_cons, hsM, Option.isNone_none, if_true, List.filter_nil]
      rw [List.toFinset_append, List.toFinset_cons, List.toFinset_nil, Finset.union_insert, Finset.union_empty,
        Finset.card_insert_of_notMem]
      rw [List.mem_toFinset]
      intro hc
      exact hsL (List.mem_filter.1 hc).1

theorem numeric_iff (a : List Char) : a.all (fun c => '0' ≤ c && c ≤ '9') = true ↔ Numeric a := by
  unfold Numeric
  rw [List.all_eq_true]
  refine forall₂_congr fun c _ => ?_
  simp only [Bool.and_eq_true, decide_eq_true_eq]
  have e : ∀ d : Char, c = d ↔ c.toNat = d.toNat := fun d => ⟨fun h => h ▸ rfl, fun h => Char.toNat_inj.1 h⟩
  have h0 : '0' ≤ c ↔ 48 ≤ c.toNat := by
    rw [Char.le_def, UInt32.le_iff_toNat_le]; rfl
  have h9 : c ≤ '9' ↔ c.toNat ≤ 57 := by
    rw [Char.le_def, UInt32.le_iff_toNat_le]; rfl
  rw [h0, h9]
  simp only [List.mem_cons, List.not_mem_nil, or_false, e]
  simp only [show '0'.toNat = 48 from rfl, show '1'.toNat = 49 from rfl, show '2'.toNat = 50 from rfl, show '3'.toNat = 51 from rfl,
    show '4'.toNat = 52 from rfl, show '5'.toNat = 53 from rfl, show '6'.toNat = 54 from rfl, show '7'.toNat = 55 from rfl,
    show '8'.toNat = 56 from rfl, show '9'.toNat = 57 from rfl]
  omega

/-! ### Lines -/

theorem stripped_iff (s t : List Char) : Stripped s t ↔ Strings.trim s = t := by
  have hn : ∀ c, Strings.isSpace c = false ↔ c ∉ whitespace := by
    intro c
    rw [← Bool.not_eq_true, MatrixReader.isSpace_eq]
  constructor
  · rintro ⟨⟨a, b, rfl, ha, hb⟩, h1, h2⟩
    have hr : Strings.rtrim (a ++ t ++ b) = Strings.rtrim (a ++ t) := by
      unfold Strings.rtrim
      rw [List.reverse_append, List.dropWhile_append_of_pos]
      intro c hc
      exact (MatrixReader.isSpace_eq c).2 (hb c (List.mem_reverse.1 hc))
    unfold Strings.trim
    rw [hr]
    rcases List.eq_nil_or_concat t with rfl | ⟨q, x, rfl⟩
    · have : Strings.rtrim (a ++ []) = [] := by
        unfold Strings.rtrim
        rw [List.reverse_eq_nil_iff, List.dropWhile_eq_nil_iff]
        intro c hc
        exact (MatrixReader.isSpace_eq c).2 (ha c (by simpa using hc))
      rw [this]; rfl
    · have h3 : Strings.rtrim (a ++ q.concat x) = a ++ q.concat x := by
        unfold Strings.rtrim
        have hx := (hn x).2 (h2 x (by simp))
        rw [List.concat_eq_append, ← List.append_assoc, List.reverse_append]
        simp [hx]
      rw [h3]
      unfold Strings.ltrim
      rw [List.dropWhile_append_of_pos fun c hc => (MatrixReader.isSpace_eq c).2 (ha c hc)]
      cases hq : q.concat x with
      | nil => rfl
      | cons y r =>
        have := (hn y).2 (h1 y (by rw [hq]; rfl))
        simp [List.dropWhile, this]
  · rintro rfl
    obtain ⟨_, ⟨a, b, h1, h2, h3⟩, h4, h5⟩ := C70_trim s
    exact ⟨⟨a, b, h1, fun c hc => (MatrixReader.isSpace_eq c).1 (h2 c hc), fun c hc => (MatrixReader.isSpace_eq c).1 (h3 c hc)⟩,
      fun c hc => (hn c).1 (h4 c hc), fun c hc => (hn c).1 (h5 c hc)⟩

theorem ignored_iff (t : List Char) :
    Ignored t ↔ t = [] ∨ ∃ c r, t = c :: r ∧ commentTokens.contains c = true := by
  unfold Ignored commentTokens
  constructor
  · rintro (rfl | ⟨c, hc, hh⟩)
    · exact Or.inl rfl
    · cases t with
      | nil => cases hh
      | cons d r =>
        simp only [List.head?_cons, Option.some.injEq] at hh
        subst hh
        exact Or.inr ⟨d, r, rfl, by simpa using hc⟩
  · rintro (rfl | ⟨c, r, rfl, hc⟩)
    · exact Or.inl rfl
    · exact Or.inr ⟨c, by simpa using hc, rfl⟩

section Loop

variable [Zero α] (o : Options) (cv : List Char → ℕ) (cd : List Char → α)

theorem clean_eq {l t : List Char} (h : if o.trimLines then Stripped l t else l = t) :
    (if o.trimLines then Strings.trim l else l) = t := by
  cases hb : o.trimLines with
  | false => rw [hb] at h; simpa using h
  | true => rw [hb] at h; simpa using (stripped_iff l t).1 (by simpa using h)

theorem step_ignored (st : State α) {l t : List Char} (h : if o.trimLines then Stripped l t else l = t) (hi : Ignored t) :
    step o cv cd st l = some st := by
  unfold step
  simp only [clean_eq o h]
  rcases (ignored_iff t).1 hi with rfl | ⟨c, r, rfl, hc⟩
  · rfl
  · simp only [hc, if_true]

theorem step_kept (st : State α) {l t : List Char} {ts : List (List Char)} (h : if o.trimLines then Stripped l t else l = t)
    (hi : ¬ Ignored t) (hf : Fields o.separator t ts) : step o cv cd st l = process o cv cd st ts := by
  unfold step
  simp only [clean_eq o h]
  rw [ignored_iff] at hi
  rw [(C70_split o.separator t ts).2 hf]
  cases t with
  | nil => exact absurd (Or.inl rfl) hi
  | cons c r =>
    have : ¬ commentTokens.contains c = true := fun hc => hi (Or.inr ⟨c, r, rfl, hc⟩)
    simp only [if_neg this]

theorem run_lines {ls : List (List Char)} {T : List (List (List Char))} (h : EdgeLines o.trimLines o.separator ls T) :
    ∀ st : State α, ls.foldlM (step o cv cd) st = T.foldlM (process o cv cd) st := by
  induction h with
  | nil => intro st; rfl
  | skip l t ls T hc hi _ ih =>
    intro st
    rw [List.foldlM_cons, step_ignored o cv cd st hc hi]
    exact ih st
  | keep l t ts ls T hc hi hf _ ih =>
    intro st
    rw [List.foldlM_cons, List.foldlM_cons, step_kept o cv cd st hc hi hf]
    congr 1
    funext st'
    exact ih st'

theorem edgeLines_extra {ls : List (List Char)} {T : List (List (List Char))} (h : EdgeLines o.trimLines o.separator ls T)
    (x : List Char) (hx : x = [] ∨ x ∈ ls) :
    ∃ T', EdgeLines o.trimLines o.separator (ls ++ [x]) (T ++ T') ∧ (T' = [] ∨ ∃ ts ∈ T, T' = [ts]) := by
  have happ : ∀ ls' T', EdgeLines o.trimLines o.separator ls' T' →
      EdgeLines o.trimLines o.separator (ls ++ ls') (T ++ T') := by
    intro ls' T' h'
    clear hx
    induction h with
    | nil => exact h'
    | skip l t ls T hc hi _ ih => exact EdgeLines.skip l t _ _ hc hi ih
    | keep l t ts ls T hc hi hf _ ih => exact EdgeLines.keep l t ts _ _ hc hi hf ih
  rcases hx with rfl | hx
  · refine ⟨[], happ _ _ (EdgeLines.skip [] [] _ _ ?_ (Or.inl rfl) EdgeLines.nil), Or.inl rfl⟩
    cases o.trimLines with
    | false => simp
    | true =>
      rw [if_pos rfl]
      exact ⟨⟨[], [], by simp⟩, by simp, by simp⟩
  · suffices hs : EdgeLines o.trimLines o.separator [x] [] ∨ ∃ ts ∈ T, EdgeLines o.trimLines o.separator [x] [ts] by
      rcases hs with h1 | ⟨ts, hts, h1⟩
      · exact ⟨[], happ _ _ h1, Or.inl rfl⟩
      · exact ⟨[ts], happ _ _ h1, Or.inr ⟨ts, hts, rfl⟩⟩
    clear happ
    induction h with
    | nil => cases hx
    | skip l t ls T hc hi _ ih =>
      rcases List.mem_cons.1 hx with rfl | hx
      · exact Or.inl (EdgeLines.skip x t _ _ hc hi EdgeLines.nil)
      · exact ih hx
    | keep l t ts ls T hc hi hf _ ih =>
      rcases List.mem_cons.1 hx with rfl | hx
      · exact Or.inr ⟨ts, List.mem_cons_self, EdgeLines.keep x t ts _ _ hc hi hf EdgeLines.nil⟩
      · rcases ih hx with h | ⟨us, hu, h⟩
        · exact Or.inl h
        · exact Or.inr ⟨us, List.mem_cons_of_mem _ hu, h⟩

theorem iterations_eq (text : List Char) {ls : List (List Char)} {b : Bool} (h : Lines text ls b) :
    ∃ x, iterations text = ls ++ [x] ∧ (x = [] ∨ x ∈ ls) := by
  unfold iterations
  rw [getlines_spec text ls b h]
  by_cases hl : text.getLast? = some '\n'
  · simp only [if_pos hl]
    exact ⟨[], rfl, Or.inl rfl⟩
  · simp only [if_neg hl]
    refine ⟨_, rfl, ?_⟩
    cases hg : ls.getLast? with
    | none => exact Or.inl rfl
    | some y => exact Or.inr (List.mem_of_getLast? hg)

/-- The weight of a line. -/
def weightOf (f : Option (List Char)) : α := if o.readWeights then (f.map cd).getD 0 else 0

theorem process_eq (st : State α) (a b : List Char) (rest : List (List Char)) : process o cv cd st (a :: b :: rest) =
    some { (endpoints cv st a b).1 with
      edges := (endpoints cv st a b).1.edges ++
        [Simplex.ofRange [(endpoints cv st a b).2.1, (endpoints cv st a b).2.2] (weightOf o cd rest.head?)]
      vertices := (endpoints cv st a b).1.vertices ++
        [Simplex.ofVertex (endpoints cv st a b).2.1 0, Simplex.ofVertex (endpoints cv st a b).2.2 0] } := by
  cases rest with
  | nil =>
    unfold weightOf process
    cases o.readWeights <;> rfl
  | cons c r =>
    unfold weightOf process
    cases o.readWeights <;> rfl

theorem labelsOf_append (T U : List (List (List Char))) : labelsOf (T ++ U) = labelsOf T ++ labelsOf U := by
  simp [labelsOf]

theorem edgeOf_congr (id id' : List Char → ℕ) (w : Option (List Char) → α) (T : List (List (List Char)))
    (h : ∀ a ∈ labelsOf T, id a = id' a) : T.map (edgeOf cv id w) = T.map (edgeOf cv id' w) := by
  apply List.map_congr_left
  intro ts hts
  match ts, hts with
  | [], _ => rfl
  | [_], _ => rfl
  | a :: b :: rest, hts =>
    by_cases hn : Numeric a
    · simp only [edgeOf, if_pos hn]
    · simp only [edgeOf, if_neg hn]
      have hm : ∀ x ∈ [a, b], x ∈ labelsOf T := by
        intro x hx
        unfold labelsOf
        rw [List.mem_flatMap]
        exact ⟨_, hts, by simp only [if_neg hn]; exact hx⟩
      rw [h a (hm a (by simp)), h b (hm b (by simp))]

theorem run_tokens (M : List (List Char × ℕ)) (T : List (List (List Char))) (hT : ∀ ts ∈ T, 2 ≤ ts.length) :
    ∃ st : State α, T.foldlM (process o cv cd) ⟨M, 0, [], []⟩ = some st ∧ Inv M (labelsOf T) st ∧
      st.edges = edgesOf (T.map (edgeOf cv (numberOf M (labelsOf T)) (weightOf o cd))) ∧
      st.vertices = ends (T.map (edgeOf cv (numberOf M (labelsOf T)) (weightOf o cd))) := by
  induction T using List.reverseRecOn with
  | nil =>
    refine ⟨_, rfl, ⟨fun _ _ h => h, ?_, fun _ _ h => h, rfl⟩, rfl, rfl⟩
    intro a ha
    simp [labelsOf] at ha
  | append_singleton T ts ih =>
    obtain ⟨st, h1, h2, h3, h4⟩ := ih fun us hu => hT us (List.mem_append_left _ hu)
    have hlen := hT ts (by simp)
    match ts, hlen with
    | a :: b :: rest, _ =>
      rw [List.foldlM_append, h1]
      have hold : T.map (edgeOf cv (numberOf M (labelsOf (T ++ [a :: b :: rest]))) (weightOf o cd)) =
          T.map (edgeOf cv (numberOf M (labelsOf T)) (weightOf o cd)) := by
        apply edgeOf_congr
        intro x hx
        rw [labelsOf_append, numberOf_append hx]
      rw [List.map_append, hold]
      by_cases hn : Numeric a
      · have hl : labelsOf (T ++ [a :: b :: rest]) = labelsOf T := by
          rw [labelsOf_append]
          simp [labelsOf, hn]
        have hp : process o cv cd st (a :: b :: rest) = some { st with
            edges := st.edges ++ [Simplex.ofRange [cv a, cv b] (weightOf o cd rest.head?)]
            vertices := st.vertices ++ [Simplex.ofVertex (cv a) 0, Simplex.ofVertex (cv b) 0] } := by
          rw [process_eq]
          unfold endpoints
          simp only [if_pos ((numeric_iff a).2 hn)]
        refine ⟨_, by simp only [Option.bind_eq_bind, Option.bind_some, List.foldlM_cons, List.foldlM_nil, hp]; rfl, ?_, ?_, ?_⟩
        · rw [hl]
          exact ⟨h2.known, h2.new, h2.other, h2.next⟩
        · simp only [h3, edgesOf, List.map_append, List.map_cons, List.map_nil, edgeOf, if_pos hn]
        · simp only [h4, ends, List.flatMap_append, List.map_cons, List.map_nil, edgeOf, if_pos hn, List.flatMap_cons, List.flatMap_nil,
            List.append_nil]
      · have hl : labelsOf (T ++ [a :: b :: rest]) = labelsOf T ++ [a] ++ [b] := by
          rw [labelsOf_append]
          simp [labelsOf, hn]
        obtain ⟨r1, r2, r3⟩ := register_inv h2 a
        obtain ⟨q1, q2, q3⟩ := register_inv r1 b
        rw [hl]
        have ha := q1.lookup (a := a) (by simp)
        have hb := q1.lookup (a := b) (by simp)
        have hp : process o cv cd st (a :: b :: rest) = some { register (register st a) b with
            edges := st.edges ++ [Simplex.ofRange [numberOf M (labelsOf T ++ [a] ++ [b]) a,
              numberOf M (labelsOf T ++ [a] ++ [b]) b] (weightOf o cd rest.head?)]
            vertices := st.vertices ++ [Simplex.ofVertex (numberOf M (labelsOf T ++ [a] ++ [b]) a) 0,
              Simplex.ofVertex (numberOf M (labelsOf T ++ [a] ++ [b]) b) 0] } := by
          rw [process_eq]
          unfold endpoints
          have : ¬ (a.all (fun c => '0' ≤ c && c ≤ '9')) = true := fun h => hn ((numeric_iff a).1 h)
          simp only [if_neg this, ha, hb, q2, q3, r2, r3, Option.getD_some]
        refine ⟨_, by simp only [Option.bind_eq_bind, Option.bind_some, List.foldlM_cons, List.foldlM_nil, hp]; rfl, ?_, ?_, ?_⟩
        · exact ⟨q1.known, q1.new, q1.other, q1.next⟩
        · simp only [h3, edgesOf, List.map_append, List.map_cons, List.map_nil, edgeOf, if_neg hn]
        · simp only [h4, ends, List.flatMap_append, List.map_cons, List.map_nil, edgeOf, if_neg hn, List.flatMap_cons, List.flatMap_nil,
            List.append_nil]

/-- A repeated edge has no effect. -/
theorem edgeListData_repeat (E : List (ℕ × ℕ × α)) (e : ℕ × ℕ × α) (he : e ∈ E) (t : Finset ℕ) (a : α) :
    EdgeListData (E ++ [e]) t a ↔ EdgeListData E t a := by
  constructor
  · intro h
    cases h with
    | vertex u v w x hm hx =>
      refine EdgeListData.vertex u v w x ?_ hx
      rcases List.mem_append.1 hm with h | h
      · exact h
      · rw [List.mem_singleton] at h
        rw [h]; exact he
    | edge u v w before after hE hne hf =>
      rcases List.eq_nil_or_concat after with rfl | ⟨q, x, rfl⟩
      · have := List.append_inj' hE rfl
        obtain ⟨rfl, h⟩ := this
        simp only [List.cons.injEq, and_true] at h
        subst h
        exact absurd rfl (hf _ he)
      · rw [List.concat_eq_append, ← List.cons_append, ← List.append_assoc] at hE
        exact EdgeListData.edge u v a before q (List.append_inj' hE rfl).1 hne hf
  · intro h
    cases h with
    | vertex u v w x hm hx => exact EdgeListData.vertex u v w x (List.mem_append_left _ hm) hx
    | edge u v w before after hE hne hf => exact EdgeListData.edge u v a before (after ++ [e]) (by rw [hE]; simp) hne hf

/-- C77. A reader that knows the labels `M` reads an edge list: the complex is a filtration of exactly the vertices and edges
of the lines (comments and empty lines ignored), with the weight of the first occurrence.  Numbers are used as they are; known labels keep
their number, new labels are numbered from zero in the order of their first occurrence.  Lines with fewer than two
fields raise an exception. -/
theorem _root_.Aleph.C77_read_partial (M : List (List Char × ℕ)) (text : List Char) {ls : List (List Char)} {b : Bool}
    (hl : Lines text ls b) {T : List (List (List Char))} (hT : EdgeLines o.trimLines o.separator ls T) :
    ((∃ ts ∈ T, ts.length < 2) → read o cv cd M text = none) ∧
    ((∀ ts ∈ T, 2 ≤ ts.length) → ∃ M' K, read o cv cd M text = some (M', K) ∧ IsFiltration K ∧
      (∀ t a, HasData K t a ↔ EdgeListData (T.map (edgeOf cv
        (fun a => (M.lookup a).getD (labelID ((labelsOf T).filter fun b => (M.lookup b).isNone) a))
        (fun f => if o.readWeights then (f.map cd).getD 0 else 0))) t a) ∧
      ∀ a, M'.lookup a = if (M.lookup a).isNone ∧ a ∈ labelsOf T then
        some (labelID ((labelsOf T).filter fun b => (M.lookup b).isNone) a) else M.lookup a) := by
  obtain ⟨x, hx, hx'⟩ := iterations_eq text hl
  obtain ⟨T', hT', hcase⟩ := edgeLines_extra o hT x hx'
  have hrun := run_lines o cv cd hT' ⟨M, 0, [], []⟩
  constructor
  · rintro ⟨ts, hts, hlen⟩
    have hnone : ∀ (U : List (List (List Char))) (st : State α), ts ∈ U → U.foldlM (process o cv cd) st = none := by
      intro U
      induction U with
      | nil => intro _ h; cases h
      | cons u U ih =>
        intro st h
        rw [List.foldlM_cons]
        cases hp : process o cv cd st u with
        | none => rfl
        | some st' =>
          rcases List.mem_cons.1 h with rfl | h
          · exfalso
            match ts, hlen with
            | [], _ => simp [process] at hp
            | [_], _ => simp [process] at hp
          · exact ih st' h
    unfold read
    rw [hx, hrun, hnone _ _ (List.mem_append_left _ hts)]
  · intro hall
    have hall' : ∀ ts ∈ T ++ T', 2 ≤ ts.length := by
      intro ts hts
      rcases List.mem_append.1 hts with h | h
      · exact hall ts h
      · rcases hcase with rfl | ⟨us, hu, rfl⟩
        · cases h
        · rw [List.mem_singleton] at h
          rw [h]; exact hall us hu
    obtain ⟨st, h1, h2, h3, h4⟩ := run_tokens o cv cd M (T ++ T') hall'
    have hread : read o cv cd M text =
        some (st.labels, complexOf ((T ++ T').map (edgeOf cv (numberOf M (labelsOf (T ++ T'))) (weightOf o cd)))) := by
      unfold read
      rw [hx, hrun, h1]
      simp only [h3, h4]
      rfl
    obtain ⟨hF, hD⟩ := complexOf_spec ((T ++ T').map (edgeOf cv (numberOf M (labelsOf (T ++ T'))) (weightOf o cd)))
    have hmem : ∀ a, a ∈ labelsOf (T ++ T') ↔ a ∈ labelsOf T := by
      intro a
      rw [labelsOf_append, List.mem_append]
      constructor
      · rintro (h | h)
        · exact h
        · rcases hcase with rfl | ⟨us, hu, rfl⟩
          · simp [labelsOf] at h
          · unfold labelsOf at h ⊢
            rw [List.mem_flatMap] at h ⊢
            obtain ⟨vs, hv, hvs⟩ := h
            rw [List.mem_singleton] at hv
            exact ⟨us, hu, hv ▸ hvs⟩
      · exact Or.inl
    have hnum : ∀ a ∈ labelsOf T, numberOf M (labelsOf (T ++ T')) a = numberOf M (labelsOf T) a := by
      intro a ha
      rw [labelsOf_append, numberOf_append ha]
    refine ⟨_, _, hread, hF, ?_, ?_⟩
    · intro t a
      rw [hD, edgeOf_congr cv _ (numberOf M (labelsOf T)) _ (T ++ T') fun a ha => hnum a ((hmem a).1 ha)]
      rcases hcase with rfl | ⟨us, hu, rfl⟩
      · rw [List.append_nil]; rfl
      · rw [List.map_append, List.map_cons, List.map_nil, edgeListData_repeat _ _ (List.mem_map_of_mem hu)]
        rfl
    · intro a
      cases hM : M.lookup a with
      | some n =>
        rw [h2.known a n hM]
        simp
      | none =>
        by_cases ha : a ∈ labelsOf T
        · rw [h2.lookup ((hmem a).2 ha), hnum a ha]
          unfold numberOf
          simp [hM, ha]
        · rw [h2.other a (fun h => ha ((hmem a).1 h)) hM]
          simp [ha]

/-- C77. Numeric edge lists: vertices get the numbers of the file, and the state of the reader does not matter. -/
theorem _root_.Aleph.C77_numeric (M : List (List Char × ℕ)) (text : List Char) {ls : List (List Char)} {b : Bool}
    (hl : Lines text ls b) {T : List (List (List Char))} (hT : EdgeLines o.trimLines o.separator ls T)
    (h : ∀ ts ∈ T, ∃ u v rest, ts = u :: v :: rest ∧ Numeric u) :
    ∃ M' K, read o cv cd M text = some (M', K) ∧ IsFiltration K ∧ (∀ a, M'.lookup a = M.lookup a) ∧
      ∀ t a, HasData K t a ↔ EdgeListData (T.map fun ts =>
        (cv (ts[0]?.getD []), cv (ts[1]?.getD []), if o.readWeights then (ts[2]?.map cd).getD 0 else 0)) t a := by
  obtain ⟨M', K, h1, h2, h3, h4⟩ := (C77_read_partial o cv cd M text hl hT).2 (by
    intro ts hts
    obtain ⟨u, v, r, rfl, _⟩ := h ts hts
    simp)
  have hno : labelsOf T = [] := by
    unfold labelsOf
    rw [List.flatMap_eq_nil_iff]
    intro ts hts
    obtain ⟨u, v, r, rfl, hu⟩ := h ts hts
    simp [hu]
  refine ⟨M', K, h1, h2, ?_, ?_⟩
  · intro a
    rw [h4, hno]; simp
  · intro t a
    rw [h3]
    have : ∀ ts ∈ T, edgeOf cv (fun a => (M.lookup a).getD (labelID ((labelsOf T).filter fun b => (M.lookup b).isNone) a))
        (fun f => if o.readWeights then (f.map cd).getD 0 else 0) ts =
        (cv (ts[0]?.getD []), cv (ts[1]?.getD []), if o.readWeights then (ts[2]?.map cd).getD 0 else 0) := by
      intro ts hts
      obtain ⟨u, v, r, rfl, hu⟩ := h ts hts
      simp only [edgeOf, if_pos hu]
      cases r <;> rfl
    rw [List.map_congr_left this]

/-- C77. Labelled edge lists with a fresh reader: a vertex is the number of its label, in the order of the first occurrence; different
labels are different vertices. -/
theorem _root_.Aleph.C77_labels (text : List Char) {ls : List (List Char)} {b : Bool}
    (hl : Lines text ls b) {T : List (List (List Char))} (hT : EdgeLines o.trimLines o.separator ls T)
    (h : ∀ ts ∈ T, ∃ u v rest, ts = u :: v :: rest ∧ ¬ Numeric u) :
    ∃ M' K, read o cv cd [] text = some (M', K) ∧ IsFiltration K ∧
      (∀ a, M'.lookup a = if a ∈ T.flatMap (·.take 2) then some (labelID (T.flatMap (·.take 2)) a) else none) ∧
      ∀ t a, HasData K t a ↔ EdgeListData (T.map fun ts =>
        (labelID (T.flatMap (·.take 2)) (ts[0]?.getD []), labelID (T.flatMap (·.take 2)) (ts[1]?.getD []),
          if o.readWeights then (ts[2]?.map cd).getD 0 else 0)) t a := by
  obtain ⟨M', K, h1, h2, h3, h4⟩ := (C77_read_partial o cv cd [] text hl hT).2 (by
    intro ts hts
    obtain ⟨u, v, r, rfl, _⟩ := h ts hts
    simp)
  have hno : labelsOf T = T.flatMap (·.take 2) := by
    unfold labelsOf
    apply List.flatMap_congr
    intro ts hts
    obtain ⟨u, v, r, rfl, hu⟩ := h ts hts
    simp [hu]
  have hf : (labelsOf T).filter (fun b => (List.lookup b ([] : List (List Char × ℕ))).isNone) = T.flatMap (·.take 2) := by
    rw [hno]
    apply List.filter_eq_self.2
    intro a _; rfl
  refine ⟨M', K, h1, h2, ?_, ?_⟩
  · intro a
    rw [h4, hf, hno]
    simp
  · intro t a
    rw [h3, hf]
    have : ∀ ts ∈ T, edgeOf cv (fun a => (List.lookup a ([] : List (List Char × ℕ))).getD (labelID (T.flatMap (·.take 2)) a))
        (fun f => if o.readWeights then (f.map cd).getD 0 else 0) ts =
        (labelID (T.flatMap (·.take 2)) (ts[0]?.getD []), labelID (T.flatMap (·.take 2)) (ts[1]?.getD []),
          if o.readWeights then (ts[2]?.map cd).getD 0 else 0) := by
      intro ts hts
      obtain ⟨u, v, r, rfl, hu⟩ := h ts hts
      simp only [edgeOf, if_neg hu]
      cases r <;> rfl
    rw [List.map_congr_left this]

/-- C77 (violated). A reader that is used a second time starts to count at zero again but keeps its labels: as soon as a new label
occurs, it gets the number of an old one, and two different labels become one vertex. -/
theorem _root_.Aleph.C77_reuse_wrong (M : List (List Char × ℕ)) (text : List Char) {ls : List (List Char)} {b : Bool}
    (hl : Lines text ls b) {T : List (List (List Char))} (hT : EdgeLines o.trimLines o.separator ls T)
    (hlen : ∀ ts ∈ T, 2 ≤ ts.length) {old : List Char} (hold : M.lookup old = some 0) {new : List Char} (hnew : new ∈ labelsOf T)
    (hM : M.lookup new = none) : ∃ M' K c, read o cv cd M text = some (M', K) ∧ c ≠ old ∧ M'.lookup c = M'.lookup old ∧
      M'.lookup old = some 0 := by
  obtain ⟨M', K, h1, _, _, h4⟩ := (C77_read_partial o cv cd M text hl hT).2 hlen
  have hpos : 0 < ((labelsOf T).filter fun b => (M.lookup b).isNone).toFinset.card := by
    rw [Finset.card_pos]
    exact ⟨new, by rw [List.mem_toFinset, List.mem_filter]; exact ⟨hnew, by rw [hM]; rfl⟩⟩
  obtain ⟨c, hc, he⟩ := (C77_numbering ((labelsOf T).filter fun b => (M.lookup b).isNone)).2.1 0 hpos
  rw [List.mem_filter] at hc
  have h0 : M'.lookup old = some 0 := by rw [h4, hold]; simp
  refine ⟨M', K, c, h1, ?_, ?_, h0⟩
  · rintro rfl
    rw [hold] at hc
    simp at hc
  · rw [h0, h4, if_pos hc.symm, he]

end Loop

/-! ### Examples -/

def number (s : List Char) : ℕ := (MatrixReader.digits s).getD 0

example : read {} number number [] "# graph\n1 2 7\n\n3 1 5\n2 1 9".toList =
    some ([], [⟨[1], 0⟩, ⟨[2], 0⟩, ⟨[2, 1], 7⟩, ⟨[3], 0⟩, ⟨[3, 1], 5⟩]) := by
  decide +kernel

example : Lines "#\na b 2\nb c".toList ["#".toList, "a b 2".toList, "b c".toList] true ∧
    EdgeLines true Strings.isSpace ["#".toList, "a b 2".toList, "b c".toList] [[['a'], ['b'], ['2']], [['b'], ['c']]] ∧
    ¬ Numeric ['a'] ∧ Numeric ['2'] := by
  refine ⟨Lines.cons "#".toList _ _ _ (by decide) (Lines.cons "a b 2".toList _ _ _ (by decide) (Lines.last "b c".toList (by decide)
    (by decide))), ?_, by decide, by decide⟩
  have hi : ∀ t, ¬ Ignored t ↔ ¬ (t = [] ∨ ∃ c r, t = c :: r ∧ commentTokens.contains c = true) := fun t => not_congr (ignored_iff t)
  refine EdgeLines.skip _ "#".toList _ _ ((stripped_iff _ _).2 (by decide)) (Or.inr ⟨'#', by decide, rfl⟩) ?_
  refine EdgeLines.keep _ "a b 2".toList _ _ _ ((stripped_iff _ _).2 (by decide)) ?_ ((C70_split _ _ _).1 (by decide)) ?_
  · rw [hi]; simp [commentTokens]
  refine EdgeLines.keep _ "b c".toList _ _ _ ((stripped_iff _ _).2 (by decide)) ?_ ((C70_split _ _ _).1 (by decide)) EdgeLines.nil
  rw [hi]; simp [commentTokens]

example : read {} number number [] "#\na b 2\nb c".toList =
    some ([(['a'], 0), (['b'], 1), (['c'], 2)], [⟨[0], 0⟩, ⟨[1], 0⟩, ⟨[1, 0], 2⟩, ⟨[2], 0⟩, ⟨[2, 1], 0⟩]) := by
  decide +kernel

/-- Reading "a b" and then "a c" with the same reader: the second graph has a single vertex. -/
example : read {} number number [] "a b\n".toList = some ([(['a'], 0), (['b'], 1)], [⟨[0], 0⟩, ⟨[1], 0⟩, ⟨[1, 0], 0⟩]) ∧
    read {} number number [(['a'], 0), (['b'], 1)] "a c\n".toList = some ([(['a'], 0), (['b'], 1), (['c'], 0)], [⟨[0], 0⟩]) := by
  decide +kernel

/-- Numbers and labels in the same file are mixed up: the label `x` becomes vertex 0. -/
example : read {} number number [] "0 1\nx y\n".toList =
    some ([(['x'], 0), (['y'], 1)], [⟨[0], 0⟩, ⟨[1], 0⟩, ⟨[1, 0], 0⟩]) ∧
    read {} number number [] "0\n".toList = none := by
  decide +kernel

end EdgeListReader

end Aleph
