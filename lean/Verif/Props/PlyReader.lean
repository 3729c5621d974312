import Verif.Model.PlyReader
import Verif.Spec.PlyReader
import Verif.Props.VtkReader
import Verif.Props.Complex

/-!
# C137: PLY files
-/

namespace Aleph.PlyReader

open Spec Spec.Ply Spec.Triangulation Spec.Pajek VtkReader

variable {α : Type}

/-! ### Weights -/

/-- The simplices of the vertices. -/
def vertexEntries (weights : List α) : List (List ℕ × α) := VtkReader.vertexEntries weights

theorem collect_sets [Zero α] (weights : List α) (E : List (List ℕ × α)) (hE : ∀ e ∈ E, e.2 = 0 ∧ 2 ≤ e.1.toFinset.card) :
    WF (Complex.insertRange [] (vertices weights ++ E.map fun e => Simplex.ofRange e.1 e.2)).1 ∧
    ∀ t d, HasData (Complex.insertRange [] (vertices weights ++ E.map fun e => Simplex.ofRange e.1 e.2)).1 t d ↔
      (∃ v, weights[v]? = some d ∧ t = {v}) ∨ ∃ e ∈ E, e.1.toFinset = t ∧ d = 0 := by
  have hc : Collects (Complex.insertRange [] (vertices weights ++ E.map fun e => Simplex.ofRange e.1 e.2)).1 (vertexEntries weights ++ E) := by
    rw [vertices_eq, ← List.map_append]
    refine insertRange_collects _ ?_
    intro e he
    rcases List.mem_append.1 he with he | he
    · obtain ⟨v, _, h⟩ := (mem_vertexEntries _ _).1 he
      simp [h]
    · have := (hE e he).2
      intro h
      rw [h] at this
      simp at this
  refine ⟨hc.1, fun t d => ?_⟩
  rw [hc.hasData]
  · constructor
    · rintro ⟨e, he, rfl, rfl⟩
      rcases List.mem_append.1 he with he | he
      · obtain ⟨v, h1, h2⟩ := (mem_vertexEntries _ _).1 he
        exact Or.inl ⟨v, h1, by rw [h2]; rfl⟩
      · exact Or.inr ⟨e, he, rfl, (hE e he).1⟩
    · rintro (⟨v, h1, rfl⟩ | ⟨e, he, rfl, rfl⟩)
      · exact ⟨([v], d), List.mem_append_left _ ((mem_vertexEntries _ _).2 ⟨v, h1, rfl⟩), rfl, rfl⟩
      · exact ⟨e, List.mem_append_right _ he, rfl, (hE e he).1⟩
  · intro e he e' he' heq
    rcases List.mem_append.1 he with he | he <;> rcases List.mem_append.1 he' with he' | he'
    · obtain ⟨v, h1, h2⟩ := (mem_vertexEntries _ _).1 he
      obtain ⟨w, h3, h4⟩ := (mem_vertexEntries _ _).1 he'
      rw [h2, h4] at heq
      obtain rfl : v = w := by simpa using heq
      rw [h1] at h3
      exact Option.some.inj h3
    · obtain ⟨v, h1, h2⟩ := (mem_vertexEntries _ _).1 he
      have := (hE e' he').2
      rw [← heq, h2] at this
      simp at this
    · obtain ⟨v, h1, h2⟩ := (mem_vertexEntries _ _).1 he'
      have := (hE e he).2
      rw [heq, h2] at this
      simp at this
    · rw [(hE e he).1, (hE e' he').1]

theorem finish_spec [Zero α] [LinearOrder α] (lo hi : α) (hlo : ∀ a, lo ≤ a) (weights : List α) (E : List (List ℕ × α)) (S : Finset ℕ → Prop) (hE : ∀ e ∈ E, e.2 = 0 ∧ 2 ≤ e.1.toFinset.card)
    (hS : ∀ t, (∃ e ∈ E, e.1.toFinset = t) ↔ S t) (hdown : ∀ t, S t → ∀ u ⊆ t, 2 ≤ u.card → S u) (hin : ∀ t, S t → ∀ v ∈ t, v < weights.length) :
    let K := finish lo hi (vertices weights ++ E.map fun e => Simplex.ofRange e.1 e.2)
    WF K ∧ FaceClosed K ∧ (∀ t d, HasData K t d ↔ ((∃ v < weights.length, t = {v}) ∨ S t) ∧ Maximum weights t d) ∧ K.Pairwise (fun s t => s.data ≤ t.data) ∧ FacesFirst K := by
  intro K
  obtain ⟨hwf, hdata⟩ := collect_sets weights E hE
  set K0 := (Complex.insertRange [] (vertices weights ++ E.map fun e => Simplex.ofRange e.1 e.2)).1 with hK0
  have hset : ∀ t, (∃ s ∈ K0, s.vset = t) ↔ (∃ v < weights.length, t = {v}) ∨ S t := by
    intro t
    constructor
    · rintro ⟨s, hs, rfl⟩
      rcases (hdata s.vset s.data).1 ⟨s, hs, rfl, rfl⟩ with ⟨v, h1, h2⟩ | ⟨e, he, h1, _⟩
      · exact Or.inl ⟨v, (List.getElem?_eq_some_iff.1 h1).1, h2⟩
      · exact Or.inr ((hS _).1 ⟨e, he, h1⟩)
    · rintro (⟨v, hv, rfl⟩ | h)
      · obtain ⟨s, hs, h1, _⟩ := (hdata {v} weights[v]).2 (Or.inl ⟨v, List.getElem?_eq_getElem hv, rfl⟩)
        exact ⟨s, hs, h1⟩
      · obtain ⟨e, he, h1⟩ := (hS t).2 h
        obtain ⟨s, hs, h2, _⟩ := (hdata t 0).2 (Or.inr ⟨e, he, h1, rfl⟩)
        exact ⟨s, hs, h2⟩
  have hclosed : FaceClosed K0 := by
    intro s hs t ht hne
    rw [hset]
    have hs' := (hset s.vset).1 ⟨s, hs, rfl⟩
    by_cases hcard : 2 ≤ t.card
    · rcases hs' with ⟨v, _, h⟩ | h
      · rw [h] at ht
        have := Finset.card_le_card ht
        simp at this
        omega
      · exact Or.inr (hdown _ h t ht hcard)
    · have : t.card = 1 := by have := Finset.card_pos.2 hne; omega
      obtain ⟨v, rfl⟩ := Finset.card_eq_one.1 this
      refine Or.inl ⟨v, ?_, rfl⟩
      have hv := ht (Finset.mem_singleton_self v)
      rcases hs' with ⟨w, hw, h⟩ | h
      · rw [h] at hv
        rw [Finset.mem_singleton.1 hv]
        exact hw
      · exact hin _ h v hv
  obtain ⟨h1, h2, h3, h4⟩ := C25_recalculateWeights_max lo hi false K0 hwf hclosed fun s _ => hlo _
  simp only [Bool.false_eq_true, if_false] at h2 h3
  set K1 := Complex.recalculateWeights lo hi true false K0 with hK1
  have hmono : Spec.Monotone K1 := h4 (by simp)
  have hwf1 : WF K1 := hwf.of_vertices h1
  have hcl1 : FaceClosed K1 := hclosed.of_vertices h1
  have hset1 : ∀ t, (∃ s ∈ K1, s.vset = t) ↔ (∃ v < weights.length, t = {v}) ∨ S t := by
    intro t
    rw [← hset]
    have hm : K1.map Simplex.vset = K0.map Simplex.vset := by
      have := congrArg (List.map List.toFinset) h1
      rw [List.map_map, List.map_map] at this
      exact this
    have : (∃ s ∈ K1, s.vset = t) ↔ t ∈ K1.map Simplex.vset := by simp
    rw [this, hm]
    simp
  have hmax : ∀ n, ∀ s ∈ K1, s.vset.card = n → Maximum weights s.vset s.data := by
    intro n
    induction n using Nat.strong_induction_on with
    | _ n ih =>
      intro s hs hn
      have hpos : 0 < s.vset.card := by
        rcases (hset1 s.vset).1 ⟨s, hs, rfl⟩ with ⟨v, _, h⟩ | h
        · rw [h]; simp
        · obtain ⟨e, he, h'⟩ := (hS _).2 h
          have := (hE e he).2
          rw [h'] at this
          omega
      by_cases hcard : 2 ≤ s.vset.card
      · obtain ⟨⟨t, ht, hts⟩, hub⟩ := h3 s hs hcard
        obtain ⟨ht1, ht2, ht3⟩ := ht
        have hih := ih t.vset.card (by omega) t ht1 rfl
        have hts' : t.data = s.data := hts
        refine ⟨?_, ?_⟩
        · obtain ⟨v, hv, hw⟩ := hih.1
          exact ⟨v, ht2 hv, by rw [hw, hts']⟩
        · rintro a ⟨v, hv, hw⟩
          obtain ⟨u, hu, huv⟩ := Finset.exists_mem_ne (s := s.vset) (by omega) v
          obtain ⟨t', ht', he⟩ := hcl1 s hs (s.vset.erase u) (Finset.erase_subset _ _) ⟨v, Finset.mem_erase.2 ⟨fun h => huv h.symm, hv⟩⟩
          have hc : t'.vset.card + 1 = s.vset.card := by
            rw [he, Finset.card_erase_of_mem hu]
            omega
          have hih' := ih t'.vset.card (by omega) t' ht' rfl
          have hle := hub ⟨t', ⟨ht', by rw [he]; exact Finset.erase_subset _ _, hc⟩, rfl⟩
          refine le_trans (hih'.2 ⟨v, ?_, hw⟩) hle
          rw [he]
          exact Finset.mem_erase.2 ⟨fun h => huv h.symm, hv⟩
      · have h1' : s.vset.card = 1 := by omega
        rcases (hset1 s.vset).1 ⟨s, hs, rfl⟩ with ⟨v, hv, h⟩ | h
        · obtain ⟨s0, hs0, e1, e2⟩ := (hdata {v} weights[v]).2 (Or.inl ⟨v, List.getElem?_eq_getElem hv, rfl⟩)
          have hs1 := h2 s0 hs0 (by rw [e1]; simp)
          have : s0 = s := hwf1.eq_of_vset hs1 hs (by rw [e1, h])
          subst this
          rw [h]
          refine ⟨⟨v, by simp, by rw [e2]; exact List.getElem?_eq_getElem hv⟩, ?_⟩
          rintro a ⟨w, hw, hwa⟩
          rw [Finset.mem_singleton.1 hw, List.getElem?_eq_getElem hv] at hwa
          rw [e2]
          exact (Option.some.inj hwa).symm.le
        · obtain ⟨e, he, h'⟩ := (hS _).2 h
          have := (hE e he).2
          rw [h'] at this
          omega
  obtain ⟨hp, hle, hff⟩ := sortData_spec hwf1
  have hK : K = K1.sort (asLt (Filtration.data fun a b => decide (a < b))) := rfl
  rw [hK]
  refine ⟨hwf1.perm hp, ?_, ?_, hle, hff.2 hmono⟩
  · intro s hs t ht hne
    obtain ⟨u, hu, hut⟩ := hcl1 s (hp.subset hs) t ht hne
    exact ⟨u, hp.symm.subset hu, hut⟩
  · intro t d
    constructor
    · rintro ⟨s, hs, rfl, rfl⟩
      have hs := hp.subset hs
      exact ⟨(hset1 _).1 ⟨s, hs, rfl⟩, hmax _ s hs rfl⟩
    · rintro ⟨h, hm⟩
      obtain ⟨s, hs, rfl⟩ := (hset1 t).2 h
      exact ⟨s, hp.symm.subset hs, rfl, (hmax _ s hs rfl).unique hm⟩

/-! ### Faces -/

/-- The invariant of the loop over faces: simplices consist of the vertices and the simplices of a set, and the known edges are those of the set. -/
def Inv [Zero α] (V : List (Simplex α)) (S : Finset ℕ → Prop) (st : List (ℕ × ℕ) × List (Simplex α)) : Prop :=
  ∃ E : List (List ℕ × α), st.2 = V ++ E.map (fun e => Simplex.ofRange e.1 e.2) ∧ (∀ e ∈ E, e.2 = 0 ∧ 2 ≤ e.1.toFinset.card) ∧
    (∀ u v, v < u → ((u, v) ∈ st.1 ↔ S {u, v})) ∧ ∀ t, (∃ e ∈ E, e.1.toFinset = t) ↔ S t

theorem addEdge_spec [Zero α] {V : List (Simplex α)} {S : Finset ℕ → Prop} {st : List (ℕ × ℕ) × List (Simplex α)} (h : Inv V S st) {u v : ℕ} (hvu : v < u) :
    ∃ st', addEdge st [u, v] = .ok st' ∧ Inv V (fun t => S t ∨ t = {u, v}) st' := by
  obtain ⟨E, h1, h2, h3, h4⟩ := h
  rw [addEdge]
  simp only [if_neg (Nat.not_lt.2 hvu.le)]
  split_ifs with hm
  · refine ⟨st, rfl, E, h1, h2, ?_, ?_⟩
    · intro a b hba
      rw [h3 a b hba]
      constructor
      · exact Or.inl
      · rintro (h | h)
        · exact h
        · rw [h]; exact (h3 u v hvu).1 hm
    · intro t
      rw [h4]
      constructor
      · exact Or.inl
      · rintro (h | rfl)
        · exact h
        · exact (h3 u v hvu).1 hm
  · refine ⟨_, rfl, E ++ [([u, v], 0)], by simp [h1], ?_, ?_, ?_⟩
    · intro e he
      rcases List.mem_append.1 he with he | he
      · exact h2 e he
      · rw [List.mem_singleton.1 he]
        refine ⟨rfl, ?_⟩
        rw [List.toFinset_card_of_nodup (by simp; omega)]
        simp
    · intro a b hba
      rw [List.mem_cons, h3 a b hba, Prod.mk.injEq, or_comm]
      refine or_congr Iff.rfl ⟨?_, ?_⟩
      · rintro ⟨rfl, rfl⟩
        rfl
      · intro h
        have m1 : a ∈ ({u, v} : Finset ℕ) := h ▸ (by simp)
        have m2 : b ∈ ({u, v} : Finset ℕ) := h ▸ (by simp)
        simp only [Finset.mem_insert, Finset.mem_singleton] at m1 m2
        omega
    · intro t
      change _ ↔ S t ∨ t = {u, v}
      rw [← h4]
      simp only [List.mem_append, List.mem_singleton, or_and_right, exists_or, exists_eq_left]
      refine or_congr Iff.rfl ?_
      simp [eq_comm]

theorem triangle_vertices {i j k : ℕ} (h : Distinct (i, j, k)) (d : α) : ∃ a b c : ℕ, c < b ∧ b < a ∧ (Simplex.ofRange [i, j, k] d).vertices = [a, b, c] ∧ ({a, b, c} : Finset ℕ) = {i, j, k} := by
  have hn := ofRange_normal [i, j, k] d
  have hv := ofRange_vset [i, j, k] d
  obtain ⟨h1, h2, h3⟩ := h
  simp only at h1 h2 h3
  have hl : (Simplex.ofRange [i, j, k] d).vertices.length = 3 := by
    have := hn.length_eq
    rw [Simplex.vset] at hv
    rw [this, hv, List.toFinset_card_of_nodup (by simp [h1, h2, h3])]
    simp
  rw [Simplex.vset] at hv
  match hs : (Simplex.ofRange [i, j, k] d).vertices, hl with
  | [a, b, c], _ =>
    rw [hs] at hn hv
    refine ⟨a, b, c, ?_, ?_, rfl, ?_⟩
    · simp [Normal] at hn; omega
    · simp [Normal] at hn; omega
    · simpa using hv

theorem faces_three {a b c : ℕ} (hcb : c < b) (hba : b < a) (d : α) : (⟨[a, b, c], d⟩ : Simplex α).faces = [[b, c], [a, c], [a, b]] := by
  have h1 : (a ≥ b) = True := by simp; omega
  have h2 : (b ≥ c) = True := by simp; omega
  have h3 : (a ≥ c) = True := by simp; omega
  have n1 : b ≠ a := by omega
  have n2 : c ≠ a := by omega
  have n3 : c ≠ b := by omega
  have u : ∀ {x y : ℕ}, y < x → uniq (([x, y] : List ℕ).insertionSort (· ≥ ·)) = [x, y] := by
    intro x y h
    have e : ([x, y] : List ℕ).insertionSort (· ≥ ·) = [x, y] := by
      simp [List.insertionSort, h.le]
    rw [e]
    simp [uniq]
    omega
  simp only [Simplex.faces, List.length_cons, List.length_nil, List.map_cons, List.map_nil]
  rw [if_neg (by omega)]
  have f1 : [a, b, c].filter (fun x => decide (x ≠ a)) = [b, c] := by simp [n1, n2]
  have f2 : [a, b, c].filter (fun x => decide (x ≠ b)) = [a, c] := by simp [n1.symm, n3]
  have f3 : [a, b, c].filter (fun x => decide (x ≠ c)) = [a, b] := by simp [n2.symm, n3.symm]
  rw [f1, f2, f3, u hcb, u (hcb.trans hba), u hba]

theorem subset_three {a b c : ℕ} (hcb : c < b) (hba : b < a) (t : Finset ℕ) : (t ⊆ {a, b, c} ∧ 2 ≤ t.card) ↔ t = {b, c} ∨ t = {a, c} ∨ t = {a, b} ∨ t = {a, b, c} := by
  have hab : a ≠ b := by omega
  have hac : a ≠ c := by omega
  have hbc : b ≠ c := by omega
  constructor
  · rintro ⟨h1, h2⟩
    have hmem : ∀ x ∈ t, x = a ∨ x = b ∨ x = c := by
      intro x hx
      simpa using h1 hx
    have hext : ∀ u : Finset ℕ, u ⊆ {a, b, c} → (a ∈ t ↔ a ∈ u) → (b ∈ t ↔ b ∈ u) → (c ∈ t ↔ c ∈ u) → t = u := by
      intro u hu ea eb ec
      ext x
      constructor
      · intro hx
        rcases hmem x hx with rfl | rfl | rfl
        · exact ea.1 hx
        · exact eb.1 hx
        · exact ec.1 hx
      · intro hx
        have := hu hx
        simp only [Finset.mem_insert, Finset.mem_singleton] at this
        rcases this with rfl | rfl | rfl
        · exact ea.2 hx
        · exact eb.2 hx
        · exact ec.2 hx
    by_cases ha : a ∈ t <;> by_cases hb : b ∈ t <;> by_cases hc : c ∈ t
    · exact Or.inr (Or.inr (Or.inr (hext _ (by simp) (by simp [ha]) (by simp [hb]) (by simp [hc]))))
    · exact Or.inr (Or.inr (Or.inl (hext _ (by intro x; simp; tauto) (by simp [ha]) (by simp [hb]) (by simp [hc, hac.symm, hbc.symm]))))
    · exact Or.inr (Or.inl (hext _ (by intro x; simp; tauto) (by simp [ha]) (by simp [hb, hab.symm, hbc]) (by simp [hc])))
    · exfalso
      have : t ⊆ {a} := by
        intro x hx
        rcases hmem x hx with rfl | rfl | rfl <;> simp_all
      have := Finset.card_le_card this
      simp at this
      omega
    · exact Or.inl (hext _ (by intro x; simp; tauto) (by simp [ha, hab, hac]) (by simp [hb]) (by simp [hc]))
    · exfalso
      have : t ⊆ {b} := by
        intro x hx
        rcases hmem x hx with rfl | rfl | rfl <;> simp_all
      have := Finset.card_le_card this
      simp at this
      omega
    · exfalso
      have : t ⊆ {c} := by
        intro x hx
        rcases hmem x hx with rfl | rfl | rfl <;> simp_all
      have := Finset.card_le_card this
      simp at this
      omega
    · exfalso
      have : t = ∅ := by
        rw [Finset.eq_empty_iff_forall_notMem]
        intro x hx
        rcases hmem x hx with rfl | rfl | rfl <;> simp_all
      rw [this] at h2
      simp at h2
  · rintro (rfl | rfl | rfl | rfl)
    · exact ⟨by intro x; simp; tauto, by rw [Finset.card_pair hbc]⟩
    · exact ⟨by intro x; simp; tauto, by rw [Finset.card_pair hac]⟩
    · exact ⟨by intro x; simp; tauto, by rw [Finset.card_pair hab]⟩
    · refine ⟨by simp, ?_⟩
      rw [Finset.card_eq_three.2 ⟨a, b, c, hab, hac, hbc, rfl⟩]
      omega

theorem addTriangle_spec [Zero α] {V : List (Simplex α)} {S : Finset ℕ → Prop} {st : List (ℕ × ℕ) × List (Simplex α)} (h : Inv V S st) {f : ℕ × ℕ × ℕ} (hf : Distinct f) :
    ∃ st', addTriangle st f.1 f.2.1 f.2.2 = .ok st' ∧ Inv V (fun t => S t ∨ (t ⊆ corners f ∧ 2 ≤ t.card)) st' := by
  obtain ⟨i, j, k⟩ := f
  obtain ⟨a, b, c, hcb, hba, hv, hs⟩ := triangle_vertices hf (0 : α)
  have hT : (Simplex.ofRange [i, j, k] (0 : α)).faces = [[b, c], [a, c], [a, b]] := by
    have := faces_three hcb hba (0 : α)
    rw [Simplex.faces] at this ⊢
    rw [hv]
    exact this
  obtain ⟨s1, e1, i1⟩ := addEdge_spec h hcb
  obtain ⟨s2, e2, i2⟩ := addEdge_spec i1 (hcb.trans hba)
  obtain ⟨s3, e3, i3⟩ := addEdge_spec i2 hba
  have hfold : (Simplex.ofRange [i, j, k] (0 : α)).faces.foldlM addEdge st = .ok s3 := by
    rw [hT]
    simp only [List.foldlM_cons, List.foldlM_nil, e1, e2, e3, bind, Except.bind]
    rfl
  refine ⟨(s3.1, s3.2 ++ [Simplex.ofRange [i, j, k] 0]), by simp only [addTriangle, hfold]; rfl, ?_⟩
  obtain ⟨E, h1, h2, h3, h4⟩ := i3
  have hcard : ([i, j, k] : List ℕ).toFinset.card = 3 := by
    obtain ⟨n1, n2, n3⟩ := hf
    simp only at n1 n2 n3
    rw [List.toFinset_card_of_nodup (by simp [n1, n2, n3])]
    simp
  have hset : ∀ t : Finset ℕ, (t ⊆ corners (i, j, k) ∧ 2 ≤ t.card) ↔ t = {b, c} ∨ t = {a, c} ∨ t = {a, b} ∨ t = {i, j, k} := by
    intro t
    rw [corners, ← hs]
    exact subset_three hcb hba t
  refine ⟨E ++ [([i, j, k], 0)], by simp [h1], ?_, ?_, ?_⟩
  · intro e he
    rcases List.mem_append.1 he with he | he
    · exact h2 e he
    · rw [List.mem_singleton.1 he]
      exact ⟨rfl, by simp only [hcard]; omega⟩
  · intro u v hvu
    rw [h3 u v hvu]
    simp only [hset]
    have : ({u, v} : Finset ℕ) ≠ {i, j, k} := by
      intro e
      have := congrArg Finset.card e
      have hc3 : ({i, j, k} : Finset ℕ).card = 3 := by simpa using hcard
      rw [hc3, Finset.card_pair (by omega)] at this
      omega
    tauto
  · intro t
    simp only [hset, List.mem_append, List.mem_singleton, or_and_right, exists_or, exists_eq_left, h4]
    have : ([i, j, k] : List ℕ).toFinset = {i, j, k} := by simp
    rw [this, @eq_comm _ _ t]
    tauto

theorem addFace_spec [Zero α] (number : List Char → Option ℕ) (hnum : ∀ d v, Numeral d v → number d = some v) {V : List (Simplex α)} {S : Finset ℕ → Prop}
    {st : List (ℕ × ℕ) × List (Simplex α)} (h : Inv V S st) {l : List Char} {f : ℕ × ℕ × ℕ} (hl : FaceLine l f) (hf : Distinct f) :
    ∃ st', addFace number st l = .ok st' ∧ Inv V (fun t => S t ∨ (t ⊆ corners f ∧ 2 ≤ t.card)) st' := by
  obtain ⟨count, a, b, c, rest, hw, h0, h1, h2, h3⟩ := hl
  obtain ⟨st', e, hi⟩ := addTriangle_spec h hf
  refine ⟨st', ?_, hi⟩
  rw [addFace, words_iff.1 hw]
  simp only [hnum _ _ h0, hnum _ _ h1, hnum _ _ h2, hnum _ _ h3, e]

/-- The edges and triangles of faces. -/
def FaceSet (faces : List (ℕ × ℕ × ℕ)) (t : Finset ℕ) : Prop := ∃ f ∈ faces, t ⊆ corners f ∧ 2 ≤ t.card

theorem readFaces_spec [Zero α] (number : List Char → Option ℕ) (hnum : ∀ d v, Numeral d v → number d = some v) (terminated : Bool) {V : List (Simplex α)} {ls : List (List Char)}
    {faces : List (ℕ × ℕ × ℕ)} (hl : List.Forall₂ FaceLine ls faces) : (∀ f ∈ faces, Distinct f) → ∀ (S : Finset ℕ → Prop) (st : List (ℕ × ℕ) × List (Simplex α)) (line : List Char)
    (rest : List (List Char)) (k : ℕ), Inv V S st → ∃ st' line', readFaces number terminated (faces.length + k) st line (ls ++ rest) = readFaces number terminated k st' line' rest ∧
      Inv V (fun t => S t ∨ FaceSet faces t) st' ∧ ((ls = [] ∧ line' = line) ∨ ls.getLast? = some line') := by
  induction hl with
  | nil =>
    intro _ S st line rest k h
    refine ⟨st, line, by simp, ?_, Or.inl ⟨rfl, rfl⟩⟩
    simpa [FaceSet] using h
  | @cons l f ls faces hl hls ih =>
    intro hf S st line rest k h
    obtain ⟨st1, e1, i1⟩ := addFace_spec number hnum h hl (hf f List.mem_cons_self)
    obtain ⟨st2, line', e2, i2, h2⟩ := ih (fun g hg => hf g (List.mem_cons_of_mem _ hg)) _ st1 l rest k i1
    refine ⟨st2, line', ?_, ?_, Or.inr ?_⟩
    · rw [List.length_cons, Nat.add_right_comm, readFaces]
      simp only [List.cons_append, nextLine, e1]
      exact e2
    · have : (fun t => (S t ∨ t ⊆ corners f ∧ 2 ≤ t.card) ∨ FaceSet faces t) = fun t => S t ∨ FaceSet (f :: faces) t := by
        funext t
        simp only [FaceSet, List.mem_cons, or_and_right, exists_or, exists_eq_left, or_assoc]
      rwa [this] at i2
    · rcases h2 with ⟨rfl, rfl⟩ | h2
      · rfl
      · rw [List.getLast?_cons, h2]
        rfl


/-! ### Vertices -/

/-- Names of properties with consecutive indices. -/
def numbered (start : ℕ) (names : List (List Char)) : List (List Char × ℕ) := names.mapIdx fun i a => (a, start + i)

theorem numbered_cons (start : ℕ) (a : List Char) (names : List (List Char)) : numbered start (a :: names) = (a, start) :: numbered (start + 1) names := by
  rw [numbered, List.mapIdx_cons, numbered]
  simp [Nat.add_assoc, Nat.add_comm 1]

theorem numbered_append (start : ℕ) (a b : List (List Char)) : numbered start (a ++ b) = numbered start a ++ numbered (start + a.length) b := by
  rw [numbered, List.mapIdx_append, numbered, numbered]
  simp [Nat.add_assoc, Nat.add_comm a.length]

theorem index_spec (names : List (List Char)) (c : List Char) : ∀ start, getPropertyIndex (numbered start names) c = if c ∈ names then some (start + names.idxOf c) else none := by
  induction names with
  | nil => intro start; rfl
  | cons a names ih =>
    intro start
    rw [numbered_cons, getPropertyIndex, List.find?_cons]
    by_cases h : a = c
    · subst h
      simp
    · have hb : (a == c) = false := by simpa using h
      have := ih (start + 1)
      rw [getPropertyIndex] at this
      simp only [hb, this, List.mem_cons, Ne.symm h, false_or]
      rw [List.idxOf_cons_ne _ h]
      split_ifs
      · congr 1
        omega
      · rfl

theorem coordinate_spec (real : List Char → Bool) {names ws : List (List Char)} {c s : List Char} (hc : c ∈ names) (hs : ws[names.idxOf c]? = some s) (hr : real s = true) (others : List (List Char)) :
    coordinate real (numbered 0 (names ++ others)) ws c = true := by
  rw [coordinate, index_spec, if_pos (List.mem_append_left _ hc), List.idxOf_append_of_mem hc]
  simp [hs, hr]

theorem vertexOf_spec [Zero α] (real : List Char → Bool) (convert : List Char → α) (property : List Char) (names others : List (List Char)) {l : List Char} {w : α}
    (h : VertexLine real convert property names l w) (hp : property = [] ∨ property ∈ names ∨ property ∉ others) (i : ℕ) :
    vertexOf real convert property (numbered 0 (names ++ others)) i (Strings.split Strings.isSpace (Strings.trim l)) = .ok (Simplex.ofVertex i w) := by
  obtain ⟨ws, hw, hc, hd⟩ := h
  have hne : ws ≠ [] := by
    rintro rfl
    obtain ⟨_, s, hs, _⟩ := hc ['x'] (by simp)
    simp at hs
  rw [tokens_split (Or.inl ⟨hw, hne⟩)]
  obtain ⟨x1, sx, x2, x3⟩ := hc ['x'] (by simp)
  obtain ⟨y1, sy, y2, y3⟩ := hc ['y'] (by simp)
  obtain ⟨z1, sz, z2, z3⟩ := hc ['z'] (by simp)
  have hweight : weight convert property (numbered 0 (names ++ others)) ws = some w := by
    rw [weight]
    rcases hd with ⟨h1, h2, s, h3, rfl⟩ | ⟨h1, rfl⟩
    · rw [index_spec, if_pos (List.mem_append_left _ h2), List.idxOf_append_of_mem h2]
      simp [h1, h3]
    · by_cases h0 : property = []
      · rw [if_pos (by rw [h0]; rfl)]
      · have hn : property ∉ names := h1.resolve_left h0
        have ho : property ∉ others := (hp.resolve_left h0).resolve_left hn
        rw [index_spec, if_neg (c := property ∈ names ++ others) (by simp [hn, ho])]
        split <;> rfl
  rw [vertexOf, coordinate_spec real x1 x2 x3, coordinate_spec real y1 y2 y3, coordinate_spec real z1 z2 z3, hweight]
  rfl

theorem readVertices_spec [Zero α] (real : List Char → Bool) (convert : List Char → α) (property : List Char) (names others : List (List Char))
    (hp : property = [] ∨ property ∈ names ∨ property ∉ others) (terminated : Bool) {ls : List (List Char)} {weights : List α} (h : List.Forall₂ (VertexLine real convert property names) ls weights)
    (rest : List (List Char)) : ∀ (i : ℕ) (line : List Char), ∃ line', readVertices real convert property (numbered 0 (names ++ others)) terminated weights.length i line (ls ++ rest) =
      .ok (weights.mapIdx fun v w => Simplex.ofVertex (i + v) w, line', rest) := by
  induction h with
  | nil => intro i line; exact ⟨line, by simp [readVertices]⟩
  | @cons l w ls weights hl _ ih =>
    intro i line
    obtain ⟨line', e⟩ := ih (i + 1) (Strings.trim l)
    refine ⟨line', ?_⟩
    rw [List.length_cons, readVertices]
    simp only [List.cons_append, nextLine, vertexOf_spec real convert property names others hl hp i, e, List.mapIdx_cons]
    simp [Nat.add_assoc, Nat.add_comm 1]

/-! ### Header -/

theorem words_prefix {l w : List Char} {ws : List (List Char)} (h : Words l (w :: ws)) : ∃ r, Strings.trim l = w ++ r ∧ Strings.extract [] (Strings.trim r) = ws := by
  have hw0 : w ≠ [] := words_nonempty h w (by simp)
  obtain ⟨hw, hh, hl⟩ := (fields_iff (l := Strings.trim l) hw0).1 (fields_trim h (by simp))
  have hr : ∀ r, Strings.extract [] (Strings.trim r) = Strings.extract [] r := by
    intro r
    have h1 := MatrixReader.tokens_eq r
    have h2 := MatrixReader.tokens_eq (Strings.trim r)
    have h3 : Strings.trim (Strings.trim r) = Strings.trim r := by
      obtain ⟨_, _, h1, h2⟩ := C70_trim r
      refine TriangulationReader.trim_content (TriangulationReader.content_self ?_ ?_)
      · intro c hc
        rw [notBlank_iff]
        exact h1 c hc
      · intro c hc
        rw [notBlank_iff]
        exact h2 c hc
    rw [h3, h1] at h2
    obtain ⟨u, hu⟩ := MatrixReader.words_exist r
    obtain ⟨v, hv⟩ := MatrixReader.words_exist (Strings.trim r)
    rw [words_iff.1 hu, words_iff.1 hv] at h2
    rw [words_iff.1 hu, words_iff.1 hv]
    split_ifs at h2 with a b b
    · rw [a, b]
    · exact absurd rfl (words_nonempty hv [] (by rw [← h2]; simp))
    · exact absurd rfl (words_nonempty hu [] (by rw [h2]; simp))
    · exact h2.symm
  generalize Strings.trim l = T at *
  cases hw with
  | last g t h1 h2 h3 =>
    cases g with
    | nil => exact ⟨[], by simp, by rw [hr]; rfl⟩
    | cons u g => exact absurd (h1 u (by simp)) (hh u rfl)
  | cons g t c s ts h1 h2 h3 h4 h5 =>
    cases g with
    | nil =>
      refine ⟨c :: s, by simp, ?_⟩
      rw [hr, ← words_iff]
      cases h5 with
      | nil s hs => exact .nil _ (by intro x hx; rcases List.mem_cons.1 hx with rfl | hx; exacts [h4, hs x hx])
      | last g t' a1 a2 a3 => exact .last (c :: g) t' (by intro x hx; rcases List.mem_cons.1 hx with rfl | hx; exacts [h4, a1 x hx]) a2 a3
      | cons g t' c' s' ts' a1 a2 a3 a4 a5 =>
        exact .cons (c :: g) t' c' s' ts' (by intro x hx; rcases List.mem_cons.1 hx with rfl | hx; exacts [h4, a1 x hx]) a2 a3 a4 a5
    | cons u g => exact absurd (h1 u (by simp)) (hh u rfl)

theorem take_prefix (p t : List Char) : t.take p.length = p ↔ p <+: t := by
  constructor
  · intro h
    rw [← h]
    exact List.take_prefix _ _
  · rintro ⟨r, rfl⟩
    simp

theorem known_eq : knownTypes = types := rfl

theorem take_append (p r : List Char) : (p ++ r).take p.length = p := by simp

theorem drop_append (p r : List Char) : (p ++ r).drop p.length = r := by simp

theorem skipped_line (number : List Char → Option ℕ) (h : Header) {l : List Char} (hl : Skipped l) : headerLine number h (Strings.trim l) = .ok h ∧ Strings.trim l ≠ "end_header".toList := by
  obtain ⟨t, hc, ht⟩ := hl
  rw [TriangulationReader.trim_content hc, headerLine]
  have e1 := take_prefix "comment".toList t
  have e2 := take_prefix "element".toList t
  have e3 := take_prefix "property".toList t
  change t.take 7 = _ ↔ _ at e1
  change t.take 7 = _ ↔ _ at e2
  change t.take 8 = _ ↔ _ at e3
  rcases ht with ht | ⟨h1, h2, h3⟩
  · rw [if_pos (e1.2 ht)]
    refine ⟨rfl, ?_⟩
    rintro rfl
    rw [← e1] at ht
    exact absurd ht (by decide)
  · rw [if_neg (c := t.take 7 = "element".toList) fun h => h1 (e2.1 h), if_neg (c := t.take 8 = "property".toList) fun h => h2 (e3.1 h)]
    refine ⟨?_, h3⟩
    split_ifs <;> rfl

theorem element_line (number : List Char → Option ℕ) (h : Header) {l name count : List Char} (hl : Words l ["element".toList, name, count]) :
    headerLine number h (Strings.trim l) = (match number count with
      | none => .error .exception
      | some n => if name = "vertex".toList then .ok { h with numVertices := n } else if name = "face".toList then .ok { h with numFaces := n } else .ok h) ∧
    Strings.trim l ≠ "end_header".toList := by
  obtain ⟨r, hr, he⟩ := words_prefix hl
  rw [hr, headerLine]
  have t7 : ("element".toList ++ r).take 7 = "element".toList := take_append "element".toList r
  have d7 : ("element".toList ++ r).drop 7 = r := drop_append "element".toList r
  rw [t7, d7, if_neg (by decide), if_pos rfl, parseElement, he]
  refine ⟨rfl, ?_⟩
  intro h
  have := congrArg (List.take 7) h
  rw [t7] at this
  exact absurd this (by decide)

theorem property_line (number : List Char → Option ℕ) (h : Header) {l : List Char} {ws : List (List Char)} {name : List Char} (hl : Words l ("property".toList :: ws))
    (hn : (∃ type, ws = [type, name] ∧ type ∈ types) ∨ ∃ size entry, ws = ["list".toList, size, entry, name] ∧ size ∈ types ∧ entry ∈ types) :
    headerLine number h (Strings.trim l) = .ok { h with properties := h.properties ++ [(name, h.propertyIndex)], propertyIndex := h.propertyIndex + 1 } ∧ Strings.trim l ≠ "end_header".toList := by
  obtain ⟨r, hr, he⟩ := words_prefix hl
  rw [hr, headerLine]
  have t8 : ("property".toList ++ r).take 8 = "property".toList := take_append "property".toList r
  have t7 : ("property".toList ++ r).take 7 = "propert".toList := by
    have : ("property".toList ++ r).take 7 = (("property".toList ++ r).take 8).take 7 := by rw [List.take_take]; rfl
    rw [this, t8]
    decide
  have d8 : ("property".toList ++ r).drop 8 = r := drop_append "property".toList r
  rw [t7, t8, d8, if_neg (by decide), if_neg (by decide), if_pos rfl, parseProperty]
  have hname : propertyName r = some name := by
    rw [propertyName, he]
    rcases hn with ⟨type, rfl, ht⟩ | ⟨size, entry, rfl, h1, h2⟩
    · have : type ≠ "list".toList := by
        rintro rfl
        exact absurd ht (by decide)
      simp only [this, if_false, known_eq, ht, if_true]
    · simp only [if_true, known_eq, h1, h2, and_self]
  rw [hname]
  refine ⟨rfl, ?_⟩
  intro h
  have := congrArg (List.take 8) h
  rw [t8] at this
  exact absurd this (by decide)

theorem parseHeader_step (number : List Char → Option ℕ) {h h' : Header} {l : List Char} (ls : List (List Char)) (h1 : headerLine number h (Strings.trim l) = .ok h')
    (h2 : Strings.trim l ≠ "end_header".toList) : parseHeader number h (l :: ls) = parseHeader number h' ls := by
  rw [parseHeader, h1]
  simp only [h2, if_false]

theorem properties_spec (number : List Char → Option ℕ) {ls names : List (List Char)} (hp : Properties ls names) (rest : List (List Char)) : ∀ h : Header,
    parseHeader number h (ls ++ rest) = parseHeader number { h with properties := h.properties ++ numbered h.propertyIndex names, propertyIndex := h.propertyIndex + names.length } rest := by
  induction hp with
  | nil => intro h; simp [numbered]
  | skip l ls names hl _ ih =>
    intro h
    obtain ⟨h1, h2⟩ := skipped_line number h hl
    rw [List.cons_append, parseHeader_step number _ h1 h2]
    exact ih h
  | scalar l type name ls names hl ht _ ih =>
    intro h
    obtain ⟨h1, h2⟩ := property_line number h (name := name) hl (Or.inl ⟨type, rfl, ht⟩)
    rw [List.cons_append, parseHeader_step number _ h1 h2, ih, numbered_cons]
    simp [Nat.add_assoc, Nat.add_comm 1]
  | list l size entry name ls names hl hs ht _ ih =>
    intro h
    obtain ⟨h1, h2⟩ := property_line number h (name := name) hl (Or.inr ⟨size, entry, rfl, hs, ht⟩)
    rw [List.cons_append, parseHeader_step number _ h1 h2, ih, numbered_cons]
    simp [Nat.add_assoc, Nat.add_comm 1]

theorem skips_spec (number : List Char → Option ℕ) (h : Header) {ls : List (List Char)} (hs : ∀ l ∈ ls, Skipped l) (rest : List (List Char)) : parseHeader number h (ls ++ rest) = parseHeader number h rest := by
  induction ls with
  | nil => rfl
  | cons l ls ih =>
    obtain ⟨h1, h2⟩ := skipped_line number h (hs l List.mem_cons_self)
    rw [List.cons_append, parseHeader_step number _ h1 h2]
    exact ih fun x hx => hs x (List.mem_cons_of_mem _ hx)

theorem format_spec {b g format : List Char} (hb : Content b ("format".toList ++ g ++ format)) (hg : Blanks g) (hf : format ∈ ["ascii 1.0".toList, "binary_little_endian 1.0".toList, "binary_big_endian 1.0".toList]) :
    parseFormat (Strings.trim b) = some (decide (format ≠ "ascii 1.0".toList)) := by
  have ht : Strings.trim (g ++ format) = format := by
    refine TriangulationReader.trim_content ⟨g, [], by simp, hg.2, by simp, ?_, ?_⟩
    · intro c hc
      rw [notBlank_iff]
      simp only [List.mem_cons, List.not_mem_nil, or_false] at hf
      rcases hf with rfl | rfl | rfl <;> (cases Option.some.inj hc; decide)
    · intro c hc
      rw [notBlank_iff]
      simp only [List.mem_cons, List.not_mem_nil, or_false] at hf
      rcases hf with rfl | rfl | rfl <;> (cases Option.some.inj hc; decide)
  rw [TriangulationReader.trim_content hb, parseFormat, List.append_assoc]
  have t6 : ("format".toList ++ (g ++ format)).take 6 = "format".toList := take_append "format".toList _
  have d6 : ("format".toList ++ (g ++ format)).drop 6 = g ++ format := drop_append "format".toList _
  rw [t6, d6, ht]
  simp only [List.mem_cons, List.not_mem_nil, or_false] at hf
  rcases hf with rfl | rfl | rfl <;> decide

/-- A file with a header is read as the remaining lines. -/
theorem read_header [Zero α] [LinearOrder α] (lo hi : α) (number : List Char → Option ℕ) (hnum : ∀ d v, Numeral d v → number d = some v) (real : List Char → Bool) (convert : List Char → α)
    (property text : List Char) {header rest : List (List Char)} {b : Bool} (hl : Lines text (header ++ rest) b) {format : List Char} {n m : ℕ} {names others : List (List Char)}
    (hh : HeaderLines header format n names m others) (hf : format ∈ ["ascii 1.0".toList, "binary_little_endian 1.0".toList, "binary_big_endian 1.0".toList]) :
    read lo hi number real convert property text =
      if n = 0 ∨ m = 0 then .error .assertion
      else if format ≠ "ascii 1.0".toList then .ok (finish lo hi [])
      else (parseASCII number real convert property (text.getLast? == some '\n') ⟨n, m, numbered 0 (names ++ others), (names ++ others).length⟩ rest).map (finish lo hi) := by
  obtain ⟨a, c, g, skipped, v, ps, f, qs, e, sn, sm, rfl, ha, hc, hg, hs, hv, hsn, hps, hfa, hsm, hqs, he⟩ := hh
  have hparse : parseHeader number {} (skipped ++ v :: (ps ++ f :: (qs ++ [e])) ++ rest) = .ok (⟨n, m, numbered 0 (names ++ others), (names ++ others).length⟩, rest) := by
    rw [List.append_assoc, skips_spec number _ hs, List.cons_append, List.append_assoc, List.cons_append, List.append_assoc]
    obtain ⟨v1, v2⟩ := element_line number {} hv
    rw [hnum _ _ hsn] at v1
    simp only [if_true] at v1
    rw [parseHeader_step number _ v1 v2, properties_spec number hps]
    simp only [List.nil_append, Nat.zero_add]
    obtain ⟨f1, f2⟩ := element_line number ⟨n, 0, numbered 0 names, names.length⟩ hfa
    have hne : "face".toList ≠ "vertex".toList := by decide
    rw [hnum _ _ hsm] at f1
    simp only [hne, if_false, if_true] at f1
    rw [parseHeader_step number _ f1 f2, properties_spec number hqs]
    rw [List.singleton_append, parseHeader, TriangulationReader.trim_content he]
    have : ∀ h : Header, headerLine number h "end_header".toList = .ok h := by
      intro h
      rw [headerLine, if_neg (by decide), if_neg (by decide), if_neg (by decide)]
    rw [this]
    simp only [if_true]
    rw [numbered_append]
    simp
  rw [read, getlines_spec _ _ _ hl]
  simp only [List.cons_append, TriangulationReader.trim_content ha, format_spec hc hg hf]
  rw [hparse]
  simp only [ne_eq, not_true_eq_false, if_false]
  refine if_congr Iff.rfl rfl ?_
  refine if_congr ?_ rfl rfl
  exact decide_eq_true_iff

theorem inv_start [Zero α] (V : List (Simplex α)) : Inv V (fun _ => False) (([] : List (ℕ × ℕ)), V) := ⟨[], by simp, by simp, by simp, by simp⟩

theorem faceSet_down {faces : List (ℕ × ℕ × ℕ)} {t : Finset ℕ} (h : FaceSet faces t) : ∀ u ⊆ t, 2 ≤ u.card → FaceSet faces u := by
  obtain ⟨f, hf, h1, _⟩ := h
  exact fun u hu hc => ⟨f, hf, hu.trans h1, hc⟩

theorem meshSimplex_iff {n : ℕ} {faces : List (ℕ × ℕ × ℕ)} (hin : ∀ f ∈ faces, f.1 < n ∧ f.2.1 < n ∧ f.2.2 < n) (t : Finset ℕ) : MeshSimplex n faces t ↔ (∃ v < n, t = {v}) ∨ FaceSet faces t := by
  constructor
  · rintro ⟨hne, h | ⟨f, hf, h⟩⟩
    · exact Or.inl h
    · by_cases hc : 2 ≤ t.card
      · exact Or.inr ⟨f, hf, h, hc⟩
      · have : t.card = 1 := by have := Finset.card_pos.2 hne; omega
        obtain ⟨v, rfl⟩ := Finset.card_eq_one.1 this
        refine Or.inl ⟨v, ?_, rfl⟩
        have hv := h (Finset.mem_singleton_self v)
        obtain ⟨h1, h2, h3⟩ := hin f hf
        simp only [corners, Finset.mem_insert, Finset.mem_singleton] at hv
        rcases hv with rfl | rfl | rfl <;> assumption
  · rintro (⟨v, hv, rfl⟩ | ⟨f, hf, h1, h2⟩)
    · exact ⟨by simp, Or.inl ⟨v, hv, rfl⟩⟩
    · exact ⟨Finset.card_pos.1 (by omega), Or.inr ⟨f, hf, h1⟩⟩

theorem faces_finish [Zero α] [LinearOrder α] (lo hi : α) (hlo : ∀ a, lo ≤ a) (weights : List α) {faces : List (ℕ × ℕ × ℕ)} (hin : ∀ f ∈ faces, f.1 < weights.length ∧ f.2.1 < weights.length ∧ f.2.2 < weights.length)
    {st : List (ℕ × ℕ) × List (Simplex α)} (h : Inv (vertices weights) (fun t => False ∨ FaceSet faces t) st) :
    WF (finish lo hi st.2) ∧ FaceClosed (finish lo hi st.2) ∧ (∀ t d, HasData (finish lo hi st.2) t d ↔ MeshSimplex weights.length faces t ∧ Maximum weights t d) ∧
      (finish lo hi st.2).Pairwise (fun s t => s.data ≤ t.data) ∧ FacesFirst (finish lo hi st.2) := by
  obtain ⟨E, h1, h2, _, h4⟩ := h
  have := finish_spec lo hi hlo weights E (FaceSet faces) h2 (by simpa using h4) (fun t ht u hu hc => faceSet_down ht u hu hc) ?_
  · rw [h1]
    obtain ⟨a1, a2, a3, a4, a5⟩ := this
    refine ⟨a1, a2, fun t d => ?_, a4, a5⟩
    rw [a3, meshSimplex_iff hin]
  · rintro t ⟨f, hf, ht, _⟩ v hv
    have hv := ht hv
    obtain ⟨h1, h2, h3⟩ := hin f hf
    simp only [corners, Finset.mem_insert, Finset.mem_singleton] at hv
    rcases hv with rfl | rfl | rfl <;> assumption

theorem parse_spec [Zero α] (number : List Char → Option ℕ) (hnum : ∀ d v, Numeral d v → number d = some v) (real : List Char → Bool) (convert : List Char → α)
    (property : List Char) (terminated : Bool) {vls fls : List (List Char)} {names others : List (List Char)} {weights : List α} {faces : List (ℕ × ℕ × ℕ)}
    (hp : property = [] ∨ property ∈ names ∨ property ∉ others) (hv : List.Forall₂ (VertexLine real convert property names) vls weights) (hf : List.Forall₂ FaceLine fls faces)
    (hd : ∀ f ∈ faces, Distinct f) (k : ℕ) (rest : List (List Char)) : ∃ st line, parseASCII number real convert property terminated
        ⟨weights.length, faces.length + k, numbered 0 (names ++ others), (names ++ others).length⟩ (vls ++ (fls ++ rest)) = readFaces number terminated k st line rest ∧
      Inv (vertices weights) (fun t => False ∨ FaceSet faces t) st ∧ (fls = [] ∨ fls.getLast? = some line) := by
  obtain ⟨line1, e1⟩ := readVertices_spec real convert property names others hp terminated hv (fls ++ rest) 0 []
  simp only [Nat.zero_add] at e1
  obtain ⟨st, line, e2, hi, h3⟩ := readFaces_spec number hnum terminated hf hd (fun _ => False) ([], vertices weights) line1 rest k (inv_start _)
  refine ⟨st, line, ?_, hi, ?_⟩
  · rw [parseASCII, e1]
    exact e2
  · rcases h3 with ⟨h, _⟩ | h
    · exact Or.inl h
    · exact Or.inr h

/-- **C137 (reading).** The complex of a file in text format with triangles consists of all vertices and all faces of the triangles.  The data of vertices are the values of the selected property, or
zero if there is none, and the data of all other simplices is the maximum of the data of their vertices.  The complex is closed under faces and in filtration order.  Missing: see the
other theorems. -/
theorem _root_.Aleph.C137_read_partial [Zero α] [LinearOrder α] (lo hi : α) (hlo : ∀ a, lo ≤ a) (number : List Char → Option ℕ) (hnum : ∀ d v, Numeral d v → number d = some v)
    (real : List Char → Bool) (convert : List Char → α) (property text : List Char) (header vls fls rest : List (List Char)) (b : Bool) (hl : Lines text (header ++ (vls ++ (fls ++ rest))) b)
    (names others : List (List Char)) (weights : List α) (faces : List (ℕ × ℕ × ℕ)) (hh : HeaderLines header "ascii 1.0".toList weights.length names faces.length others)
    (hp : property = [] ∨ property ∈ names ∨ property ∉ others) (hw : weights ≠ []) (hf : faces ≠ [])
    (hv : List.Forall₂ (VertexLine real convert property names) vls weights) (hfl : List.Forall₂ FaceLine fls faces)
    (hd : ∀ f ∈ faces, Distinct f) (hin : ∀ f ∈ faces, f.1 < weights.length ∧ f.2.1 < weights.length ∧ f.2.2 < weights.length) :
    ∃ K, read lo hi number real convert property text = .ok K ∧ WF K ∧ FaceClosed K ∧ (∀ t d, HasData K t d ↔ MeshSimplex weights.length faces t ∧ Maximum weights t d) ∧
      K.Pairwise (fun s t => s.data ≤ t.data) ∧ FacesFirst K := by
  obtain ⟨st, line, e, hi', _⟩ := parse_spec number hnum real convert property (text.getLast? == some '\n') (rest := rest) hp hv hfl hd 0
  refine ⟨finish lo hi st.2, ?_, faces_finish lo hi hlo weights hin hi'⟩
  rw [read_header lo hi number hnum real convert property text hl hh (by simp), if_neg (by simp [hw, hf]), if_neg (by simp)]
  rw [Nat.add_zero] at e
  rw [e]
  rfl


/-! ### Other files -/

theorem lines_getLast {text : List Char} {ls : List (List Char)} {b : Bool} (h : Lines text ls b) : ls ≠ [] → (text.getLast? == some '\n') = !b := by
  induction h with
  | nil => intro h; exact absurd rfl h
  | last l h1 h2 =>
    intro _
    obtain ⟨l', c, rfl⟩ := List.eq_nil_or_concat l |>.resolve_left h1
    have : c ≠ '\n' := by
      rintro rfl
      exact h2 (by simp)
    simp [this]
  | cons l s ls b h1 h ih =>
    intro _
    have e : l ++ '\n' :: s = (l ++ ['\n']) ++ s := by simp
    cases h with
    | nil => simp
    | last l' a1 a2 =>
      have := ih (by simp)
      rw [e, List.getLast?_append_of_ne_nil _ a1]
      exact this
    | cons l' s' ls' b' a1 a2 =>
      have := ih (by simp)
      rw [e, List.getLast?_append_of_ne_nil _ (by simp)]
      exact this

/-- **C137 (binary files).** The complex of a binary file is empty, whatever the file contains. -/
theorem _root_.Aleph.C137_binary [Zero α] [LinearOrder α] (lo hi : α) (number : List Char → Option ℕ) (hnum : ∀ d v, Numeral d v → number d = some v)
    (real : List Char → Bool) (convert : List Char → α) (property text : List Char) (header rest : List (List Char)) (b : Bool) (hl : Lines text (header ++ rest) b) (format : List Char)
    (hfo : format = "binary_little_endian 1.0".toList ∨ format = "binary_big_endian 1.0".toList) (n m : ℕ) (hn : 0 < n) (hm : 0 < m) (names others : List (List Char))
    (hh : HeaderLines header format n names m others) : read lo hi number real convert property text = .ok [] := by
  rw [read_header lo hi number hnum real convert property text hl hh (by rcases hfo with rfl | rfl <;> decide), if_neg (by omega), if_pos (by rcases hfo with rfl | rfl <;> decide)]
  rfl

/-- **C137 (empty meshes).** A mesh without vertices or without faces, such as a cloud of points, fails an assertion. -/
theorem _root_.Aleph.C137_empty [Zero α] [LinearOrder α] (lo hi : α) (number : List Char → Option ℕ) (hnum : ∀ d v, Numeral d v → number d = some v)
    (real : List Char → Bool) (convert : List Char → α) (property text : List Char) (header rest : List (List Char)) (b : Bool) (hl : Lines text (header ++ rest) b) (format : List Char)
    (hfo : format ∈ ["ascii 1.0".toList, "binary_little_endian 1.0".toList, "binary_big_endian 1.0".toList]) (n m : ℕ) (h0 : n = 0 ∨ m = 0) (names others : List (List Char))
    (hh : HeaderLines header format n names m others) : read lo hi number real convert property text = .error .assertion := by
  rw [read_header lo hi number hnum real convert property text hl hh hfo, if_pos h0]

theorem face_failure [Zero α] [LinearOrder α] (lo hi : α) (number : List Char → Option ℕ) (hnum : ∀ d v, Numeral d v → number d = some v)
    (real : List Char → Bool) (convert : List Char → α) (property text : List Char) (header vls fls rest : List (List Char)) (l : List Char) (b : Bool)
    (hl : Lines text (header ++ (vls ++ (fls ++ l :: rest))) b) (names others : List (List Char)) (weights : List α) (faces : List (ℕ × ℕ × ℕ)) (m : ℕ) (hm : faces.length < m)
    (hh : HeaderLines header "ascii 1.0".toList weights.length names m others) (hp : property = [] ∨ property ∈ names ∨ property ∉ others) (hw : weights ≠ [])
    (hv : List.Forall₂ (VertexLine real convert property names) vls weights) (hfl : List.Forall₂ FaceLine fls faces)
    (hd : ∀ f ∈ faces, Distinct f) (e : Failure) (he : ∀ st : List (ℕ × ℕ) × List (Simplex α), addFace number st l = .error e) :
    read lo hi number real convert property text = .error e := by
  obtain ⟨k, rfl⟩ : ∃ k, m = faces.length + (k + 1) := ⟨m - faces.length - 1, by omega⟩
  obtain ⟨st, line, e', _, _⟩ := parse_spec number hnum real convert property (text.getLast? == some '\n') (rest := l :: rest) hp hv hfl hd (k + 1)
  rw [read_header lo hi number hnum real convert property text hl hh (by simp), if_neg (by simp [hw]), if_neg (by simp), e', readFaces]
  simp only [nextLine, he]
  rfl

/-- **C137 (polygons).** A face with another number of vertices than three is rejected. -/
theorem _root_.Aleph.C137_polygon [Zero α] [LinearOrder α] (lo hi : α) (number : List Char → Option ℕ) (hnum : ∀ d v, Numeral d v → number d = some v)
    (real : List Char → Bool) (convert : List Char → α) (property text : List Char) (header vls fls rest : List (List Char)) (l : List Char) (b : Bool)
    (hl : Lines text (header ++ (vls ++ (fls ++ l :: rest))) b) (names others : List (List Char)) (weights : List α) (faces : List (ℕ × ℕ × ℕ)) (m : ℕ) (hm : faces.length < m)
    (hh : HeaderLines header "ascii 1.0".toList weights.length names m others) (hp : property = [] ∨ property ∈ names ∨ property ∉ others) (hw : weights ≠ [])
    (hv : List.Forall₂ (VertexLine real convert property names) vls weights) (hfl : List.Forall₂ FaceLine fls faces)
    (hd : ∀ f ∈ faces, Distinct f) (count : List Char) (ws : List (List Char)) (v : ℕ) (hlw : Words l (count :: ws)) (hc : Numeral count v) (h3 : v ≠ 3) :
    read lo hi number real convert property text = .error .exception := by
  refine face_failure lo hi number hnum real convert property text header vls fls rest l b hl names others weights faces m hm hh hp hw hv hfl hd .exception ?_
  intro st
  rw [addFace, words_iff.1 hlw]
  simp only [hnum _ _ hc]
  split
  · rename_i h
    exact absurd (Option.some.inj h) h3
  · rfl



theorem degenerate_triangle [Zero α] {i j k : ℕ} (h : (corners (i, j, k)).card = 2) (st : List (ℕ × ℕ) × List (Simplex α)) : addTriangle st i j k = .error .undefined := by
  have hn := ofRange_normal [i, j, k] (0 : α)
  have hv := ofRange_vset [i, j, k] (0 : α)
  have hl : (Simplex.ofRange [i, j, k] (0 : α)).vertices.length = 2 := by
    rw [Simplex.vset] at hv
    rw [hn.length_eq, hv, ← h]
    simp [corners]
  match hs : (Simplex.ofRange [i, j, k] (0 : α)).vertices, hl with
  | [a, b], _ =>
    rw [hs] at hn
    have hba : b < a := by simp [Normal] at hn; omega
    have hf : (Simplex.ofRange [i, j, k] (0 : α)).faces = [[b], [a]] := by
      have n1 : b ≠ a := by omega
      rw [Simplex.faces, hs]
      simp [n1, n1.symm, uniq]
    rw [addTriangle]
    simp only [hf, List.foldlM_cons]
    rfl

/-- **C137 (degenerate triangles).** For a triangle with exactly two different vertices, the reader uses a vertex that does not exist. -/
theorem _root_.Aleph.C137_degenerate [Zero α] [LinearOrder α] (lo hi : α) (number : List Char → Option ℕ) (hnum : ∀ d v, Numeral d v → number d = some v)
    (real : List Char → Bool) (convert : List Char → α) (property text : List Char) (header vls fls rest : List (List Char)) (l : List Char) (b : Bool)
    (hl : Lines text (header ++ (vls ++ (fls ++ l :: rest))) b) (names others : List (List Char)) (weights : List α) (faces : List (ℕ × ℕ × ℕ)) (m : ℕ) (hm : faces.length < m)
    (hh : HeaderLines header "ascii 1.0".toList weights.length names m others) (hp : property = [] ∨ property ∈ names ∨ property ∉ others) (hw : weights ≠ [])
    (hv : List.Forall₂ (VertexLine real convert property names) vls weights) (hfl : List.Forall₂ FaceLine fls faces)
    (hd : ∀ f ∈ faces, Distinct f) (f : ℕ × ℕ × ℕ) (hlf : FaceLine l f) (h2 : (corners f).card = 2) :
    read lo hi number real convert property text = .error .undefined := by
  refine face_failure lo hi number hnum real convert property text header vls fls rest l b hl names others weights faces m hm hh hp hw hv hfl hd .undefined ?_
  intro st
  obtain ⟨count, x, y, z, ws, hlw, h0, h1, h3, h4⟩ := hlf
  rw [addFace, words_iff.1 hlw]
  simp only [hnum _ _ h0, hnum _ _ h1, hnum _ _ h3, hnum _ _ h4]
  exact degenerate_triangle h2 st

/-- **C137 (missing vertices).** Faces with vertices that do not exist are accepted; the complex is not closed under faces. -/
theorem _root_.Aleph.C137_dangling [Zero α] [LinearOrder α] (lo hi : α) (number : List Char → Option ℕ) (hnum : ∀ d v, Numeral d v → number d = some v)
    (real : List Char → Bool) (convert : List Char → α) (property text : List Char) (header vls fls rest : List (List Char)) (b : Bool) (hl : Lines text (header ++ (vls ++ (fls ++ rest))) b)
    (names others : List (List Char)) (weights : List α) (faces : List (ℕ × ℕ × ℕ)) (hh : HeaderLines header "ascii 1.0".toList weights.length names faces.length others)
    (hp : property = [] ∨ property ∈ names ∨ property ∉ others) (hw : weights ≠ [])
    (hv : List.Forall₂ (VertexLine real convert property names) vls weights) (hfl : List.Forall₂ FaceLine fls faces)
    (hd : ∀ f ∈ faces, Distinct f) (f : ℕ × ℕ × ℕ) (hf : f ∈ faces) (v : ℕ) (hvf : v ∈ corners f) (hvn : weights.length ≤ v) :
    ∃ K, read lo hi number real convert property text = .ok K ∧ (∃ s ∈ K, s.vset = corners f) ∧ (¬ ∃ s ∈ K, s.vset = {v}) ∧ ¬ FaceClosed K := by
  obtain ⟨st, line, e, ⟨E, h1, h2, _, h4⟩, _⟩ := parse_spec number hnum real convert property (text.getLast? == some '\n') (rest := rest) hp hv hfl hd 0
  obtain ⟨hwf, hdata⟩ := collect_sets weights E h2
  have hset : ∀ t, (∃ s ∈ finish lo hi st.2, s.vset = t) ↔ ∃ d, HasData (Complex.insertRange [] (vertices weights ++ E.map fun e => Simplex.ofRange e.1 e.2)).1 t d := by
    intro t
    rw [finish, h1]
    set K0 := (Complex.insertRange [] (vertices weights ++ E.map fun e => Simplex.ofRange e.1 e.2)).1 with hK0
    obtain ⟨g1, _⟩ := C25_recalculateWeights_general lo hi true false K0 K0.byDimension hwf (byDimension_perm K0) (byDimension_card K0 hwf)
    change (Complex.recalculateWeights lo hi true false K0).map (·.vertices) = _ at g1
    set K1 := Complex.recalculateWeights lo hi true false K0 with hK1
    obtain ⟨hperm, _⟩ := sortData_spec (hwf.of_vertices g1)
    have hm : K1.map Simplex.vset = K0.map Simplex.vset := by
      have := congrArg (List.map List.toFinset) g1
      rw [List.map_map, List.map_map] at this
      exact this
    have a1 : (∃ s ∈ K1.sort (asLt (Filtration.data fun a b => decide (a < b))), s.vset = t) ↔ t ∈ K1.map Simplex.vset := by
      simp only [List.mem_map, hperm.mem_iff]
    rw [a1, hm]
    constructor
    · intro h
      obtain ⟨s, hs, h⟩ := List.mem_map.1 h
      exact ⟨s.data, s, hs, h, rfl⟩
    · rintro ⟨d, s, hs, h, _⟩
      exact List.mem_map.2 ⟨s, hs, h⟩
  have hin : ∃ s ∈ finish lo hi st.2, s.vset = corners f := by
    rw [hset]
    obtain ⟨n1, n2, n3⟩ := hd f hf
    have hc : (corners f).card = 3 := Finset.card_eq_three.2 ⟨_, _, _, n1, n2, n3, rfl⟩
    obtain ⟨e, he, het⟩ := (h4 (corners f)).2 (Or.inr ⟨f, hf, subset_rfl, by omega⟩)
    exact ⟨0, (hdata _ _).2 (Or.inr ⟨e, he, het, rfl⟩)⟩
  have hout : ¬ ∃ s ∈ finish lo hi st.2, s.vset = {v} := by
    rw [hset]
    rintro ⟨d, h⟩
    rcases (hdata _ _).1 h with ⟨w, g1, g2⟩ | ⟨e, he, g, _⟩
    · obtain rfl : v = w := by simpa using g2
      rw [List.getElem?_eq_none hvn] at g1
      cases g1
    · have := (h2 e he).2
      rw [g] at this
      simp at this
  refine ⟨finish lo hi st.2, ?_, hin, hout, ?_⟩
  · rw [read_header lo hi number hnum real convert property text hl hh (by simp), if_neg (by
      have := List.length_pos_of_mem hf
      have := List.length_pos_iff.2 hw
      omega), if_neg (by simp)]
    rw [Nat.add_zero] at e
    rw [e]
    rfl
  · intro hc
    obtain ⟨s, hs, hsv⟩ := hin
    exact hout (hc s hs {v} (by rw [hsv]; simpa using hvf) ⟨v, by simp⟩)

/-- **C137 (missing lines).** A text that is terminated by a line feed and ends before the last face is rejected. -/
theorem _root_.Aleph.C137_truncated [Zero α] [LinearOrder α] (lo hi : α) (number : List Char → Option ℕ) (hnum : ∀ d v, Numeral d v → number d = some v)
    (real : List Char → Bool) (convert : List Char → α) (property text : List Char) (header vls fls : List (List Char)) (hl : Lines text (header ++ (vls ++ fls)) false)
    (names others : List (List Char)) (weights : List α) (faces : List (ℕ × ℕ × ℕ)) (m : ℕ) (hm : faces.length < m) (hh : HeaderLines header "ascii 1.0".toList weights.length names m others)
    (hp : property = [] ∨ property ∈ names ∨ property ∉ others) (hw : weights ≠ [])
    (hv : List.Forall₂ (VertexLine real convert property names) vls weights) (hfl : List.Forall₂ FaceLine fls faces)
    (hd : ∀ f ∈ faces, Distinct f) : read lo hi number real convert property text = .error .exception := by
  obtain ⟨k, rfl⟩ : ∃ k, m = faces.length + (k + 1) := ⟨m - faces.length - 1, by omega⟩
  have hne : header ≠ [] := by
    obtain ⟨a, b, g, sk, v, ps, f, qs, e, sn, sm, rfl, _⟩ := hh
    simp
  have ht := lines_getLast hl (by simp [hne])
  obtain ⟨st, line, e', _, _⟩ := parse_spec number hnum real convert property (text.getLast? == some '\n') (rest := []) hp hv hfl hd (k + 1)
  rw [List.append_nil] at e'
  rw [read_header lo hi number hnum real convert property text hl hh (by simp), if_neg (by simp [hw]), if_neg (by simp), e', readFaces, ht]
  rfl

theorem readFaces_again [Zero α] (number : List Char → Option ℕ) (hnum : ∀ d v, Numeral d v → number d = some v) {V : List (Simplex α)} {l : List Char} {f : ℕ × ℕ × ℕ} (hl : FaceLine l f)
    (hf : Distinct f) {faces : List (ℕ × ℕ × ℕ)} (hmem : f ∈ faces) (k : ℕ) : ∀ st : List (ℕ × ℕ) × List (Simplex α), Inv V (fun t => False ∨ FaceSet faces t) st →
    ∃ st', readFaces number false k st l [] = .ok st'.2 ∧ Inv V (fun t => False ∨ FaceSet faces t) st' := by
  induction k with
  | zero => intro st h; exact ⟨st, rfl, h⟩
  | succ k ih =>
    intro st h
    obtain ⟨st1, e1, i1⟩ := addFace_spec number hnum h hl hf
    have : (fun t => (False ∨ FaceSet faces t) ∨ t ⊆ corners f ∧ 2 ≤ t.card) = fun t => False ∨ FaceSet faces t := by
      funext t
      have : t ⊆ corners f ∧ 2 ≤ t.card → FaceSet faces t := fun h => ⟨f, hmem, h⟩
      simp only [eq_iff_iff]
      tauto
    rw [this] at i1
    obtain ⟨st', e2, i2⟩ := ih st1 i1
    refine ⟨st', ?_, i2⟩
    rw [readFaces]
    simp only [nextLine, Bool.false_eq_true, if_false, e1]
    exact e2

/-- **C137 (missing lines without a line feed).** A text that is not terminated by a line feed may end before the last face without being rejected: the result is the complex of the faces that are there. -/
theorem _root_.Aleph.C137_repeated [Zero α] [LinearOrder α] (lo hi : α) (hlo : ∀ a, lo ≤ a) (number : List Char → Option ℕ) (hnum : ∀ d v, Numeral d v → number d = some v)
    (real : List Char → Bool) (convert : List Char → α) (property text : List Char) (header vls fls : List (List Char)) (hl : Lines text (header ++ (vls ++ fls)) true)
    (names others : List (List Char)) (weights : List α) (faces : List (ℕ × ℕ × ℕ)) (m : ℕ) (hm : faces.length < m) (hh : HeaderLines header "ascii 1.0".toList weights.length names m others)
    (hp : property = [] ∨ property ∈ names ∨ property ∉ others) (hw : weights ≠ []) (hf : faces ≠ [])
    (hv : List.Forall₂ (VertexLine real convert property names) vls weights) (hfl : List.Forall₂ FaceLine fls faces)
    (hd : ∀ f ∈ faces, Distinct f) (hin : ∀ f ∈ faces, f.1 < weights.length ∧ f.2.1 < weights.length ∧ f.2.2 < weights.length) :
    ∃ K, read lo hi number real convert property text = .ok K ∧ WF K ∧ FaceClosed K ∧ (∀ t d, HasData K t d ↔ MeshSimplex weights.length faces t ∧ Maximum weights t d) := by
  obtain ⟨k, rfl⟩ : ∃ k, m = faces.length + (k + 1) := ⟨m - faces.length - 1, by omega⟩
  have hne : header ≠ [] := by
    obtain ⟨a, b, g, sk, v, ps, f, qs, e, sn, sm, rfl, _⟩ := hh
    simp
  have ht := lines_getLast hl (by simp [hne])
  obtain ⟨st, line, e', hi', hlast⟩ := parse_spec number hnum real convert property (text.getLast? == some '\n') (rest := []) hp hv hfl hd (k + 1)
  rw [List.append_nil] at e'
  have hfls : fls ≠ [] := by
    rintro rfl
    cases hfl
    exact hf rfl
  have hmem : line ∈ fls := List.mem_of_getLast? (hlast.resolve_left hfls)
  obtain ⟨f, hfm, hfline⟩ : ∃ f ∈ faces, FaceLine line f := by
    obtain ⟨i, hi, rfl⟩ := List.getElem_of_mem hmem
    have hlen := hfl.length_eq
    exact ⟨faces[i]'(by omega), List.getElem_mem _, List.Forall₂.get hfl hi (by omega)⟩
  obtain ⟨st', e2, i2⟩ := readFaces_again number hnum hfline (hd f hfm) hfm (k + 1) st hi'
  obtain ⟨a1, a2, a3, _⟩ := faces_finish lo hi hlo weights hin i2
  refine ⟨finish lo hi st'.2, ?_, a1, a2, a3⟩
  rw [read_header lo hi number hnum real convert property text hl hh (by simp), if_neg (by simp [hw]), if_neg (by simp), e', ht]
  simp only [Bool.not_true, e2]
  rfl

/-- **C137 (types).** The types of properties are restricted: a property of any other type is rejected. -/
theorem _root_.Aleph.C137_types [Zero α] [LinearOrder α] (lo hi : α) (number : List Char → Option ℕ) (hnum : ∀ d v, Numeral d v → number d = some v)
    (real : List Char → Bool) (convert : List Char → α) (property text a c g format : List Char) (skipped : List (List Char)) (v sn : List Char) (n : ℕ) (ps names : List (List Char))
    (l : List Char) (rest : List (List Char)) (b : Bool) (hl : Lines text (a :: c :: (skipped ++ v :: (ps ++ l :: rest))) b)
    (ha : Content a "ply".toList) (hc : Content c ("format".toList ++ g ++ format)) (hg : Blanks g) (hfo : format ∈ ["ascii 1.0".toList, "binary_little_endian 1.0".toList, "binary_big_endian 1.0".toList])
    (hs : ∀ l ∈ skipped, Skipped l) (hv : Words v ["element".toList, "vertex".toList, sn]) (hsn : Numeral sn n) (hps : Properties ps names) (type name : List Char)
    (hlw : Words l ["property".toList, type, name]) (ht : type ∉ types) : read lo hi number real convert property text = .error .exception := by
  obtain ⟨r, hr, he⟩ := words_prefix hlw
  have hline : ∀ h : Header, headerLine number h (Strings.trim l) = .error .exception := by
    intro h
    rw [hr, headerLine]
    have t8 : ("property".toList ++ r).take 8 = "property".toList := take_append "property".toList r
    have t7 : ("property".toList ++ r).take 7 = "propert".toList := by
      have : ("property".toList ++ r).take 7 = (("property".toList ++ r).take 8).take 7 := by rw [List.take_take]; rfl
      rw [this, t8]
      decide
    have d8 : ("property".toList ++ r).drop 8 = r := drop_append "property".toList r
    rw [t7, t8, d8, if_neg (by decide), if_neg (by decide), if_pos rfl, parseProperty]
    have hname : propertyName r = none := by
      rw [propertyName, he]
      by_cases h : type = "list".toList
      · simp only [h, if_true]
      · simp only [h, if_false, known_eq, ht]
    rw [hname]
  obtain ⟨v1, v2⟩ := element_line number {} hv
  rw [hnum _ _ hsn] at v1
  simp only [if_true] at v1
  rw [read, getlines_spec _ _ _ hl]
  simp only [TriangulationReader.trim_content ha, format_spec hc hg hfo, skips_spec number _ hs, parseHeader_step number _ v1 v2, properties_spec number hps, ne_eq, not_true_eq_false, if_false]
  rw [parseHeader, hline]

/-- **C137 (order of elements).** If faces are declared before vertices, then the coordinates are looked up in the wrong columns: the vertices cannot be read if they have no further columns after the
coordinates. -/
theorem _root_.Aleph.C137_order [Zero α] [LinearOrder α] (lo hi : α) (number : List Char → Option ℕ) (hnum : ∀ d v, Numeral d v → number d = some v)
    (real : List Char → Bool) (convert : List Char → α) (property text a c g : List Char) (skipped : List (List Char)) (f v sn sm e : List Char) (n m : ℕ) (hn : 0 < n) (hm : 0 < m)
    (qs ps others names : List (List Char)) (l : List Char) (rest : List (List Char)) (b : Bool) (hl : Lines text (a :: c :: (skipped ++ f :: (qs ++ v :: (ps ++ e :: l :: rest)))) b)
    (ha : Content a "ply".toList) (hc : Content c ("format".toList ++ g ++ "ascii 1.0".toList)) (hg : Blanks g) (hs : ∀ l ∈ skipped, Skipped l)
    (hf : Words f ["element".toList, "face".toList, sm]) (hsm : Numeral sm m) (hqs : Properties qs others)
    (hv : Words v ["element".toList, "vertex".toList, sn]) (hsn : Numeral sn n) (hps : Properties ps (names ++ [['z']])) (he : Content e "end_header".toList)
    (ho : others ≠ []) (hz : ['z'] ∉ others ∧ ['z'] ∉ names) (ws : List (List Char)) (hlw : Words l ws) (hws : ws.length = names.length + 1) :
    read lo hi number real convert property text = .error .exception := by
  obtain ⟨f1, f2⟩ := element_line number {} hf
  have hne : "face".toList ≠ "vertex".toList := by decide
  rw [hnum _ _ hsm] at f1
  simp only [hne, if_false, if_true] at f1
  obtain ⟨v1, v2⟩ := element_line number ⟨0, m, numbered 0 others, others.length⟩ hv
  rw [hnum _ _ hsn] at v1
  simp only [if_true] at v1
  have hend : ∀ h : Header, headerLine number h "end_header".toList = .ok h := by
    intro h
    rw [headerLine, if_neg (by decide), if_neg (by decide), if_neg (by decide)]
  have hparse : parseHeader number {} (skipped ++ f :: (qs ++ v :: (ps ++ e :: l :: rest))) =
      .ok (⟨n, m, numbered 0 (others ++ (names ++ [['z']])), (others ++ (names ++ [['z']])).length⟩, l :: rest) := by
    rw [skips_spec number _ hs, parseHeader_step number _ f1 f2, properties_spec number hqs]
    simp only [List.nil_append, Nat.zero_add]
    rw [parseHeader_step number _ v1 v2, properties_spec number hps, parseHeader, TriangulationReader.trim_content he, hend]
    simp only [if_true]
    rw [numbered_append 0 others]
    simp [Nat.add_assoc]
  have hcoord : coordinate real (numbered 0 (others ++ (names ++ [['z']]))) ws ['z'] = false := by
    rw [coordinate, index_spec, if_pos (by simp), List.idxOf_append_of_notMem hz.1, List.idxOf_append_of_notMem hz.2]
    have : 0 < others.length := List.length_pos_iff.2 ho
    have hnone : ws[0 + (names.length + List.idxOf ['z'] [['z']] + others.length)]? = none := List.getElem?_eq_none (by omega)
    simp only [Option.bind_some]
    first
    | rw [hnone]
    | (rw [List.getElem?_eq_none (by omega)])
  rw [read, getlines_spec _ _ _ hl]
  have hfo := format_spec (format := "ascii 1.0".toList) hc hg (by simp)
  simp only [TriangulationReader.trim_content ha, hfo, hparse, ne_eq, not_true_eq_false, if_false, decide_false, Bool.false_eq_true, Nat.pos_iff_ne_zero.1 hn, Nat.pos_iff_ne_zero.1 hm, or_self]
  obtain ⟨n, rfl⟩ : ∃ n', n = n' + 1 := ⟨n - 1, by omega⟩
  rw [parseASCII, readVertices]
  have hwn : ws ≠ [] := by
    rintro rfl
    simp at hws
  simp only [nextLine, tokens_split (Or.inl ⟨hlw, hwn⟩), vertexOf, hcoord, Bool.and_false, Bool.false_eq_true, if_false]
  rfl

/-- **C137 (other files).** A file that does not exist or does not start with the name of the format is rejected. -/
theorem _root_.Aleph.C137_exception [Zero α] [LinearOrder α] (lo hi : α) (number : List Char → Option ℕ) (real : List Char → Bool) (convert : List Char → α) (property : List Char) :
    readFile lo hi number real convert property none = .error .exception ∧
    ∀ text l ls b, Lines text (l :: ls) b → ¬ Content l "ply".toList → readFile lo hi number real convert property (some text) = .error .exception := by
  refine ⟨rfl, ?_⟩
  intro text l ls b hl hn
  have ht : Strings.trim l ≠ "ply".toList := by
    intro h
    exact hn (h ▸ TriangulationReader.content_exists l)
  rw [readFile, read, getlines_spec _ _ _ hl]
  cases ls with
  | nil => rfl
  | cons l' ls => simp only [ht, ne_eq, not_false_eq_true, if_true]


/-! ### Examples -/

/-- A header with two vertices and a property besides the coordinates. -/
def exampleHeader (format n m : String) : List (List Char) :=
  ["ply".toList, ("format " ++ format).toList, "comment made by hand".toList, ("element vertex " ++ n).toList, "property float x".toList, "property float y".toList, "property float z".toList,
    "property float quality".toList, ("element face " ++ m).toList, "property list uchar int vertex_indices".toList, "end_header".toList]

/-- The names of the properties. -/
def exampleNames : List (List Char) := [['x'], ['y'], ['z'], "quality".toList]

theorem skipped_comment : Skipped "comment made by hand".toList :=
  ⟨_, TriangulationReader.content_exists _, Or.inl ⟨" made by hand".toList, by decide⟩⟩

theorem example_properties : Properties ["property float x".toList, "property float y".toList, "property float z".toList, "property float quality".toList] exampleNames :=
  .scalar _ "float".toList _ _ _ (words_iff.2 (by decide)) (by decide) (.scalar _ "float".toList _ _ _ (words_iff.2 (by decide)) (by decide)
    (.scalar _ "float".toList _ _ _ (words_iff.2 (by decide)) (by decide) (.scalar _ "float".toList _ _ _ (words_iff.2 (by decide)) (by decide) .nil)))

theorem example_faceProperties : Properties ["property list uchar int vertex_indices".toList] ["vertex_indices".toList] :=
  .list _ "uchar".toList "int".toList _ _ _ (words_iff.2 (by decide)) (by decide) (by decide) .nil

theorem content_of_trim {l t : List Char} (h : Strings.trim l = t) : Content l t := h ▸ TriangulationReader.content_exists l

theorem example_ascii : HeaderLines (exampleHeader "ascii 1.0" "3" "1") "ascii 1.0".toList 3 exampleNames 1 ["vertex_indices".toList] :=
  ⟨_, _, " ".toList, ["comment made by hand".toList], _, _, _, _, _, "3".toList, "1".toList, rfl, content_of_trim (by decide), content_of_trim (by decide), by unfold Blanks Blank; decide,
    by intro l hl; rw [List.mem_singleton.1 hl]; exact skipped_comment, words_iff.2 (by decide), by unfold Numeral; decide, example_properties, words_iff.2 (by decide), by unfold Numeral; decide,
    example_faceProperties, content_of_trim (by decide)⟩

theorem example_two : HeaderLines (exampleHeader "ascii 1.0" "3" "2") "ascii 1.0".toList 3 exampleNames 2 ["vertex_indices".toList] :=
  ⟨_, _, " ".toList, ["comment made by hand".toList], _, _, _, _, _, "3".toList, "2".toList, rfl, content_of_trim (by decide), content_of_trim (by decide), by unfold Blanks Blank; decide,
    by intro l hl; rw [List.mem_singleton.1 hl]; exact skipped_comment, words_iff.2 (by decide), by unfold Numeral; decide, example_properties, words_iff.2 (by decide), by unfold Numeral; decide,
    example_faceProperties, content_of_trim (by decide)⟩

theorem example_binary : HeaderLines (exampleHeader "binary_little_endian 1.0" "3" "1") "binary_little_endian 1.0".toList 3 exampleNames 1 ["vertex_indices".toList] :=
  ⟨_, _, " ".toList, ["comment made by hand".toList], _, _, _, _, _, "3".toList, "1".toList, rfl, content_of_trim (by decide), content_of_trim (by decide), by unfold Blanks Blank; decide,
    by intro l hl; rw [List.mem_singleton.1 hl]; exact skipped_comment, words_iff.2 (by decide), by unfold Numeral; decide, example_properties, words_iff.2 (by decide), by unfold Numeral; decide,
    example_faceProperties, content_of_trim (by decide)⟩

theorem example_none : HeaderLines (exampleHeader "ascii 1.0" "3" "0") "ascii 1.0".toList 3 exampleNames 0 ["vertex_indices".toList] :=
  ⟨_, _, " ".toList, ["comment made by hand".toList], _, _, _, _, _, "3".toList, "0".toList, rfl, content_of_trim (by decide), content_of_trim (by decide), by unfold Blanks Blank; decide,
    by intro l hl; rw [List.mem_singleton.1 hl]; exact skipped_comment, words_iff.2 (by decide), by unfold Numeral; decide, example_properties, words_iff.2 (by decide), by unfold Numeral; decide,
    example_faceProperties, content_of_trim (by decide)⟩

/-- Words that are accepted as coordinates. -/
def exampleReal (w : List Char) : Bool := w ≠ []

/-- The data of vertices. -/
def exampleConvert (w : List Char) : ℕ := (exampleNumber w).getD 0

/-- The lines of three vertices. -/
def exampleVertices : List (List Char) := ["0 0 0 5".toList, "1 0 0 7".toList, "0 1 0 3".toList]

theorem example_vertex (l : List Char) (x y z q : List Char) (h : Strings.extract [] l = [x, y, z, q]) (h' : x ≠ [] ∧ y ≠ [] ∧ z ≠ []) :
    VertexLine exampleReal exampleConvert "quality".toList exampleNames l (exampleConvert q) := by
  refine ⟨[x, y, z, q], words_iff.2 h, ?_, Or.inl ⟨by decide, by decide, q, rfl, rfl⟩⟩
  intro c hc
  simp only [List.mem_cons, List.not_mem_nil, or_false] at hc
  rcases hc with rfl | rfl | rfl
  · exact ⟨by decide, x, rfl, by simp [exampleReal, h'.1]⟩
  · exact ⟨by decide, y, rfl, by simp [exampleReal, h'.2.1]⟩
  · exact ⟨by decide, z, rfl, by simp [exampleReal, h'.2.2]⟩

theorem example_vertices : List.Forall₂ (VertexLine exampleReal exampleConvert "quality".toList exampleNames) exampleVertices [5, 7, 3] := by
  refine .cons ?_ (.cons ?_ (.cons ?_ .nil))
  · exact example_vertex _ ['0'] ['0'] ['0'] ['5'] (by decide) (by simp)
  · exact example_vertex _ ['1'] ['0'] ['0'] ['7'] (by decide) (by simp)
  · exact example_vertex _ ['0'] ['1'] ['0'] ['3'] (by decide) (by simp)

theorem example_face : FaceLine "3 0 1 2".toList (0, 1, 2) :=
  ⟨['3'], ['0'], ['1'], ['2'], [], words_iff.2 (by decide), by unfold Numeral; decide, by unfold Numeral; decide, by unfold Numeral; decide, by unfold Numeral; decide⟩

/-- The hypotheses of `C137_read_partial` hold for a triangle. -/
example : ∃ text K, read 0 0 exampleNumber exampleReal exampleConvert "quality".toList text = .ok K ∧ HasData K {0, 1, 2} 7 ∧ HasData K {0, 2} 5 := by
  have hl := SparseReader.lines_flat (text := _) rfl (ls := exampleHeader "ascii 1.0" "3" "1" ++ (exampleVertices ++ (["3 0 1 2".toList] ++ []))) (by decide)
  obtain ⟨K, h1, _, _, h2, _⟩ := C137_read_partial 0 0 (by simp) exampleNumber example_number exampleReal exampleConvert "quality".toList _ _ _ _ _ _ hl exampleNames ["vertex_indices".toList]
    [5, 7, 3] [(0, 1, 2)] example_ascii (by decide) (by decide) (by decide) example_vertices (.cons example_face .nil) (by simp [Distinct]) (by simp)
  refine ⟨_, K, h1, (h2 _ _).2 ⟨⟨by simp, Or.inr ⟨(0, 1, 2), by simp, by simp [corners]⟩⟩, ?_⟩, (h2 _ _).2 ⟨⟨by simp, Or.inr ⟨(0, 1, 2), by simp, by decide⟩⟩, ?_⟩⟩
  · refine ⟨⟨1, by simp, rfl⟩, ?_⟩
    rintro a ⟨v, hv, h⟩
    simp only [Finset.mem_insert, Finset.mem_singleton] at hv
    rcases hv with rfl | rfl | rfl <;> (cases h; decide)
  · refine ⟨⟨0, by simp, rfl⟩, ?_⟩
    rintro a ⟨v, hv, h⟩
    simp only [Finset.mem_insert, Finset.mem_singleton] at hv
    rcases hv with rfl | rfl <;> (cases h; decide)

/-- The hypotheses of `C137_binary` hold for a triangle. -/
example : ∃ text, read 0 0 exampleNumber exampleReal exampleConvert [] text = .ok [] := by
  have hl := SparseReader.lines_flat (text := _) rfl (ls := exampleHeader "binary_little_endian 1.0" "3" "1" ++ ["data".toList]) (by decide)
  exact ⟨_, C137_binary 0 0 exampleNumber example_number exampleReal exampleConvert [] _ _ _ _ hl _ (Or.inl rfl) 3 1 (by decide) (by decide) _ _ example_binary⟩

/-- The hypotheses of `C137_empty` hold for three points. -/
example : ∃ text, read 0 0 exampleNumber exampleReal exampleConvert [] text = .error .assertion := by
  have hl := SparseReader.lines_flat (text := _) rfl (ls := exampleHeader "ascii 1.0" "3" "0" ++ exampleVertices) (by decide)
  exact ⟨_, C137_empty 0 0 exampleNumber example_number exampleReal exampleConvert [] _ _ _ _ hl _ (by simp) 3 0 (by decide) _ _ example_none⟩

/-- The hypotheses of `C137_polygon` hold for a quadrangle. -/
example : ∃ text, read 0 0 exampleNumber exampleReal exampleConvert "quality".toList text = .error .exception := by
  have hl := SparseReader.lines_flat (text := _) rfl (ls := exampleHeader "ascii 1.0" "3" "2" ++ (exampleVertices ++ (["3 0 1 2".toList] ++ "4 0 1 2 0".toList :: []))) (by decide)
  exact ⟨_, C137_polygon 0 0 exampleNumber example_number exampleReal exampleConvert "quality".toList _ _ _ _ _ _ _ hl exampleNames ["vertex_indices".toList]
    [5, 7, 3] [(0, 1, 2)] 2 (by decide) example_two (by decide) (by decide) example_vertices (.cons example_face .nil) (by simp [Distinct]) ['4'] [['0'], ['1'], ['2'], ['0']] 4
    (words_iff.2 (by decide)) (by unfold Numeral; decide) (by decide)⟩

/-- The hypotheses of `C137_degenerate` hold for a triangle with a repeated vertex. -/
example : ∃ text, read 0 0 exampleNumber exampleReal exampleConvert "quality".toList text = .error .undefined := by
  have hl := SparseReader.lines_flat (text := _) rfl (ls := exampleHeader "ascii 1.0" "3" "2" ++ (exampleVertices ++ (["3 0 1 2".toList] ++ "3 0 1 0".toList :: []))) (by decide)
  exact ⟨_, C137_degenerate 0 0 exampleNumber example_number exampleReal exampleConvert "quality".toList _ _ _ _ _ _ _ hl exampleNames ["vertex_indices".toList]
    [5, 7, 3] [(0, 1, 2)] 2 (by decide) example_two (by decide) (by decide) example_vertices (.cons example_face .nil) (by simp [Distinct]) (0, 1, 0)
    ⟨['3'], ['0'], ['1'], ['0'], [], words_iff.2 (by decide), by unfold Numeral; decide, by unfold Numeral; decide, by unfold Numeral; decide, by unfold Numeral; decide⟩ (by decide)⟩

/-- The hypotheses of `C137_dangling` hold for a triangle with a vertex that does not exist. -/
example : ∃ text K, read 0 0 exampleNumber exampleReal exampleConvert "quality".toList text = .ok K ∧ ¬ FaceClosed K := by
  have hl := SparseReader.lines_flat (text := _) rfl (ls := exampleHeader "ascii 1.0" "3" "1" ++ (exampleVertices ++ (["3 0 1 3".toList] ++ []))) (by decide)
  obtain ⟨K, h1, _, _, h2⟩ := C137_dangling 0 0 exampleNumber example_number exampleReal exampleConvert "quality".toList _ _ _ _ _ _ hl exampleNames ["vertex_indices".toList]
    [5, 7, 3] [(0, 1, 3)] example_ascii (by decide) (by decide) example_vertices
    (.cons ⟨['3'], ['0'], ['1'], ['3'], [], words_iff.2 (by decide), by unfold Numeral; decide, by unfold Numeral; decide, by unfold Numeral; decide, by unfold Numeral; decide⟩ .nil)
    (by simp [Distinct]) (0, 1, 3) (by simp) 3 (by decide) (by decide)
  exact ⟨_, K, h1, h2⟩

/-- The hypotheses of `C137_truncated` hold for one of two triangles. -/
example : ∃ text, read 0 0 exampleNumber exampleReal exampleConvert "quality".toList text = .error .exception := by
  have hl := SparseReader.lines_flat (text := _) rfl (ls := exampleHeader "ascii 1.0" "3" "2" ++ (exampleVertices ++ ["3 0 1 2".toList])) (by decide)
  exact ⟨_, C137_truncated 0 0 exampleNumber example_number exampleReal exampleConvert "quality".toList _ _ _ _ hl exampleNames ["vertex_indices".toList]
    [5, 7, 3] [(0, 1, 2)] 2 (by decide) example_two (by decide) (by decide) example_vertices (.cons example_face .nil) (by simp [Distinct])⟩

theorem lines_unterminated : ∀ (ls : List (List Char)) (l : List Char), (∀ x ∈ ls, '\n' ∉ x) → l ≠ [] → '\n' ∉ l → ∃ text, Lines text (ls ++ [l]) true
  | [], l, _, h1, h2 => ⟨l, .last l h1 h2⟩
  | x :: ls, l, h, h1, h2 =>
    have ⟨text, ht⟩ := lines_unterminated ls l (fun y hy => h y (List.mem_cons_of_mem _ hy)) h1 h2
    ⟨x ++ '\n' :: text, .cons _ _ _ _ (h x List.mem_cons_self) ht⟩

/-- The hypotheses of `C137_repeated` hold for one of two triangles. -/
example : ∃ text K, read 0 0 exampleNumber exampleReal exampleConvert "quality".toList text = .ok K ∧ FaceClosed K := by
  obtain ⟨text, hl⟩ := lines_unterminated (exampleHeader "ascii 1.0" "3" "2" ++ exampleVertices) "3 0 1 2".toList (by decide) (by decide) (by decide)
  rw [List.append_assoc] at hl
  obtain ⟨K, h1, _, h2, _⟩ := C137_repeated 0 0 (by simp) exampleNumber example_number exampleReal exampleConvert "quality".toList _ _ _ _ hl exampleNames ["vertex_indices".toList]
    [5, 7, 3] [(0, 1, 2)] 2 (by decide) example_two (by decide) (by decide) (by decide) example_vertices (.cons example_face .nil) (by simp [Distinct]) (by simp)
  exact ⟨_, K, h1, h2⟩

/-- The hypotheses of `C137_types` hold for a standard type. -/
example : ∃ text, read 0 0 exampleNumber exampleReal exampleConvert [] text = .error .exception := by
  have hl := SparseReader.lines_flat (text := _) rfl
    (ls := "ply".toList :: "format ascii 1.0".toList :: ([] ++ "element vertex 3".toList :: (["property float x".toList] ++ "property float32 y".toList :: []))) (by decide)
  exact ⟨_, C137_types 0 0 exampleNumber example_number exampleReal exampleConvert [] _ _ _ " ".toList "ascii 1.0".toList [] _ "3".toList 3 _ [['x']] _ _ _ hl (content_of_trim (by decide))
    (content_of_trim (by decide)) (by unfold Blanks Blank; decide) (by simp) (by simp) (words_iff.2 (by decide)) (by unfold Numeral; decide)
    (.scalar _ "float".toList _ _ _ (words_iff.2 (by decide)) (by decide) .nil) "float32".toList ['y'] (words_iff.2 (by decide)) (by decide)⟩

/-- The hypotheses of `C137_order` hold for a triangle whose face is declared first. -/
example : ∃ text, read 0 0 exampleNumber exampleReal exampleConvert [] text = .error .exception := by
  have hl := SparseReader.lines_flat (text := _) rfl
    (ls := "ply".toList :: "format ascii 1.0".toList :: ([] ++ "element face 1".toList :: (["property list uchar int vertex_indices".toList] ++ "element vertex 3".toList ::
      (["property float x".toList, "property float y".toList, "property float z".toList] ++ "end_header".toList :: "0 0 0".toList :: [])))) (by decide)
  exact ⟨_, C137_order 0 0 exampleNumber example_number exampleReal exampleConvert [] _ _ _ " ".toList [] _ _ "3".toList "1".toList _ 3 1 (by decide) (by decide) _ _ ["vertex_indices".toList] [['x'], ['y']]
    _ _ _ hl (content_of_trim (by decide)) (content_of_trim (by decide)) (by unfold Blanks Blank; decide) (by simp) (words_iff.2 (by decide)) (by unfold Numeral; decide) example_faceProperties
    (words_iff.2 (by decide)) (by unfold Numeral; decide)
    (.scalar _ "float".toList _ _ _ (words_iff.2 (by decide)) (by decide) (.scalar _ "float".toList _ _ _ (words_iff.2 (by decide)) (by decide)
      (.scalar _ "float".toList _ _ _ (words_iff.2 (by decide)) (by decide) .nil))) (content_of_trim (by decide)) (by decide) (by decide) [['0'], ['0'], ['0']] (words_iff.2 (by decide)) rfl⟩

/-- The hypotheses of `C137_exception` hold for a file of another format. -/
example : readFile 0 0 exampleNumber exampleReal exampleConvert [] (some "off".toList) = .error .exception := by
  refine (C137_exception 0 0 exampleNumber exampleReal exampleConvert []).2 _ "off".toList [] true (.last _ (by decide) (by decide)) ?_
  intro h
  have := TriangulationReader.trim_content h
  exact absurd this (by decide)

end Aleph.PlyReader
