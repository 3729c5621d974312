import Verif.Spec.Rips
import Verif.Lemmas.Complex
import Verif.Lemmas.History
import Verif.Lemmas.Weights

namespace Aleph

open Finset Spec

variable {α : Type}

/-! ### Insertion of a range -/

theorem insertRange_spec (K l : Complex α) (hl : ∀ s ∈ l, s.vertices ≠ []) :
    ∃ L, Complex.insertRange K l = (L, false) ∧ (∀ s ∈ K, s ∈ L) ∧ (∀ s ∈ L, s ∈ K ∨ s ∈ l) ∧
      ∀ s ∈ l, ∃ t ∈ L, t.vertices = s.vertices := by
  induction l generalizing K with
  | nil => exact ⟨K, rfl, fun _ h => h, fun _ h => Or.inl h, by simp⟩
  | cons s l ih =>
    have hs := hl s List.mem_cons_self
    have hl' := fun t ht => hl t (List.mem_cons_of_mem s ht)
    have hb : s.vertices.isEmpty = false := by simpa using hs
    rw [Complex.insertRange]
    by_cases hc : K.contains s.vertices = true
    · have : K.pushBack s = some K := by simp [Complex.pushBack, hb, hc]
      rw [this]
      obtain ⟨L, h1, h2, h3, h4⟩ := ih K hl'
      refine ⟨L, h1, h2, fun t ht => (h3 t ht).imp_right (List.mem_cons_of_mem s), ?_⟩
      intro t ht
      rcases List.mem_cons.1 ht with rfl | ht
      · obtain ⟨u, hu, he⟩ := contains_iff.1 hc
        exact ⟨u, h2 u hu, he⟩
      · exact h4 t ht
    · have : K.pushBack s = some (K ++ [s]) := by simp [Complex.pushBack, hb, hc]
      rw [this]
      obtain ⟨L, h1, h2, h3, h4⟩ := ih (K ++ [s]) hl'
      refine ⟨L, h1, fun t ht => h2 t (List.mem_append_left _ ht), ?_, ?_⟩
      · intro t ht
        rcases h3 t ht with h | h
        · rcases List.mem_append.1 h with h | h
          · exact Or.inl h
          · rw [List.mem_singleton.1 h]; exact Or.inr List.mem_cons_self
        · exact Or.inr (List.mem_cons_of_mem _ h)
      · intro t ht
        rcases List.mem_cons.1 ht with rfl | ht
        · exact ⟨t, h2 t (by simp), rfl⟩
        · exact h4 t ht

theorem pushBack_new {K : Complex α} {s : Simplex α} (h0 : s.vertices ≠ [])
    (h : ∀ t ∈ K, t.vertices ≠ s.vertices) : K.pushBack s = some (K ++ [s]) := by
  have hb : s.vertices.isEmpty = false := by simpa using h0
  simp [Complex.pushBack, hb, contains_eq_false.2 h]

theorem insertRange_nodup (K l : Complex α) (hl : ∀ s ∈ l, s.vertices ≠ [])
    (hn : ((K ++ l).map (·.vertices)).Nodup) : Complex.insertRange K l = (K ++ l, false) := by
  induction l generalizing K with
  | nil => simp [Complex.insertRange]
  | cons s l ih =>
    rw [Complex.insertRange, pushBack_new (hl s List.mem_cons_self)]
    · simp only
      rw [ih (K ++ [s]) (fun t ht => hl t (List.mem_cons_of_mem s ht)) (by simpa using hn)]
      simp
    · intro t ht he
      rw [List.map_append, List.nodup_append] at hn
      exact hn.2.2 _ (List.mem_map_of_mem ht) _ (List.mem_map_of_mem List.mem_cons_self) he

namespace Rips

/-! ### Folds that append -/

theorem foldlM_append {β γ : Type} (step : List γ → β → Option (List γ)) (Q : β → γ → Prop) (l : List β)
    (h : ∀ b ∈ l, ∀ acc, ∃ new, step acc b = some (acc ++ new) ∧ ∀ x, x ∈ new ↔ Q b x)
    (acc : List γ) :
    ∃ new, l.foldlM step acc = some (acc ++ new) ∧ ∀ x, x ∈ new ↔ ∃ b ∈ l, Q b x := by
  induction l generalizing acc with
  | nil => exact ⟨[], by simp, by simp⟩
  | cons b l ih =>
    obtain ⟨n1, e1, m1⟩ := h b List.mem_cons_self acc
    obtain ⟨n2, e2, m2⟩ := ih (fun c hc => h c (List.mem_cons_of_mem b hc)) (acc ++ n1)
    refine ⟨n1 ++ n2, ?_, ?_⟩
    · rw [List.foldlM_cons, e1]
      simpa using e2
    · intro x
      rw [List.mem_append, m1, m2]
      simp

/-! ### Lower neighbours -/

theorem mem_insertSet {l : List ℕ} {u x : ℕ} : x ∈ insertSet l u ↔ x ∈ l ∨ x = u := by
  unfold insertSet
  split
  · next h =>
    rw [List.contains_iff_mem] at h
    constructor
    · exact Or.inl
    · rintro (h' | rfl) <;> assumption
  · simp

theorem mem_foldl_insertSet {l m : List ℕ} {x : ℕ} : x ∈ l.foldl insertSet m ↔ x ∈ m ∨ x ∈ l := by
  induction l generalizing m with
  | nil => simp
  | cons a l ih =>
    rw [List.foldl_cons, ih, mem_insertSet, List.mem_cons]
    tauto

theorem mem_intersect {o : Orders α} {U V : List ℕ} {x : ℕ} :
    x ∈ intersect o U V ↔ x ∈ U ∧ x ∈ V := by
  unfold intersect
  split
  · rw [mem_foldl_insertSet, List.mem_filter, (o.verts_perm V).mem_iff, List.contains_iff_mem]
    simp [and_comm]
  · rw [mem_foldl_insertSet, List.mem_filter, (o.verts_perm U).mem_iff, List.contains_iff_mem]
    simp

/-- The lower neighbours of a vertex. -/
def low (m : LowerMap) (v : ℕ) : List ℕ := (m.get v).getD []

theorem get_cons (e : ℕ × List ℕ) (m : LowerMap) (v : ℕ) :
    LowerMap.get (e :: m) v = if e.1 = v then some e.2 else LowerMap.get m v := by
  unfold LowerMap.get
  by_cases h : e.1 = v <;> simp [h]

theorem get_append (m n : LowerMap) (v : ℕ) :
    LowerMap.get (m ++ n) v = (LowerMap.get m v).or (LowerMap.get n v) := by
  induction m with
  | nil => rfl
  | cons e m ih =>
    rw [List.cons_append, get_cons, get_cons, ih]
    split <;> rfl

theorem get_map (m : LowerMap) (v u x : ℕ) :
    LowerMap.get (m.map fun e => if e.1 = v then (v, insertSet e.2 u) else e) x =
      if x = v then (LowerMap.get m v).map (insertSet · u) else LowerMap.get m x := by
  induction m with
  | nil => simp [LowerMap.get]
  | cons e m ih =>
    rw [List.map_cons, get_cons, ih, get_cons, get_cons]
    by_cases h : e.1 = v
    · simp only [h, if_true]
      by_cases hx : x = v
      · simp [hx]
      · have : v ≠ x := fun h => hx h.symm
        simp [hx, this]
    · simp only [h, if_false]
      by_cases hx : x = v
      · subst hx
        simp [h]
      · simp [hx]

theorem low_add (m : LowerMap) (v u x : ℕ) :
    low (m.add v u) x = if x = v then insertSet (low m v) u else low m x := by
  unfold low LowerMap.add
  split
  · next h =>
    rw [get_map]
    obtain ⟨l, hl⟩ := Option.isSome_iff_exists.1 h
    split <;> simp [hl]
  · next h =>
    rw [Bool.not_eq_true, Option.isSome_eq_false_iff, Option.isNone_iff_eq_none] at h
    rw [get_append, get_cons]
    by_cases hx : x = v
    · subst hx
      simp [h, insertSet]
    · have : v ≠ x := fun h => hx h.symm
      simp [hx, this, LowerMap.get]

theorem mem_low_getLowerNeighbours (edges : List (Simplex α))
    (h : ∀ s ∈ edges, Normal s.vertices ∧ s.vertices.length = 2) (v u : ℕ) :
    u ∈ low (getLowerNeighbours edges) v ↔ ∃ s ∈ edges, s.vertices = [v, u] := by
  have main : ∀ (edges : List (Simplex α)) (m : LowerMap),
      (∀ s ∈ edges, Normal s.vertices ∧ s.vertices.length = 2) →
      (u ∈ low (edges.foldl (fun m s =>
        match s.vertices with
        | u :: v :: _ => if u < v then LowerMap.add m v u else LowerMap.add m u v
        | _ => m) m) v ↔ u ∈ low m v ∨ ∃ s ∈ edges, s.vertices = [v, u]) := by
    intro edges
    induction edges with
    | nil => intro m _; simp
    | cons s l ih =>
      intro m hm
      obtain ⟨hn, hl⟩ := hm s List.mem_cons_self
      obtain ⟨a, b, hab⟩ := List.length_eq_two.1 hl
      rw [hab] at hn
      have hlt : b < a := by simpa [Normal] using hn
      rw [List.foldl_cons, ih _ (fun t ht => hm t (List.mem_cons_of_mem s ht))]
      simp only [hab, if_neg (Nat.lt_asymm hlt), low_add, List.mem_cons, exists_eq_or_imp]
      by_cases hv : v = a
      · subst hv
        rw [if_pos rfl, mem_insertSet]
        simp only [List.cons.injEq, and_true, true_and]
        constructor
        · rintro ((h | rfl) | h)
          · exact Or.inl h
          · exact Or.inr (Or.inl rfl)
          · exact Or.inr (Or.inr h)
        · rintro (h | rfl | h)
          · exact Or.inl (Or.inl h)
          · exact Or.inl (Or.inr rfl)
          · exact Or.inr h
      · rw [if_neg hv]
        simp only [List.cons.injEq]
        have : ¬ a = v := fun h => hv h.symm
        simp [this]
  refine Iff.trans (main edges [] h) ?_
  simp [low, LowerMap.get]

/-! ### Cofaces -/

theorem ofRange_append {s : Simplex α} {n : ℕ} {d0 : α} (h : Normal s.vertices)
    (hn : ∀ y ∈ s.vertices, n < y) :
    Simplex.ofRange (s.vertices ++ [n]) d0 = ⟨s.vertices ++ [n], d0⟩ := by
  have : Normal (s.vertices ++ [n]) := by
    unfold Normal
    rw [List.pairwise_append]
    refine ⟨h, by simp, ?_⟩
    intro a ha b hb
    rw [List.mem_singleton.1 hb]
    exact hn a ha
  unfold Simplex.ofRange
  rw [sortDesc_of_normal this, uniq_of_normal this]

theorem addCofaces_spec (o : Orders α) (d0 : α) (lower : LowerMap) (dimension : ℕ)
    (hlow : ∀ a b, b ∈ low lower a → b < a) (f : ℕ) :
    ∀ (s : Simplex α) (N : List ℕ) (acc : List (Simplex α)), Normal s.vertices → s.vertices ≠ [] →
      (∀ x ∈ N, ∀ y ∈ s.vertices, x < y) → dimension + 1 < f + s.vertices.length →
      s.vertices.length ≤ dimension + 1 →
      ∃ new, addCofaces o d0 lower dimension f s N acc = some (acc ++ new) ∧
        ∀ x, x ∈ new ↔ ∃ ws, ws ≠ [] ∧ x = ⟨s.vertices ++ ws, d0⟩ ∧ (∀ w ∈ ws, w ∈ N) ∧
          ws.Pairwise (fun a b => b ∈ low lower a) ∧ s.vertices.length + ws.length ≤ dimension + 1 := by
  induction f with
  | zero => intro s N acc _ _ _ h1 h2; omega
  | succ f ih =>
    intro s N acc hn hne hN hf hl
    have hdim : s.dimension = some (s.vertices.length - 1) := by
      unfold Simplex.dimension
      rw [if_neg (by simpa using hne)]
    have hpos := List.length_pos_iff.2 hne
    unfold addCofaces
    rw [hdim]
    simp only
    by_cases hd : s.vertices.length - 1 ≥ dimension
    · refine ⟨[], by simp [hd], ?_⟩
      intro x
      simp only [List.not_mem_nil, false_iff]
      rintro ⟨ws, hws, _, _, _, h⟩
      have := List.length_pos_iff.2 hws
      omega
    · rw [if_neg hd]
      obtain ⟨new, e, hm⟩ := foldlM_append (fun simplices neighbour =>
          match lower.get neighbour with
          | none => some (simplices ++ [Simplex.ofRange (s.vertices ++ [neighbour]) d0])
          | some lowerNeighbours =>
            addCofaces o d0 lower dimension f (Simplex.ofRange (s.vertices ++ [neighbour]) d0)
              (intersect o lowerNeighbours N)
              (simplices ++ [Simplex.ofRange (s.vertices ++ [neighbour]) d0]))
        (fun n x => ∃ ws, x = (⟨s.vertices ++ n :: ws, d0⟩ : Simplex α) ∧ (∀ w ∈ ws, w ∈ N) ∧
          (n :: ws).Pairwise (fun a b => b ∈ low lower a) ∧
          s.vertices.length + (ws.length + 1) ≤ dimension + 1)
        (o.verts N) (by
          intro n hnN acc
          have hnN' := (o.verts_perm N).mem_iff.1 hnN
          have hsn := ofRange_append (d0 := d0) hn (hN n hnN')
          have hnorm : Normal (s.vertices ++ [n]) := by
            have := ofRange_normal (s.vertices ++ [n]) d0
            rwa [hsn] at this
          rw [hsn]
          cases hg : lower.get n with
          | none =>
            refine ⟨[⟨s.vertices ++ [n], d0⟩], rfl, ?_⟩
            intro x
            rw [List.mem_singleton]
            constructor
            · rintro rfl
              exact ⟨[], rfl, by simp, by simp, by simp; omega⟩
            · rintro ⟨ws, rfl, _, hp, _⟩
              cases ws with
              | nil => rfl
              | cons w ws =>
                have := (List.pairwise_cons.1 hp).1 w (by simp)
                simp [low, hg] at this
          | some ln =>
            have hlowb : ∀ b, b ∈ low lower n ↔ b ∈ ln := fun b => by simp [low, hg]
            obtain ⟨new, e, hm⟩ := ih ⟨s.vertices ++ [n], d0⟩ (intersect o ln N)
              (acc ++ [⟨s.vertices ++ [n], d0⟩]) hnorm (by simp) (by
                intro x hx y hy
                obtain ⟨h1, h2⟩ := mem_intersect.1 hx
                rcases List.mem_append.1 hy with h | h
                · exact hN x h2 y h
                · rw [List.mem_singleton.1 h]
                  exact hlow n x ((hlowb x).2 h1)) (by simp; omega) (by simp; omega)
            refine ⟨⟨s.vertices ++ [n], d0⟩ :: new, by simp only [e]; simp, ?_⟩
            intro x
            rw [List.mem_cons, hm]
            constructor
            · rintro (rfl | ⟨ws, _, rfl, h1, h2, h3⟩)
              · exact ⟨[], rfl, by simp, by simp, by simp; omega⟩
              · refine ⟨ws, by simp, fun w hw => (mem_intersect.1 (h1 w hw)).2, ?_, ?_⟩
                · rw [List.pairwise_cons]
                  exact ⟨fun w hw => (hlowb w).2 (mem_intersect.1 (h1 w hw)).1, h2⟩
                · simp only [List.length_append, List.length_singleton] at h3
                  omega
            · rintro ⟨ws, rfl, h1, h2, h3⟩
              rw [List.pairwise_cons] at h2
              cases hws : ws with
              | nil => exact Or.inl rfl
              | cons w ws' =>
                right
                rw [← hws]
                refine ⟨ws, by simp [hws], by simp, ?_, h2.2, ?_⟩
                · intro w hw
                  exact mem_intersect.2 ⟨(hlowb w).1 (h2.1 w hw), h1 w hw⟩
                · simp only [List.length_append, List.length_singleton]
                  omega) acc
      refine ⟨new, e, ?_⟩
      intro x
      rw [hm]
      constructor
      · rintro ⟨n, hn, ws, rfl, h1, h2, h3⟩
        refine ⟨n :: ws, by simp, rfl, ?_, h2, by simpa using h3⟩
        intro w hw
        rcases List.mem_cons.1 hw with rfl | hw
        · exact (o.verts_perm N).mem_iff.1 hn
        · exact h1 w hw
      · rintro ⟨ws, hws, rfl, h1, h2, h3⟩
        cases ws with
        | nil => exact absurd rfl hws
        | cons n ws =>
          exact ⟨n, (o.verts_perm N).mem_iff.2 (h1 n (by simp)), ws, rfl,
            fun w hw => h1 w (by simp [hw]), h2, by simpa using h3⟩

theorem expandList_spec (o : Orders α) (d0 : α) (lower : LowerMap) (dimension : ℕ)
    (hlow : ∀ a b, b ∈ low lower a → b < a) (vs : List ℕ) :
    ∃ l, expandList o d0 lower dimension vs = some l ∧
      ∀ x, x ∈ l ↔ ∃ v ∈ vs, ∃ ws, x = ⟨v :: ws, d0⟩ ∧
        (v :: ws).Pairwise (fun a b => b ∈ low lower a) ∧ ws.length ≤ dimension := by
  obtain ⟨new, e, hm⟩ := foldlM_append (fun simplices v =>
      match lower.get v with
      | none => some (simplices ++ [Simplex.ofVertex v d0])
      | some ns => addCofaces o d0 lower dimension (dimension + 1) (Simplex.ofVertex v d0) ns
          (simplices ++ [Simplex.ofVertex v d0]))
    (fun v x => ∃ ws, x = (⟨v :: ws, d0⟩ : Simplex α) ∧
        (v :: ws).Pairwise (fun a b => b ∈ low lower a) ∧ ws.length ≤ dimension) vs (by
      intro v _ acc
      cases hg : lower.get v with
      | none =>
        refine ⟨[⟨[v], d0⟩], rfl, ?_⟩
        intro x
        rw [List.mem_singleton]
        constructor
        · rintro rfl
          exact ⟨[], rfl, by simp, by simp⟩
        · rintro ⟨ws, rfl, hp, _⟩
          cases ws with
          | nil => rfl
          | cons w ws =>
            have := (List.pairwise_cons.1 hp).1 w (by simp)
            simp [low, hg] at this
      | some ns =>
        have hlowb : ∀ b, b ∈ low lower v ↔ b ∈ ns := fun b => by simp [low, hg]
        obtain ⟨new, e, hm⟩ := addCofaces_spec o d0 lower dimension hlow (dimension + 1)
          (Simplex.ofVertex v d0) ns (acc ++ [Simplex.ofVertex v d0]) (by simp [Simplex.ofVertex, Normal])
          (by simp [Simplex.ofVertex]) (by
            intro x hx y hy
            rw [List.mem_singleton.1 hy]
            exact hlow v x ((hlowb x).2 hx)) (by simp [Simplex.ofVertex]) (by simp [Simplex.ofVertex])
        refine ⟨Simplex.ofVertex v d0 :: new, by simp only [e]; simp, ?_⟩
        intro x
        rw [List.mem_cons, hm]
        constructor
        · rintro (rfl | ⟨ws, _, rfl, h1, h2, h3⟩)
          · exact ⟨[], rfl, by simp, by simp⟩
          · refine ⟨ws, rfl, List.pairwise_cons.2 ⟨fun w hw => (hlowb w).2 (h1 w hw), h2⟩, ?_⟩
            simp only [Simplex.ofVertex, List.length_singleton] at h3
            omega
        · rintro ⟨ws, rfl, h1, h2⟩
          rw [List.pairwise_cons] at h1
          cases hws : ws with
          | nil => exact Or.inl rfl
          | cons w ws' =>
            right
            rw [← hws]
            refine ⟨ws, by simp [hws], rfl, fun w hw => (hlowb w).1 (h1.1 w hw), h1.2, ?_⟩
            simp only [Simplex.ofVertex, List.length_singleton]
            omega) []
  exact ⟨new, e, hm⟩

end Rips

end Aleph
