import Verif.Model.Cliques
import Verif.Lemmas.Rips

/-!
# The Bron–Kerbosch traversal
-/

namespace Aleph.Cliques

open Finset Rips

/-! ### Sets -/

theorem insertSet_nodup {l : List ℕ} (h : l.Nodup) (u : ℕ) : (insertSet l u).Nodup := by
  unfold insertSet
  split
  · exact h
  · next hc =>
    rw [List.nodup_append]
    refine ⟨h, List.nodup_singleton u, ?_⟩
    intro a ha b hb hab
    rw [List.mem_singleton.1 hb] at hab
    subst hab
    simp [ha] at hc

theorem foldl_insertSet_nodup (l m : List ℕ) (h : m.Nodup) : (l.foldl insertSet m).Nodup := by
  induction l generalizing m with
  | nil => exact h
  | cons a l ih => exact ih _ (insertSet_nodup h a)

theorem setIntersection_nodup (order : List ℕ → List ℕ) (U V : List ℕ) :
    (setIntersection order U V).Nodup := by
  unfold setIntersection
  split <;> exact foldl_insertSet_nodup _ _ List.nodup_nil

theorem mem_setIntersection {order : List ℕ → List ℕ} (ho : ∀ l, (order l).Perm l) {U V : List ℕ}
    {x : ℕ} : x ∈ setIntersection order U V ↔ x ∈ U ∧ x ∈ V := by
  unfold setIntersection
  split
  · rw [mem_foldl_insertSet, List.mem_filter, (ho V).mem_iff, List.contains_iff_mem]
    simp [and_comm]
  · rw [mem_foldl_insertSet, List.mem_filter, (ho U).mem_iff, List.contains_iff_mem]
    simp

/-! ### Graphs on an initial segment -/

/-- The matrix is the adjacency matrix of the relation. -/
structure IsAdj (A : SparseMatrix) (n : ℕ) (adj : ℕ → ℕ → Prop) : Prop where
  col : ∀ v < n, ∃ c, A.columns[v]? = some c ∧ ∀ u, u ∈ c ↔ adj u v
  symm : ∀ u v, adj u v → adj v u
  irrefl : ∀ v, ¬ adj v v
  lt : ∀ u v, adj u v → u < n

/-- Cliques of a relation on `0, …, n - 1`. -/
def Clq (n : ℕ) (adj : ℕ → ℕ → Prop) (Q : Finset ℕ) : Prop :=
  (∀ v ∈ Q, v < n) ∧ ∀ u ∈ Q, ∀ v ∈ Q, u ≠ v → adj u v

/-- Maximal cliques. -/
def MaxClq (n : ℕ) (adj : ℕ → ℕ → Prop) (Q : Finset ℕ) : Prop :=
  Clq n adj Q ∧ ∀ R, Clq n adj R → Q ⊆ R → R = Q

variable {A : SparseMatrix} {n : ℕ} {adj : ℕ → ℕ → Prop}

theorem Clq.insert (hA : IsAdj A n adj) {Q : Finset ℕ} (hQ : Clq n adj Q) {v : ℕ} (hv : v < n)
    (h : ∀ c ∈ Q, c ≠ v → adj c v) : Clq n adj (insert v Q) := by
  refine ⟨?_, ?_⟩
  · intro u hu
    rcases mem_insert.1 hu with rfl | hu
    · exact hv
    · exact hQ.1 u hu
  · intro a ha b hb hab
    rcases mem_insert.1 ha with rfl | ha'
    · rcases mem_insert.1 hb with rfl | hb'
      · exact absurd rfl hab
      · exact hA.symm _ _ (h b hb' (Ne.symm hab))
    · rcases mem_insert.1 hb with rfl | hb'
      · exact h a ha' hab
      · exact hQ.2 a ha' b hb' hab

theorem MaxClq.mem (hA : IsAdj A n adj) {Q : Finset ℕ} (hQ : MaxClq n adj Q) {v : ℕ} (hv : v < n)
    (h : ∀ c ∈ Q, c ≠ v → adj c v) : v ∈ Q := by
  rw [← hQ.2 _ (hQ.1.insert hA hv h) (subset_insert _ _)]
  exact mem_insert_self _ _

/-- Invariant of the recursive calls. -/
structure Inv (n : ℕ) (adj : ℕ → ℕ → Prop) (C I X : List ℕ) : Prop where
  nodupI : I.Nodup
  clq : Clq n adj C.toFinset
  cand : ∀ v, v ∈ I ∨ v ∈ X ↔ v < n ∧ ∀ c ∈ C, adj c v
  disj : ∀ v ∈ I, v ∉ X

/-- Specification of a recursive call. -/
def Good (n : ℕ) (adj : ℕ → ℕ → Prop) (label : List ℕ → List ℕ)
    (P : Finset ℕ → Prop) (acc : List (List ℕ)) (run : Option (List (List ℕ))) : Prop :=
  ∃ ls : List (List ℕ), run = some (acc ++ ls.map label) ∧ (∀ C ∈ ls, ∀ c ∈ C, c < n) ∧
    (ls.map List.toFinset).Nodup ∧
    ∀ Q, Q ∈ ls.map List.toFinset ↔ MaxClq n adj Q ∧ P Q

theorem good_base {label : List ℕ → List ℕ}
    (hlab : ∀ C : List ℕ, (∀ c ∈ C, c < n) → newClique A C = some (label C))
    {C : List ℕ} (h : Inv n adj C [] []) (acc : List (List ℕ)) :
    Good n adj label (fun Q => C.toFinset ⊆ Q ∧ ∀ x ∈ ([] : List ℕ), x ∉ Q) acc
      (match newClique A C with
      | none => none
      | some q => some (acc ++ [q])) := by
  have hC : ∀ c ∈ C, c < n := fun c hc => h.clq.1 c (by simpa using hc)
  have hmax : MaxClq n adj C.toFinset := by
    refine ⟨h.clq, fun R hR hCR => (Subset.antisymm hCR ?_).symm⟩
    intro v hv
    by_contra hvC
    have := (h.cand v).2 ⟨hR.1 v hv, fun c hc => hR.2 c (hCR (by simpa using hc)) v hv (by
      rintro rfl; exact hvC (by simpa using hc))⟩
    simp at this
  refine ⟨[C], by rw [hlab C hC]; rfl, by simpa using hC, by simp, ?_⟩
  intro Q
  simp only [List.map_cons, List.map_nil, List.mem_singleton]
  constructor
  · rintro rfl; exact ⟨hmax, subset_rfl, by simp⟩
  · rintro ⟨hQ, hCQ, -⟩
    exact hmax.2 Q hQ.1 hCQ

/-- One visit. -/
theorem visit_good (hA : IsAdj A n adj) {label : List ℕ → List ℕ} {order : List ℕ → List ℕ}
    (ho : ∀ l, (order l).Perm l) {C : List ℕ} {b : ℕ}
    {rec : List ℕ → List ℕ → List ℕ → List (List ℕ) → Option (List (List ℕ))}
    (hrec : ∀ C I X acc, Inv n adj C I X → I.length < b →
      Good n adj label (fun Q => C.toFinset ⊆ Q ∧ ∀ x ∈ X, x ∉ Q) acc (rec C I X acc))
    (st : State) (hI : Inv n adj C st.I st.X) (hb : st.I.length ≤ b) {e : ℕ} (he : e ∈ st.I) :
    ∃ ls : List (List ℕ), visit order A C rec st e =
        some ⟨st.I.erase e, insertSet st.X e, st.cliques ++ ls.map label⟩ ∧
      (∀ C ∈ ls, ∀ c ∈ C, c < n) ∧ (ls.map List.toFinset).Nodup ∧
      ∀ Q, Q ∈ ls.map List.toFinset ↔
        MaxClq n adj Q ∧ C.toFinset ⊆ Q ∧ (∀ x ∈ st.X, x ∉ Q) ∧ e ∈ Q := by
  obtain ⟨hen, hec⟩ := (hI.cand e).1 (Or.inl he)
  obtain ⟨col, hcol, hcolm⟩ := hA.col e hen
  have hinv : Inv n adj (insertSet C e) (setIntersection order (st.I.erase e) col)
      (setIntersection order st.X col) := by
    refine ⟨setIntersection_nodup _ _ _, ?_, ?_, ?_⟩
    · have : (insertSet C e).toFinset = insert e C.toFinset := by
        ext x; simp [mem_insertSet, or_comm]
      rw [this]
      exact hI.clq.insert hA hen fun c hc _ => hec c (by simpa using hc)
    · intro v
      rw [mem_setIntersection ho, mem_setIntersection ho, hcolm, ← or_and_right,
        hI.nodupI.mem_erase_iff]
      constructor
      · rintro ⟨h, hve⟩
        obtain ⟨hvn, hvc⟩ := (hI.cand v).1 (h.imp And.right id)
        refine ⟨hvn, fun c hc => ?_⟩
        rcases mem_insertSet.1 hc with hc | rfl
        · exact hvc c hc
        · exact hA.symm _ _ hve
      · rintro ⟨hvn, hvc⟩
        have hve := hvc e (mem_insertSet.2 (Or.inr rfl))
        refine ⟨?_, hA.symm _ _ hve⟩
        have hne : v ≠ e := by rintro rfl; exact hA.irrefl _ hve
        rcases (hI.cand v).2 ⟨hvn, fun c hc => hvc c (mem_insertSet.2 (Or.inl hc))⟩ with h | h
        · exact Or.inl ⟨hne, h⟩
        · exact Or.inr h
    · intro v hv hv'
      rw [mem_setIntersection ho] at hv hv'
      exact hI.disj v (List.mem_of_mem_erase hv.1) hv'.1
  have hlen : (setIntersection order (st.I.erase e) col).length < b := by
    have h1 : (setIntersection order (st.I.erase e) col).Subperm (st.I.erase e) :=
      (setIntersection_nodup _ _ _).subperm fun x hx => ((mem_setIntersection ho).1 hx).1
    have := h1.length_le
    have h2 := List.length_erase_of_mem he
    have h3 := List.length_pos_of_mem he
    omega
  obtain ⟨ls, h1, h2, h3, h4⟩ := hrec _ _ _ st.cliques hinv hlen
  refine ⟨ls, ?_, h2, h3, ?_⟩
  · unfold visit SparseMatrix.column
    simp only [hcol, h1]
  · intro Q
    rw [h4]
    refine and_congr_right fun hQ => ?_
    have hsub : (insertSet C e).toFinset ⊆ Q ↔ C.toFinset ⊆ Q ∧ e ∈ Q := by
      have : (insertSet C e).toFinset = insert e C.toFinset := by
        ext x; simp [mem_insertSet, or_comm]
      rw [this, insert_subset_iff, and_comm]
    beta_reduce
    rw [hsub]
    constructor
    · rintro ⟨⟨hCQ, heQ⟩, hX⟩
      refine ⟨hCQ, fun x hx hxQ => ?_, heQ⟩
      refine hX x ?_ hxQ
      rw [mem_setIntersection ho, hcolm]
      refine ⟨hx, hQ.1.2 x hxQ e heQ ?_⟩
      rintro rfl
      exact hI.disj _ he hx
    · rintro ⟨hCQ, hX, heQ⟩
      exact ⟨⟨hCQ, heQ⟩, fun x hx => hX x ((mem_setIntersection ho).1 hx).1⟩

/-- The loop over candidates, some of which are skipped. -/
theorem loop_good (hA : IsAdj A n adj) {label : List ℕ → List ℕ} {order : List ℕ → List ℕ}
    (ho : ∀ l, (order l).Perm l) {C : List ℕ} {b : ℕ}
    {rec : List ℕ → List ℕ → List ℕ → List (List ℕ) → Option (List (List ℕ))}
    (hrec : ∀ C I X acc, Inv n adj C I X → I.length < b →
      Good n adj label (fun Q => C.toFinset ⊆ Q ∧ ∀ x ∈ X, x ∉ Q) acc (rec C I X acc))
    (skip : ℕ → Bool) (step : State → ℕ → Option State) (es : List ℕ)
    (hstep : ∀ st, ∀ e ∈ es, step st e = if skip e then some st else visit order A C rec st e)
    (st : State) (hI : Inv n adj C st.I st.X) (hb : st.I.length ≤ b) (hes : ∀ e ∈ es, e ∈ st.I)
    (hn : es.Nodup) :
    ∃ (ls : List (List ℕ)) (I' X' : List ℕ), es.foldlM step st =
        some ⟨I', X', st.cliques ++ ls.map label⟩ ∧
      (∀ C ∈ ls, ∀ c ∈ C, c < n) ∧ (ls.map List.toFinset).Nodup ∧
      ∀ Q, Q ∈ ls.map List.toFinset ↔
        MaxClq n adj Q ∧ C.toFinset ⊆ Q ∧ (∀ x ∈ st.X, x ∉ Q) ∧
          ∃ e ∈ es, skip e = false ∧ e ∈ Q := by
  induction es generalizing st with
  | nil => exact ⟨[], st.I, st.X, by simp, by simp, by simp, by simp⟩
  | cons e es ih =>
    have hstep' := fun st a ha => hstep st a (List.mem_cons_of_mem e ha)
    have hn' := List.nodup_cons.1 hn
    rw [List.foldlM_cons, hstep st e List.mem_cons_self]
    by_cases hs : skip e = true
    · rw [if_pos hs]
      obtain ⟨ls, I', X', h1, h2, h3, h4⟩ := ih hstep' st hI hb
        (fun a ha => hes a (List.mem_cons_of_mem _ ha)) hn'.2
      refine ⟨ls, I', X', h1, h2, h3, fun Q => ?_⟩
      rw [h4]
      refine and_congr_right fun _ => and_congr_right fun _ => and_congr_right fun _ => ?_
      constructor
      · rintro ⟨a, ha, h⟩; exact ⟨a, List.mem_cons_of_mem _ ha, h⟩
      · rintro ⟨a, ha, h, h'⟩
        rcases List.mem_cons.1 ha with rfl | ha
        · rw [hs] at h; cases h
        · exact ⟨a, ha, h, h'⟩
    · rw [if_neg hs]
      have he := hes e List.mem_cons_self
      obtain ⟨l1, k1, k2, k3, k4⟩ := visit_good hA ho hrec st hI hb he
      rw [k1]
      have hI' : Inv n adj C (st.I.erase e) (insertSet st.X e) := by
        refine ⟨hI.nodupI.erase e, hI.clq, ?_, ?_⟩
        · intro v
          rw [← hI.cand, hI.nodupI.mem_erase_iff, mem_insertSet]
          by_cases h : v = e
          · subst h; simp [he]
          · simp [h]
        · intro v hv hv'
          rw [hI.nodupI.mem_erase_iff] at hv
          rcases mem_insertSet.1 hv' with h | h
          · exact hI.disj v hv.2 h
          · exact hv.1 h
      obtain ⟨l2, I', X', h1, h2, h3, h4⟩ := ih hstep'
        ⟨st.I.erase e, insertSet st.X e, st.cliques ++ l1.map label⟩ hI'
        (by
          have := List.length_erase_le (a := e) (l := st.I)
          exact this.trans hb)
        (fun a ha => by
          rw [hI.nodupI.mem_erase_iff]
          refine ⟨?_, hes a (List.mem_cons_of_mem _ ha)⟩
          rintro rfl; exact hn'.1 ha) hn'.2
      refine ⟨l1 ++ l2, I', X', ?_, ?_, ?_, ?_⟩
      · simpa using h1
      · intro D hD
        rcases List.mem_append.1 hD with h | h
        · exact k2 D h
        · exact h2 D h
      · rw [List.map_append, List.nodup_append]
        refine ⟨k3, h3, ?_⟩
        rintro Q hQ1 R hR rfl
        have e1 := (k4 Q).1 hQ1
        have e2 := (h4 Q).1 hR
        exact e2.2.2.1 e (mem_insertSet.2 (Or.inr rfl)) e1.2.2.2
      · intro Q
        rw [List.map_append, List.mem_append, k4, h4]
        constructor
        · rintro (⟨g1, g2, g3, g4⟩ | ⟨g1, g2, g3, a, ha, g4⟩)
          · exact ⟨g1, g2, g3, e, List.mem_cons_self, by simpa using hs, g4⟩
          · exact ⟨g1, g2, fun x hx => g3 x (mem_insertSet.2 (Or.inl hx)), a,
              List.mem_cons_of_mem _ ha, g4⟩
        · rintro ⟨g1, g2, g3, a, ha, g4, g5⟩
          by_cases heQ : e ∈ Q
          · exact Or.inl ⟨g1, g2, g3, heQ⟩
          · refine Or.inr ⟨g1, g2, ?_, a, ?_, g4, g5⟩
            · intro x hx
              rcases mem_insertSet.1 hx with h | rfl
              · exact g3 x h
              · exact heQ
            · rcases List.mem_cons.1 ha with rfl | ha
              · exact absurd g5 heQ
              · exact ha

theorem enumerateBronKerbosch_good (hA : IsAdj A n adj) {label : List ℕ → List ℕ}
    (hlab : ∀ C : List ℕ, (∀ c ∈ C, c < n) → newClique A C = some (label C))
    {order : List ℕ → List ℕ} (ho : ∀ l, (order l).Perm l) (f : ℕ) (C I X : List ℕ)
    (acc : List (List ℕ)) (h : Inv n adj C I X) (hf : I.length < f) :
    Good n adj label (fun Q => C.toFinset ⊆ Q ∧ ∀ x ∈ X, x ∉ Q) acc
      (enumerateBronKerbosch order A f C I X acc) := by
  induction f generalizing C I X acc with
  | zero => omega
  | succ f ih =>
    rw [enumerateBronKerbosch]
    split
    · next he =>
      simp only [Bool.and_eq_true, List.isEmpty_iff] at he
      obtain ⟨rfl, rfl⟩ := he
      exact good_base hlab h acc
    · next he =>
      obtain ⟨ls, I', X', h1, h2, h3, h4⟩ := loop_good hA ho (b := f)
        (fun C I X acc hi hl => ih C I X acc hi hl) (fun _ => false)
        (visit order A C (enumerateBronKerbosch order A f)) (order I) (by simp) ⟨I, X, acc⟩ h
        (by simpa using Nat.lt_succ_iff.1 hf) (fun e he => (ho I).subset he)
        ((ho I).nodup_iff.2 h.nodupI)
      refine ⟨ls, by rw [h1]; rfl, h2, h3, fun Q => ?_⟩
      rw [h4]
      refine and_congr_right fun hQ => ?_
      constructor
      · rintro ⟨g1, g2, -⟩; exact ⟨g1, g2⟩
      · rintro ⟨g1, g2⟩
        refine ⟨g1, g2, ?_⟩
        -- the clique is not `C` itself, since some vertex extends `C`
        have hex : ∃ v, v ∈ I ∨ v ∈ X := by
          by_contra hno
          push Not at hno
          apply he
          simp only [Bool.and_eq_true, List.isEmpty_iff]
          exact ⟨List.eq_nil_iff_forall_not_mem.2 fun v => (hno v).1,
            List.eq_nil_iff_forall_not_mem.2 fun v => (hno v).2⟩
        by_contra hno
        push Not at hno
        have hQC : ∀ q ∈ Q, q ∈ C := by
          intro q hq
          by_contra hqC
          have := (h.cand q).2 ⟨hQ.1.1 q hq, fun c hc => hQ.1.2 c (g1 (by simpa using hc)) q hq (by
            rintro rfl; exact hqC hc)⟩
          rcases this with hqI | hqX
          · exact hno q ((ho I).mem_iff.2 hqI) rfl hq
          · exact g2 q hqX hq
        obtain ⟨v, hv⟩ := hex
        obtain ⟨hvn, hvc⟩ := (h.cand v).1 hv
        have hvQ := hQ.mem hA hvn fun c hc _ => hvc c (hQC c hc)
        exact hA.irrefl v (hvc v (hQC v hvQ))

theorem selectPivot_mem (hA : IsAdj A n adj) {l : List ℕ} (hl : l ≠ []) (hn : ∀ v ∈ l, v < n) :
    ∃ p ∈ l, selectPivot A l = some p := by
  have key : ∀ (m : List ℕ) (st : ℕ × ℕ), (∀ v ∈ m, v < n) →
      ∃ st', m.foldlM (fun (st : ℕ × ℕ) v =>
        match A.numEntries v with
        | none => none
        | some degree => some (if degree > st.2 then (v, degree) else st)) st = some st' ∧
        (st'.1 = st.1 ∨ st'.1 ∈ m) := by
    intro m
    induction m with
    | nil => intro st _; exact ⟨st, rfl, Or.inl rfl⟩
    | cons v m ih =>
      intro st hm
      obtain ⟨c, hc, -⟩ := hA.col v (hm v List.mem_cons_self)
      rw [List.foldlM_cons]
      simp only [SparseMatrix.numEntries, hc, Option.map_some, Option.bind_eq_bind, Option.bind_some]
      obtain ⟨st', h1, h2⟩ := ih (if c.length > st.2 then (v, c.length) else st)
        fun u hu => hm u (List.mem_cons_of_mem _ hu)
      refine ⟨st', h1, ?_⟩
      rcases h2 with h2 | h2
      · split at h2
        · right; rw [h2]; exact List.mem_cons_self
        · exact Or.inl h2
      · exact Or.inr (List.mem_cons_of_mem _ h2)
  cases l with
  | nil => exact absurd rfl hl
  | cons p l =>
    obtain ⟨st', h1, h2⟩ := key (p :: l) (p, 0) hn
    refine ⟨st'.1, ?_, ?_⟩
    · rcases h2 with h2 | h2
      · rw [h2]; exact List.mem_cons_self
      · exact h2
    · simp only [selectPivot]
      exact congrArg (Option.map Prod.fst) h1

theorem enumerateKoch_good (hA : IsAdj A n adj) {label : List ℕ → List ℕ}
    (hlab : ∀ C : List ℕ, (∀ c ∈ C, c < n) → newClique A C = some (label C))
    {order : List ℕ → List ℕ} (ho : ∀ l, (order l).Perm l) (f : ℕ) (C I X : List ℕ)
    (acc : List (List ℕ)) (h : Inv n adj C I X) (hf : I.length < f) :
    Good n adj label (fun Q => C.toFinset ⊆ Q ∧ ∀ x ∈ X, x ∉ Q) acc
      (enumerateKoch order A f C I X acc) := by
  induction f generalizing C I X acc with
  | zero => omega
  | succ f ih =>
    rw [enumerateKoch]
    split
    · next he =>
      simp only [Bool.and_eq_true, List.isEmpty_iff] at he
      obtain ⟨rfl, rfl⟩ := he
      exact good_base hlab h acc
    · next he =>
      split
      · next hI =>
        rw [List.isEmpty_iff] at hI
        subst hI
        refine ⟨[], by simp, by simp, by simp, fun Q => ?_⟩
        simp only [List.map_nil, List.not_mem_nil, false_iff]
        rintro ⟨hQ, g1, g2⟩
        have hX : X ≠ [] := by rintro rfl; exact he rfl
        have hQC : ∀ q ∈ Q, q ∈ C := by
          intro q hq
          by_contra hqC
          have := (h.cand q).2 ⟨hQ.1.1 q hq, fun c hc => hQ.1.2 c (g1 (by simpa using hc)) q hq (by
            rintro rfl; exact hqC hc)⟩
          rcases this with hqI | hqX
          · simp at hqI
          · exact g2 q hqX hq
        obtain ⟨v, hv⟩ := List.exists_mem_of_ne_nil _ hX
        obtain ⟨hvn, hvc⟩ := (h.cand v).1 (Or.inr hv)
        have hvQ := hQ.mem hA hvn fun c hc _ => hvc c (hQC c hc)
        exact hA.irrefl v (hvc v (hQC v hvQ))
      · next hI =>
        rw [List.isEmpty_iff] at hI
        obtain ⟨p, hp, hpe⟩ := selectPivot_mem hA (l := order I)
          (by intro h0; apply hI; simpa [h0] using (ho I).symm)
          (fun v hv => ((h.cand v).1 (Or.inl ((ho I).subset hv))).1)
        rw [hpe]
        simp only
        have hpI := (ho I).subset hp
        obtain ⟨hpn, hpc⟩ := (h.cand p).1 (Or.inl hpI)
        obtain ⟨col, hcol, hcolm⟩ := hA.col p hpn
        obtain ⟨ls, I', X', h1, h2, h3, h4⟩ := loop_good hA ho (b := f)
          (fun C I X acc hi hl => ih C I X acc hi hl) (fun e => col.contains e)
          (kochStep order A C (enumerateKoch order A f) p) (order I) (by
            intro st e _
            unfold kochStep SparseMatrix.get
            rw [hcol]
            simp only [Option.map_some]
            cases col.contains e <;> rfl) ⟨I, X, acc⟩ h
          (by simpa using Nat.lt_succ_iff.1 hf) (fun e he => (ho I).subset he)
          ((ho I).nodup_iff.2 h.nodupI)
        refine ⟨ls, by rw [h1]; rfl, h2, h3, fun Q => ?_⟩
        rw [h4]
        refine and_congr_right fun hQ => ?_
        constructor
        · rintro ⟨g1, g2, -⟩; exact ⟨g1, g2⟩
        · rintro ⟨g1, g2⟩
          refine ⟨g1, g2, ?_⟩
          by_contra hno
          push Not at hno
          -- all further elements are neighbours of the pivot, hence so is the pivot itself
          have hall : ∀ q ∈ Q, q ≠ p → adj q p := by
            intro q hq _
            by_cases hqC : q ∈ C
            · exact hpc q hqC
            · have := (h.cand q).2 ⟨hQ.1.1 q hq, fun c hc => hQ.1.2 c (g1 (by simpa using hc)) q hq (by
                rintro rfl; exact hqC hc)⟩
              rcases this with hqI | hqX
              · by_contra hnadj
                refine hno q ((ho I).mem_iff.2 hqI) ?_ hq
                simp only [List.contains_eq_mem, decide_eq_false_iff_not]
                rw [hcolm]; exact hnadj
              · exact absurd hq (g2 q hqX)
          have hpQ := hQ.mem hA hpn hall
          refine hno p hp ?_ hpQ
          simp only [List.contains_eq_mem, decide_eq_false_iff_not]
          rw [hcolm]; exact hA.irrefl p

end Aleph.Cliques
