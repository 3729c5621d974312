import Verif.Lemmas.SparseTool
import Verif.Props.Euler

/-!
# C179: the tool `sparse_adjacency_matrices`
-/

namespace Aleph.SparseTool

open Finset Spec Rips Spec.Sparse
open SparseReader (Failure Labels)

variable {α : Type}

/-! ### Graphs -/

/-- What the tool needs to know about a graph: it has no isolated nodes, the data of edges is zero, and nodes are numbers between one and a bound. -/
structure IsGood [Zero α] (bound : ℕ) (K : Complex α) : Prop where
  graph : IsGraph K
  connected : NoIsolated K
  nonempty : K ≠ []
  zero : ∀ u v x, u ≠ v → HasData K {u, v} x → x = 0
  small : K.length ≤ idxMax
  bounds : ∀ v, Has K {v} → 1 ≤ v ∧ v ≤ bound

theorem sets_perm {K L : Complex α} (hp : L.Perm K) : sets L = sets K := by
  ext t
  rw [mem_sets, mem_sets]
  exact exists_congr fun s => and_congr_left fun _ => hp.mem_iff

theorem has_perm {K L : Complex α} (hp : L.Perm K) (t : Finset ℕ) : Has L t ↔ Has K t := exists_congr fun s => and_congr_left fun _ => hp.mem_iff

theorem IsGood.perm [Zero α] {bound : ℕ} {K L : Complex α} (h : IsGood bound K) (hp : L.Perm K) : IsGood bound L := by
  refine ⟨⟨h.graph.1.perm hp, ?_, fun _ hs => h.graph.2.2 _ (hp.subset hs)⟩, ?_, ?_, ?_, ?_, ?_⟩
  · intro s hs t ht hne
    exact (has_perm hp t).2 (h.graph.2.1 s (hp.subset hs) t ht hne)
  · intro v hv
    rw [sets_perm hp]
    exact h.connected v ((has_perm hp _).1 hv)
  · rintro rfl
    exact h.nonempty (List.nil_perm.1 hp)
  · rintro u v x huv ⟨s, hs, e⟩
    exact h.zero u v x huv ⟨s, hp.subset hs, e⟩
  · rw [hp.length_eq]
    exact h.small
  · intro v hv
    exact h.bounds v ((has_perm hp _).1 hv)

theorem exists_node {K : Complex α} (hK : IsGraph K) (hne : K ≠ []) : ∃ v, Has K {v} := by
  obtain ⟨s, hs⟩ := List.exists_mem_of_ne_nil K hne
  obtain ⟨v, hv⟩ := List.exists_mem_of_ne_nil _ (hK.1.nonempty s hs)
  exact ⟨v, hK.2.1 s hs {v} (by simpa [Simplex.vset] using hv) (by simp)⟩

theorem exists_top {K : Complex α} (hK : IsGraph K) (hne : K ≠ []) : ∃ top, IsTopDegree (sets K) top := by
  classical
  obtain ⟨v, hv⟩ := exists_node hK hne
  have hfin : {n | ∃ v, {v} ∈ sets K ∧ n = degree (sets K) v} = ((((sets K).biUnion id).filter (fun v => {v} ∈ sets K)).image (degree (sets K)) : Finset ℕ) := by
    ext n
    simp only [Set.mem_ofPred_eq, coe_image, coe_filter, Set.mem_image, mem_biUnion, id]
    constructor
    · rintro ⟨v, h1, rfl⟩
      exact ⟨v, ⟨⟨{v}, h1, by simp⟩, h1⟩, rfl⟩
    · rintro ⟨v, ⟨-, h1⟩, rfl⟩
      exact ⟨v, h1, rfl⟩
  unfold IsTopDegree
  rw [hfin]
  refine ⟨_, Finset.isGreatest_max' _ ⟨degree (sets K) v, ?_⟩⟩
  rw [← mem_coe, ← hfin]
  exact ⟨v, mem_sets.2 hv, rfl⟩

theorem exists_edge {K : Complex α} (hi : NoIsolated K) {v : ℕ} (hv : Has K {v}) : ∃ s ∈ K, 2 ≤ #s.vset := by
  obtain ⟨t, ht⟩ := card_pos.1 (hi v hv)
  obtain ⟨h1, h2⟩ := mem_filter.1 ht
  obtain ⟨s, hs, rfl⟩ := mem_sets.1 h1
  exact ⟨s, hs, h2.2⟩

theorem dimension_good [Zero α] {bound : ℕ} {K : Complex α} (h : IsGood bound K) : ∃ d, K.dimension = some d ∧ 1 ≤ d := by
  refine ⟨_, by rw [Complex.dimension, if_neg (by simpa using h.nonempty)], ?_⟩
  obtain ⟨v, hv⟩ := exists_node h.graph h.nonempty
  obtain ⟨s, hs, e⟩ := exists_edge h.connected hv
  have h1 : 1 ≤ Complex.dim s := by
    have hn : s.vertices.Nodup := (h.graph.1.normal s hs).imp fun h => ne_of_gt h
    rw [Simplex.vset, List.toFinset_card_of_nodup hn] at e
    unfold Complex.dim
    omega
  have key : ∀ (l : List ℕ) (a : ℕ), a ∈ l → a ≤ l.foldr max 0 := by
    intro l x hl
    induction l with
    | nil => cases hl
    | cons a l ih =>
      rw [List.foldr_cons]
      rcases List.mem_cons.1 hl with rfl | hl
      · exact le_max_left _ _
      · exact (ih hl).trans (le_max_right _ _)
  exact h1.trans (key _ _ (List.mem_map.2 ⟨s, hs, rfl⟩))

theorem maxDimension_good [Zero α] {bound : ℕ} {Ks : List (Complex α)} (h : ∀ K ∈ Ks, IsGood bound K) : ∃ m, maxDimension Ks = .ok m ∧ (Ks ≠ [] → 1 ≤ m) := by
  suffices H : ∀ m, ∃ m', Ks.foldlM (fun m K =>
      match Complex.dimension K with
      | none => .error .exception
      | some d => .ok (max d m)) m = (.ok m' : Except Failure ℕ) ∧ m ≤ m' ∧ (Ks ≠ [] → 1 ≤ m') by
    obtain ⟨m', h1, -, h2⟩ := H 0
    exact ⟨m', h1, h2⟩
  induction Ks with
  | nil => exact fun m => ⟨m, rfl, le_rfl, fun h => absurd rfl h⟩
  | cons K Ks ih =>
    intro m
    obtain ⟨d, h1, h2⟩ := dimension_good (h K (by simp))
    obtain ⟨m', h3, h4, -⟩ := ih (fun L hL => h L (by simp [hL])) (max d m)
    refine ⟨m', ?_, (le_max_right _ _).trans h4, fun _ => h2.trans ((le_max_left _ _).trans h4)⟩
    rw [List.foldlM_cons, h1]
    exact h3

theorem expandAll_good [LinearOrder α] [Zero α] (o : Orders α) (dimension : ℕ) {bound : ℕ} {Ks : List (Complex α)} (h : ∀ K ∈ Ks, IsGood bound K) : expandAll o dimension Ks = .ok () := by
  unfold expandAll
  split
  · induction Ks with
    | nil => rfl
    | cons K Ks ih =>
      obtain ⟨L, e, -⟩ := C26_cliques o 0 K (h K (by simp)).graph.1 (GraphAnalysis.edgeClosed (h K (by simp)).graph) dimension
      rw [List.forM_eq_forM, List.forM_cons, e]
      exact ih fun L hL => h L (by simp [hL])
  · rfl

/-! ### Loops -/

theorem number_ne {n i : ℕ} (hi : i < n) {directory e : List Char} : directory ++ number n i ++ e ≠ directory ++ "Labels.txt".toList := by
  intro h
  obtain ⟨k, s, t, h1, h2, -⟩ := number_padded hi
  rw [List.append_assoc] at h
  have h := List.append_cancel_left h
  rw [h1] at h
  cases k with
  | zero =>
    obtain ⟨a, s', rfl⟩ := List.exists_cons_of_ne_nil h2.1
    have ha := h2.2.1 a (by simp)
    have : a = 'L' := (List.cons.inj h).1
    subst this
    revert ha
    decide
  | succ k =>
    rw [List.replicate_succ] at h
    have := (List.cons.inj h).1
    revert this
    decide

section

variable [LinearOrder α] [Field α] [IsStrictOrderedRing α]

theorem filtrations_spec (c : Context α) (hlo : c.lo ≤ 0) (s : Settings α) (hs : s.sum = true ∨ s.superlevel = false) {bound : ℕ} (T : Complex α → ℕ) {Ks : List (Complex α)}
    (h : ∀ K ∈ Ks, IsGood bound K ∧ IsTopDegree (sets K) (T K)) {m : ℕ} (hm : s.normalise = true → m ≤ 1) :
    ∃ (M : ℕ) (Ls : List (Complex α)), filtrations c s (m : α) Ks = .ok ((M : α), Ls) ∧
      List.Forall₂ (fun K N => ∃ L, N = L.sort (asLt (Filtration.data fun a b => decide (a < b))) ∧ IsWeighted s.sum (nodeValue s.normalise (sets K) (T K)) K L) Ks Ls ∧
      (s.normalise = true → Ks ≠ [] → M = 1) ∧ (s.normalise = false → IsGreatest {n | n = m ∨ ∃ K ∈ Ks, n = T K} M) := by
  induction Ks generalizing m with
  | nil => exact ⟨m, [], rfl, .nil, fun _ h => absurd rfl h, fun _ => ⟨Or.inl rfl, by simp [upperBounds]⟩⟩
  | cons K Ks ih =>
    obtain ⟨g1, g2⟩ := h K (by simp)
    obtain ⟨L, e, hL⟩ := filtrationStep_spec c hlo s hs hm g1.graph g1.connected g2
    obtain ⟨M, Ls, f1, f2, f3, f4⟩ := ih (m := if s.normalise then 1 else max m (T K)) (fun K hK => h K (by simp [hK])) (fun hn => by rw [if_pos hn])
    refine ⟨M, _ :: Ls, ?_, .cons ⟨L, rfl, hL⟩ f2, ?_, ?_⟩
    · unfold filtrations
      simp only [e, f1, bind, Except.bind]
    · intro hn _
      by_cases hKs : Ks = []
      · subst hKs
        unfold filtrations at f1
        have := (Prod.mk.inj (Except.ok.inj f1)).1
        rw [if_pos hn] at this
        exact_mod_cast this.symm
      · exact f3 hn hKs
    · intro hn
      have := f4 hn
      rw [hn] at this
      simp only [Bool.false_eq_true, if_false] at this
      obtain ⟨a1, a2⟩ := this
      constructor
      · rcases a1 with a1 | ⟨K', hK', a1⟩
        · rcases max_choice m (T K) with e | e
          · exact Or.inl (a1.trans e)
          · exact Or.inr ⟨K, by simp, a1.trans e⟩
        · exact Or.inr ⟨K', by simp [hK'], a1⟩
      · rintro n (rfl | ⟨K', hK', rfl⟩)
        · exact (le_max_left _ _).trans (a2 (Or.inl rfl))
        · rcases List.mem_cons.1 hK' with rfl | hK'
          · exact (le_max_right _ _).trans (a2 (Or.inl rfl))
          · exact a2 (Or.inr ⟨K', hK', rfl⟩)

theorem centralities_spec (c : Context α) (directory : List Char) {n bound : ℕ} {Ks : List (Complex α)} (h : ∀ K ∈ Ks, IsGood bound K) (index : ℕ) (hn : index + Ks.length ≤ n) :
    ∃ fs, centralities c directory n index Ks = .ok (Ks.map Complex.sortLex, fs) ∧
      (∀ x ∈ fs, ∃ i, index ≤ i ∧ i < n ∧ x.1 = directory ++ number n i ++ "_closeness_centrality.txt".toList) ∧
      ∀ (j : ℕ) (K : Complex α), Ks[j]? = some K → ∃ values, List.Forall₂ (IsCloseness (sets K) K.vertices) K.vertices values ∧
        FileContents fs (directory ++ number n (index + j) ++ "_closeness_centrality.txt".toList) (values.flatMap (valueLine c)) := by
  induction Ks generalizing index with
  | nil => exact ⟨[], rfl, by simp, by simp⟩
  | cons K Ks ih =>
    rw [List.length_cons] at hn
    obtain ⟨values, v1, v2⟩ := closeness_spec (h K (by simp)).graph (h K (by simp)).zero
    obtain ⟨fs, f1, f2, f3⟩ := ih (fun L hL => h L (by simp [hL])) (index + 1) (by omega)
    refine ⟨(directory ++ number n index ++ "_closeness_centrality.txt".toList, values.flatMap (valueLine c)) :: fs, ?_, ?_, ?_⟩
    · unfold centralities
      simp only [v1, name_eq directory (show index < n by omega), f1, bind, Except.bind]
      rfl
    · intro x hx
      rcases List.mem_cons.1 hx with rfl | hx
      · exact ⟨index, le_rfl, by omega, rfl⟩
      · obtain ⟨i, h1, h2, h3⟩ := f2 x hx
        exact ⟨i, by omega, h2, h3⟩
    · intro j L hL
      cases j with
      | zero =>
        rw [List.getElem?_cons_zero, Option.some.injEq] at hL
        subst hL
        refine ⟨values, v2, [], fs, rfl, fun x hx e => ?_⟩
        obtain ⟨i, h1, h2, h3⟩ := f2 x hx
        rw [h3] at e
        have := (name_inj h2 (show index < n by omega) e).1
        omega
      | succ j =>
        rw [List.getElem?_cons_succ] at hL
        obtain ⟨vals, w1, w2⟩ := f3 j L hL
        refine ⟨vals, w1, ?_⟩
        rw [show index + (j + 1) = index + 1 + j by ring]
        exact contents_right (before := [_]) w2

end

theorem graphFiles_spec (c : Context α) (w : GmlWriter.Options) (directory : List Char) {n : ℕ} {Ks : List (Complex α)} (h : ∀ K ∈ Ks, GmlWriter.write w c.print K ≠ none) (index : ℕ)
    (hn : index + Ks.length ≤ n) :
    ∃ fs, graphFiles c w directory n index Ks = .ok fs ∧ (∀ x ∈ fs, ∃ i, index ≤ i ∧ i < n ∧ x.1 = directory ++ number n i ++ ".gml".toList) ∧
      ∀ (j : ℕ) (K : Complex α), Ks[j]? = some K → ∃ text, GmlWriter.write w c.print K = some text ∧ FileContents fs (directory ++ number n (index + j) ++ ".gml".toList) text := by
  induction Ks generalizing index with
  | nil => exact ⟨[], rfl, by simp, by simp⟩
  | cons K Ks ih =>
    rw [List.length_cons] at hn
    obtain ⟨text, ht⟩ := Option.ne_none_iff_exists'.1 (h K (by simp))
    obtain ⟨fs, f1, f2, f3⟩ := ih (fun L hL => h L (by simp [hL])) (index + 1) (by omega)
    refine ⟨(directory ++ number n index ++ ".gml".toList, text) :: fs, ?_, ?_, ?_⟩
    · unfold graphFiles
      simp only [ht, name_eq directory (show index < n by omega), f1, bind, Except.bind]
    · intro x hx
      rcases List.mem_cons.1 hx with rfl | hx
      · exact ⟨index, le_rfl, by omega, rfl⟩
      · obtain ⟨i, h1, h2, h3⟩ := f2 x hx
        exact ⟨i, by omega, h2, h3⟩
    · intro j L hL
      cases j with
      | zero =>
        rw [List.getElem?_cons_zero, Option.some.injEq] at hL
        subst hL
        refine ⟨text, ht, [], fs, rfl, fun x hx e => ?_⟩
        obtain ⟨i, h1, h2, h3⟩ := f2 x hx
        rw [h3] at e
        have := (name_inj h2 (show index < n by omega) e).1
        omega
      | succ j =>
        rw [List.getElem?_cons_succ] at hL
        obtain ⟨t, w1, w2⟩ := f3 j L hL
        refine ⟨t, w1, ?_⟩
        rw [show index + (j + 1) = index + 1 + j by ring]
        exact contents_right (before := [_]) w2

/-! ### Options -/

/-- The argument of an option for the dimension. -/
def Opt.dimensionWord : Opt → Option (List Char)
  | .dimension w => some w
  | _ => none

/-- The argument of an option for the value of unpaired points. -/
def Opt.infinityWord : Opt → Option (List Char)
  | .infinity w => some w
  | _ => none

/-- The argument of an option for the directory. -/
def Opt.outputWord : Opt → Option (List Char)
  | .output w => some w
  | _ => none

/-- All options are known, and the arguments of those for the dimension are numbers. -/
def Valid (c : Context α) (opts : List Opt) : Prop := ∀ o ∈ opts, o ≠ .unknown ∧ ∀ w, o.dimensionWord = some w → c.stoul w ≠ none

theorem settings_none [Field α] (c : Context α) (opts : List Opt) : settings c opts = none ↔ ¬Valid c opts := by
  unfold settings
  rw [foldlM_eq_none (bad := fun o => ¬(o ≠ .unknown ∧ ∀ w, o.dimensionWord = some w → c.stoul w ≠ none))]
  · unfold Valid
    push Not
    rfl
  · intro s o
    cases o <;> simp [setOption, Opt.dimensionWord]

theorem flag_of_foldlM {σ : Type} {step : σ → Opt → Option σ} {get : σ → Bool} {flag : Opt} (hset : ∀ s s', step s flag = some s' → get s' = true)
    (hkeep : ∀ s o s', o ≠ flag → step s o = some s' → get s' = get s) {init s : σ} (h0 : get init = false) {opts : List Opt} (h : opts.foldlM step init = some s) :
    get s = decide (flag ∈ opts) := by
  suffices H : ∀ init, opts.foldlM step init = some s → (get s = true ↔ get init = true ∨ flag ∈ opts) by
    have := H init h
    rw [Bool.eq_iff_iff, decide_eq_true_iff]
    simpa [h0] using this
  clear h h0 init
  induction opts with
  | nil =>
    intro init h
    simp only [List.foldlM_nil, pure, Option.some.injEq] at h
    simp [h]
  | cons o l ih =>
    intro init h
    rw [List.foldlM_cons] at h
    cases e : step init o with
    | none =>
      rw [e] at h
      simp at h
    | some t =>
      rw [e] at h
      have := ih t h
      rw [this, List.mem_cons]
      by_cases ho : o = flag
      · subst ho
        simp [hset _ _ e]
      · rw [hkeep _ _ _ ho e]
        simp [Ne.symm ho]

theorem settings_spec [Field α] (c : Context α) {opts : List Opt} {s : Settings α} (h : settings c opts = some s) :
    IsLastValue Opt.infinityWord (fun w => some (c.convert w)) 2 opts s.infinity ∧ IsLastValue Opt.outputWord some "/tmp".toList opts s.output ∧
    s.closeness = decide (Opt.closeness ∈ opts) ∧ s.graphs = decide (Opt.graphs ∈ opts) ∧ s.sum = decide (Opt.sum ∈ opts) ∧ s.attributes = decide (Opt.attributes ∈ opts) ∧
    s.nodeLabels = decide (Opt.nodeLabels ∈ opts) ∧ s.superlevel = decide (Opt.superlevel ∈ opts) ∧ s.normalise = decide (Opt.normalise ∈ opts) := by
  unfold settings at h
  refine ⟨?_, ?_, ?_, ?_, ?_, ?_, ?_, ?_, ?_⟩
  · refine lastValue_of_foldlM (get := Settings.infinity) ?_ ?_ h
    · intro s o s' w hp h
      cases o <;> simp only [Opt.infinityWord, Option.some.injEq, reduceCtorEq] at hp
      subst hp
      simp only [setOption, Option.some.injEq] at h
      rw [← h]
    · intro s o s' hp h
      cases o <;> simp only [Opt.infinityWord, reduceCtorEq, setOption, Option.map_eq_some_iff, Option.some.injEq] at hp h <;>
        first | (subst h; rfl) | (obtain ⟨x, h1, rfl⟩ := h; rfl)
  · refine lastValue_of_foldlM (get := Settings.output) ?_ ?_ h
    · intro s o s' w hp h
      cases o <;> simp only [Opt.outputWord, Option.some.injEq, reduceCtorEq] at hp
      subst hp
      simp only [setOption, Option.some.injEq] at h
      rw [← h]
    · intro s o s' hp h
      cases o <;> simp only [Opt.outputWord, reduceCtorEq, setOption, Option.map_eq_some_iff, Option.some.injEq] at hp h <;>
        first | (subst h; rfl) | (obtain ⟨x, h1, rfl⟩ := h; rfl)
  · refine flag_of_foldlM (get := Settings.closeness) ?_ ?_ rfl h
    · intro s s' h
      simp only [setOption, Option.some.injEq] at h
      rw [← h]
    · intro s o s' hp h
      cases o <;> simp only [ne_eq, reduceCtorEq, not_true_eq_false, not_false_eq_true, setOption, Option.map_eq_some_iff, Option.some.injEq] at hp h <;>
        first | (subst h; rfl) | (obtain ⟨x, h1, rfl⟩ := h; rfl)
  · refine flag_of_foldlM (get := Settings.graphs) ?_ ?_ rfl h
    · intro s s' h
      simp only [setOption, Option.some.injEq] at h
      rw [← h]
    · intro s o s' hp h
      cases o <;> simp only [ne_eq, reduceCtorEq, not_true_eq_false, not_false_eq_true, setOption, Option.map_eq_some_iff, Option.some.injEq] at hp h <;>
        first | (subst h; rfl) | (obtain ⟨x, h1, rfl⟩ := h; rfl)
  · refine flag_of_foldlM (get := Settings.sum) ?_ ?_ rfl h
    · intro s s' h
      simp only [setOption, Option.some.injEq] at h
      rw [← h]
    · intro s o s' hp h
      cases o <;> simp only [ne_eq, reduceCtorEq, not_true_eq_false, not_false_eq_true, setOption, Option.map_eq_some_iff, Option.some.injEq] at hp h <;>
        first | (subst h; rfl) | (obtain ⟨x, h1, rfl⟩ := h; rfl)
  · refine flag_of_foldlM (get := Settings.attributes) ?_ ?_ rfl h
    · intro s s' h
      simp only [setOption, Option.some.injEq] at h
      rw [← h]
    · intro s o s' hp h
      cases o <;> simp only [ne_eq, reduceCtorEq, not_true_eq_false, not_false_eq_true, setOption, Option.map_eq_some_iff, Option.some.injEq] at hp h <;>
        first | (subst h; rfl) | (obtain ⟨x, h1, rfl⟩ := h; rfl)
  · refine flag_of_foldlM (get := Settings.nodeLabels) ?_ ?_ rfl h
    · intro s s' h
      simp only [setOption, Option.some.injEq] at h
      rw [← h]
    · intro s o s' hp h
      cases o <;> simp only [ne_eq, reduceCtorEq, not_true_eq_false, not_false_eq_true, setOption, Option.map_eq_some_iff, Option.some.injEq] at hp h <;>
        first | (subst h; rfl) | (obtain ⟨x, h1, rfl⟩ := h; rfl)
  · refine flag_of_foldlM (get := Settings.superlevel) ?_ ?_ rfl h
    · intro s s' h
      simp only [setOption, Option.some.injEq] at h
      rw [← h]
    · intro s o s' hp h
      cases o <;> simp only [ne_eq, reduceCtorEq, not_true_eq_false, not_false_eq_true, setOption, Option.map_eq_some_iff, Option.some.injEq] at hp h <;>
        first | (subst h; rfl) | (obtain ⟨x, h1, rfl⟩ := h; rfl)
  · refine flag_of_foldlM (get := Settings.normalise) ?_ ?_ rfl h
    · intro s s' h
      simp only [setOption, Option.some.injEq] at h
      rw [← h]
    · intro s o s' hp h
      cases o <;> simp only [ne_eq, reduceCtorEq, not_true_eq_false, not_false_eq_true, setOption, Option.map_eq_some_iff, Option.some.injEq] at hp h <;>
        first | (subst h; rfl) | (obtain ⟨x, h1, rfl⟩ := h; rfl)

theorem lastValue_unique {Opt β : Type} {pick : Opt → Option (List Char)} {conv : List Char → Option β} {default x y : β} {opts : List Opt} (hx : IsLastValue pick conv default opts x)
    (hy : IsLastValue pick conv default opts y) : x = y := by
  have key : ∀ z, IsLastValue pick conv default opts z → (match (opts.filterMap pick).getLast? with
      | none => some default
      | some w => conv w) = some z := by
    rintro z (⟨a, o, b, w, rfl, h1, h2, h3⟩ | ⟨h1, rfl⟩)
    · have hb : b.filterMap pick = [] := List.filterMap_eq_nil_iff.2 h2
      rw [List.filterMap_append, List.filterMap_cons_some h1, hb]
      simpa using h3
    · rw [List.filterMap_eq_nil_iff.2 h1]
      rfl
  exact Option.some.inj ((key x hx).symm.trans (key y hy))

theorem withSlash_spec {word : List Char} (h : word ≠ []) : ∃ dir, withSlash word = .ok dir ∧ IsDirectory word dir := by
  obtain ⟨p, x, rfl⟩ : ∃ p x, word = p ++ [x] := ⟨_, _, (List.dropLast_append_getLast h).symm⟩
  unfold withSlash IsDirectory
  rw [List.getLast?_append]
  by_cases hx : x = '/'
  · subst hx
    refine ⟨_, rfl, ?_⟩
    simp
  · refine ⟨p ++ [x] ++ ['/'], by simp [hx], ?_⟩
    simp [hx]

/-! ### Collections of graphs -/

/-- The options of the reader. -/
def _root_.Aleph.Spec.readerSettings (opts : List Opt) : SparseReader.Options :=
  { readNodeAttributes := decide (Opt.attributes ∈ opts), nodeAttributeIndex := if Opt.attributes ∈ opts then some 0 else none, readNodeLabels := decide (Opt.nodeLabels ∈ opts) }

/-- The files describe a collection of graphs: edges, the graphs of all nodes, a label for each graph and possibly attributes of nodes. -/
structure _root_.Aleph.Spec.IsCollection [Zero α] [LinearOrder α] (c : Context α) (opts : List Opt) (files : List Char → Option (List Char)) (filename : List Char) (edges : List (ℕ × ℕ))
    (graphs ids : List ℕ) (labels : List (List Char)) (rows : List (List α)) : Prop where
  order : ∀ l v, v ∈ c.order l ↔ v ∈ l
  data : Dataset (readerSettings opts) c.vertex c.graph c.value files filename edges graphs labels rows []
  consistent : Consistent (readerSettings opts) edges graphs rows []
  sorted : ids.Pairwise (· < ·)
  mem : ∀ g, g ∈ ids ↔ g ∈ graphs
  length : labels.length = ids.length

/-- Each graph has an edge, and is not too large.  Each node that occurs in an edge also occurs in one with two different nodes. -/
structure _root_.Aleph.Spec.HasEdges (edges : List (ℕ × ℕ)) (graphs ids : List ℕ) : Prop where
  loops : ∀ v, Incident edges v → ∃ e ∈ edges, e.1 ≠ e.2 ∧ (v = e.1 ∨ v = e.2)
  nonempty : ∀ g ∈ ids, ∃ v, Incident edges v ∧ NodeOf graphs v g
  small : ∀ g ∈ ids, #(graphSets edges graphs g) ≤ idxMax

/-- The labels of nodes: there are none without an option, or without a file, and at least one for each node otherwise. -/
def _root_.Aleph.Spec.IsNodeLabels (opts : List Opt) (files : List Char → Option (List Char)) (filename : List Char) (graphs : List ℕ) (nodeLabels : List (List Char)) : Prop :=
  (Opt.nodeLabels ∉ opts → nodeLabels = []) ∧
  (Opt.nodeLabels ∈ opts → ∀ p, Prefix filename p → files (p ++ "_node_labels.txt".toList) = none ∧ nodeLabels = [] ∨
    FileLines files (p ++ "_node_labels.txt".toList) (Part true) nodeLabels ∧ graphs.length ≤ nodeLabels.length)

theorem nodeOf_unique {graphs : List ℕ} {v g g' : ℕ} (h : NodeOf graphs v g) (h' : NodeOf graphs v g') : g = g' := by
  have := h.2.symm.trans h'.2
  simpa using this

theorem mem_graphSets {edges : List (ℕ × ℕ)} {graphs : List ℕ} {g : ℕ} {t : Finset ℕ} :
    t ∈ graphSets edges graphs g ↔ (∃ e ∈ edges, t = {e.1} ∨ t = {e.2} ∨ t = {e.1, e.2}) ∧ ∃ v ∈ t, NodeOf graphs v g := by
  classical
  unfold graphSets
  rw [mem_filter, List.mem_toFinset, List.mem_flatMap]
  simp

theorem singleton_mem_graphSets {edges : List (ℕ × ℕ)} {graphs : List ℕ} {g v : ℕ} : {v} ∈ graphSets edges graphs g ↔ Incident edges v ∧ NodeOf graphs v g := by
  rw [mem_graphSets]
  refine and_congr (exists_congr fun e => and_congr_right fun _ => ?_) (by simp)
  constructor
  · rintro (h | h | h)
    · exact Or.inl (by simpa using h)
    · exact Or.inr (by simpa using h)
    · have : e.1 ∈ ({v} : Finset ℕ) := by rw [h]; simp
      exact Or.inl (mem_singleton.1 this).symm
  · rintro (h | h)
    · exact Or.inl (by rw [h])
    · exact Or.inr (Or.inl (by rw [h]))

theorem sets_graph [Zero α] {o : SparseReader.Options} {edges : List (ℕ × ℕ)} {graphs : List ℕ} {rows erows : List (List α)} (hc : Consistent o edges graphs rows erows) {K : Complex α} {g : ℕ}
    (h : ∀ t d, HasData K t d ↔ GraphData o edges graphs rows erows g t d) : sets K = graphSets edges graphs g := by
  classical
  ext t
  rw [mem_sets, mem_graphSets]
  constructor
  · rintro ⟨s, hs, rfl⟩
    rcases (h s.vset s.data).1 ⟨s, hs, rfl, rfl⟩ with ⟨v, h1, ⟨e, he, h2⟩, h3, -⟩ | ⟨i, u, v, h1, h2, h3, h4, -⟩
    · rw [h3]
      refine ⟨⟨e, he, ?_⟩, v, by simp, h1⟩
      rcases h2 with rfl | rfl
      · exact Or.inl rfl
      · exact Or.inr (Or.inl rfl)
    · rw [h4]
      exact ⟨⟨(u, v), List.mem_of_getElem? h1, Or.inr (Or.inr rfl)⟩, u, by simp, h3⟩
  · rintro ⟨⟨e, he, ht⟩, v, hv, hg⟩
    suffices H : ∃ d, HasData K t d by
      obtain ⟨d, s, hs, e, -⟩ := H
      exact ⟨s, hs, e⟩
    have hsing : ∀ w, Incident edges w → t = {w} → ∃ d, HasData K t d := by
      intro w hw htw
      obtain ⟨a, ha⟩ := hc.node w hw
      rw [htw] at hv ⊢
      rw [mem_singleton] at hv
      subst hv
      exact ⟨a, (h _ _).2 (Or.inl ⟨v, hg, hw, rfl, ha⟩)⟩
    rcases ht with ht | ht | ht
    · exact hsing e.1 ⟨e, he, Or.inl rfl⟩ ht
    · exact hsing e.2 ⟨e, he, Or.inr rfl⟩ ht
    · by_cases hne : e.1 = e.2
      · exact hsing e.1 ⟨e, he, Or.inl rfl⟩ (by rw [ht, ← hne]; simp)
      · have hex : ∃ i : ℕ, ∃ u v, edges[i]? = some (u, v) ∧ ({u, v} : Finset ℕ) = t := by
          obtain ⟨i, hi, rfl⟩ := List.getElem_of_mem he
          exact ⟨i, edges[i].1, edges[i].2, by simp, ht.symm⟩
        obtain ⟨u, w, h1, h2⟩ := Nat.find_spec hex
        have hmin : ∀ j < Nat.find hex, ∀ u' v', edges[j]? = some (u', v') → ({u', v'} : Finset ℕ) ≠ {u, w} := by
          intro j hj u' v' h3 h4
          exact Nat.find_min hex hj ⟨u', v', h3, h4.trans h2⟩
        have huw : u ≠ w := by
          rintro rfl
          have hc2 : #t = 2 := by rw [ht]; exact card_pair hne
          rw [← h2] at hc2
          simp at hc2
        obtain ⟨a, ha⟩ := hc.edge (Nat.find hex) (List.getElem?_eq_some_iff.1 h1).1
        obtain ⟨g', g1, g2⟩ := hc.graph e he
        have hall : ∀ x ∈ t, NodeOf graphs x g' := by
          intro x hx
          rw [ht, mem_insert, mem_singleton] at hx
          rcases hx with rfl | rfl
          · exact g1
          · exact g2
        have : g' = g := nodeOf_unique (hall v hv) hg
        subst this
        refine ⟨a, (h _ _).2 (Or.inr ⟨_, u, w, h1, huw, hall u (by rw [← h2]; simp), h2.symm, hmin, ha⟩)⟩

theorem length_eq_card {K : Complex α} (hK : WF K) : K.length = #(sets K) := by
  have := List.toFinset_card_of_nodup (sets_nodup hK)
  rw [List.length_map] at this
  exact this.symm

theorem good_graph [Zero α] {opts : List Opt} {edges : List (ℕ × ℕ)} {graphs : List ℕ} {rows : List (List α)} (hc : Consistent (readerSettings opts) edges graphs rows [])
    (hloops : ∀ v, Incident edges v → ∃ e ∈ edges, e.1 ≠ e.2 ∧ (v = e.1 ∨ v = e.2)) {K : Complex α} (hK : WF K) (hf : FaceClosed K) {g : ℕ}
    (h : ∀ t d, HasData K t d ↔ GraphData (readerSettings opts) edges graphs rows [] g t d) (hne : ∃ v, Incident edges v ∧ NodeOf graphs v g) (hn : #(graphSets edges graphs g) ≤ idxMax) :
    IsGood graphs.length K ∧ sets K = graphSets edges graphs g := by
  have hs := sets_graph hc h
  refine ⟨⟨⟨hK, hf, ?_⟩, ?_, ?_, ?_, ?_, ?_⟩, hs⟩
  · intro s hs
    rcases (h s.vset s.data).1 ⟨s, hs, rfl, rfl⟩ with ⟨v, -, -, h3, -⟩ | ⟨i, u, v, h1, h2, h3, h4, -⟩
    · rw [h3]
      simp
    · rw [h4]
      exact card_le_two
  · intro v hv
    have hv' : {v} ∈ graphSets edges graphs g := by rw [← hs]; exact mem_sets.2 hv
    obtain ⟨h1, h2⟩ := singleton_mem_graphSets.1 hv'
    obtain ⟨e, he, hne, hve⟩ := hloops v h1
    refine card_pos.2 ⟨{e.1, e.2}, mem_filter.2 ⟨?_, ?_, ?_⟩⟩
    · rw [hs, mem_graphSets]
      exact ⟨⟨e, he, Or.inr (Or.inr rfl)⟩, v, by simpa using hve, h2⟩
    · simpa using hve
    · rw [card_pair hne]
  · rintro rfl
    obtain ⟨v, h1, h2⟩ := hne
    have := singleton_mem_graphSets.2 ⟨h1, h2⟩
    rw [← hs] at this
    simp [sets] at this
  · intro u v x huv hx
    rcases (h _ _).1 hx with ⟨w, -, -, h3, -⟩ | ⟨i, u, v, -, -, -, -, -, h6⟩
    · have : #({u, v} : Finset ℕ) = 2 := card_pair huv
      rw [h3] at this
      simp at this
    · rcases h6 with ⟨k, r, h7, -⟩ | ⟨-, h7⟩
      · cases h7
      · exact h7
  · rw [length_eq_card hK, hs]
    exact hn
  · intro v hv
    have hv' : {v} ∈ graphSets edges graphs g := by rw [← hs]; exact mem_sets.2 hv
    obtain ⟨-, h1, h2⟩ := singleton_mem_graphSets.1 hv'
    have := (List.getElem?_eq_some_iff.1 h2).1
    omega

theorem read_node [Zero α] [LinearOrder α] (o : SparseReader.Options) (order : List ℕ → List ℕ) (convert : List Char → ℕ) (convertId : List Char → Option ℕ) (value : List Char → α)
    (files : List Char → Option (List Char)) (filename : List Char) (stored : Labels) {C : List (Complex α)} {L : Labels}
    (h : SparseReader.read o order convert convertId value files filename stored = .ok (C, L)) :
    L.node = if o.readNodeLabels then
      match files (SparseReader.getPrefix filename ++ "_node_labels.txt".toList) with
      | none => stored.node
      | some t => SparseReader.readLabels o.trimLines t
    else stored.node := by
  unfold SparseReader.read at h
  simp only [bind, Except.bind] at h
  repeat' split at h
  all_goals first | (cases h; done) | skip
  all_goals (cases h; simp_all)

/-! ### All steps -/

section

variable [LinearOrder α] [Field α] [IsStrictOrderedRing α]

theorem forall₂_right {β γ : Type} {R : β → γ → Prop} {l : List β} {m : List γ} (h : List.Forall₂ R l m) {j : ℕ} {x : β} (hx : l[j]? = some x) : ∃ y, m[j]? = some y ∧ R x y := by
  induction h generalizing j with
  | nil => simp at hx
  | @cons a b l m hab _ ih =>
    cases j with
    | zero =>
      rw [List.getElem?_cons_zero, Option.some.injEq] at hx
      subst hx
      exact ⟨b, rfl, hab⟩
    | succ j =>
      rw [List.getElem?_cons_succ] at hx ⊢
      exact ih hx

theorem forall₂_left {β γ : Type} {R : β → γ → Prop} {l : List β} {m : List γ} (h : List.Forall₂ R l m) {j : ℕ} {y : γ} (hy : m[j]? = some y) : ∃ x, l[j]? = some x ∧ R x y :=
  forall₂_right (R := fun y x => R x y) (List.Forall₂.flip h) hy

theorem centralitiesIf_spec (c : Context α) (s : Settings α) (directory : List Char) {bound : ℕ} {Ks : List (Complex α)} (h : ∀ K ∈ Ks, IsGood bound K) :
    ∃ Ls fs, centralitiesIf c s directory Ks = .ok (Ls, fs) ∧ List.Forall₂ (fun K L => L.Perm K) Ks Ls ∧
      (∀ x ∈ fs, ∃ i < Ks.length, x.1 = directory ++ number Ks.length i ++ "_closeness_centrality.txt".toList) ∧
      (s.closeness = true → ∀ (j : ℕ) (K : Complex α), Ks[j]? = some K → ∃ values, List.Forall₂ (IsCloseness (sets K) K.vertices) K.vertices values ∧
        FileContents fs (directory ++ number Ks.length j ++ "_closeness_centrality.txt".toList) (values.flatMap (valueLine c))) := by
  unfold centralitiesIf
  split
  · obtain ⟨fs, h1, h2, h3⟩ := centralities_spec c directory (n := Ks.length) h 0 (by omega)
    refine ⟨_, fs, h1, ?_, fun x hx => ?_, fun _ j K hK => ?_⟩
    · rw [List.forall₂_map_right_iff]
      exact List.forall₂_same.2 fun K _ => sort_perm _ _
    · obtain ⟨i, -, h4, h5⟩ := h2 x hx
      exact ⟨i, h4, h5⟩
    · have := h3 j K hK
      rwa [Nat.zero_add] at this
  · exact ⟨Ks, [], rfl, List.forall₂_same.2 fun K _ => List.Perm.refl _, by simp, fun hc => absurd hc ‹_›⟩

/-- The contents of all files. -/
theorem process_spec (c : Context α) (hlo : c.lo ≤ 0) (o : Orders α) (s : Settings α) (hs : s.sum = true ∨ s.superlevel = false) (directory : List Char) (labels : Labels) {bound : ℕ}
    {Ks : List (Complex α)} (h : ∀ K ∈ Ks, IsGood bound K) (hlabels : s.nodeLabels = true → labels.node = [] ∨ bound ≤ labels.node.length)
    (hinf : ∀ K ∈ Ks, ∀ top, IsTopDegree (sets K) top → ∀ t ∈ sets K, ∀ y, IsWeight s.sum (nodeValue s.normalise (sets K) top) t y → y ≠ c.inf) :
    ∃ (fs : List (List Char × List Char)) (M : ℕ),
      (do
        let (Ks, centralityFiles) ← centralitiesIf c s directory Ks
        expandAll o s.dimension Ks
        let m ← maxDimension Ks
        let (maxDegree, Ks) ← filtrations c s 0 Ks
        let graphs ← graphFilesIf c s labels directory Ks
        let diagrams ← allDiagramFiles c s.infinity maxDegree m directory Ks.length 0 Ks
        .ok (centralityFiles ++ graphs ++ diagrams ++ [labelFile directory labels.graph])) = (.ok fs : Except Failure _) ∧
      (s.normalise = true → Ks ≠ [] → M = 1) ∧ (s.normalise = false → IsGreatest {n | n = 0 ∨ ∃ K ∈ Ks, IsTopDegree (sets K) n} M) ∧
      FileContents fs (directory ++ "Labels.txt".toList) (labels.graph.flatMap fun l => l ++ ['\n']) ∧
      ∀ (j : ℕ) (K : Complex α), Ks[j]? = some K →
        (∀ d ≤ 1, ∃ top points, IsTopDegree (sets K) top ∧ IsGraphDiagram c.inf s.sum (nodeValue s.normalise (sets K) top) (sets K) d points ∧
          FileContents fs (directory ++ number Ks.length j ++ ending d) (diagramTable c.print c.inf (s.infinity * M) points)) ∧
        (s.closeness = true → ∃ values, List.Forall₂ (IsCloseness (sets K) K.vertices) K.vertices values ∧
          FileContents fs (directory ++ number Ks.length j ++ "_closeness_centrality.txt".toList) (values.flatMap (valueLine c))) ∧
        (s.graphs = true → ∃ top N text, IsTopDegree (sets K) top ∧ WF N ∧ sets N = sets K ∧ (∀ x ∈ N, IsWeight s.sum (nodeValue s.normalise (sets K) top) x.vset x.data) ∧
          GmlWriter.write { nodeLabels := if s.nodeLabels then labels.node else [], simplexData := s.attributes } c.print N = some text ∧
          FileContents fs (directory ++ number Ks.length j ++ ".gml".toList) text) := by
  classical
  obtain ⟨Ls, cf, c1, c2, c3, c4⟩ := centralitiesIf_spec c s directory h
  have hlen := c2.length_eq
  have hLs : ∀ L ∈ Ls, IsGood bound L ∧ ∃ K ∈ Ks, L.Perm K := by
    intro L hL
    obtain ⟨j, hj⟩ := List.getElem?_of_mem hL
    obtain ⟨K, hK, hp⟩ := forall₂_left c2 hj
    have hK := List.mem_of_getElem? hK
    exact ⟨(h K hK).perm hp, K, hK, hp⟩
  let T : Complex α → ℕ := fun K => if h : ∃ t, IsTopDegree (sets K) t then h.choose else 0
  have hT : ∀ L ∈ Ls, IsTopDegree (sets L) (T L) := by
    intro L hL
    have hex := exists_top (hLs L hL).1.graph (hLs L hL).1.nonempty
    simp only [T]
    rw [dif_pos hex]
    exact hex.choose_spec
  obtain ⟨m, m1, m2⟩ := maxDimension_good fun L hL => (hLs L hL).1
  obtain ⟨M, Ns, f1, f2, f3, f4⟩ := filtrations_spec c hlo s hs (bound := bound) T (fun L hL => ⟨(hLs L hL).1, hT L hL⟩) (m := 0) (fun _ => by omega)
  rw [Nat.cast_zero] at f1
  have hlenN := f2.length_eq
  have hdone : ∀ (j : ℕ) (N : Complex α), Ns[j]? = some N → ∃ K L top, Ks[j]? = some K ∧ IsGood bound K ∧ IsTopDegree (sets K) top ∧
      N = L.sort (asLt (Filtration.data fun a b => decide (a < b))) ∧ IsWeighted s.sum (nodeValue s.normalise (sets K) top) K L := by
    intro j N hN
    obtain ⟨L', hL', L, e, hw⟩ := forall₂_left f2 hN
    obtain ⟨K, hK, hp⟩ := forall₂_left c2 hL'
    have hm := List.mem_of_getElem? hL'
    have hs' := sets_perm hp
    refine ⟨K, L, T L', hK, h K (List.mem_of_getElem? hK), by rw [← hs']; exact hT L' hm, e, ?_⟩
    rw [hs'] at hw
    exact ⟨hw.wf, hw.closed, fun t => (hw.has t).trans (has_perm hp t), hw.length.trans hp.length_eq, hw.data⟩
  -- diagrams
  have hdiag : ∀ (j : ℕ) (N : Complex α), Ns[j]? = some N → ∃ K top Ds, Ks[j]? = some K ∧ IsTopDegree (sets K) top ∧ calculatePersistenceDiagrams .twist .vector c.inf N true true = some Ds ∧
      (Ds.map (·.dimension)).Pairwise (· < ·) ∧ (∀ D ∈ Ds, IsGraphDiagram c.inf s.sum (nodeValue s.normalise (sets K) top) (sets K) D.dimension D.removeDiagonal.points) ∧
      ∀ d, (¬∃ D ∈ Ds, D.dimension = d) → IsGraphDiagram c.inf s.sum (nodeValue s.normalise (sets K) top) (sets K) d [] := by
    intro j N hN
    obtain ⟨K, L, top, hK, hg, ht, rfl, hw⟩ := hdone j N hN
    obtain ⟨Ds, d1, d2, d3, d4⟩ := diagrams_spec (fun v => nodeValue_nonneg s.normalise (sets K) top v) hw (hinf K (List.mem_of_getElem? hK) top ht) hg.small
    exact ⟨K, top, Ds, hK, ht, d1, d2, d3, d4⟩
  let D : Complex α → List (Diagram α) := fun N => (calculatePersistenceDiagrams .twist .vector c.inf N true true).getD []
  have hD : ∀ N ∈ Ns, calculatePersistenceDiagrams .twist .vector c.inf N true true = some (D N) ∧ ((D N).map (·.dimension)).Pairwise (· < ·) := by
    intro N hN
    obtain ⟨j, hj⟩ := List.getElem?_of_mem hN
    obtain ⟨K, top, Ds, -, -, d1, d2, -⟩ := hdiag j N hj
    simp only [D, d1, Option.getD_some]
    exact ⟨trivial, d2⟩
  obtain ⟨df, e1, e2, e3⟩ := allDiagramFiles_spec c s.infinity (M : α) m directory Ns.length Ns D (fun N hN => (hD N hN).1) (fun N hN => (hD N hN).2) 0 (by omega)
  -- graphs
  have hwrite : ∀ N ∈ Ns, GmlWriter.write { nodeLabels := if s.nodeLabels then labels.node else [], simplexData := s.attributes } c.print N ≠ none := by
    intro N hN
    obtain ⟨j, hj⟩ := List.getElem?_of_mem hN
    obtain ⟨K, L, top, hK, hg, ht, rfl, hw⟩ := hdone j N hj
    have hp := sort_perm L (asLt (Filtration.data fun a b : α => decide (a < b)))
    rw [ne_eq, C135_exception]
    rintro (⟨x, hx, hv⟩ | ⟨hne, x, hx, u, hv, hu⟩)
    · exact hw.wf.nonempty x (hp.subset hx) hv
    · have hhas : Has K {u} := (hw.has _).1 ⟨x, hp.subset hx, by rw [Simplex.vset, hv]; rfl⟩
      have hb := hg.bounds u hhas
      cases hn : s.nodeLabels with
      | false => simp [hn] at hne
      | true =>
        simp only [hn, if_true] at hne hu
        rcases hlabels hn with h0 | h0
        · exact hne h0
        · omega
  have hgraphs : ∃ gf, graphFilesIf c s labels directory Ns = .ok gf ∧ (∀ x ∈ gf, ∃ i < Ns.length, x.1 = directory ++ number Ns.length i ++ ".gml".toList) ∧
      (s.graphs = true → ∀ (j : ℕ) (N : Complex α), Ns[j]? = some N →
        ∃ text, GmlWriter.write { nodeLabels := if s.nodeLabels then labels.node else [], simplexData := s.attributes } c.print N = some text ∧
          FileContents gf (directory ++ number Ns.length j ++ ".gml".toList) text) := by
    unfold graphFilesIf
    split
    · obtain ⟨gf, g1, g2, g3⟩ := graphFiles_spec c { nodeLabels := if s.nodeLabels then labels.node else [], simplexData := s.attributes } directory (n := Ns.length) hwrite 0 (by omega)
      refine ⟨gf, g1, fun x hx => ?_, fun _ j N hN => ?_⟩
      · obtain ⟨i, -, h4, h5⟩ := g2 x hx
        exact ⟨i, h4, h5⟩
      · have := g3 j N hN
        rwa [Nat.zero_add] at this
    · exact ⟨[], rfl, by simp, fun hc => absurd hc ‹_›⟩
  obtain ⟨gf, g1, g2, g3⟩ := hgraphs
  have hnN : Ns.length = Ks.length := by omega
  rw [hnN] at g2 g3 e1 e2 e3
  refine ⟨cf ++ gf ++ df ++ [labelFile directory labels.graph], M, ?_, ?_, ?_, ⟨cf ++ gf ++ df, [], rfl, by simp⟩, ?_⟩
  · simp only [c1, bind, Except.bind, expandAll_good o s.dimension fun L hL => (hLs L hL).1, m1, f1, g1, hnN, e1]
  · intro hn hne
    refine f3 hn fun h0 => hne ?_
    rw [h0] at hlen
    exact List.length_eq_zero_iff.1 hlen
  · intro hn
    obtain ⟨a1, a2⟩ := f4 hn
    constructor
    · rcases a1 with a1 | ⟨L, hL, a1⟩
      · exact Or.inl a1
      · obtain ⟨K, hK, hp⟩ := (hLs L hL).2
        refine Or.inr ⟨K, hK, ?_⟩
        rw [a1, ← sets_perm hp]
        exact hT L hL
    · rintro n (rfl | ⟨K, hK, hn⟩)
      · exact Nat.zero_le _
      · obtain ⟨j, hj⟩ := List.getElem?_of_mem hK
        obtain ⟨L, hL, hp⟩ := forall₂_right c2 hj
        have hm := List.mem_of_getElem? hL
        rw [← sets_perm hp] at hn
        rw [hn.unique (hT L hm)]
        exact a2 (Or.inr ⟨L, hm, rfl⟩)
  · intro j K hK
    have hj : j < Ks.length := (List.getElem?_eq_some_iff.1 hK).1
    have hN : Ns[j]? = some Ns[j] := List.getElem?_eq_getElem (by omega)
    have hlab : ∀ e : List Char, ∀ x ∈ [labelFile directory labels.graph], x.1 ≠ directory ++ number Ks.length j ++ e := by
      intro e x hx h0
      rw [List.mem_singleton] at hx
      subst hx
      exact number_ne hj h0.symm
    refine ⟨?_, ?_, ?_⟩
    · intro d hd
      obtain ⟨K', top, Ds, k1, k2, k3, k4, k5, k6⟩ := hdiag j _ hN
      rw [hK, Option.some.injEq] at k1
      subst k1
      have hDe : D Ns[j] = Ds := by simp only [D, k3, Option.getD_some]
      obtain ⟨q1, q2⟩ := e3 j _ hN
      rw [hDe, Nat.zero_add] at q1 q2
      have hsuff : ∀ text, FileContents df (directory ++ number Ks.length j ++ ending d) text →
          FileContents (cf ++ gf ++ df ++ [labelFile directory labels.graph]) (directory ++ number Ks.length j ++ ending d) text :=
        fun text ht => contents_left (contents_right ht) (hlab _)
      by_cases hex : ∃ E ∈ Ds, E.dimension = d
      · obtain ⟨E, hE, rfl⟩ := hex
        refine ⟨top, _, k2, k5 E hE, hsuff _ ?_⟩
        rw [← content_eq]
        exact q1 E hE
      · have hne : Ls ≠ [] := by
          rintro rfl
          simp at hlen
          rw [hlen] at hj
          simp at hj
        refine ⟨top, [], k2, k6 d hex, hsuff _ ?_⟩
        exact q2 d (hd.trans (m2 hne)) hex
    · intro hc
      obtain ⟨values, v1, v2⟩ := c4 hc j K hK
      refine ⟨values, v1, contents_left (contents_left (contents_left v2 ?_) ?_) (hlab _)⟩
      · intro x hx h0
        obtain ⟨i, hi, e⟩ := g2 x hx
        rw [e] at h0
        have := (name_inj hi hj h0).2
        revert this
        decide
      · intro x hx h0
        obtain ⟨i, d, -, hi, e⟩ := e2 x hx
        rw [e] at h0
        have := (name_inj hi hj h0).2
        have h2 := congrArg (fun l : List Char => l[1]?) this
        revert h2
        simp [ending]
    · intro hg
      obtain ⟨K', L, top, k1, k2, k3, k4, k5⟩ := hdone j _ hN
      rw [hK, Option.some.injEq] at k1
      subst k1
      obtain ⟨text, t1, t2⟩ := g3 hg j _ hN
      have hp := sort_perm L (asLt (Filtration.data fun a b : α => decide (a < b)))
      have hp' : Ns[j].Perm L := by rw [k4]; exact hp
      refine ⟨top, Ns[j], text, k3, k5.wf.perm hp', by rw [sets_perm hp', k5.sets], fun x hx => k5.data x (hp'.subset hx), t1, contents_left (contents_left (contents_right t2) ?_) (hlab _)⟩
      intro x hx h0
      obtain ⟨i, d, -, hi, e⟩ := e2 x hx
      rw [e] at h0
      have := (name_inj hi hj h0).2
      have h2 := congrArg (fun l : List Char => l[0]?) this
      revert h2
      simp [ending]

theorem main_spec (c : Context α) (hlo : c.lo ≤ 0) (o : Orders α) {opts : List Opt} (hv : Valid c opts) (hout : ∀ w, Opt.output w ∈ opts → w ≠ []) (hsup : Opt.superlevel ∈ opts → Opt.sum ∈ opts)
    {files : List Char → Option (List Char)} {filename : List Char} (more : List (List Char)) {edges : List (ℕ × ℕ)} {graphs ids : List ℕ} {labels nodeLabels : List (List Char)} {rows : List (List α)}
    (h : IsCollection c opts files filename edges graphs ids labels rows) (he : HasEdges edges graphs ids) (hnl : IsNodeLabels opts files filename graphs nodeLabels)
    (hinf : ∀ g ∈ ids, ∀ top, IsTopDegree (graphSets edges graphs g) top → ∀ t ∈ graphSets edges graphs g, ∀ y,
      IsWeight (decide (Opt.sum ∈ opts)) (nodeValue (decide (Opt.normalise ∈ opts)) (graphSets edges graphs g) top) t y → y ≠ c.inf) :
    ∃ (word dir : List Char) (infinity : α) (M : ℕ) (fs : List (List Char × List Char)), IsLastValue Opt.outputWord some "/tmp".toList opts word ∧ IsDirectory word dir ∧
      IsLastValue Opt.infinityWord (fun w => some (c.convert w)) 2 opts infinity ∧ main c o files opts (filename :: more) = .ok (0, fs) ∧
      (Opt.normalise ∈ opts → ids ≠ [] → M = 1) ∧ (Opt.normalise ∉ opts → ids ≠ [] → IsGreatest {n | ∃ g ∈ ids, IsTopDegree (graphSets edges graphs g) n} M) ∧
      FileContents fs (dir ++ "Labels.txt".toList) (labels.flatMap fun l => l ++ ['\n']) ∧
      ∀ j g : ℕ, ids[j]? = some g → ∃ number, IsPadded ids.length j number ∧
        (∀ d ≤ 1, ∃ top points digits, IsTopDegree (graphSets edges graphs g) top ∧ IsUsualNotation d digits ∧
          IsGraphDiagram c.inf (decide (Opt.sum ∈ opts)) (nodeValue (decide (Opt.normalise ∈ opts)) (graphSets edges graphs g) top) (graphSets edges graphs g) d points ∧
          FileContents fs (dir ++ number ++ ("_d".toList ++ digits ++ ".txt".toList)) (diagramTable c.print c.inf (infinity * M) points)) ∧
        (Opt.closeness ∈ opts → ∃ vs values, vs.Pairwise (· < ·) ∧ (∀ v, v ∈ vs ↔ {v} ∈ graphSets edges graphs g) ∧ List.Forall₂ (IsCloseness (graphSets edges graphs g) vs) vs values ∧
          FileContents fs (dir ++ number ++ "_closeness_centrality.txt".toList) (values.flatMap fun x => (x.elim "inf".toList c.print) ++ ['\n'])) ∧
        (Opt.graphs ∈ opts → ∃ top N text, IsTopDegree (graphSets edges graphs g) top ∧ WF N ∧ sets N = graphSets edges graphs g ∧
          (∀ x ∈ N, IsWeight (decide (Opt.sum ∈ opts)) (nodeValue (decide (Opt.normalise ∈ opts)) (graphSets edges graphs g) top) x.vset x.data) ∧
          GmlWriter.write { nodeLabels := nodeLabels, simplexData := decide (Opt.attributes ∈ opts) } c.print N = some text ∧
          FileContents fs (dir ++ number ++ ".gml".toList) text) := by
  cases hs : settings c opts with
  | none => exact absurd hv ((settings_none c opts).1 hs)
  | some s =>
    obtain ⟨k1, k2, k3, k4, k5, k6, k7, k8, k9⟩ := settings_spec c hs
    have hword : s.output ≠ [] := by
      rcases k2 with ⟨a, w, b, v, rfl, h2, -, h4⟩ | ⟨-, h2⟩
      · cases w <;> simp only [Opt.outputWord, reduceCtorEq, Option.some.injEq] at h2
        subst h2
        rw [← Option.some.inj h4]
        exact hout _ (by simp)
      · rw [h2]
        decide
    obtain ⟨dir, w1, w2⟩ := withSlash_spec hword
    have hopt : readerOptions s = readerSettings opts := by
      unfold readerOptions readerSettings
      rw [k6, k7]
      simp
    obtain ⟨C, L, r1, r2, r3, r4, -⟩ := C133_graphs_partial (readerSettings opts) c.vertex c.graph c.value files filename ⟨[], []⟩ c.order h.order edges graphs ids labels rows [] h.data rfl h.sorted
      h.mem h.consistent h.length.ge
    have hK : ∀ (j : ℕ) (K : Complex α), C[j]? = some K → ∃ g, ids[j]? = some g ∧ IsGood graphs.length K ∧ sets K = graphSets edges graphs g := by
      intro j K hj
      have hjl := (List.getElem?_eq_some_iff.1 hj).1
      have hg : ids[j]? = some ids[j] := List.getElem?_eq_getElem (by omega)
      obtain ⟨a1, a2, -, a4, -⟩ := r3 j _ K hg hj
      have hm := List.mem_of_getElem? hg
      exact ⟨_, hg, good_graph h.consistent he.loops a1 a2 a4 (he.nonempty _ hm) (he.small _ hm)⟩
    have hmem : ∀ K ∈ C, ∃ g ∈ ids, IsGood graphs.length K ∧ sets K = graphSets edges graphs g := by
      intro K hK'
      obtain ⟨j, hj⟩ := List.getElem?_of_mem hK'
      obtain ⟨g, g1, g2⟩ := hK j K hj
      exact ⟨g, List.mem_of_getElem? g1, g2⟩
    obtain ⟨p, hp⟩ := SparseReader.prefix_exists filename
    have hnode : (s.nodeLabels = true → L.node = nodeLabels) ∧ (s.nodeLabels = true → L.node = [] ∨ graphs.length ≤ L.node.length) := by
      have hr := read_node _ _ _ _ _ _ _ _ r1
      rw [SparseReader.getPrefix_spec hp] at hr
      have key : s.nodeLabels = true → L.node = nodeLabels ∧ (nodeLabels = [] ∨ graphs.length ≤ nodeLabels.length) := by
        intro hn
        rw [k7, decide_eq_true_iff] at hn
        rw [if_pos (by simpa [readerSettings] using hn)] at hr
        rcases hnl.2 hn p hp with ⟨n1, n2⟩ | ⟨n1, n2⟩
        · rw [n1] at hr
          exact ⟨hr.trans n2.symm, Or.inl n2⟩
        · obtain ⟨text, t1, t2⟩ := SparseReader.readLabels_spec n1
          rw [t1] at hr
          exact ⟨hr.trans t2, Or.inr n2⟩
      exact ⟨fun hn => (key hn).1, fun hn => by rw [(key hn).1]; exact (key hn).2⟩
    have hused : (if s.nodeLabels then L.node else []) = nodeLabels := by
      cases hn : s.nodeLabels with
      | true => rw [if_pos rfl, hnode.1 hn]
      | false =>
        rw [k7, decide_eq_false_iff_not] at hn
        rw [if_neg (by simp), hnl.1 hn]
    obtain ⟨fs, M, p1, p2, p3, p4, p5⟩ := process_spec c hlo o s (by rw [k5, k8]; by_cases h1 : Opt.superlevel ∈ opts <;> simp [h1]; exact hsup h1) dir L (bound := graphs.length) (Ks := C)
      (fun K hK => (hmem K hK).choose_spec.2.1) hnode.2 (by
        intro K hK
        obtain ⟨g, g1, -, g3⟩ := hmem K hK
        rw [k5, k9, g3]
        exact hinf g g1)
    have hne : ids ≠ [] → C ≠ [] := by
      rintro h1 rfl
      exact h1 (List.length_eq_zero_iff.1 r2.symm)
    refine ⟨s.output, dir, s.infinity, M, fs, k2, w2, k1, ?_, ?_, ?_, ?_, ?_⟩
    · unfold main run
      rw [hs]
      simp only [w1, hopt, r1, bind, Except.bind] at p1 ⊢
      rw [p1]
    · intro hn hi
      exact p2 (by rw [k9]; simpa using hn) (hne hi)
    · intro hn hi
      obtain ⟨a1, a2⟩ := p3 (by rw [k9]; simpa using hn)
      have hup : ∀ n, (∃ g ∈ ids, IsTopDegree (graphSets edges graphs g) n) → n ≤ M := by
        rintro n ⟨g, hg, hn⟩
        obtain ⟨j, hj⟩ := List.getElem?_of_mem hg
        have hjl := (List.getElem?_eq_some_iff.1 hj).1
        have hC : C[j]? = some C[j] := List.getElem?_eq_getElem (by omega)
        obtain ⟨g', g1, -, g3⟩ := hK j _ hC
        rw [hj, Option.some.injEq] at g1
        subst g1
        exact a2 (Or.inr ⟨C[j], List.getElem_mem _, by rw [g3]; exact hn⟩)
      refine ⟨?_, hup⟩
      have hsome : ∀ K ∈ C, ∃ g ∈ ids, ∃ n, IsTopDegree (graphSets edges graphs g) n := by
        intro K hK
        obtain ⟨g, g1, g2, g3⟩ := hmem K hK
        obtain ⟨n, hn⟩ := exists_top g2.graph g2.nonempty
        rw [g3] at hn
        exact ⟨g, g1, n, hn⟩
      rcases a1 with rfl | ⟨K, hK, a1⟩
      · obtain ⟨K, hK⟩ := List.exists_mem_of_ne_nil C (hne hi)
        obtain ⟨g, g1, n, hn⟩ := hsome K hK
        have := hup n ⟨g, g1, hn⟩
        obtain rfl : n = 0 := by omega
        exact ⟨g, g1, hn⟩
      · obtain ⟨g, g1, -, g3⟩ := hmem K hK
        rw [g3] at a1
        exact ⟨g, g1, a1⟩
    · rw [← r4 h.length]
      exact p4
    · intro j g hj
      have hjl := (List.getElem?_eq_some_iff.1 hj).1
      obtain ⟨K, hC⟩ : ∃ K, C[j]? = some K := ⟨_, List.getElem?_eq_getElem (by omega)⟩
      obtain ⟨g', g1, g2, g3⟩ := hK j _ hC
      rw [hj, Option.some.injEq] at g1
      subst g1
      obtain ⟨q1, q2, q3⟩ := p5 j _ hC
      rw [k5, k9, g3, r2] at q1
      rw [g3, r2, k3] at q2
      rw [g3, r2, k4, k5, k9, hused, k6] at q3
      refine ⟨number ids.length j, number_padded hjl, ?_, ?_, ?_⟩
      · intro d hd
        obtain ⟨top, points, t1, t2, t3⟩ := q1 d hd
        exact ⟨top, points, Utilities.decimal d, t1, Utilities.decimal_spec d, t2, t3⟩
      · intro hc
        obtain ⟨values, v1, v2⟩ := q2 (by simpa using hc)
        obtain ⟨n1, n2⟩ := C22_vertices K g2.graph.1
        refine ⟨_, values, n1, fun v => by rw [n2, ← g3, mem_sets], v1, ?_⟩
        convert v2 using 2
        funext x
        cases x <;> rfl
      · intro hg
        obtain ⟨top, N, text, t1, t2, t3, t4, t5, t6⟩ := q3 (by simpa using hg)
        exact ⟨top, N, text, t1, t2, t3, t4, t5, t6⟩

/-- C179. For each graph of a collection, there are two files, whose names contain its index, with the points of the diagrams of dimension zero and one of its nodes and edges, which are added by
ascending weights: the value of a node is its degree, divided by the largest degree of its graph if requested, and the weight of an edge is the larger value of its nodes, or their sum if requested.
The second coordinates of unpaired points are the largest degree of any graph, or one if degrees are divided, times a factor, which is two by default.  Another file contains the labels.  The code
violates the property for superlevel sets, see `C179_superlevel`, for graphs without edges, see `C179_edgeless`, for nodes that only occur in loops, see `C179_loops`, and for other dimensions, see
`C179_dimension`. -/
theorem _root_.Aleph.C179_files_partial (c : Context α) (hlo : c.lo ≤ 0) (o : Orders α) {opts : List Opt} (hv : Valid c opts) (hout : ∀ w, Opt.output w ∈ opts → w ≠ []) (hsup : Opt.superlevel ∈ opts → Opt.sum ∈ opts)
    {files : List Char → Option (List Char)} {filename : List Char} (more : List (List Char)) {edges : List (ℕ × ℕ)} {graphs ids : List ℕ} {labels nodeLabels : List (List Char)} {rows : List (List α)}
    (h : IsCollection c opts files filename edges graphs ids labels rows) (he : HasEdges edges graphs ids) (hnl : IsNodeLabels opts files filename graphs nodeLabels)
    (hinf : ∀ g ∈ ids, ∀ top, IsTopDegree (graphSets edges graphs g) top → ∀ t ∈ graphSets edges graphs g, ∀ y,
      IsWeight (decide (Opt.sum ∈ opts)) (nodeValue (decide (Opt.normalise ∈ opts)) (graphSets edges graphs g) top) t y → y ≠ c.inf) :
    ∃ (word dir : List Char) (infinity : α) (M : ℕ) (fs : List (List Char × List Char)), IsLastValue Opt.outputWord some "/tmp".toList opts word ∧ IsDirectory word dir ∧
      IsLastValue Opt.infinityWord (fun w => some (c.convert w)) 2 opts infinity ∧ main c o files opts (filename :: more) = .ok (0, fs) ∧
      (Opt.normalise ∈ opts → ids ≠ [] → M = 1) ∧ (Opt.normalise ∉ opts → ids ≠ [] → IsGreatest {n | ∃ g ∈ ids, IsTopDegree (graphSets edges graphs g) n} M) ∧
      FileContents fs (dir ++ "Labels.txt".toList) (labels.flatMap fun l => l ++ ['\n']) ∧
      ∀ j g : ℕ, ids[j]? = some g → ∃ number, IsPadded ids.length j number ∧
        ∀ d ≤ 1, ∃ top points digits, IsTopDegree (graphSets edges graphs g) top ∧ IsUsualNotation d digits ∧
          IsGraphDiagram c.inf (decide (Opt.sum ∈ opts)) (nodeValue (decide (Opt.normalise ∈ opts)) (graphSets edges graphs g) top) (graphSets edges graphs g) d points ∧
          FileContents fs (dir ++ number ++ ("_d".toList ++ digits ++ ".txt".toList)) (diagramTable c.print c.inf (infinity * M) points) := by
  obtain ⟨word, dir, infinity, M, fs, h1, h2, h3, h4, h5, h6, h7, h8⟩ := main_spec c hlo o hv hout hsup more h he hnl hinf
  refine ⟨word, dir, infinity, M, fs, h1, h2, h3, h4, h5, h6, h7, fun j g hj => ?_⟩
  obtain ⟨number, n1, n2, -⟩ := h8 j g hj
  exact ⟨number, n1, n2⟩

/-- C179. If requested, there is a file for each graph of a collection that contains the closeness centralities of its nodes, in ascending order of the nodes. -/
theorem _root_.Aleph.C179_closeness (c : Context α) (hlo : c.lo ≤ 0) (o : Orders α) {opts : List Opt} (hv : Valid c opts) (hout : ∀ w, Opt.output w ∈ opts → w ≠ []) (hsup : Opt.superlevel ∈ opts → Opt.sum ∈ opts)
    {files : List Char → Option (List Char)} {filename : List Char} (more : List (List Char)) {edges : List (ℕ × ℕ)} {graphs ids : List ℕ} {labels nodeLabels : List (List Char)} {rows : List (List α)}
    (h : IsCollection c opts files filename edges graphs ids labels rows) (he : HasEdges edges graphs ids) (hnl : IsNodeLabels opts files filename graphs nodeLabels)
    (hinf : ∀ g ∈ ids, ∀ top, IsTopDegree (graphSets edges graphs g) top → ∀ t ∈ graphSets edges graphs g, ∀ y,
      IsWeight (decide (Opt.sum ∈ opts)) (nodeValue (decide (Opt.normalise ∈ opts)) (graphSets edges graphs g) top) t y → y ≠ c.inf)
    (hcl : Opt.closeness ∈ opts) :
    ∃ (word dir : List Char) (fs : List (List Char × List Char)), IsLastValue Opt.outputWord some "/tmp".toList opts word ∧ IsDirectory word dir ∧ main c o files opts (filename :: more) = .ok (0, fs) ∧
      ∀ j g : ℕ, ids[j]? = some g → ∃ number vs values, IsPadded ids.length j number ∧ vs.Pairwise (· < ·) ∧ (∀ v, v ∈ vs ↔ {v} ∈ graphSets edges graphs g) ∧
        List.Forall₂ (IsCloseness (graphSets edges graphs g) vs) vs values ∧
        FileContents fs (dir ++ number ++ "_closeness_centrality.txt".toList) (values.flatMap fun x => (x.elim "inf".toList c.print) ++ ['\n']) := by
  obtain ⟨word, dir, infinity, M, fs, h1, h2, -, h4, -, -, -, h8⟩ := main_spec c hlo o hv hout hsup more h he hnl hinf
  refine ⟨word, dir, fs, h1, h2, h4, fun j g hj => ?_⟩
  obtain ⟨number, n1, -, n3, -⟩ := h8 j g hj
  obtain ⟨vs, values, v1, v2, v3, v4⟩ := n3 hcl
  exact ⟨number, vs, values, n1, v1, v2, v3, v4⟩

/-- C179. If requested, there is a file for each graph of a collection that describes its nodes and edges in the graph modelling language.  The weights of edges are those of the filtration, as well as the
data of nodes, which is only written if attributes are read. -/
theorem _root_.Aleph.C179_graphs (c : Context α) (hlo : c.lo ≤ 0) (o : Orders α) {opts : List Opt} (hv : Valid c opts) (hout : ∀ w, Opt.output w ∈ opts → w ≠ []) (hsup : Opt.superlevel ∈ opts → Opt.sum ∈ opts)
    {files : List Char → Option (List Char)} {filename : List Char} (more : List (List Char)) {edges : List (ℕ × ℕ)} {graphs ids : List ℕ} {labels nodeLabels : List (List Char)} {rows : List (List α)}
    (h : IsCollection c opts files filename edges graphs ids labels rows) (he : HasEdges edges graphs ids) (hnl : IsNodeLabels opts files filename graphs nodeLabels)
    (hinf : ∀ g ∈ ids, ∀ top, IsTopDegree (graphSets edges graphs g) top → ∀ t ∈ graphSets edges graphs g, ∀ y,
      IsWeight (decide (Opt.sum ∈ opts)) (nodeValue (decide (Opt.normalise ∈ opts)) (graphSets edges graphs g) top) t y → y ≠ c.inf)
    (hgr : Opt.graphs ∈ opts) (hlab : ∀ l ∈ nodeLabels, '"' ∉ l ∧ Pajek.Inline l) (hprint : ∀ x, GmlOutput.Token (c.print x)) :
    ∃ (word dir : List Char) (fs : List (List Char × List Char)), IsLastValue Opt.outputWord some "/tmp".toList opts word ∧ IsDirectory word dir ∧ main c o files opts (filename :: more) = .ok (0, fs) ∧
      ∀ j g : ℕ, ids[j]? = some g → ∃ number top N text ls ns es, IsPadded ids.length j number ∧ IsTopDegree (graphSets edges graphs g) top ∧ WF N ∧ sets N = graphSets edges graphs g ∧
        (∀ x ∈ N, IsWeight (decide (Opt.sum ∈ opts)) (nodeValue (decide (Opt.normalise ∈ opts)) (graphSets edges graphs g) top) x.vset x.data) ∧
        FileContents fs (dir ++ number ++ ".gml".toList) text ∧ Lines text ls false ∧ Gml.File ls ns es ∧
        List.Forall₂ (GmlOutput.VertexEntry nodeLabels (decide (Opt.attributes ∈ opts)) c.print) (N.filter fun s => s.vertices.length = 1) ns ∧
        List.Forall₂ (GmlOutput.EdgeEntry c.print) (N.filter fun s => s.vertices.length = 2) es := by
  obtain ⟨word, dir, infinity, M, fs, h1, h2, -, h4, -, -, -, h8⟩ := main_spec c hlo o hv hout hsup more h he hnl hinf
  refine ⟨word, dir, fs, h1, h2, h4, fun j g hj => ?_⟩
  obtain ⟨number, n1, -, -, n4⟩ := h8 j g hj
  obtain ⟨top, N, text, t1, t2, t3, t4, t5, t6⟩ := n4 hgr
  obtain ⟨ls, ns, es, l1, l2, l3, l4⟩ := C135_write _ c.print hlab N (fun s _ => hprint s.data) t5
  exact ⟨number, top, N, text, ls, ns, es, n1, t1, t2, t3, t4, t6, l1, l2, l3, l4⟩

/-! ### Failures -/

omit [IsStrictOrderedRing α] in
theorem expandAll_graph (o : Orders α) (dimension : ℕ) {Ks : List (Complex α)} (h : ∀ K ∈ Ks, IsGraph K) : expandAll o dimension Ks = .ok () := by
  unfold expandAll
  split
  · induction Ks with
    | nil => rfl
    | cons K Ks ih =>
      obtain ⟨L, e, -⟩ := C26_cliques o 0 K (h K (by simp)).1 (GraphAnalysis.edgeClosed (h K (by simp))) dimension
      rw [List.forM_eq_forM, List.forM_cons, e]
      exact ih fun L hL => h L (by simp [hL])
  · rfl

omit [LinearOrder α] [Field α] [IsStrictOrderedRing α] in
theorem maxDimension_cases (Ks : List (Complex α)) : ((∀ K ∈ Ks, K ≠ []) → ∃ m, maxDimension Ks = .ok m) ∧ ((∃ K ∈ Ks, K = []) → maxDimension Ks = .error .exception) := by
  suffices H : ∀ m, ((∀ K ∈ Ks, K ≠ []) → ∃ m', Ks.foldlM (fun m K =>
      match Complex.dimension K with
      | none => .error .exception
      | some d => .ok (max d m)) m = (.ok m' : Except Failure ℕ)) ∧ ((∃ K ∈ Ks, K = []) → Ks.foldlM (fun m K =>
      match Complex.dimension K with
      | none => .error .exception
      | some d => .ok (max d m)) m = (.error .exception : Except Failure ℕ)) from H 0
  induction Ks with
  | nil => exact fun m => ⟨fun _ => ⟨m, rfl⟩, by simp⟩
  | cons K Ks ih =>
    intro m
    cases hd : Complex.dimension K with
    | none =>
      refine ⟨fun h => ?_, fun _ => by rw [List.foldlM_cons, hd]; rfl⟩
      rw [Complex.dimension, if_neg (by simpa using h K (by simp))] at hd
      cases hd
    | some d =>
      obtain ⟨h1, h2⟩ := ih (max d m)
      refine ⟨fun h => ?_, fun h => ?_⟩
      · obtain ⟨m', e⟩ := h1 fun L hL => h L (by simp [hL])
        exact ⟨m', by rw [List.foldlM_cons, hd]; exact e⟩
      · rw [List.foldlM_cons, hd]
        refine h2 ?_
        obtain ⟨L, hL, rfl⟩ := h
        rcases List.mem_cons.1 hL with rfl | hL
        · cases hd
        · exact ⟨_, hL, rfl⟩

omit [IsStrictOrderedRing α] in
theorem filtrations_undefined (c : Context α) (s : Settings α) {Ks : List (Complex α)} (h : ∃ K ∈ Ks, ∀ m, filtrationStep c s m K = .error .undefined) (m : α) :
    filtrations c s m Ks = .error .undefined := by
  induction Ks generalizing m with
  | nil => simp at h
  | cons K Ks ih =>
    have hcases : filtrationStep c s m K = .error .undefined ∨ ∃ r, filtrationStep c s m K = .ok r := by
      unfold filtrationStep
      simp only
      split
      · exact Or.inl rfl
      · exact Or.inr ⟨_, rfl⟩
    unfold filtrations
    rcases hcases with e | ⟨r, e⟩
    · simp only [e, bind, Except.bind]
    · simp only [e, bind, Except.bind]
      obtain ⟨L, hL, hb⟩ := h
      rcases List.mem_cons.1 hL with rfl | hL
      · rw [hb] at e
        cases e
      · rw [ih ⟨L, hL, hb⟩]

omit [IsStrictOrderedRing α] in
theorem filtrationStep_undefined (c : Context α) (s : Settings α) {K : Complex α} (hK : IsGraph K) {v : ℕ} (h1 : Has K {v}) (h2 : degree (sets K) v = 0) (m : α) :
    filtrationStep c s m K = .error .undefined := by
  have hl := GraphAnalysis.degrees_length hK h1 h2
  have hnone : ∀ values : List α, values.length < K.vertices.length → assign c s K values = none := by
    intro values hv
    unfold assign Rips.assignMaximumData
    split
    · exact GraphAnalysis.assignData_none hK.1 hv _ _
    · split
      · exact GraphAnalysis.assignData_none hK.1 hv _ _
      · exact GraphAnalysis.assignData_none hK.1 hv _ _
  unfold filtrationStep
  simp only
  rw [hnone]
  split
  · simpa using hl
  · simpa using hl

omit [IsStrictOrderedRing α] in
/-- The complexes of a collection. -/
theorem collection_read (c : Context α) {opts : List Opt} (hv : Valid c opts) (hout : ∀ w, Opt.output w ∈ opts → w ≠ []) {files : List Char → Option (List Char)} {filename : List Char}
    {edges : List (ℕ × ℕ)} {graphs ids : List ℕ} {labels : List (List Char)} {rows : List (List α)} (h : IsCollection c opts files filename edges graphs ids labels rows) :
    ∃ s dir C L, settings c opts = some s ∧ s.closeness = decide (Opt.closeness ∈ opts) ∧ withSlash s.output = .ok dir ∧
      SparseReader.read (readerOptions s) c.order c.vertex c.graph c.value files filename ⟨[], []⟩ = .ok (C, L) ∧ C.length = ids.length ∧
      ∀ (j g : ℕ) (K : Complex α), ids[j]? = some g → C[j]? = some K → IsGraph K ∧ sets K = graphSets edges graphs g := by
  cases hs : settings c opts with
  | none => exact absurd hv ((settings_none c opts).1 hs)
  | some s =>
    obtain ⟨k1, k2, k3, k4, k5, k6, k7, k8, k9⟩ := settings_spec c hs
    have hword : s.output ≠ [] := by
      rcases k2 with ⟨a, w, b, v, rfl, h2, -, h4⟩ | ⟨-, h2⟩
      · cases w <;> simp only [Opt.outputWord, reduceCtorEq, Option.some.injEq] at h2
        subst h2
        rw [← Option.some.inj h4]
        exact hout _ (by simp)
      · rw [h2]
        decide
    obtain ⟨dir, w1, w2⟩ := withSlash_spec hword
    have hopt : readerOptions s = readerSettings opts := by
      unfold readerOptions readerSettings
      rw [k6, k7]
      simp
    obtain ⟨C, L, r1, r2, r3, r4, -⟩ := C133_graphs_partial (readerSettings opts) c.vertex c.graph c.value files filename ⟨[], []⟩ c.order h.order edges graphs ids labels rows [] h.data rfl h.sorted
      h.mem h.consistent h.length.ge
    refine ⟨s, dir, C, L, rfl, k3, w1, by rw [hopt, r1], r2, fun j g K hj hK => ?_⟩
    obtain ⟨a1, a2, -, a4, -⟩ := r3 j g K hj hK
    refine ⟨⟨a1, a2, fun s hs => ?_⟩, sets_graph h.consistent a4⟩
    rcases (a4 s.vset s.data).1 ⟨s, hs, rfl, rfl⟩ with ⟨v, -, -, h3, -⟩ | ⟨i, u, v, h1, h2, h3, h4, -⟩
    · rw [h3]
      simp
    · rw [h4]
      exact card_le_two

/-- C179. If a graph of a collection has no edges, then the tool raises an exception, and there are no diagrams of the other graphs. -/
theorem _root_.Aleph.C179_edgeless (c : Context α) (o : Orders α) {opts : List Opt} (hv : Valid c opts) (hout : ∀ w, Opt.output w ∈ opts → w ≠ []) (hcl : Opt.closeness ∉ opts)
    {files : List Char → Option (List Char)} {filename : List Char} (more : List (List Char)) {edges : List (ℕ × ℕ)} {graphs ids : List ℕ} {labels : List (List Char)} {rows : List (List α)}
    (h : IsCollection c opts files filename edges graphs ids labels rows) {g : ℕ} (hg : g ∈ graphs) (hno : ∀ v, NodeOf graphs v g → ¬Incident edges v) :
    main c o files opts (filename :: more) = .error .exception := by
  obtain ⟨s, dir, C, L, h1, h2, h3, h4, h5, h6⟩ := collection_read c hv hout h
  obtain ⟨j, hj⟩ := List.getElem?_of_mem ((h.mem g).2 hg)
  have hjl := (List.getElem?_eq_some_iff.1 hj).1
  have hC : C[j]? = some C[j] := List.getElem?_eq_getElem (by omega)
  have hgraph : ∀ K ∈ C, IsGraph K := by
    intro K hK
    obtain ⟨i, hi⟩ := List.getElem?_of_mem hK
    have hil := (List.getElem?_eq_some_iff.1 hi).1
    exact (h6 i _ K (List.getElem?_eq_getElem (by omega)) hi).1
  have hempty : C[j] = [] := by
    obtain ⟨g1, g2⟩ := h6 j g _ hj hC
    by_contra hne
    obtain ⟨v, hv⟩ := exists_node g1 hne
    have := mem_sets.2 hv
    rw [g2, singleton_mem_graphSets] at this
    exact hno v this.2 this.1
  have hm := (maxDimension_cases C).2 ⟨C[j], List.getElem_mem _, hempty⟩
  have hc : centralitiesIf c s dir C = .ok (C, []) := by
    unfold centralitiesIf
    rw [h2, if_neg (by simpa using hcl)]
  unfold main run
  rw [h1]
  simp only [h3, h4, hc, expandAll_graph o s.dimension hgraph, hm, bind, Except.bind]

/-- C179. If all graphs of a collection have edges, and all edges of a node are loops, then the tool reads past the end of an array. -/
theorem _root_.Aleph.C179_loops (c : Context α) (o : Orders α) {opts : List Opt} (hv : Valid c opts) (hout : ∀ w, Opt.output w ∈ opts → w ≠ []) (hcl : Opt.closeness ∉ opts)
    {files : List Char → Option (List Char)} {filename : List Char} (more : List (List Char)) {edges : List (ℕ × ℕ)} {graphs ids : List ℕ} {labels : List (List Char)} {rows : List (List α)}
    (h : IsCollection c opts files filename edges graphs ids labels rows) (hne : ∀ g ∈ graphs, ∃ v, Incident edges v ∧ NodeOf graphs v g) {v : ℕ} (hi : Incident edges v)
    (hloop : ∀ e ∈ edges, v = e.1 ∨ v = e.2 → e.1 = e.2) : main c o files opts (filename :: more) = .error .undefined := by
  obtain ⟨s, dir, C, L, h1, h2, h3, h4, h5, h6⟩ := collection_read c hv hout h
  obtain ⟨g, hvg⟩ : ∃ g, NodeOf graphs v g := by
    obtain ⟨e, he, hve⟩ := hi
    obtain ⟨g, g1, g2⟩ := h.consistent.graph e he
    rcases hve with rfl | rfl
    · exact ⟨g, g1⟩
    · exact ⟨g, g2⟩
  have hgi : g ∈ ids := (h.mem g).2 (List.mem_of_getElem? hvg.2)
  obtain ⟨j, hj⟩ := List.getElem?_of_mem hgi
  have hjl := (List.getElem?_eq_some_iff.1 hj).1
  have hC : C[j]? = some C[j] := List.getElem?_eq_getElem (by omega)
  have hall : ∀ K ∈ C, IsGraph K ∧ K ≠ [] := by
    intro K hK
    obtain ⟨i, hi⟩ := List.getElem?_of_mem hK
    have hil := (List.getElem?_eq_some_iff.1 hi).1
    obtain ⟨a1, a2⟩ := h6 i _ K (List.getElem?_eq_getElem (by omega)) hi
    refine ⟨a1, ?_⟩
    rintro rfl
    obtain ⟨w, w1, w2⟩ := hne ids[i] ((h.mem _).1 (List.getElem_mem _))
    have := singleton_mem_graphSets.2 ⟨w1, w2⟩
    rw [← a2] at this
    simp [sets] at this
  obtain ⟨m, hm⟩ := (maxDimension_cases C).1 fun K hK => (hall K hK).2
  obtain ⟨g1, g2⟩ := h6 j g _ hj hC
  have hf := filtrations_undefined c s ⟨C[j], List.getElem_mem _, filtrationStep_undefined c s g1 (v := v)
    (mem_sets.1 (by rw [g2]; exact singleton_mem_graphSets.2 ⟨hi, hvg⟩)) (by
      rw [g2]
      refine card_eq_zero.2 (filter_eq_empty_iff.2 ?_)
      rintro t ht ⟨t1, t2⟩
      obtain ⟨⟨e, he, h0⟩, -⟩ := mem_graphSets.1 ht
      rcases h0 with rfl | rfl | rfl
      · simp at t2
      · simp at t2
      · have := hloop e he (by simpa using t1)
        rw [this] at t2
        simp at t2)⟩ 0
  have hc : centralitiesIf c s dir C = .ok (C, []) := by
    unfold centralitiesIf
    rw [h2, if_neg (by simpa using hcl)]
  unfold main run
  rw [h1]
  simp only [h3, h4, hc, expandAll_graph o s.dimension fun K hK => (hall K hK).1, hm, hf, bind, Except.bind]

omit [LinearOrder α] [IsStrictOrderedRing α] in
theorem settings_dimension (c : Context α) {opts : List Opt} {s : Settings α} (h : settings c opts = some s) :
    settings c (opts.filter fun o => o.dimensionWord.isNone) = some { s with dimension := 0 } := by
  unfold settings at h ⊢
  suffices H : ∀ init : Settings α, opts.foldlM (setOption c) init = some s →
      (opts.filter fun o => o.dimensionWord.isNone).foldlM (setOption c) { init with dimension := 0 } = some { s with dimension := 0 } from H initial h
  clear h
  induction opts with
  | nil =>
    intro init h
    simp only [List.foldlM_nil, pure, Option.some.injEq] at h
    subst h
    rfl
  | cons o l ih =>
    intro init h
    rw [List.foldlM_cons] at h
    cases e : setOption c init o with
    | none =>
      rw [e] at h
      simp at h
    | some t =>
      rw [e] at h
      have hi := ih t h
      cases o with
      | dimension w =>
        rw [List.filter_cons_of_neg (by simp [Opt.dimensionWord])]
        obtain ⟨x, -, rfl⟩ := Option.map_eq_some_iff.1 e
        exact hi
      | unknown => cases e
      | _ =>
        rw [List.filter_cons_of_pos (by simp [Opt.dimensionWord]), List.foldlM_cons]
        cases e
        exact hi

/-- C179. The option for the dimension has no effect: the graphs are expanded, but the results are not used. -/
theorem _root_.Aleph.C179_dimension (c : Context α) (o : Orders α) {opts : List Opt} (hv : Valid c opts) (hout : ∀ w, Opt.output w ∈ opts → w ≠ []) (hcl : Opt.closeness ∉ opts)
    {files : List Char → Option (List Char)} {filename : List Char} (more : List (List Char)) {edges : List (ℕ × ℕ)} {graphs ids : List ℕ} {labels : List (List Char)} {rows : List (List α)}
    (h : IsCollection c opts files filename edges graphs ids labels rows) :
    main c o files opts (filename :: more) = main c o files (opts.filter fun o => o.dimensionWord.isNone) (filename :: more) := by
  obtain ⟨s, dir, C, L, h1, h2, h3, h4, h5, h6⟩ := collection_read c hv hout h
  have hgraph : ∀ K ∈ C, IsGraph K := by
    intro K hK
    obtain ⟨i, hi⟩ := List.getElem?_of_mem hK
    have hil := (List.getElem?_eq_some_iff.1 hi).1
    exact (h6 i _ K (List.getElem?_eq_getElem (by omega)) hi).1
  have hc : ∀ d, centralitiesIf c { s with dimension := d } dir C = .ok (C, []) := by
    intro d
    unfold centralitiesIf
    rw [h2, if_neg (by simpa using hcl)]
  have h4' : SparseReader.read (readerOptions { s with dimension := 0 }) c.order c.vertex c.graph c.value files filename ⟨[], []⟩ = .ok (C, L) := h4
  have hf : ∀ m Ks, filtrations c { s with dimension := 0 } m Ks = filtrations c s m Ks := by
    intro m Ks
    induction Ks generalizing m with
    | nil => rfl
    | cons K Ks ih =>
      unfold filtrations
      have hst : filtrationStep c { s with dimension := 0 } m K = filtrationStep c s m K := rfl
      rw [hst]
      cases filtrationStep c s m K with
      | error e => rfl
      | ok r =>
        simp only [bind, Except.bind]
        rw [ih]
  have hgf : ∀ Ks, graphFilesIf c { s with dimension := 0 } L dir Ks = graphFilesIf c s L dir Ks := fun _ => rfl
  unfold main run
  rw [h1, settings_dimension c h1]
  simp only [h3, h4, h4', hc s.dimension, hc 0, expandAll_graph o _ hgraph, hf, hgf, bind, Except.bind]

/-- C179. Without arguments, the result of the tool is -1 and there are no files.  Unknown options, arguments for the dimension that are not numbers, and a missing file with edges raise exceptions.
If the name of the directory is empty, then its last character is not defined. -/
theorem _root_.Aleph.C179_failures (c : Context α) (o : Orders α) (files : List Char → Option (List Char)) (opts : List Opt) (args : List (List Char)) :
    (¬Valid c opts → main c o files opts args = .error .exception) ∧
    (Valid c opts → args = [] → main c o files opts args = .ok (-1, [])) ∧
    (Valid c opts → (∀ w, Opt.output w ∈ opts → w ≠ []) → ∀ filename ∈ args.head?, files filename = none → main c o files opts args = .error .exception) ∧
    (Valid c opts → args ≠ [] → IsLastValue Opt.outputWord some "/tmp".toList opts [] → main c o files opts args = .error .undefined) := by
  refine ⟨fun hv => ?_, fun hv ha => ?_, fun hv hout filename hf hn => ?_, fun hv ha hl => ?_⟩
  · unfold main
    rw [(settings_none c opts).2 hv]
  · subst ha
    cases hs : settings c opts with
    | none => exact absurd hv ((settings_none c opts).1 hs)
    | some s =>
      unfold main
      rw [hs]
  · cases hs : settings c opts with
    | none => exact absurd hv ((settings_none c opts).1 hs)
    | some s =>
      obtain ⟨k1, k2, -⟩ := settings_spec c hs
      have hword : s.output ≠ [] := by
        rcases k2 with ⟨a, w, b, v, rfl, h2, -, h4⟩ | ⟨-, h2⟩
        · cases w <;> simp only [Opt.outputWord, reduceCtorEq, Option.some.injEq] at h2
          subst h2
          rw [← Option.some.inj h4]
          exact hout _ (by simp)
        · rw [h2]
          decide
      obtain ⟨dir, w1, w2⟩ := withSlash_spec hword
      cases args with
      | nil => simp at hf
      | cons a more =>
        obtain rfl : a = filename := by simpa using hf
        unfold main run
        rw [hs]
        simp only [w1, C133_file (readerOptions s) c.vertex c.graph c.value files a ⟨[], []⟩ c.order (Or.inl hn), bind, Except.bind]
  · cases hs : settings c opts with
    | none => exact absurd hv ((settings_none c opts).1 hs)
    | some s =>
      obtain ⟨k1, k2, -⟩ := settings_spec c hs
      have hword : s.output = [] := lastValue_unique k2 hl
      cases args with
      | nil => exact absurd rfl ha
      | cons a more =>
        unfold main run
        rw [hs]
        simp only [hword, withSlash, List.getLast?_nil, bind, Except.bind]

end

/-! ### Superlevel sets -/

/-- A path with three nodes. -/
def path : Complex ℚ := [⟨[1], 0⟩, ⟨[2], 0⟩, ⟨[3], 0⟩, ⟨[2, 1], 0⟩, ⟨[3, 2], 0⟩]

/-- A context for examples. -/
def exampleContext : Context ℚ := ⟨1000, 1000, -1000, SparseReader.natOf, MatrixReader.digits, fun t => SparseReader.natOf t, fun t => SparseReader.natOf t, MatrixReader.digits, fun _ => "1".toList, id⟩

/-- C179. Superlevel sets are not handled: the degrees of a path with three nodes are one, two and one, so that its superlevel sets are the node in the middle, for values above one, and the whole path.
Each class of the former persists.  The simplices are sorted by ascending weights, though, which is not a filtration, and according to the diagram, the class of the node in the middle vanishes. -/
theorem _root_.Aleph.C179_superlevel :
    ∃ L points, filtrations exampleContext { (initial : Settings ℚ) with superlevel := true } 0 [path] = .ok (2, [L]) ∧
      calculatePersistenceDiagrams .twist .vector exampleContext.inf L true true = some [⟨0, points⟩] ∧ ¬IsFiltration L ∧
      (points.countP fun p => 2 ≤ p.1 ∧ (p.2 = exampleContext.inf ∨ p.2 < 1)) = 0 ∧ IsPersistentBetti {{2}} {{1}, {2}, {3}, {1, 2}, {2, 3}} 0 1 := by
  refine ⟨[⟨[1], 1⟩, ⟨[3], 1⟩, ⟨[2, 1], 1⟩, ⟨[3, 2], 1⟩, ⟨[2], 2⟩], [(1, 1000), (1, 1), (2, 1)], by decide +kernel, by decide +kernel, ?_, by decide +kernel, by unfold IsPersistentBetti; decide +kernel⟩
  intro h
  have := h.order
  revert this
  unfold FacesFirst
  decide +kernel

/-! ### Examples -/

/-- Two graphs: an edge, and an edge that occurs twice. -/
def exampleFiles (name : List Char) : Option (List Char) :=
  if name = "D_A.txt".toList then some "1,2\n2,1\n3,4\n".toList
  else if name = "D_graph_indicator.txt".toList then some "1\n1\n2\n2\n".toList
  else if name = "D_graph_labels.txt".toList then some "x\ny\n".toList
  else none

theorem example_collection (opts : List Opt) (h1 : Opt.attributes ∉ opts) : IsCollection exampleContext opts exampleFiles "D_A.txt".toList [(1, 2), (2, 1), (3, 4)] [1, 1, 2, 2] [1, 2]
    ["x".toList, "y".toList] [] where
  order := fun _ _ => Iff.rfl
  data := {
    matrix := by
      refine ⟨_, ["1,2".toList, "2,1".toList, "3,4".toList], false, rfl, SparseReader.lines_flat (by decide) (by decide), ?_⟩
      exact .cons ⟨['1'], ['2'], SparseReader.example_columns _ _ (by decide) (by decide), by decide⟩ (.cons ⟨['2'], ['1'], SparseReader.example_columns _ _ (by decide) (by decide), by decide⟩
        (.cons ⟨['3'], ['4'], SparseReader.example_columns _ _ (by decide) (by decide), by decide⟩ .nil))
    indicator := by
      intro p hp
      rw [SparseReader.example_prefix p hp]
      refine ⟨_, [['1'], ['1'], ['2'], ['2']], false, rfl, SparseReader.lines_flat (by decide) (by decide), ?_⟩
      exact .cons ⟨['1'], SparseReader.example_content _ (by simp), by decide⟩ (.cons ⟨['1'], SparseReader.example_content _ (by simp), by decide⟩
        (.cons ⟨['2'], SparseReader.example_content _ (by simp), by decide⟩ (.cons ⟨['2'], SparseReader.example_content _ (by simp), by decide⟩ .nil)))
    labels := by
      intro p hp
      rw [SparseReader.example_prefix p hp]
      refine ⟨_, [['x'], ['y']], false, rfl, SparseReader.lines_flat (by decide) (by decide), ?_⟩
      exact .cons (Or.inl ⟨rfl, SparseReader.example_content _ (by simp)⟩) (.cons (Or.inl ⟨rfl, SparseReader.example_content _ (by simp)⟩) .nil)
    nodeRows := by
      intro h
      simp [readerSettings, h1] at h
    edgeRows := by
      intro h
      simp [readerSettings] at h }
  consistent := {
    graph := by
      intro e he
      simp only [List.mem_cons, List.not_mem_nil, or_false] at he
      rcases he with rfl | rfl | rfl
      · exact ⟨1, ⟨by decide, rfl⟩, ⟨by decide, rfl⟩⟩
      · exact ⟨1, ⟨by decide, rfl⟩, ⟨by decide, rfl⟩⟩
      · exact ⟨2, ⟨by decide, rfl⟩, ⟨by decide, rfl⟩⟩
    node := fun v _ => ⟨0, Or.inr ⟨Or.inl (by simp [readerSettings, h1]), rfl⟩⟩
    edge := fun i _ => ⟨0, Or.inr ⟨Or.inl rfl, rfl⟩⟩ }
  sorted := by decide
  mem := by simp
  length := rfl

/-- Hypotheses of C179_files_partial, C179_closeness, C179_graphs and C179_dimension: two graphs with a common largest degree. -/
example : Valid exampleContext [.closeness, .graphs, .normalise] ∧ IsCollection exampleContext [.closeness, .graphs, .normalise] exampleFiles "D_A.txt".toList [(1, 2), (2, 1), (3, 4)] [1, 1, 2, 2] [1, 2]
    ["x".toList, "y".toList] [] ∧ HasEdges [(1, 2), (2, 1), (3, 4)] [1, 1, 2, 2] [1, 2] ∧ IsNodeLabels [.closeness, .graphs, .normalise] exampleFiles "D_A.txt".toList [1, 1, 2, 2] [] ∧
    (∀ g ∈ [1, 2], ∀ top, IsTopDegree (graphSets [(1, 2), (2, 1), (3, 4)] [1, 1, 2, 2] g) top → ∀ t ∈ graphSets [(1, 2), (2, 1), (3, 4)] [1, 1, 2, 2] g, ∀ y,
      IsWeight false (nodeValue true (graphSets [(1, 2), (2, 1), (3, 4)] [1, 1, 2, 2] g) top) t y → y ≠ exampleContext.inf) := by
  refine ⟨?_, example_collection _ (by decide), ⟨?_, ?_, ?_⟩, ⟨fun _ => rfl, fun h => absurd h (by decide)⟩, ?_⟩
  · intro o ho
    simp only [List.mem_cons, List.not_mem_nil, or_false] at ho
    rcases ho with rfl | rfl | rfl <;> simp [Opt.dimensionWord]
  · rintro v ⟨e, he, hv⟩
    refine ⟨e, he, ?_, hv⟩
    simp only [List.mem_cons, List.not_mem_nil, or_false] at he
    rcases he with rfl | rfl | rfl <;> decide
  · intro g hg
    simp only [List.mem_cons, List.not_mem_nil, or_false] at hg
    rcases hg with rfl | rfl
    · exact ⟨1, ⟨(1, 2), by simp, Or.inl rfl⟩, by decide, rfl⟩
    · exact ⟨3, ⟨(3, 4), by simp, Or.inl rfl⟩, by decide, rfl⟩
  · intro g _
    classical
    unfold graphSets
    refine (card_filter_le _ _).trans ((List.toFinset_card_le _).trans ?_)
    decide
  · intro g _ top ht t _ y hy
    obtain ⟨⟨v, hv, hy⟩, -⟩ := hy
    have hle : y ≤ 1 := by
      rw [hy, nodeValue, if_pos rfl]
      by_cases hs : {v} ∈ graphSets [(1, 2), (2, 1), (3, 4)] [1, 1, 2, 2] g
      · exact div_le_one_of_le₀ (by exact_mod_cast ht.2 ⟨v, hs, rfl⟩) (by positivity)
      · have : degree (graphSets [(1, 2), (2, 1), (3, 4)] [1, 1, 2, 2] g) v = 0 := by
          refine card_eq_zero.2 (filter_eq_empty_iff.2 ?_)
          rintro u hu ⟨u1, -⟩
          obtain ⟨⟨e, he, h0⟩, w, hw, hg⟩ := mem_graphSets.1 hu
          have hmem : ∀ x ∈ u, x = e.1 ∨ x = e.2 := by
            intro x hx
            rcases h0 with rfl | rfl | rfl <;> simp only [mem_singleton, mem_insert] at hx
            · exact Or.inl hx
            · exact Or.inr hx
            · exact hx
          obtain ⟨g', g1, g2⟩ := (example_collection [] (by simp)).consistent.graph e he
          have hnode : ∀ x ∈ u, NodeOf [1, 1, 2, 2] x g' := by
            intro x hx
            rcases hmem x hx with rfl | rfl
            · exact g1
            · exact g2
          have hgg := nodeOf_unique (hnode w hw) hg
          subst hgg
          exact hs (singleton_mem_graphSets.2 ⟨⟨e, he, hmem v u1⟩, hnode v u1⟩)
        rw [this]
        simp
    intro h0
    rw [h0] at hle
    revert hle
    decide +kernel

/-- The same files, with another graph that has no edges, or with loops. -/
def otherFiles (matrix : String) (name : List Char) : Option (List Char) :=
  if name = "D_A.txt".toList then some matrix.toList
  else if name = "D_graph_indicator.txt".toList then some "1\n1\n2\n".toList
  else if name = "D_graph_labels.txt".toList then some "x\ny\n".toList
  else none

theorem other_collection (matrix : String) (edges : List (ℕ × ℕ)) (hm : FileLines (otherFiles matrix) "D_A.txt".toList (EdgeLine ',' exampleContext.vertex) edges)
    (hc : ∀ e ∈ edges, ∃ g, NodeOf [1, 1, 2] e.1 g ∧ NodeOf [1, 1, 2] e.2 g) : IsCollection exampleContext [] (otherFiles matrix) "D_A.txt".toList edges [1, 1, 2] [1, 2] ["x".toList, "y".toList] [] where
  order := fun _ _ => Iff.rfl
  data := {
    matrix := hm
    indicator := by
      intro p hp
      rw [SparseReader.example_prefix p hp]
      refine ⟨_, [['1'], ['1'], ['2']], false, rfl, SparseReader.lines_flat (by decide) (by decide), ?_⟩
      exact .cons ⟨['1'], SparseReader.example_content _ (by simp), by decide⟩ (.cons ⟨['1'], SparseReader.example_content _ (by simp), by decide⟩
        (.cons ⟨['2'], SparseReader.example_content _ (by simp), by decide⟩ .nil))
    labels := by
      intro p hp
      rw [SparseReader.example_prefix p hp]
      refine ⟨_, [['x'], ['y']], false, rfl, SparseReader.lines_flat (by decide) (by decide), ?_⟩
      exact .cons (Or.inl ⟨rfl, SparseReader.example_content _ (by simp)⟩) (.cons (Or.inl ⟨rfl, SparseReader.example_content _ (by simp)⟩) .nil)
    nodeRows := by
      intro h
      simp [readerSettings] at h
    edgeRows := by
      intro h
      simp [readerSettings] at h }
  consistent := {
    graph := hc
    node := fun v _ => ⟨0, Or.inr ⟨Or.inl (by simp [readerSettings]), rfl⟩⟩
    edge := fun i _ => ⟨0, Or.inr ⟨Or.inl rfl, rfl⟩⟩ }
  sorted := by decide
  mem := by simp
  length := rfl

/-- Hypotheses of C179_edgeless: the second graph consists of a node. -/
example : IsCollection exampleContext [] (otherFiles "1,2\n") "D_A.txt".toList [(1, 2)] [1, 1, 2] [1, 2] ["x".toList, "y".toList] [] ∧ ∀ v, NodeOf [1, 1, 2] v 2 → ¬Incident [(1, 2)] v := by
  constructor
  · refine other_collection _ _ ⟨_, ["1,2".toList], false, rfl, SparseReader.lines_flat (by decide) (by decide),
      .cons ⟨['1'], ['2'], SparseReader.example_columns _ _ (by decide) (by decide), by decide⟩ .nil⟩ ?_
    intro e he
    simp only [List.mem_cons, List.not_mem_nil, or_false] at he
    subst he
    exact ⟨1, ⟨by decide, rfl⟩, ⟨by decide, rfl⟩⟩
  · rintro v ⟨h1, h2⟩ ⟨e, he, hv⟩
    simp only [List.mem_cons, List.not_mem_nil, or_false] at he
    subst he
    rcases hv with rfl | rfl <;> simp at h2

/-- Hypotheses of C179_loops: the node of the second graph has a loop. -/
example : IsCollection exampleContext [] (otherFiles "1,2\n3,3\n") "D_A.txt".toList [(1, 2), (3, 3)] [1, 1, 2] [1, 2] ["x".toList, "y".toList] [] ∧
    (∀ g ∈ [1, 1, 2], ∃ v, Incident [(1, 2), (3, 3)] v ∧ NodeOf [1, 1, 2] v g) ∧ Incident [(1, 2), (3, 3)] 3 ∧ ∀ e ∈ [(1, 2), (3, 3)], 3 = e.1 ∨ 3 = e.2 → e.1 = e.2 := by
  refine ⟨?_, ?_, ⟨(3, 3), by simp, Or.inl rfl⟩, by simp⟩
  · refine other_collection _ _ ⟨_, ["1,2".toList, "3,3".toList], false, rfl, SparseReader.lines_flat (by decide) (by decide),
      .cons ⟨['1'], ['2'], SparseReader.example_columns _ _ (by decide) (by decide), by decide⟩
        (.cons ⟨['3'], ['3'], SparseReader.example_columns _ _ (by decide) (by decide), by decide⟩ .nil)⟩ ?_
    intro e he
    simp only [List.mem_cons, List.not_mem_nil, or_false] at he
    rcases he with rfl | rfl
    · exact ⟨1, ⟨by decide, rfl⟩, ⟨by decide, rfl⟩⟩
    · exact ⟨2, ⟨by decide, rfl⟩, ⟨by decide, rfl⟩⟩
  · intro g hg
    simp only [List.mem_cons, List.not_mem_nil, or_false] at hg
    rcases hg with rfl | rfl | rfl
    · exact ⟨1, ⟨(1, 2), by simp, Or.inl rfl⟩, by decide, rfl⟩
    · exact ⟨1, ⟨(1, 2), by simp, Or.inl rfl⟩, by decide, rfl⟩
    · exact ⟨3, ⟨(3, 3), by simp, Or.inl rfl⟩, by decide, rfl⟩

end Aleph.SparseTool
