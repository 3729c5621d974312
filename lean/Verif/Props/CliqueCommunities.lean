import Verif.Lemmas.Communities
import Verif.Props.DiagramJson
import Verif.Props.Rips
import Mathlib.Algebra.Order.Field.Rat
import Mathlib.Order.Bounds.Basic

/-!
# Communities of cliques
-/

namespace Aleph

open Finset Spec

namespace CliqueCommunities

variable {α : Type}

/-! ### Texts -/

theorem blank_replicate (n : ℕ) : JsonBlank (List.replicate n ' ') := by
  intro c hc
  exact Or.inl (List.eq_of_mem_replicate hc)

theorem blank_newline : JsonBlank ['\n'] := by
  intro c hc
  rw [List.mem_singleton] at hc
  exact Or.inr (Or.inl hc)

theorem blank_append {g h : List Char} (hg : JsonBlank g) (hh : JsonBlank h) : JsonBlank (g ++ h) := by
  intro c hc
  rcases List.mem_append.1 hc with h' | h'
  · exact hg c h'
  · exact hh c h'

theorem commas_json {ts : List (List Char)} {vs : List Json} (h : List.Forall₂ IsJson ts vs) :
    IsJson ('[' :: commas ts ++ [']']) (.array vs) := by
  by_cases hne : ts = []
  · subst hne
    cases h
    exact .emptyArray [] DiagramJson.blank_nil
  · refine .array _ _ ?_
    induction h with
    | nil => exact absurd rfl hne
    | @cons t v ts vs ht hf ih =>
      cases ts with
      | nil => cases hf; exact .one _ _ ht
      | cons t' ts => exact .cons _ _ _ _ ht (ih (by simp))

theorem lines_json {ts : List (List Char)} {vs : List Json} (h : List.Forall₂ IsJson ts vs) :
    IsJson ('[' :: '\n' :: linesText ts ++ List.replicate 4 ' ' ++ [']']) (.array vs) := by
  by_cases hne : ts = []
  · subst hne
    cases h
    have := IsJson.emptyArray ('\n' :: List.replicate 4 ' ') (blank_append blank_newline (blank_replicate 4))
    simpa [linesText] using this
  · have main : IsElements ('\n' :: linesText ts) vs := by
      induction h with
      | nil => exact absurd rfl hne
      | @cons t v ts vs ht hf ih =>
        cases ts with
        | nil =>
          cases hf
          have := IsElements.one _ _ (IsJson.blank ['\n'] t ['\n'] v blank_newline blank_newline ht)
          simpa [linesText] using this
        | cons t' ts =>
          have := IsElements.cons _ _ _ _ (IsJson.blank ['\n'] t [] v blank_newline DiagramJson.blank_nil ht) (ih (by simp))
          simpa [linesText] using this
    have := IsJson.array _ _ (DiagramJson.elements_end main (blank_replicate 4))
    simpa using this

theorem plain_decimal {t : List Char} {n : ℕ} (h : IsDecimal t n) : JsonPlain t := by
  intro c hc
  obtain ⟨h1, h2⟩ := h.2.1 c hc
  have h1' : 48 ≤ c.toNat := h1
  have h2' : c.toNat ≤ 57 := h2
  refine ⟨?_, ?_, by omega⟩
  · rintro rfl
    revert h1'
    decide
  · rintro rfl
    revert h2'
    decide

theorem levels_json {printNat : ℕ → List Char} (hn : ∀ n, IsDecimal (printNat n) n) {maxK : ℕ} (lines : ℕ → List (List Char)) (vals : ℕ → List Json)
    (n k : ℕ) (hk : k + n = maxK) (h : ∀ j ∈ List.range' k (n + 1), List.Forall₂ IsJson (lines j) (vals j)) :
    IsMembers ('\n' :: ((List.range' k (n + 1)).map fun j => levelText printNat maxK j (lines j)).flatten ++ [' ', ' '])
      ((List.range' k (n + 1)).map fun j => (printNat (j + 1), .array (vals j))) := by
  induction n generalizing k with
  | zero =>
    have h1 := lines_json (h k (by simp))
    have h2 := IsMembers.one ('\n' :: List.replicate 4 ' ') (printNat (k + 1)) [] _ _ (blank_append blank_newline (blank_replicate 4))
      (plain_decimal (hn _)) DiagramJson.blank_nil
      (IsJson.blank [' '] _ ['\n', ' ', ' '] _ (blank_replicate 1) (blank_append blank_newline (blank_replicate 2)) h1)
    have hlt : ¬ k < maxK := by omega
    simpa [levelText, DiagramJson.quoted, hlt] using h2
  | succ n ih =>
    have h1 := lines_json (h k (by simp))
    have h3 := ih (k + 1) (by omega) fun j hj => h j (by
      rw [List.mem_range'_1] at hj ⊢
      omega)
    have h2 := IsMembers.cons ('\n' :: List.replicate 4 ' ') (printNat (k + 1)) [] _ _ _ _ (blank_append blank_newline (blank_replicate 4))
      (plain_decimal (hn _)) DiagramJson.blank_nil
      (IsJson.blank [' '] _ [' ', ' '] _ (blank_replicate 1) (blank_replicate 2) h1) h3
    have hlt : k < maxK := by omega
    rw [List.range'_succ]
    simpa [levelText, DiagramJson.quoted, hlt] using h2

/-! ### Values -/

variable {printNat : ℕ → List Char} {useLabels : Bool} {labels : ℕ → Option (List Char)}

theorem vertexText_json (hn : ∀ n, IsDecimal (printNat n) n) {v : ℕ} (hl : useLabels = true → ∃ l, labels v = some l ∧ JsonPlain l) :
    ∃ t, vertexText printNat useLabels labels v = some t ∧ IsJson t (vertexValue useLabels labels v) := by
  unfold vertexText vertexValue
  cases useLabels with
  | false => exact ⟨printNat v, rfl, .number _ _ (hn v)⟩
  | true =>
    obtain ⟨l, h1, h2⟩ := hl rfl
    rw [h1]
    exact ⟨DiagramJson.quoted l, rfl, DiagramJson.quoted_json h2⟩

theorem mapM_json {β : Type} {f : β → Option (List Char)} {g : β → Json} {l : List β} (h : ∀ x ∈ l, ∃ t, f x = some t ∧ IsJson t (g x)) :
    ∃ ts, l.mapM f = some ts ∧ List.Forall₂ IsJson ts (l.map g) := by
  induction l with
  | nil => exact ⟨[], rfl, .nil⟩
  | cons a l ih =>
    obtain ⟨t, h1, h2⟩ := h a List.mem_cons_self
    obtain ⟨ts, h3, h4⟩ := ih fun x hx => h x (List.mem_cons_of_mem _ hx)
    refine ⟨t :: ts, ?_, .cons h2 h4⟩
    rw [List.mapM_cons, h1, h3]
    rfl

theorem formatSimplex_json (hn : ∀ n, IsDecimal (printNat n) n) (s : Simplex α)
    (hl : useLabels = true → ∀ v ∈ s.vset, ∃ l, labels v = some l ∧ JsonPlain l) :
    ∃ t, formatSimplex printNat useLabels labels s = some t ∧ IsJson t (.array (s.vertices.map (vertexValue useLabels labels))) := by
  obtain ⟨ts, h1, h2⟩ := mapM_json (f := vertexText printNat useLabels labels) (g := vertexValue useLabels labels) (l := s.vertices)
    fun v hv => vertexText_json hn fun hu => hl hu v (List.mem_toFinset.2 hv)
  unfold formatSimplex
  rw [h1]
  exact ⟨_, rfl, commas_json h2⟩

theorem communityText_json (hn : ∀ n, IsDecimal (printNat n) n) (c : List (Simplex α))
    (hl : useLabels = true → ∀ s ∈ c, ∀ v ∈ s.vset, ∃ l, labels v = some l ∧ JsonPlain l) :
    ∃ t, communityText printNat useLabels labels c = some t ∧
      IsJson t (.array (c.map fun s => .array (s.vertices.map (vertexValue useLabels labels)))) := by
  obtain ⟨ts, h1, h2⟩ := mapM_json (f := formatSimplex printNat useLabels labels)
    (g := fun s : Simplex α => .array (s.vertices.map (vertexValue useLabels labels))) (l := c)
    fun s hs => formatSimplex_json hn s fun hu => hl hu s hs
  unfold communityText
  rw [h1]
  refine ⟨_, rfl, ?_⟩
  have := IsJson.blank (List.replicate 12 ' ') _ [] _ (blank_replicate 12) DiagramJson.blank_nil (commas_json h2)
  simpa using this

/-! ### The graph -/

theorem extrema_spec [LinearOrder α] {lo hi m M : α} {K : Complex α} (hlo : ∀ s ∈ K, lo ≤ s.data) (hhi : ∀ s ∈ K, s.data ≤ hi)
    (hm : IsLeast {x | ∃ s ∈ K, s.data = x} m) (hM : IsGreatest {x | ∃ s ∈ K, s.data = x} M) : extrema lo hi K = (M, m) := by
  have main : ∀ (L : Complex α) (a b : α),
      L.foldl (fun w s => (max w.1 s.data, min w.2 s.data)) (a, b) = ((L.map (·.data)).foldl max a, (L.map (·.data)).foldl min b) := by
    intro L
    induction L with
    | nil => intro a b; rfl
    | cons s L ih => intro a b; exact ih _ _
  have hmax : ∀ (l : List α) (a x : α), l.foldl max a ≤ x ↔ a ≤ x ∧ ∀ y ∈ l, y ≤ x := by
    intro l
    induction l with
    | nil => intro a x; simp
    | cons y l ih => intro a x; rw [List.foldl_cons, ih, max_le_iff]; simp [and_assoc]
  have hmin : ∀ (l : List α) (a x : α), x ≤ l.foldl min a ↔ x ≤ a ∧ ∀ y ∈ l, x ≤ y := by
    intro l
    induction l with
    | nil => intro a x; simp
    | cons y l ih => intro a x; rw [List.foldl_cons, ih, le_min_iff]; simp [and_assoc]
  unfold extrema
  rw [main]
  obtain ⟨s, hs, hsd⟩ := hM.1
  obtain ⟨t, ht, htd⟩ := hm.1
  refine Prod.ext ?_ ?_
  · apply le_antisymm
    · rw [hmax]
      refine ⟨hsd ▸ hlo s hs, ?_⟩
      intro y hy
      obtain ⟨r, hr, rfl⟩ := List.mem_map.1 hy
      exact hM.2 ⟨r, hr, rfl⟩
    · exact ((hmax _ _ _).1 le_rfl).2 M (List.mem_map.2 ⟨s, hs, hsd⟩)
  · apply le_antisymm
    · exact ((hmin _ _ _).1 le_rfl).2 m (List.mem_map.2 ⟨t, ht, htd⟩)
    · rw [hmin]
      refine ⟨htd ▸ hhi t ht, ?_⟩
      intro y hy
      obtain ⟨r, hr, rfl⟩ := List.mem_map.1 hy
      exact hm.2 ⟨r, hr, rfl⟩

theorem replaceWeights_map (f g : α → α) (K : Complex α) :
    replaceWeights g (replaceWeights f K) = replaceWeights (fun x => g (f x)) K := by
  unfold replaceWeights
  rw [List.map_map]
  apply List.map_congr_left
  intro s _
  simp only [Function.comp]
  by_cases h : Complex.dim s = 0
  · rw [if_pos h, if_pos h]
    simp only [h, if_true]
  · rw [if_neg h, if_neg h]
    have : Complex.dim (s.withData (f s.data)) = Complex.dim s := rfl
    simp only [this, h, if_false]
    rfl

theorem replaceWeights_id (K : Complex α) : replaceWeights (fun x => x) K = K := by
  unfold replaceWeights
  conv_rhs => rw [← List.map_id K]
  apply List.map_congr_left
  intro s _
  split <;> rfl

theorem prepare_eq [Field α] [LinearOrder α] {lo hi m M : α} {K : Complex α} (hlo : ∀ s ∈ K, lo ≤ s.data) (hhi : ∀ s ∈ K, s.data ≤ hi)
    (hm : IsLeast {x | ∃ s ∈ K, s.data = x} m) (hM : IsGreatest {x | ∃ s ∈ K, s.data = x} M) (o : Settings) :
    prepare lo hi o K = replaceWeights (edgeWeight o.normalize o.invertWeights m M) K := by
  unfold prepare
  rw [extrema_spec hlo hhi hm hM]
  have hne : M ≠ m ↔ m ≠ M := ne_comm
  unfold edgeWeight
  cases o.normalize <;> cases o.invertWeights <;> by_cases h : m = M <;>
    simp [hne, h, replaceWeights_map, replaceWeights_id]

theorem wf_replaceWeights {K : Complex α} (hK : WF K) (f : α → α) : WF (replaceWeights f K) := by
  refine hK.of_map_vertices ?_
  unfold replaceWeights
  rw [List.map_map]
  refine List.Perm.of_eq (List.map_congr_left ?_)
  intro s _
  simp only [Function.comp]
  split <;> rfl

theorem restrict_spec [LinearOrder α] {K : Complex α} (hK : WF K) (threshold : α) :
    ∃ G, restrict threshold K = some G ∧ WF G ∧ ∀ s, s ∈ G ↔ s ∈ K ∧ s.data ≤ threshold := by
  have hsub : (K.filter fun s => ¬ s.data > threshold).Sublist K := List.filter_sublist
  have hw := hK.sublist hsub
  refine ⟨_, ?_, hw, ?_⟩
  · unfold restrict
    rw [insertRange_nodup [] _ (fun s hs => hw.nonempty s hs) (by simpa using hw.distinct)]
    rfl
  · intro s
    simp

theorem graph_spec [LinearOrder α] {K G : Complex α} (hK : WF K) {w : α → α} {threshold : α} (hG : ∀ s, s ∈ G ↔ s ∈ replaceWeights w K ∧ s.data ≤ threshold) :
    (∀ v, Has G {v} ↔ ∃ x ≤ threshold, HasData K {v} x) ∧
    ∀ u v, u ≠ v → (Has G {u, v} ↔ ∃ x, HasData K {u, v} x ∧ w x ≤ threshold) := by
  have hdim : ∀ s ∈ K, (Complex.dim s = 0 ↔ #s.vset = 1) := by
    intro s hs
    have h1 := (hK.normal s hs).length_eq
    change s.vertices.length = #s.vset at h1
    have h2 : s.vertices.length ≠ 0 := fun h => hK.nonempty s hs (List.length_eq_zero_iff.1 h)
    unfold Complex.dim
    omega
  have hmem : ∀ r, r ∈ replaceWeights w K ↔ ∃ s ∈ K, (if Complex.dim s = 0 then s else s.withData (w s.data)) = r := by
    intro r
    unfold replaceWeights
    rw [List.mem_map]
  refine ⟨?_, ?_⟩
  · intro v
    constructor
    · rintro ⟨r, hr, hv⟩
      obtain ⟨h1, h2⟩ := (hG r).1 hr
      obtain ⟨s, hs, rfl⟩ := (hmem r).1 h1
      by_cases h : Complex.dim s = 0
      · rw [if_pos h] at hv h2
        exact ⟨s.data, h2, s, hs, hv, rfl⟩
      · exfalso
        rw [if_neg h] at hv
        have : s.vset = {v} := hv
        exact h ((hdim s hs).2 (by rw [this]; rfl))
    · rintro ⟨x, hx, s, hs, hv, rfl⟩
      have h : Complex.dim s = 0 := (hdim s hs).2 (by rw [hv]; rfl)
      exact ⟨s, (hG s).2 ⟨(hmem s).2 ⟨s, hs, by rw [if_pos h]⟩, hx⟩, hv⟩
  · intro u v huv
    constructor
    · rintro ⟨r, hr, hv⟩
      obtain ⟨h1, h2⟩ := (hG r).1 hr
      obtain ⟨s, hs, rfl⟩ := (hmem r).1 h1
      by_cases h : Complex.dim s = 0
      · exfalso
        rw [if_pos h] at hv
        have := (hdim s hs).1 h
        rw [hv, card_pair huv] at this
        omega
      · rw [if_neg h] at hv h2
        exact ⟨s.data, ⟨s, hs, hv, rfl⟩, h2⟩
    · rintro ⟨x, ⟨s, hs, hv, rfl⟩, hx⟩
      have h : ¬ Complex.dim s = 0 := by
        rw [hdim s hs, hv, card_pair huv]
        omega
      exact ⟨s.withData (w s.data), (hG _).2 ⟨(hmem _).2 ⟨s, hs, by rw [if_neg h]⟩, hx⟩, hv⟩

theorem expandSorted_spec [LinearOrder α] (o : Orders α) (d0 : α) {G : Complex α} (hG : WF G) (hc : EdgeClosed G) (maxK : ℕ) :
    ∃ L, expandSorted o d0 G maxK = some L ∧ WF L ∧ ∀ t, Has L t ↔ t.Nonempty ∧ #t ≤ maxK + 1 ∧ IsClique G t := by
  obtain ⟨L, h1, h2, h3, _⟩ := C26_cliques o d0 G hG hc maxK
  obtain ⟨M, g1, g2, g3, _⟩ := C27_maximum_weight o 1 L h2 (C26_faceClosed o d0 G hG hc maxK L h1)
  have hp := (sortData_spec g2).1
  refine ⟨_, ?_, g2.perm hp, ?_⟩
  · unfold expandSorted
    simp only [h1, g1]
  · intro t
    rw [← h3, ← g3]
    constructor
    · rintro ⟨s, hs, h⟩
      exact ⟨s, hp.mem_iff.1 hs, h⟩
    · rintro ⟨s, hs, h⟩
      exact ⟨s, hp.mem_iff.2 hs, h⟩

/-- The text for a graph and its expansion. -/
theorem run_spec [Field α] [LinearOrder α] (o : Orders α) (leftFirst : Bool) (lo hi : α) (print : α → List Char)
    (printNat : ℕ → List Char) (settings : Settings) (labels : ℕ → Option (List Char)) (threshold : α) (maxK : ℕ) (K G L : Complex α)
    (hG1 : restrict threshold (prepare lo hi settings K) = some G) (hL1 : expandSorted o 0 G maxK = some L) (hL2 : WF L)
    (P : Finset ℕ → Prop) (hP : ∀ t k, 1 ≤ k → k ≤ maxK → #t = k + 1 → (Has L t ↔ P t))
    (hn : ∀ n, IsDecimal (printNat n) n) (hp : JsonPlain (print threshold))
    (hlabels : settings.useLabels = true → ∀ s ∈ L, ∀ v ∈ s.vset, ∃ l, labels v = some l ∧ JsonPlain l) :
    ∃ (doc : List Char) (cs : ℕ → List (List (List ℕ))), run o leftFirst lo hi print printNat settings labels threshold maxK K = some doc ∧
      (∀ k, 1 ≤ k → k ≤ maxK → IsCommunities P k (cs k)) ∧
      IsJson doc (.object [(print threshold, .object ((List.range' 1 maxK).map fun k =>
        (printNat (k + 1), communitiesValue settings.useLabels labels (cs k))))]) := by
  have hlevel : ∀ k, ∃ c lines, 1 ≤ k → k ≤ maxK → IsCommunities P k c ∧
      level o leftFirst printNat settings.useLabels labels L maxK k = some (levelText printNat maxK k lines) ∧
      List.Forall₂ IsJson lines (c.map fun c => .array (c.map fun vs => .array (vs.map (vertexValue settings.useLabels labels)))) := by
    intro k
    by_cases hk : 1 ≤ k ∧ k ≤ maxK
    · obtain ⟨cs, h1, h2, h3⟩ := communities_spec o leftFirst hL2 hk.1
      obtain ⟨ts, h4, h5⟩ := mapM_json (f := communityText printNat settings.useLabels labels)
        (g := fun c : List (Simplex α) => .array (c.map fun s => .array (s.vertices.map (vertexValue settings.useLabels labels)))) (l := cs)
        fun c hc => communityText_json hn c fun hu s hs => hlabels hu s (h2 c hc s hs)
      refine ⟨cs.map fun c => c.map (·.vertices), ts, fun _ _ => ⟨h3.congr ?_, ?_, ?_⟩⟩
      · intro t ht
        exact hP t k hk.1 hk.2 ht
      · unfold level
        simp only [h1, h4, Option.map_some]
      · rw [List.map_map]
        convert h5 using 2
        funext c
        simp
    · exact ⟨[], [], fun h1 h2 => absurd ⟨h1, h2⟩ hk⟩
  choose cs lines hcs using hlevel
  have hmap : (List.range' 1 maxK).mapM (level o leftFirst printNat settings.useLabels labels L maxK) =
      some ((List.range' 1 maxK).map fun k => levelText printNat maxK k (lines k)) := by
    refine mapM_some_map ?_
    intro k hk
    rw [List.mem_range'_1] at hk
    exact (hcs k (by omega) (by omega)).2.1
  refine ⟨['{', '\n', ' ', ' '] ++ DiagramJson.quoted (print threshold) ++ [':', ' ', '{', '\n'] ++
    ((List.range' 1 maxK).map fun k => levelText printNat maxK k (lines k)).flatten ++ [' ', ' ', '}', '\n', '}', '\n'], cs, ?_, ?_, ?_⟩
  · unfold run
    simp only [hG1, hL1, hmap, Option.map_some]
  · intro k h1 h2
    exact (hcs k h1 h2).1
  · have hinner : IsJson ('{' :: '\n' :: ((List.range' 1 maxK).map fun k => levelText printNat maxK k (lines k)).flatten ++ [' ', ' '] ++ ['}'])
        (.object ((List.range' 1 maxK).map fun k => (printNat (k + 1), communitiesValue settings.useLabels labels (cs k)))) := by
      cases maxK with
      | zero =>
        have := IsJson.emptyObject ['\n', ' ', ' '] (blank_append blank_newline (blank_replicate 2))
        simpa using this
      | succ n =>
        have := IsJson.object _ _ (levels_json (maxK := n + 1) hn lines
          (fun k => (cs k).map fun c => .array (c.map fun vs => .array (vs.map (vertexValue settings.useLabels labels)))) n 1 (by omega) (by
            intro j hj
            rw [List.mem_range'_1] at hj
            exact (hcs j (by omega) (by omega)).2.2))
        exact this
    have h1 := IsMembers.one ['\n', ' ', ' '] (print threshold) [] _ _ (blank_append blank_newline (blank_replicate 2)) hp DiagramJson.blank_nil
      (IsJson.blank [' '] _ ['\n'] _ (blank_replicate 1) blank_newline hinner)
    have h2 := IsJson.blank [] _ ['\n'] _ DiagramJson.blank_nil blank_newline (IsJson.object _ _ h1)
    simpa [DiagramJson.quoted] using h2

/-- C144. The program writes a JSON text with the communities of the cliques of the graph of vertices and edges that are not heavier than
the threshold: for each number of vertices from 2 to the maximum, each clique of this size occurs once, and cliques occur in the same
list if and only if they belong to the same community. -/
theorem _root_.Aleph.C144_communities_partial [Field α] [LinearOrder α] (o : Orders α) (leftFirst : Bool) (lo hi : α) (print : α → List Char)
    (printNat : ℕ → List Char) (settings : Settings) (labels : ℕ → Option (List Char)) (threshold : α) (maxK : ℕ) (K : Complex α)
    (hK : WF K) (hlo : ∀ s ∈ K, lo ≤ s.data) (hhi : ∀ s ∈ K, s.data ≤ hi) (m M : α)
    (hm : IsLeast {x | ∃ s ∈ K, s.data = x} m) (hM : IsGreatest {x | ∃ s ∈ K, s.data = x} M)
    (hends : LightEnds K (edgeWeight settings.normalize settings.invertWeights m M) threshold)
    (hn : ∀ n, IsDecimal (printNat n) n) (hp : JsonPlain (print threshold))
    (hl : settings.useLabels = true → ∀ v, Has K {v} → ∃ l, labels v = some l ∧ JsonPlain l) :
    ∃ (doc : List Char) (cs : ℕ → List (List (List ℕ))), run o leftFirst lo hi print printNat settings labels threshold maxK K = some doc ∧
      (∀ k, 1 ≤ k → k ≤ maxK →
        IsCommunities (LightClique K (edgeWeight settings.normalize settings.invertWeights m M) threshold) k (cs k)) ∧
      IsJson doc (.object [(print threshold, .object ((List.range' 1 maxK).map fun k =>
        (printNat (k + 1), communitiesValue settings.useLabels labels (cs k))))]) := by
  generalize hw : edgeWeight settings.normalize settings.invertWeights m M = w at hends
  obtain ⟨G, hG1, hG2, hG3⟩ := restrict_spec (wf_replaceWeights hK w) threshold
  obtain ⟨hv, he⟩ := graph_spec hK hG3
  have hclique : ∀ t, IsClique G t ↔ LightClique K w threshold t := by
    intro t
    unfold IsClique LightClique
    refine and_congr (forall₂_congr fun v _ => hv v) ?_
    exact forall₂_congr fun u _ => forall₂_congr fun v _ => forall_congr' fun huv => he u v huv
  have hec : EdgeClosed G := by
    intro u v huv h
    obtain ⟨x, hx, hxw⟩ := (he u v huv).1 h
    exact (hv u).2 (hends u v x huv hx hxw)
  obtain ⟨L, hL1, hL2, hL3⟩ := expandSorted_spec o 0 hG2 hec maxK
  have hlabels : settings.useLabels = true → ∀ s ∈ L, ∀ v ∈ s.vset, ∃ l, labels v = some l ∧ JsonPlain l := by
    intro hu s hs v hvs
    obtain ⟨_, _, h3⟩ := (hL3 s.vset).1 ⟨s, hs, rfl⟩
    obtain ⟨x, _, s', hs', hv', _⟩ := (hv v).1 (h3.1 v hvs)
    exact hl hu v ⟨s', hs', hv'⟩
  refine run_spec o leftFirst lo hi print printNat settings labels threshold maxK K G L ?_ hL1 hL2 _ ?_ hn hp hlabels
  · rw [prepare_eq hlo hhi hm hM, hw]
    exact hG1
  · intro t k _ hk ht
    rw [hL3, hclique]
    exact ⟨fun h => h.2.2, fun h => ⟨card_pos.1 (by omega), by omega, h⟩⟩

/-- Two triangles that share an edge, and another edge. -/
def sample : Complex ℚ :=
  [⟨[0], 0⟩, ⟨[1], 0⟩, ⟨[2], 0⟩, ⟨[3], 0⟩, ⟨[4], 0⟩, ⟨[1, 0], 1⟩, ⟨[2, 0], 1⟩, ⟨[2, 1], 2⟩, ⟨[3, 1], 2⟩, ⟨[3, 2], 3⟩, ⟨[4, 3], 3⟩]

example : WF sample ∧ (∀ s ∈ sample, -10 ≤ s.data ∧ s.data ≤ 10) ∧ IsLeast {x | ∃ s ∈ sample, s.data = x} 0 ∧ IsGreatest {x | ∃ s ∈ sample, s.data = x} 3 ∧
    LightEnds sample (edgeWeight false false 0 3) 3 ∧ (∀ n, IsDecimal (Nat.toDigits 10 n) n) := by
  refine ⟨⟨by unfold Normal; decide, by decide, by decide⟩, by decide +kernel, ⟨⟨⟨[0], 0⟩, by decide, rfl⟩, ?_⟩, ⟨⟨⟨[4, 3], 3⟩, by decide, rfl⟩, ?_⟩, ?_, DiagramJson.isDecimal_toDigits⟩
  · rintro x ⟨s, hs, rfl⟩
    revert s
    decide +kernel
  · rintro x ⟨s, hs, rfl⟩
    revert s
    decide +kernel
  · rintro u v x huv ⟨s, hs, hv, rfl⟩ _
    have hu : u ∈ s.vset := by rw [hv]; simp
    have : ∀ s ∈ sample, ∀ u ∈ s.vset, ∃ t ∈ sample, t.vset = {u} ∧ t.data ≤ 3 := by decide +kernel
    obtain ⟨t, ht, h1, h2⟩ := this s hs u hu
    exact ⟨t.data, h2, t, ht, h1, rfl⟩

theorem expandSorted_empty [LinearOrder α] (o : Orders α) (d0 : α) {G : Complex α} (hG : WF G) (h : ∀ v, ¬ Has G {v}) (maxK : ℕ) :
    expandSorted o d0 G maxK = some [] := by
  have hV : G.vertices = [] := by
    rw [List.eq_nil_iff_forall_not_mem]
    intro v hv
    exact h v (((C22_vertices G hG).2 v).1 hv)
  have ho : o.simps [] = [] := (o.simps_perm []).eq_nil
  have h1 : Rips.expand o d0 G maxK = some [] := by
    unfold Rips.expand
    rw [hV]
    simp [Rips.expandList, Complex.insertRange]
  have h2 : Rips.assignMaximumWeight o 1 ([] : Complex α) = some [] := by
    unfold Rips.assignMaximumWeight
    rw [ho]
    rfl
  unfold expandSorted
  simp only [h1, h2]
  rfl

/-- C144. Vertices that are heavier than the threshold are removed although their edges may be light, and their cliques are lost: if all
vertices are heavy, the program writes that there are no communities, whatever the weights of edges. -/
theorem _root_.Aleph.C144_heavy_vertices [Field α] [LinearOrder α] (o : Orders α) (leftFirst : Bool) (lo hi : α) (print : α → List Char)
    (printNat : ℕ → List Char) (settings : Settings) (labels : ℕ → Option (List Char)) (threshold : α) (maxK : ℕ) (K : Complex α)
    (hK : WF K) (hheavy : ∀ v x, HasData K {v} x → threshold < x)
    (hn : ∀ n, IsDecimal (printNat n) n) (hp : JsonPlain (print threshold)) :
    ∃ doc, run o leftFirst lo hi print printNat settings labels threshold maxK K = some doc ∧
      IsJson doc (.object [(print threshold, .object ((List.range' 1 maxK).map fun k => (printNat (k + 1), .array [])))]) := by
  obtain ⟨w, hw⟩ : ∃ w, prepare lo hi settings K = replaceWeights w K := by
    unfold prepare
    simp only
    split <;> split
    · exact ⟨_, replaceWeights_map _ _ _⟩
    · exact ⟨_, rfl⟩
    · exact ⟨_, rfl⟩
    · exact ⟨_, (replaceWeights_id K).symm⟩
  obtain ⟨G, hG1, hG2, hG3⟩ := restrict_spec (wf_replaceWeights hK w) threshold
  obtain ⟨hv, -⟩ := graph_spec hK hG3
  have hL := expandSorted_empty o 0 hG2 (fun v h => by
    obtain ⟨x, hx, hx'⟩ := (hv v).1 h
    exact absurd (hheavy v x hx') (not_lt.2 hx)) maxK
  obtain ⟨doc, cs, h1, h2, h3⟩ := run_spec o leftFirst lo hi print printNat settings labels threshold maxK K G [] (by rw [hw]; exact hG1) hL
    ⟨by simp, by simp, by simp⟩ (fun _ => False) (by
      intro t k _ _ _
      simp [Has]) hn hp (by simp)
  refine ⟨doc, h1, ?_⟩
  have hmap : ((List.range' 1 maxK).map fun k => (printNat (k + 1), communitiesValue settings.useLabels labels (cs k))) =
      (List.range' 1 maxK).map fun k => (printNat (k + 1), .array []) := by
    apply List.map_congr_left
    intro k hk
    rw [List.mem_range'_1] at hk
    have hc := h2 k (by omega) (by omega)
    have : cs k = [] := by
      rw [List.eq_nil_iff_forall_not_mem]
      intro c hcc
      obtain ⟨vs, hvs⟩ := List.exists_mem_of_ne_nil c (hc.nonempty c hcc)
      exact ((hc.cliques vs.toFinset).1 ⟨c, hcc, vs, hvs, rfl⟩).1
    rw [this]
    rfl
  rwa [hmap] at h3

/-- An edge that is lighter than its vertices. -/
example : ∃ K : Complex ℚ, WF K ∧ FaceClosed K ∧ (∃ x ≤ -1, HasData K {0, 1} x) ∧ ∀ v x, HasData K {v} x → -1 < x := by
  refine ⟨[⟨[0], 0⟩, ⟨[1], 0⟩, ⟨[1, 0], -2⟩], ⟨by unfold Normal; decide, by decide, by decide⟩, Closed1.faceClosed (by decide) (by unfold Closed1; decide),
    ⟨-2, by norm_num, ⟨[1, 0], -2⟩, by decide, by decide, rfl⟩, ?_⟩
  rintro v x ⟨s, hs, hv, rfl⟩
  have hcard : #s.vset = 1 := by rw [hv]; rfl
  clear hv
  revert s
  decide +kernel

end CliqueCommunities

end Aleph
