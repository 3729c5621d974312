import Verif.Model.LinesAndPoints
import Verif.Spec.LinesAndPoints
import Verif.Props.MatrixReader

/-!
# C131: output of lines and points
-/

namespace Aleph.LinesAndPoints

open Spec Spec.Plot

variable {α β : Type}

/-- The words of the line of a point: at most three coordinates, and a label. -/
def words (coordinate : β → List Char) (container : List (List β)) (label : ℕ → List (List Char)) (u : ℕ) : List (List Char) :=
  ((container.getD u []).take 3).map coordinate ++ label u

theorem words_snoc {t : List Char} {c : Char} {s : List Char} {ts : List (List Char)} (ht : IsWord t) (hc : c ∈ whitespace) (h : Words s ts) :
    Words (t ++ c :: s) (t :: ts) := by
  have := Words.cons [] t c s ts (by simp) ht.1 ht.2 hc h
  simpa using this

theorem words_last {t : List Char} (ht : IsWord t) : Words t [t] := by
  have := Words.last [] t (by simp) ht.1 ht.2
  simpa using this

theorem newline_notMem {t : List Char} (ht : IsWord t) : '\n' ∉ t := fun h => ht.2 _ h (by decide)

/-- A point is a line with the right words. -/
theorem point_spec (coordinate : β → List Char) (p : List β) (label : List Char) (hp : 2 ≤ p.length) (hc : ∀ x, IsWord (coordinate x))
    (hl : label = [] ∨ IsWord label) :
    ∃ l, point coordinate p label = l ++ ['\n'] ∧ '\n' ∉ l ∧
      Words l ((p.take 3).map coordinate ++ if label = [] then [] else [label]) := by
  match p, hp with
  | [x, y], _ =>
    rcases hl with rfl | hl
    · refine ⟨coordinate x ++ '\t' :: coordinate y, by simp [point], ?_, ?_⟩
      · simp [newline_notMem (hc x), newline_notMem (hc y)]
      · simpa using words_snoc (hc x) (by decide) (words_last (hc y))
    · refine ⟨coordinate x ++ '\t' :: (coordinate y ++ ' ' :: label), by simp [point, hl.1], ?_, ?_⟩
      · simp [newline_notMem (hc x), newline_notMem (hc y), newline_notMem hl]
      · simpa [hl.1] using words_snoc (hc x) (by decide) (words_snoc (hc y) (by decide) (words_last hl))
  | x :: y :: z :: _, _ =>
    rcases hl with rfl | hl
    · refine ⟨coordinate x ++ '\t' :: (coordinate y ++ ' ' :: coordinate z), by simp [point], ?_, ?_⟩
      · simp [newline_notMem (hc x), newline_notMem (hc y), newline_notMem (hc z)]
      · simpa using words_snoc (hc x) (by decide) (words_snoc (hc y) (by decide) (words_last (hc z)))
    · refine ⟨coordinate x ++ '\t' :: (coordinate y ++ ' ' :: (coordinate z ++ ' ' :: label)), by simp [point, hl.1], ?_, ?_⟩
      · simp [newline_notMem (hc x), newline_notMem (hc y), newline_notMem (hc z), newline_notMem hl]
      · simpa [hl.1] using words_snoc (hc x) (by decide) (words_snoc (hc y) (by decide) (words_snoc (hc z) (by decide) (words_last hl)))

theorem lines_cons {l s : List Char} {ls : List (List Char)} {b : Bool} (h : '\n' ∉ l) (hs : Lines s ls b) :
    Lines (l ++ ['\n'] ++ s) (l :: ls) b := by
  have := Lines.cons l s ls b h hs
  simpa using this

/-- The vertices. -/
theorem vertices_spec (coordinate : β → List Char) (number : ℕ → List Char) (labels : Bool) (container : List (List β))
    (hc : ∀ x, IsWord (coordinate x)) (hn : ∀ u, IsWord (number u)) (K : Complex α)
    (h : ∀ u ∈ vertices K, ∃ p, container[u]? = some p ∧ 2 ≤ p.length) :
    ∃ ts, K.mapM (vertexOf coordinate number labels container) = .ok ts ∧
      ∃ ls, (∀ s ms, Lines s ms false → Lines (ts.flatten ++ s) (ls ++ ms) false) ∧
        List.Forall₂ (fun u l => Words l (words coordinate container (fun u => if labels then [number u] else []) u)) (vertices K) ls := by
  induction K with
  | nil => exact ⟨[], rfl, [], fun s ms h => by simpa using h, List.Forall₂.nil⟩
  | cons s K ih =>
    have hsub : ∀ u ∈ vertices K, ∃ p, container[u]? = some p ∧ 2 ≤ p.length := by
      intro u hu
      apply h u
      simp only [vertices, List.filterMap_cons] at hu ⊢
      split
      · exact hu
      · exact List.mem_cons_of_mem _ hu
    obtain ⟨ts, hts, ls, hls, hw⟩ := ih hsub
    by_cases hs : ∃ u, s.vertices = [u]
    · obtain ⟨u, hu⟩ := hs
      have hv : vertices (s :: K) = u :: vertices K := by simp [vertices, hu]
      obtain ⟨p, hp, h2⟩ := h u (by rw [hv]; exact List.mem_cons_self)
      obtain ⟨l, e, hl, hwl⟩ := point_spec coordinate p (if labels then number u else []) h2 hc (by
        by_cases hb : labels = true
        · rw [if_pos hb]; exact Or.inr (hn u)
        · rw [if_neg hb]; exact Or.inl rfl)
      refine ⟨point coordinate p (if labels then number u else []) :: ts, ?_, l :: ls, ?_, ?_⟩
      · rw [List.mapM_cons, hts]
        simp only [vertexOf, hu, vertex, hp, if_pos h2]
        rfl
      · intro s' ms hs'
        rw [List.flatten_cons, e, List.append_assoc, List.cons_append]
        exact lines_cons hl (hls s' ms hs')
      · rw [hv]
        refine List.Forall₂.cons ?_ hw
        have hg : container.getD u [] = p := by rw [List.getD_eq_getElem?_getD, hp, Option.getD_some]
        simp only [words, hg]
        cases labels
        · simpa using hwl
        · simpa [(hn u).1] using hwl
    · have hv : vertices (s :: K) = vertices K := by
        simp only [vertices, List.filterMap_cons]
        split
        · rfl
        · next h1 =>
          split at h1
          · next hu => exact absurd ⟨_, hu⟩ hs
          · cases h1
      refine ⟨[] :: ts, ?_, ls, ?_, ?_⟩
      · rw [List.mapM_cons, hts]
        unfold vertexOf
        split
        · next hu => exact absurd ⟨_, hu⟩ hs
        · rfl
      · intro s' ms hs'
        simpa using hls s' ms hs'
      · rw [hv]; exact hw

/-- The edges. -/
theorem edges_spec (coordinate : β → List Char) (container : List (List β)) (hc : ∀ x, IsWord (coordinate x)) (K : Complex α)
    (h : ∀ e ∈ edges K, ∀ u, u = e.1 ∨ u = e.2 → ∃ p, container[u]? = some p ∧ 2 ≤ p.length) :
    ∃ ts, K.mapM (edgeOf coordinate container) = .ok ts ∧
      ∃ ms, Lines ts.flatten ms false ∧ EdgeLines (words coordinate container (fun _ => [])) (edges K) ms := by
  induction K with
  | nil => exact ⟨[], rfl, [], Lines.nil, EdgeLines.nil⟩
  | cons s K ih =>
    have hsub : ∀ e ∈ edges K, ∀ u, u = e.1 ∨ u = e.2 → ∃ p, container[u]? = some p ∧ 2 ≤ p.length := by
      intro e he
      apply h e
      simp only [edges, List.filterMap_cons] at he ⊢
      split
      · exact he
      · exact List.mem_cons_of_mem _ he
    obtain ⟨ts, hts, ms, hls, hw⟩ := ih hsub
    by_cases hs : ∃ u v, s.vertices = [u, v]
    · obtain ⟨u, v, hu⟩ := hs
      have hv : edges (s :: K) = (u, v) :: edges K := by simp [edges, hu]
      obtain ⟨p, hp, h2⟩ := h (u, v) (by rw [hv]; exact List.mem_cons_self) u (Or.inl rfl)
      obtain ⟨q, hq, h3⟩ := h (u, v) (by rw [hv]; exact List.mem_cons_self) v (Or.inr rfl)
      obtain ⟨l, e, hl, hwl⟩ := point_spec coordinate p [] h2 hc (Or.inl rfl)
      obtain ⟨m, e', hm, hwm⟩ := point_spec coordinate q [] h3 hc (Or.inl rfl)
      refine ⟨(point coordinate p [] ++ point coordinate q [] ++ ['\n']) :: ts, ?_, l :: m :: [] :: ms, ?_, ?_⟩
      · rw [List.mapM_cons, hts]
        simp only [edgeOf, hu, edge, hp, hq, if_pos (And.intro h2 h3)]
        rfl
      · rw [List.flatten_cons, e, e']
        have := lines_cons hl (lines_cons hm (lines_cons (l := []) (by simp) hls))
        simpa using this
      · rw [hv]
        have hg : container.getD u [] = p := by rw [List.getD_eq_getElem?_getD, hp, Option.getD_some]
        have hg' : container.getD v [] = q := by rw [List.getD_eq_getElem?_getD, hq, Option.getD_some]
        refine EdgeLines.cons u v l m _ _ ?_ ?_ hw
        · simpa only [words, hg, if_true] using hwl
        · simpa only [words, hg', if_true] using hwm
    · have hv : edges (s :: K) = edges K := by
        simp only [edges, List.filterMap_cons]
        split
        · rfl
        · next h1 =>
          split at h1
          · next hu => exact absurd ⟨_, _, hu⟩ hs
          · cases h1
      refine ⟨[] :: ts, ?_, ms, ?_, ?_⟩
      · rw [List.mapM_cons, hts]
        unfold edgeOf
        split
        · next hu => exact absurd ⟨_, _, hu⟩ hs
        · rfl
      · simpa using hls
      · rw [hv]; exact hw

/-- **C131 (output).** If all vertices and all end points of edges have at least two coordinates, the output is a text of two blocks, separated by
two empty lines: the first has a line for every vertex of the complex, in its order, which consists of the first three coordinates and, if requested,
the number of the vertex; the second has, for every edge, the lines of its end points, and an empty line. -/
theorem _root_.Aleph.C131_write (coordinate : β → List Char) (number : ℕ → List Char) (labels : Bool) (K : Complex α) (container : List (List β))
    (hc : ∀ x, IsWord (coordinate x)) (hn : ∀ u, IsWord (number u))
    (h : ∀ s ∈ K, s.vertices.length ≤ 2 → ∀ u ∈ s.vertices, ∃ p, container[u]? = some p ∧ 2 ≤ p.length) :
    ∃ text, write coordinate number labels K container = .ok text ∧
      Text (fun u => ((container.getD u []).take 3).map coordinate ++ if labels then [number u] else [])
        (fun u => ((container.getD u []).take 3).map coordinate) (vertices K) (edges K) text := by
  obtain ⟨ts, hts, ls, hls, hw⟩ := vertices_spec coordinate number labels container hc hn K (by
    intro u hu
    simp only [vertices, List.mem_filterMap] at hu
    obtain ⟨s, hs, e⟩ := hu
    split at e
    · next v hv =>
      cases e
      exact h s hs (by simp [hv]) u (by simp [hv])
    · cases e)
  obtain ⟨ts', hts', ms, hms, hw'⟩ := edges_spec coordinate container hc K (by
    intro e he u hu
    simp only [edges, List.mem_filterMap] at he
    obtain ⟨s, hs, e'⟩ := he
    split at e'
    · next v w hv =>
      cases e'
      refine h s hs (by simp [hv]) u ?_
      rw [hv]
      simpa using hu
    · cases e')
  refine ⟨ts.flatten ++ ['\n', '\n'] ++ ts'.flatten, ?_, ls, ms, ?_, hw, ?_⟩
  · unfold write
    rw [hts, hts']
    rfl
  · have := hls _ _ (lines_cons (l := []) (by simp) (lines_cons (l := []) (by simp) hms))
    simpa using this
  · have e : words coordinate container (fun _ => []) = fun u => ((container.getD u []).take 3).map coordinate := by
      funext u
      rw [words, List.append_nil]
    rw [← e]
    exact hw'

theorem mapM_error {γ δ ε : Type} (f : γ → Except ε δ) (e : ε) (l : List γ) (h : l.mapM f = .error e) : ∃ x ∈ l, f x = .error e := by
  induction l with
  | nil => cases h
  | cons x l ih =>
    rw [List.mapM_cons] at h
    cases hx : f x with
    | error e' =>
      rw [hx] at h
      have : e' = e := by cases h; rfl
      exact ⟨x, List.mem_cons_self, by rw [hx, this]⟩
    | ok y =>
      rw [hx] at h
      cases hl : l.mapM f with
      | error e' =>
        rw [hl] at h
        have : e' = e := by cases h; rfl
        obtain ⟨z, hz, e2⟩ := ih (by rw [hl, this])
        exact ⟨z, List.mem_cons_of_mem _ hz, e2⟩
      | ok ys => rw [hl] at h; cases h

theorem mapM_ok {γ δ ε : Type} (f : γ → Except ε δ) (r : List δ) (l : List γ) (h : l.mapM f = .ok r) : ∀ x ∈ l, ∃ y, f x = .ok y := by
  induction l generalizing r with
  | nil => simp
  | cons x l ih =>
    rw [List.mapM_cons] at h
    cases hx : f x with
    | error e' => rw [hx] at h; cases h
    | ok y =>
      rw [hx] at h
      cases hl : l.mapM f with
      | error e' => rw [hl] at h; cases h
      | ok ys =>
        intro z hz
        rcases List.mem_cons.1 hz with rfl | hz
        · exact ⟨y, hx⟩
        · exact ih ys hl z hz

/-- **C131 (exception).** If all vertices and all end points of edges have coordinates, an exception is raised if and only if one of them has fewer than
two. -/
theorem _root_.Aleph.C131_exception (coordinate : β → List Char) (number : ℕ → List Char) (labels : Bool) (K : Complex α) (container : List (List β))
    (h : ∀ s ∈ K, 1 ≤ s.vertices.length ∧ (s.vertices.length ≤ 2 → ∀ u ∈ s.vertices, u < container.length)) :
    write coordinate number labels K container = .error .exception ↔
      ∃ s ∈ K, s.vertices.length ≤ 2 ∧ ∃ u ∈ s.vertices, (container.getD u []).length < 2 := by
  have hget : ∀ u, u < container.length → container[u]? = some (container.getD u []) := by
    intro u hu
    rw [List.getD_eq_getElem?_getD, List.getElem?_eq_getElem hu, Option.getD_some]
  unfold write
  constructor
  · intro hw
    cases h1 : K.mapM (vertexOf coordinate number labels container) with
    | error e =>
      rw [h1] at hw
      have he : e = .exception := by cases hw; rfl
      rw [he] at h1
      obtain ⟨s, hs, e1⟩ := mapM_error _ _ _ h1
      unfold vertexOf at e1
      split at e1
      · next u hu =>
        refine ⟨s, hs, by simp [hu], u, by simp [hu], ?_⟩
        have hlt := (h s hs).2 (by simp [hu]) u (by simp [hu])
        simp only [vertex, hget u hlt] at e1
        split at e1
        · cases e1
        · omega
      · cases e1
    | ok ts =>
      rw [h1] at hw
      cases h2 : K.mapM (edgeOf coordinate container) with
      | error e =>
        rw [h2] at hw
        have he : e = .exception := by cases hw; rfl
        rw [he] at h2
        obtain ⟨s, hs, e1⟩ := mapM_error _ _ _ h2
        unfold edgeOf at e1
        split at e1
        · next u v hu =>
          have hlt := (h s hs).2 (by simp [hu]) u (by simp [hu])
          have hlt' := (h s hs).2 (by simp [hu]) v (by simp [hu])
          simp only [edge, hget u hlt, hget v hlt'] at e1
          split at e1
          · cases e1
          · next hn =>
            rcases not_and_or.1 hn with hn | hn
            · exact ⟨s, hs, by simp [hu], u, by simp [hu], by omega⟩
            · exact ⟨s, hs, by simp [hu], v, by simp [hu], by omega⟩
        · cases e1
      | ok ts' => rw [h2] at hw; cases hw
  · rintro ⟨s, hs, hl, u, hu, hsmall⟩
    have hundef : ∀ e : Failure, (∃ s ∈ K, vertexOf coordinate number labels container s = .error e) → e = .exception := by
      rintro e ⟨t, ht, e1⟩
      unfold vertexOf at e1
      split at e1
      · next v hv =>
        simp only [vertex, hget v ((h t ht).2 (by simp [hv]) v (by simp [hv]))] at e1
        split at e1 <;> cases e1
        rfl
      · cases e1
    have hundef' : ∀ e : Failure, (∃ s ∈ K, edgeOf coordinate container s = .error e) → e = .exception := by
      rintro e ⟨t, ht, e1⟩
      unfold edgeOf at e1
      split at e1
      · next v w hv =>
        simp only [edge, hget v ((h t ht).2 (by simp [hv]) v (by simp [hv])), hget w ((h t ht).2 (by simp [hv]) w (by simp [hv]))] at e1
        split at e1 <;> cases e1
        rfl
      · cases e1
    cases h1 : K.mapM (vertexOf coordinate number labels container) with
    | error e =>
      rw [hundef e (mapM_error _ _ _ h1)]
      rfl
    | ok ts =>
      cases h2 : K.mapM (edgeOf coordinate container) with
      | error e =>
        rw [hundef' e (mapM_error _ _ _ h2)]
        rfl
      | ok ts' =>
        exfalso
        have hb := (h s hs).2 hl
        match hv : s.vertices, (h s hs).1, hl with
        | [v], _, _ =>
          obtain ⟨y, hy⟩ := mapM_ok _ _ _ h1 s hs
          rw [hv] at hu hb
          have : u = v := by simpa using hu
          subst this
          simp only [vertexOf, hv, vertex, hget u (hb u (by simp))] at hy
          rw [if_neg (by omega)] at hy
          cases hy
        | [v, w], _, _ =>
          obtain ⟨y, hy⟩ := mapM_ok _ _ _ h2 s hs
          rw [hv] at hu hb
          simp only [edgeOf, hv, edge, hget v (hb v (by simp)), hget w (hb w (by simp))] at hy
          rw [if_neg] at hy
          · cases hy
          · rcases List.mem_cons.1 hu with rfl | hu
            · omega
            · have : u = w := by simpa using hu
              subst this
              omega

theorem edgeLines_words {w : ℕ → List (List Char)} {es : List (ℕ × ℕ)} {ms : List (List Char)} (h : EdgeLines w es ms) :
    ms.map (Strings.extract []) = es.flatMap fun e => [w e.1, w e.2, []] := by
  induction h with
  | nil => rfl
  | cons u v l m es ls h1 h2 _ ih =>
    rw [List.map_cons, List.map_cons, List.map_cons, ih, MatrixReader.words_extract h1, MatrixReader.words_extract h2]
    rfl

theorem text_words {w w' : ℕ → List (List Char)} {vs : List ℕ} {es : List (ℕ × ℕ)} {t : List Char} (h : Text w w' vs es t) :
    (Strings.getlines [] t).map (Strings.extract []) = vs.map w ++ [[], []] ++ es.flatMap fun e => [w' e.1, w' e.2, []] := by
  obtain ⟨ls, ms, hl, hf, he⟩ := h
  rw [getlines_spec _ _ _ hl, List.map_append, List.map_append, edgeLines_words he]
  congr 2
  clear hl
  induction hf with
  | nil => rfl
  | cons h _ ih => rw [List.map_cons, List.map_cons, ih, MatrixReader.words_extract h]

theorem split_nil {γ : Type} {a b : List (List γ)} {x y : List (List γ)} (ha : ∀ l ∈ a, l ≠ []) (hb : ∀ l ∈ b, l ≠ []) (h : a ++ [] :: x = b ++ [] :: y) :
    a = b ∧ x = y := by
  induction a generalizing b with
  | nil =>
    cases b with
    | nil => simpa using h
    | cons l b =>
      rw [List.nil_append, List.cons_append, List.cons.injEq] at h
      exact absurd h.1.symm (hb l List.mem_cons_self)
  | cons k a ih =>
    cases b with
    | nil =>
      rw [List.nil_append, List.cons_append, List.cons.injEq] at h
      exact absurd h.1 (ha k List.mem_cons_self)
    | cons l b =>
      rw [List.cons_append, List.cons_append, List.cons.injEq] at h
      obtain ⟨e1, e2⟩ := ih (fun l hl => ha l (List.mem_cons_of_mem _ hl)) (fun l hl => hb l (List.mem_cons_of_mem _ hl)) h.2
      exact ⟨by rw [h.1, e1], e2⟩

theorem flatMap_triples {γ : Type} {es : List (γ × γ)} {es' : List (γ × γ)} {w w' : γ → List (List Char)}
    (h : es.flatMap (fun e => [w e.1, w e.2, []]) = es'.flatMap (fun e => [w' e.1, w' e.2, []])) :
    es.map (fun e => (w e.1, w e.2)) = es'.map (fun e => (w' e.1, w' e.2)) := by
  induction es generalizing es' with
  | nil =>
    cases es' with
    | nil => rfl
    | cons e es' => simp at h
  | cons e es ih =>
    cases es' with
    | nil => simp at h
    | cons e' es' =>
      simp only [List.flatMap_cons, List.cons_append, List.nil_append, List.cons.injEq] at h
      rw [List.map_cons, List.map_cons, h.1, h.2.1, ih h.2.2.2]

/-- **C131 (no ambiguity).** Without labels, two complexes with the same output have the same points and the same line segments, up to the first three
coordinates, if different coordinates are written differently. -/
theorem _root_.Aleph.C131_unique (coordinate : β → List Char) (number : ℕ → List Char) (K L : Complex α) (container container' : List (List β))
    (hinj : Function.Injective coordinate) (hc : ∀ x, IsWord (coordinate x)) (hn : ∀ u, IsWord (number u))
    (hK : ∀ s ∈ K, s.vertices.length ≤ 2 → ∀ u ∈ s.vertices, ∃ p, container[u]? = some p ∧ 2 ≤ p.length)
    (hL : ∀ s ∈ L, s.vertices.length ≤ 2 → ∀ u ∈ s.vertices, ∃ p, container'[u]? = some p ∧ 2 ≤ p.length)
    (h : write coordinate number false K container = write coordinate number false L container') :
    (vertices K).map (fun u => (container.getD u []).take 3) = (vertices L).map (fun u => (container'.getD u []).take 3) ∧
    (edges K).map (fun e => ((container.getD e.1 []).take 3, (container.getD e.2 []).take 3)) =
      (edges L).map (fun e => ((container'.getD e.1 []).take 3, (container'.getD e.2 []).take 3)) := by
  obtain ⟨t, ht, hT⟩ := C131_write coordinate number false K container hc hn hK
  obtain ⟨t', ht', hT'⟩ := C131_write coordinate number false L container' hc hn hL
  have htt : t = t' := by
    rw [ht, ht'] at h
    cases h; rfl
  subst htt
  have e := (text_words hT).symm.trans (text_words hT')
  simp only [Bool.false_eq_true, if_false, List.append_nil, List.append_assoc, List.cons_append, List.nil_append] at e
  have hne : ∀ {K : Complex α} {container : List (List β)},
      (∀ s ∈ K, s.vertices.length ≤ 2 → ∀ u ∈ s.vertices, ∃ p, container[u]? = some p ∧ 2 ≤ p.length) →
      ∀ l ∈ (vertices K).map (fun u => ((container.getD u []).take 3).map coordinate), l ≠ [] := by
    intro K container hK l hl
    obtain ⟨u, hu, rfl⟩ := List.mem_map.1 hl
    simp only [vertices, List.mem_filterMap] at hu
    obtain ⟨s, hs, e⟩ := hu
    split at e
    · next v hv =>
      cases e
      obtain ⟨p, hp, h2⟩ := hK s hs (by simp [hv]) u (by simp [hv])
      rw [List.getD_eq_getElem?_getD, hp, Option.getD_some]
      match p, h2 with
      | x :: y :: p, _ => simp
    · cases e
  obtain ⟨e1, e2⟩ := split_nil (hne hK) (hne hL) e
  have e3 := flatMap_triples (w := fun u => ((container.getD u []).take 3).map coordinate)
    (w' := fun u => ((container'.getD u []).take 3).map coordinate) (List.cons.inj e2).2
  have hmi : Function.Injective (List.map coordinate) := List.map_injective_iff.2 hinj
  constructor
  · apply List.map_injective_iff.2 hmi
    simpa [Function.comp_def] using e1
  · have hpi : Function.Injective (fun x : List β × List β => (x.1.map coordinate, x.2.map coordinate)) := by
      rintro ⟨a, b⟩ ⟨c, d⟩ hab
      simp only [Prod.mk.injEq] at hab ⊢
      exact ⟨hmi hab.1, hmi hab.2⟩
    apply List.map_injective_iff.2 hpi
    simpa [Function.comp_def] using e3

/-! ### Examples -/

/-- An edge and a triangle without further faces. -/
private def K₀ : Complex ℕ := [⟨[0], 0⟩, ⟨[1], 0⟩, ⟨[1, 0], 0⟩, ⟨[2, 1, 0], 0⟩]

/-- A digit for every coordinate. -/
private def show₀ (b : Bool) : List Char := if b then ['1'] else ['0']

/-- Coordinates of two vertices. -/
private def c₀ : List (List Bool) := [[true, false], [true, true, false, true]]

example : write show₀ (fun n => List.replicate (n + 1) 'v') true K₀ c₀ = .ok "1\t0 v\n1\t1 0 vv\n\n\n1\t1 0\n1\t0\n\n".toList := by decide

example : (∀ x, IsWord (show₀ x)) ∧ (∀ s ∈ K₀, s.vertices.length ≤ 2 → ∀ u ∈ s.vertices, ∃ p, c₀[u]? = some p ∧ 2 ≤ p.length) := by
  refine ⟨fun x => by cases x <;> exact ⟨by decide, by decide⟩, ?_⟩
  intro s hs
  simp only [K₀, List.mem_cons, List.not_mem_nil, or_false] at hs
  rcases hs with rfl | rfl | rfl | rfl <;> simp [c₀]

/-- A vertex with a single coordinate. -/
example : write show₀ (fun n => List.replicate (n + 1) 'v') false K₀ [[true, false], [true]] = .error .exception := by decide

/-- With labels, a third coordinate cannot be distinguished from a label. -/
example : write show₀ (fun n => List.replicate (n + 1) '1') true [(⟨[0], 0⟩ : Simplex ℕ)] [[true, false]] =
    write show₀ (fun n => List.replicate (n + 1) '1') false [⟨[0], 0⟩] [[true, false, true]] := by decide

end Aleph.LinesAndPoints
