import Verif.Model.PajekReader
import Verif.Spec.PajekReader
import Verif.Props.TriangulationReader

/-!
# C129: Pajek files
-/

namespace Aleph.PajekReader

open Spec Spec.Triangulation Spec.Pajek TriangulationReader

variable {α : Type}

/-! ### Lines -/

theorem tw {p : Char → Bool} {a b : List Char} (ha : ∀ c ∈ a, p c = true) (hb : ∀ c, b.head? = some c → p c = false) : (a ++ b).takeWhile p = a := by
  rw [List.takeWhile_append_of_pos ha]
  cases b with
  | nil => simp
  | cons c b => simp [hb c rfl]

theorem dw {p : Char → Bool} {a b : List Char} (ha : ∀ c ∈ a, p c = true) (hb : ∀ c, b.head? = some c → p c = false) : (a ++ b).dropWhile p = b := by
  rw [List.dropWhile_append_of_pos ha]
  cases b with
  | nil => simp
  | cons c b => simp [hb c rfl]

theorem isDigit_iff (c : Char) : isDigit c = true ↔ 48 ≤ c.toNat ∧ c.toNat ≤ 57 := by
  simp only [isDigit, Bool.and_eq_true, decide_eq_true_eq]
  exact Iff.rfl

theorem isDigit_blank {c : Char} (h : Blank c) : isDigit c = false := by
  simp only [Blank, List.mem_cons, List.not_mem_nil, or_false] at h
  rcases h with rfl | rfl | rfl | rfl | rfl | rfl <;> decide

theorem isAlpha_blank {c : Char} (h : Blank c) : isAlpha c = false := by
  simp only [Blank, List.mem_cons, List.not_mem_nil, or_false] at h
  rcases h with rfl | rfl | rfl | rfl | rfl | rfl <;> decide

theorem isSpace_digit {c : Char} (h : 48 ≤ c.toNat ∧ c.toNat ≤ 57) : Strings.isSpace c = false := by
  cases hs : Strings.isSpace c with
  | false => rfl
  | true => exact absurd ((blank_iff c).1 hs) (digit_ne h).2.2.2

theorem head_append {a b : List Char} (h : a ≠ []) {c : Char} (hc : (a ++ b).head? = some c) : c ∈ a := by
  cases a with
  | nil => exact absurd rfl h
  | cons x a => simp at hc; simp [hc]

theorem head_mem {a : List Char} {c : Char} (hc : a.head? = some c) : c ∈ a := by
  cases a with
  | nil => simp at hc
  | cons x a => simp at hc; simp [hc]

/-- Words consist of letters, and have a lower case version. -/
theorem word_spec {w : String} (hw : ∀ a ∈ w.toList, isAlpha a = true ∧ isAlpha a.toUpper = true ∧ toLower a = a ∧ toLower a.toUpper = a) {t : List Char} (h : Word w t) :
    (∀ c ∈ t, isAlpha c = true) ∧ t.map toLower = w.toList := by
  unfold Word at h
  generalize w.toList = l at *
  induction h with
  | nil => simp
  | @cons a b l₁ l₂ hab _ ih =>
    obtain ⟨i1, i2⟩ := ih fun x hx => hw x (by simp [hx])
    obtain ⟨h1, h2, h3, h4⟩ := hw a (by simp)
    rw [List.map_cons, i2]
    rcases hab with rfl | rfl
    · exact ⟨by simpa [h1] using i1, by rw [h3]⟩
    · exact ⟨by simpa [h2] using i1, by rw [h4]⟩

theorem word_vertices {t : List Char} (h : Word "vertices" t ∨ Word "verts" t) :
    (∀ c ∈ t, isAlpha c = true) ∧ t ≠ [] ∧ (t.map toLower = "vertices".toList ∨ t.map toLower = "verts".toList) := by
  rcases h with h | h
  · have := word_spec (by decide) h
    exact ⟨this.1, fun h0 => by rw [h0] at this; exact absurd this.2 (by decide), Or.inl this.2⟩
  · have := word_spec (by decide) h
    exact ⟨this.1, fun h0 => by rw [h0] at this; exact absurd this.2 (by decide), Or.inr this.2⟩

theorem word_edges {t : List Char} (h : Word "edges" t ∨ Word "arcs" t) :
    (∀ c ∈ t, isAlpha c = true) ∧ t ≠ [] ∧ (t.map toLower = "edges".toList ∨ t.map toLower = "arcs".toList) := by
  rcases h with h | h
  · have := word_spec (by decide) h
    exact ⟨this.1, fun h0 => by rw [h0] at this; exact absurd this.2 (by decide), Or.inl this.2⟩
  · have := word_spec (by decide) h
    exact ⟨this.1, fun h0 => by rw [h0] at this; exact absurd this.2 (by decide), Or.inr this.2⟩

variable [Zero α] {number : List Char → Option ℕ} {convert : List Char → α}

theorem step_comment (st : State α) {l : List Char} (h : Comment l) : step number convert st l = some st := by
  obtain ⟨t, h1, h2⟩ := h
  simp only [step, trim_content h1]
  rw [if_pos h2]

theorem step_empty (st : State α) (hm : st.mode = .unspecified) {l : List Char} (h : Content l []) : step number convert st l = some st := by
  simp only [step, trim_content h, matchKeyword, hm]
  rfl

/-- The contract of the conversion of numbers: digits are read as the number that they denote. -/
def Numbers (number : List Char → Option ℕ) : Prop := ∀ d v, Numeral d v → number d = some v

theorem isAny_of {c : Char} (h1 : c ≠ '\n') (h2 : c ≠ '\r') : isAny c = true := by simp [isAny, h1, h2]

theorem isAny_mem {s : List Char} (h : Inline s) {c : Char} (hc : c ∈ s) : isAny c = true := isAny_of (fun e => h.1 (e ▸ hc)) (fun e => h.2 (e ▸ hc))

theorem isAny_digit {c : Char} (h : 48 ≤ c.toNat ∧ c.toNat ≤ 57) : isAny c = true := by
  refine isAny_of ?_ ?_ <;> rintro rfl <;> exact absurd h (by decide)

/-- Lines that start with a star, a name, and whitespace or nothing. -/
theorem step_keyword (st : State α) {l name rest : List Char} (h : Content l ('*' :: (name ++ rest))) (h1 : ∀ c ∈ name, isAlpha c = true) (h2 : name ≠ [])
    (h3 : ∀ c, rest.head? = some c → isAlpha c = false) (h4 : ∀ c ∈ rest, isAny c = true) : step number convert st l = keyword number st ('*' :: (name ++ rest)) name := by
  have hk : matchKeyword ('*' :: (name ++ rest)) = some name := by
    simp only [matchKeyword, tw h1 h3, dw h1 h3]
    rw [if_pos]
    simp only [Bool.and_eq_true, Bool.not_eq_true', List.isEmpty_eq_false_iff, List.all_eq_true]
    exact ⟨h2, h4⟩
  simp only [step, trim_content h, hk]
  rw [if_neg (by simp)]

theorem step_header (hn : Numbers number) (st : State α) {l : List Char} {n : ℕ} (h : Header l n) :
    step number convert st l = some { st with numVertices := n, mode := .vertices } := by
  obtain ⟨name, b, d, h1, h2, ⟨h3, h4⟩, hin, h5⟩ := h
  obtain ⟨w1, w2, w3⟩ := word_vertices h2
  have hb : ∀ c, (b ++ d).head? = some c → isAlpha c = false := fun c hc => isAlpha_blank (h4 c (head_append h3 hc))
  have hd : ∀ c, d.head? = some c → Strings.isSpace c = false := fun c hc => isSpace_digit (h5.2.1 c (head_mem hc))
  have hb' : ∀ c ∈ b, Strings.isSpace c = true := fun c hc => (blank_iff c).2 (h4 c hc)
  have hkv : matchKeyValue ('*' :: (name ++ b ++ d)) = some d := by
    simp only [matchKeyValue, List.append_assoc, tw w1 hb, dw w1 hb, tw hb' hd, dw hb' hd]
    rw [if_pos]
    simp only [Bool.and_eq_true, Bool.not_eq_true', List.isEmpty_eq_false_iff, List.all_eq_true]
    exact ⟨⟨⟨w2, h3⟩, h5.1⟩, fun c hc => (isDigit_iff c).2 (h5.2.1 c hc)⟩
  rw [List.append_assoc] at h1 hkv
  rw [step_keyword st h1 w1 w2 hb fun c hc => (List.mem_append.1 hc).elim (fun hc => isAny_mem hin hc) fun hc => isAny_digit (h5.2.1 c hc)]
  simp only [keyword, hkv, hn d n h5]
  rw [if_pos w3]

theorem step_edges (st : State α) {l : List Char} (h : EdgesHeader l) : step number convert st l = some { st with mode := .edges } := by
  obtain ⟨name, rest, h1, h2, h3⟩ := h
  obtain ⟨w1, w2, w3⟩ := word_edges h2
  rw [step_keyword st h1 w1 w2]
  · simp only [keyword]
    rw [if_neg, if_pos w3]
    rcases w3 with w3 | w3 <;> rw [w3] <;> decide
  · rcases h3 with rfl | ⟨b, r, hb, _, rfl⟩
    · simp
    · exact fun c hc => isAlpha_blank (hb.2 c (head_append hb.1 hc))
  · rcases h3 with rfl | ⟨b, r, hb, r1, rfl⟩
    · simp
    · exact fun c hc => isAny_mem r1 hc

/-- Lines that are neither comments nor keywords. -/
theorem step_plain (st : State α) {l t : List Char} (h : Content l t) (h1 : t.head? ≠ some '%') (h2 : t.head? ≠ some '*') :
    step number convert st l = match st.mode with
      | .vertices => vertex number st t
      | .edges => edge number convert st t
      | .unspecified => some st := by
  have hk : matchKeyword t = none := by
    unfold matchKeyword
    split
    · simp at h2
    · rfl
  simp only [step, trim_content h, hk]
  rw [if_neg h1]
  cases st.mode <;> rfl

theorem numeral_head {d s : List Char} {v : ℕ} (h : Numeral d v) : (d ++ s).head? ≠ some '%' ∧ (d ++ s).head? ≠ some '*' := by
  constructor <;> intro hc <;> have := h.2.1 _ (head_append h.1 hc) <;> exact absurd this (by decide)

theorem matchVertex_spec {id b label : List Char} {v : ℕ} (h1 : Numeral id v) (h2 : Blanks b) (h3 : Inline label) :
    matchVertex (id ++ b ++ '"' :: label ++ ['"']) = some (id, label) := by
  have e1 : ∀ c ∈ id, isDigit c = true := fun c hc => (isDigit_iff c).2 (h1.2.1 c hc)
  have e2 : ∀ c, (b ++ ('"' :: (label ++ ['"']))).head? = some c → isDigit c = false := fun c hc => isDigit_blank (h2.2 c (head_append h2.1 hc))
  have e3 : ∀ c ∈ b, Strings.isSpace c = true := fun c hc => (blank_iff c).2 (h2.2 c hc)
  have e4 : ∀ c, ('"' :: (label ++ ['"'])).head? = some c → Strings.isSpace c = false := by
    intro c hc
    simp only [List.head?_cons, Option.some.injEq] at hc
    subst hc
    decide
  rw [show id ++ b ++ '"' :: label ++ ['"'] = id ++ (b ++ ('"' :: (label ++ ['"']))) by simp]
  simp only [matchVertex, tw e1 e2, dw e1 e2, tw e3 e4, dw e3 e4]
  rw [if_pos, List.dropLast_concat]
  simp only [Bool.and_eq_true, Bool.not_eq_true', List.isEmpty_eq_false_iff, List.all_eq_true, List.dropLast_concat]
  exact ⟨⟨⟨h1.1, h2.1⟩, by simp⟩, fun c hc => isAny_mem h3 hc⟩

theorem step_vertex (hn : Numbers number) (st : State α) (hm : st.mode = .vertices) {l id label : List Char} {v : ℕ} (h : VertexLine l id label v) :
    step number convert st l = if (st.labels.lookup id).isSome then none else
      some { st with labels := st.labels ++ [(id, label)], simplices := st.simplices ++ [Simplex.ofVertex v 0] } := by
  obtain ⟨b, h1, h2, h3, h4⟩ := h
  have hh := numeral_head (s := b ++ '"' :: label ++ ['"']) h2
  have e : id ++ (b ++ '"' :: label ++ ['"']) = id ++ b ++ '"' :: label ++ ['"'] := by simp
  rw [e] at hh
  rw [step_plain st h1 hh.1 hh.2]
  simp only [hm, vertex, matchVertex_spec h2 h3 h4, hn id v h2]
  cases st.labels.lookup id <;> rfl

theorem matchEdge_spec {d b e w : List Char} {u v : ℕ} (h1 : Numeral d u) (h2 : Blanks b) (h3 : Numeral e v) (b' : List Char)
    (h4 : ∀ c ∈ b', Blank c) (hb' : w ≠ [] → b' ≠ []) (h5 : ∀ c ∈ w, c = '.' ∨ (48 ≤ c.toNat ∧ c.toNat ≤ 57)) :
    matchEdge (d ++ b ++ e ++ b' ++ w) = some (d, e, if w.isEmpty then none else some w) := by
  have e1 : ∀ c ∈ d, isDigit c = true := fun c hc => (isDigit_iff c).2 (h1.2.1 c hc)
  have e2 : ∀ c, (b ++ (e ++ (b' ++ w))).head? = some c → isDigit c = false := fun c hc => isDigit_blank (h2.2 c (head_append h2.1 hc))
  have e3 : ∀ c ∈ b, Strings.isSpace c = true := fun c hc => (blank_iff c).2 (h2.2 c hc)
  have e4 : ∀ c, (e ++ (b' ++ w)).head? = some c → Strings.isSpace c = false := fun c hc => isSpace_digit (h3.2.1 c (head_append h3.1 hc))
  have e5 : ∀ c ∈ e, isDigit c = true := fun c hc => (isDigit_iff c).2 (h3.2.1 c hc)
  have e6 : ∀ c, (b' ++ w).head? = some c → isDigit c = false := by
    intro c hc
    by_cases hw : w = []
    · subst hw
      rw [List.append_nil] at hc
      exact isDigit_blank (h4 c (head_mem hc))
    · exact isDigit_blank (h4 c (head_append (hb' hw) hc))
  have e7 : ∀ c ∈ b', Strings.isSpace c = true := fun c hc => (blank_iff c).2 (h4 c hc)
  have e8 : ∀ c, w.head? = some c → Strings.isSpace c = false := by
    intro c hc
    rcases h5 c (head_mem hc) with rfl | hc
    · decide
    · exact isSpace_digit hc
  rw [show d ++ b ++ e ++ b' ++ w = d ++ (b ++ (e ++ (b' ++ w))) by simp]
  simp only [matchEdge, tw e1 e2, dw e1 e2, tw e3 e4, dw e3 e4, tw e5 e6, dw e5 e6, dw e7 e8]
  rw [if_pos]
  simp only [Bool.and_eq_true, Bool.not_eq_true', List.isEmpty_eq_false_iff, List.all_eq_true]
  refine ⟨⟨⟨h1.1, h2.1⟩, h3.1⟩, fun c hc => ?_⟩
  rcases h5 c hc with rfl | h
  · decide
  · rw [(isDigit_iff c).2 h]; rfl

theorem step_edge (hn : Numbers number) (st : State α) (hm : st.mode = .edges) {l : List Char} {u v : ℕ} {w : Option (List Char)} (h : EdgeLine l u v w) :
    step number convert st l =
      if (if st.simplices.isEmpty then (List.range st.numVertices).map fun i => Simplex.ofVertex (α := α) (i + 1) 0 else st.simplices).length < st.numVertices then none else
      some { st with simplices := (if st.simplices.isEmpty then (List.range st.numVertices).map fun i => Simplex.ofVertex (i + 1) 0 else st.simplices) ++ [Simplex.ofRange [u, v] (edgeWeight convert w)] } := by
  obtain ⟨d, b, e, h1, h2, h3, h4⟩ := h
  cases w with
  | none =>
    simp only at h4
    have hh := numeral_head (s := b ++ e) h1
    rw [← List.append_assoc] at hh
    have hme := matchEdge_spec (w := []) h1 h2 h3 [] (by simp) (by simp) (by simp)
    rw [List.append_nil, List.append_nil] at hme
    rw [step_plain st h4 hh.1 hh.2]
    simp only [hm, edge, hme, hn d u h1, hn e v h3]
    rfl
  | some t =>
    obtain ⟨h5, h6, b', h7, h8⟩ := h4
    have hh := numeral_head (s := b ++ e ++ b' ++ t) h1
    rw [show d ++ (b ++ e ++ b' ++ t) = d ++ b ++ e ++ b' ++ t by simp] at hh
    have hme := matchEdge_spec (w := t) h1 h2 h3 b' h7.2 (fun _ => h7.1) h6
    rw [if_neg (by simpa using h5)] at hme
    rw [step_plain st h8 hh.1 hh.2]
    simp only [hm, edge, hme, hn d u h1, hn e v h3]
    rfl

/-! ### Files -/

theorem vertexLines_spec (hn : Numbers number) {ls : List (List Char)} {vs : List (List Char × List Char × ℕ)} (h : VertexLines ls vs) : ∀ (st : State α), st.mode = .vertices →
    (vs.map fun x => x.1).Nodup → (∀ x ∈ vs, st.labels.lookup x.1 = none) → ls.foldlM (step number convert) st =
      some { st with labels := st.labels ++ vs.map (fun x => (x.1, x.2.1)), simplices := st.simplices ++ vs.map (fun x => Simplex.ofVertex x.2.2 0) } := by
  induction h with
  | nil => intro st _ _ _; simp
  | comment l ls vs hl _ ih =>
    intro st hm hd hlook
    rw [List.foldlM_cons, step_comment st hl]
    exact ih st hm hd hlook
  | cons l id label v ls vs hl _ ih =>
    intro st hm hd hlook
    rw [List.foldlM_cons, step_vertex hn st hm hl, hlook _ (List.mem_cons_self ..)]
    rw [List.map_cons, List.nodup_cons] at hd
    simp only [Option.isSome_none, Bool.false_eq_true, if_false, Option.bind_eq_bind, Option.bind_some]
    rw [ih _ (by simpa using hm) hd.2]
    · simp
    · intro x hx
      have hne : x.1 ≠ id := fun he => hd.1 (List.mem_map.2 ⟨x, hx, he⟩)
      rw [List.lookup_append, hlook x (by simp [hx])]
      simp [List.lookup_cons, beq_eq_false_iff_ne.2 hne]

theorem ignored_spec (comments : List (List Char)) (h : ∀ l ∈ comments, Comment l ∨ Content l []) (st : State α) (hm : st.mode = .unspecified) :
    comments.foldlM (step number convert) st = some st := by
  induction comments with
  | nil => rfl
  | cons l ls ih =>
    rw [List.foldlM_cons]
    have : step number convert st l = some st := (h l (by simp)).elim (step_comment st) (step_empty st hm)
    rw [this]
    exact ih fun l hl => h l (by simp [hl])

theorem vertexPart_spec (hn : Numbers number) {ls : List (List Char)} {n : ℕ} {vs : List (List Char × List Char × ℕ)} (h : VertexPart ls n vs) (stored : List (List Char × List Char))
    (hd : (vs.map fun x => x.1).Nodup) (hs : ∀ x ∈ vs, stored.lookup x.1 = none) :
    ls.foldlM (step number convert) ⟨.unspecified, 0, [], stored⟩ =
      some ⟨.vertices, n, vs.map (fun x => Simplex.ofVertex x.2.2 0), stored ++ vs.map (fun x => (x.1, x.2.1))⟩ := by
  obtain ⟨c, hl, V, rfl, h1, h2, h3⟩ := h
  rw [List.foldlM_append, ignored_spec c h1 _ rfl]
  simp only [Option.bind_eq_bind, Option.bind_some, List.foldlM_cons]
  rw [step_header hn _ h2]
  simp only [Option.bind_some]
  rw [vertexLines_spec hn h3 _ rfl hd hs]
  simp

theorem edgeLines_spec (hn : Numbers number) {ls : List (List Char)} {es : List (ℕ × ℕ × Option (List Char))} (h : EdgeLines ls es) : ∀ (st : State α), st.mode = .edges →
    (es ≠ [] → st.numVertices ≤ (if st.simplices.isEmpty then (List.range st.numVertices).map fun i => Simplex.ofVertex (α := α) (i + 1) 0 else st.simplices).length) →
    ls.foldlM (step number convert) st =
      some { st with simplices := (if st.simplices.isEmpty ∧ es ≠ [] then (List.range st.numVertices).map (fun i => Simplex.ofVertex (i + 1) 0) else st.simplices) ++ es.map (fun e => Simplex.ofRange [e.1, e.2.1] (edgeWeight convert e.2.2)) } := by
  induction h with
  | nil => intro st _ _; simp
  | comment l ls es hl _ ih =>
    intro st hm hlen
    rw [List.foldlM_cons, step_comment st hl]
    exact ih st hm hlen
  | header l ls es hl _ ih =>
    intro st hm hlen
    rw [List.foldlM_cons, step_edges st hl]
    refine (ih { st with mode := .edges } rfl hlen).trans ?_
    simp [hm]
  | cons l u v w ls es hl _ ih =>
    intro st hm hlen
    rw [List.foldlM_cons, step_edge hn st hm hl, if_neg (by have := hlen (by simp); omega)]
    refine (ih { st with simplices := (if st.simplices.isEmpty then (List.range st.numVertices).map (fun i => Simplex.ofVertex (i + 1) 0) else st.simplices) ++ [Simplex.ofRange [u, v] (edgeWeight convert w)] } hm ?_).trans ?_
    · intro _
      have := hlen (by simp)
      have hgen : ∀ (S A : List (Simplex α)) (x : Simplex α) (m : ℕ), m ≤ S.length → m ≤ (if (S ++ [x]).isEmpty then A else S ++ [x]).length := by
        intro S A x m hm
        rw [if_neg (by simp), List.length_append]
        omega
      exact hgen _ _ _ _ this
    · simp

omit [Zero α] in
theorem ofVertex_eq (v : ℕ) (d : α) : Simplex.ofVertex v d = Simplex.ofRange [v] d := by
  simp [Simplex.ofVertex, Simplex.ofRange, uniq]

theorem file_spec (hn : Numbers number) {ls : List (List Char)} {n : ℕ} {vs : List (List Char × List Char × ℕ)} {es : List (ℕ × ℕ × Option (List Char))} (h : File ls n vs es)
    (stored : List (List Char × List Char)) (hd : (vs.map fun x => x.1).Nodup) (hs : ∀ x ∈ vs, stored.lookup x.1 = none) (hlen : es = [] ∨ vs = [] ∨ n ≤ vs.length) :
    ∃ m, ls.foldlM (step number convert) ⟨.unspecified, 0, [], stored⟩ =
      some ⟨m, n, (if vs = [] ∧ es ≠ [] then (List.range n).map (fun i => Simplex.ofVertex (i + 1) 0) else vs.map (fun x => Simplex.ofVertex x.2.2 0)) ++
        es.map (fun e => Simplex.ofRange [e.1, e.2.1] (edgeWeight convert e.2.2)), stored ++ vs.map (fun x => (x.1, x.2.1))⟩ := by
  obtain ⟨V, E, rfl, h1, h2⟩ := h
  rw [List.foldlM_append, vertexPart_spec hn h1 stored hd hs]
  simp only [Option.bind_eq_bind, Option.bind_some]
  rcases h2 with ⟨rfl, rfl⟩ | ⟨hh, E', rfl, h3, h4⟩
  · exact ⟨.vertices, by simp⟩
  · refine ⟨.edges, ?_⟩
    rw [List.foldlM_cons, step_edges _ h3]
    simp only [Option.bind_eq_bind, Option.bind_some]
    refine (edgeLines_spec hn h4 _ rfl ?_).trans ?_
    rotate_left
    · simp
    · intro hes
      simp only [List.isEmpty_iff, List.map_eq_nil_iff]
      split
      · simp
      · rename_i hvs
        rw [List.length_map]
        rcases hlen with h | h | h
        · exact absurd h hes
        · exact absurd h hvs
        · exact h

theorem read_eq (text : List Char) {ls : List (List Char)} {u : Bool} (hl : Spec.Lines text ls u) (stored : List (List Char × List Char)) :
    read number convert stored text = match ls.foldlM (step number convert) ⟨.unspecified, 0, [], stored⟩ with
      | none => none
      | some st => some (st.labels, (Complex.insertRange [] st.simplices).1) := by
  rw [read, getlines_spec text ls u hl]
  cases ls.foldlM (step number convert) ⟨.unspecified, 0, [], stored⟩ <;> rfl

theorem file_collects {n : ℕ} {vs : List (List Char × List Char × ℕ)} {es : List (ℕ × ℕ × Option (List Char))} (h : vs ≠ [] ∨ es ≠ [] ∨ n = 0) :
    Collects (Complex.insertRange [] ((if vs = [] ∧ es ≠ [] then (List.range n).map (fun i => Simplex.ofVertex (i + 1) 0) else vs.map (fun x => Simplex.ofVertex x.2.2 0)) ++
        es.map (fun e => Simplex.ofRange [e.1, e.2.1] (edgeWeight convert e.2.2)))).1 (simplices convert n vs es) := by
  have := insertRange_collects (simplices convert n vs es) (by
    intro e he
    rw [simplices, List.mem_append] at he
    rcases he with he | he
    · split at he <;> obtain ⟨x, _, rfl⟩ := List.mem_map.1 he <;> simp
    · obtain ⟨x, _, rfl⟩ := List.mem_map.1 he
      simp)
  convert this using 3
  rw [simplices, List.map_append]
  congr 1
  · by_cases hvs : vs = []
    · rw [if_pos hvs]
      by_cases hes : es = []
      · rw [if_neg (by simp [hes])]
        have : n = 0 := by tauto
        subst this
        simp [hvs]
      · rw [if_pos ⟨hvs, hes⟩, List.map_map, List.range_eq_range', List.range'_eq_map_range, List.range'_eq_map_range, List.map_map, List.map_map]
        refine List.map_congr_left fun i _ => ?_
        simp only [Function.comp_apply, ofVertex_eq]
        rw [show 0 + i + 1 = 1 + i by omega]
    · rw [if_neg (fun h => hvs h.1), if_neg hvs, List.map_map]
      exact List.map_congr_left fun x _ => ofVertex_eq _ _
  · rw [List.map_map]
    rfl

/-- C129 (partial). A Pajek file is read completely: the complex consists of the vertices and of the edges with their weights, in the order of the file; edges without a weight have the
default value.  The labels of the vertices are stored.  Keywords may be written in lower and upper case; whitespace at the ends of lines and comments do not matter.  The claim requires that there
are vertices with labels, or edges, see `C129_isolated`; and the labels of a previous file must not be stored, see `C129_again`. -/
theorem _root_.Aleph.C129_read_partial (hn : Numbers number) (text : List Char) {ls : List (List Char)} {u : Bool} (hl : Spec.Lines text ls u)
    {n : ℕ} {vs : List (List Char × List Char × ℕ)} {es : List (ℕ × ℕ × Option (List Char))} (h : File ls n vs es) (stored : List (List Char × List Char))
    (hd : (vs.map fun x => x.1).Nodup) (hs : ∀ x ∈ vs, stored.lookup x.1 = none) (hlen : es = [] ∨ vs = [] ∨ n ≤ vs.length) (hsome : vs ≠ [] ∨ es ≠ [] ∨ n = 0) :
    ∃ K : Complex α, read number convert stored text = some (stored ++ vs.map (fun x => (x.1, x.2.1)), K) ∧ Collects K (simplices convert n vs es) := by
  obtain ⟨m, hm⟩ := file_spec (convert := convert) hn h stored hd hs hlen
  rw [read_eq text hl, hm]
  exact ⟨_, rfl, file_collects hsome⟩

/-- C129. Vertices without labels are lost if the file does not contain edges. -/
theorem _root_.Aleph.C129_isolated (hn : Numbers number) (text : List Char) {ls : List (List Char)} {u : Bool} (hl : Spec.Lines text ls u) {n : ℕ} (h : File ls n [] [])
    (stored : List (List Char × List Char)) : read number convert stored text = some (stored, []) := by
  obtain ⟨m, hm⟩ := file_spec (convert := convert) hn h stored (by simp) (by simp) (by simp)
  rw [read_eq text hl, hm]
  simp [Complex.insertRange]

/-- C129. Edges may refer to vertices that the file does not declare; the complex contains the edge, but not the vertex. -/
theorem _root_.Aleph.C129_undeclared (hn : Numbers number) (text : List Char) {ls : List (List Char)} {u : Bool} (hl : Spec.Lines text ls u)
    {n : ℕ} {vs : List (List Char × List Char × ℕ)} {es : List (ℕ × ℕ × Option (List Char))} (h : File ls n vs es) (stored : List (List Char × List Char))
    (hd : (vs.map fun x => x.1).Nodup) (hs : ∀ x ∈ vs, stored.lookup x.1 = none) (hlen : vs = [] ∨ n ≤ vs.length)
    {e : ℕ × ℕ × Option (List Char)} (he : e ∈ es) (hv : if vs = [] then n < e.2.1 else ∀ x ∈ vs, x.2.2 ≠ e.2.1) (hloop : ∀ e' ∈ es, e'.1 = e.2.1 → e'.2.1 ≠ e.2.1) :
    ∃ (labels : List (List Char × List Char)) (K : Complex α), read number convert stored text = some (labels, K) ∧ {e.1, e.2.1} ∈ K.map Simplex.vset ∧ {e.2.1} ∉ K.map Simplex.vset := by
  have hes : es ≠ [] := List.ne_nil_of_mem he
  obtain ⟨K, h1, h2, h3, h4, _⟩ := Aleph.C129_read_partial (convert := convert) hn text hl h stored hd hs (Or.inr hlen) (Or.inr (Or.inl hes))
  refine ⟨_, K, h1, ?_, ?_⟩
  · have := h3 ([e.1, e.2.1], edgeWeight convert e.2.2) (List.mem_append_right _ (List.mem_map.2 ⟨e, he, rfl⟩))
    simpa using this
  · intro hk
    obtain ⟨s, hs, hs'⟩ := List.mem_map.1 hk
    have hmem := h4.subset (List.mem_map.2 ⟨s, hs, rfl⟩)
    obtain ⟨x, hx, hx'⟩ := List.mem_map.1 hmem
    simp only [Prod.mk.injEq] at hx'
    rw [hs'] at hx'
    rw [simplices, List.mem_append] at hx
    rcases hx with hx | hx
    · split at hx
      · rename_i h0
        rw [if_pos h0] at hv
        obtain ⟨i, hi, rfl⟩ := List.mem_map.1 hx
        have : i = e.2.1 := by simpa using hx'.1
        rw [List.mem_range'_1] at hi
        omega
      · rename_i h0
        rw [if_neg h0] at hv
        obtain ⟨i, hi, rfl⟩ := List.mem_map.1 hx
        exact hv i hi (by simpa using hx'.1)
    · obtain ⟨e', he', rfl⟩ := List.mem_map.1 hx
      have h5 := hx'.1
      have h6 : e'.1 ∈ ({e.2.1} : Finset ℕ) := by rw [← h5]; simp
      have h7 : e'.2.1 ∈ ({e.2.1} : Finset ℕ) := by rw [← h5]; simp
      exact hloop e' he' (by simpa using h6) (by simpa using h7)

/-! ### Errors -/

theorem vertexLines_fail (hn : Numbers number) {ls : List (List Char)} {vs : List (List Char × List Char × ℕ)} (h : VertexLines ls vs) : ∀ (st : State α), st.mode = .vertices →
    ¬ ((vs.map fun x => x.1).Nodup ∧ (∀ x ∈ vs, st.labels.lookup x.1 = none)) → ls.foldlM (step number convert) st = none := by
  induction h with
  | nil => intro st _ h; simp at h
  | comment l ls vs hl _ ih =>
    intro st hm hd
    rw [List.foldlM_cons, step_comment st hl]
    exact ih st hm hd
  | cons l id label v ls vs hl _ ih =>
    intro st hm hd
    rw [List.foldlM_cons, step_vertex hn st hm hl]
    cases hlook : st.labels.lookup id with
    | some x => simp
    | none =>
      simp only [Option.isSome_none, Bool.false_eq_true, if_false, Option.bind_eq_bind, Option.bind_some]
      refine ih _ hm fun hh => hd ?_
      have hlk : ∀ x ∈ vs, x.1 ≠ id ∧ st.labels.lookup x.1 = none := by
        intro x hx
        have := hh.2 x hx
        rw [List.lookup_append] at this
        cases h1 : st.labels.lookup x.1 with
        | some y => rw [h1] at this; simp at this
        | none =>
          rw [h1] at this
          refine ⟨fun he => ?_, rfl⟩
          simp [he] at this
      refine ⟨?_, ?_⟩
      · rw [List.map_cons, List.nodup_cons]
        refine ⟨fun hm => ?_, hh.1⟩
        obtain ⟨x, hx, hx'⟩ := List.mem_map.1 hm
        exact (hlk x hx).1 hx'
      · intro x hx
        rcases List.mem_cons.1 hx with rfl | hx
        · exact hlook
        · exact (hlk x hx).2

/-- C129. A file with two vertices of the same identifier raises an exception, and so does a file with the identifier of a vertex of a previous file. -/
theorem _root_.Aleph.C129_duplicate (hn : Numbers number) (text : List Char) {V rest : List (List Char)} {u : Bool} (hl : Spec.Lines text (V ++ rest) u)
    {n : ℕ} {vs : List (List Char × List Char × ℕ)} (h : VertexPart V n vs) (stored : List (List Char × List Char))
    (hd : ¬ (vs.map fun x => x.1).Nodup ∨ ∃ x ∈ vs, (stored.lookup x.1).isSome) : read number convert stored text = none := by
  obtain ⟨c, hh, V', rfl, h1, h2, h3⟩ := h
  have : (c ++ hh :: V').foldlM (step number convert) ⟨.unspecified, 0, [], stored⟩ = none := by
    rw [List.foldlM_append, ignored_spec c h1 _ rfl]
    simp only [Option.bind_eq_bind, Option.bind_some, List.foldlM_cons]
    rw [step_header hn _ h2]
    refine vertexLines_fail hn h3 _ rfl fun hc => ?_
    rcases hd with hd | ⟨x, hx, hx'⟩
    · exact hd hc.1
    · have h0 : stored.lookup x.1 = none := hc.2 x hx
      rw [h0] at hx'
      simp at hx'
  rw [read_eq text hl, List.foldlM_append, this]
  rfl

theorem edge_labels {st st' : State α} {l : List Char} (h : edge number convert st l = some st') : st'.labels = st.labels := by
  simp only [edge] at h
  generalize (if st.simplices.isEmpty then (List.range st.numVertices).map fun i => Simplex.ofVertex (i + 1) 0 else st.simplices) = S at h
  split at h
  · cases h
  · cases hm : matchEdge l with
    | none => rw [hm] at h; cases h
    | some r =>
      obtain ⟨d, e, w⟩ := r
      rw [hm] at h
      simp only at h
      cases h1 : number d with
      | none => rw [h1] at h; cases h
      | some x =>
        cases h2 : number e with
        | none => rw [h1, h2] at h; cases h
        | some y =>
          rw [h1, h2] at h
          cases h
          rfl

theorem step_labels {st st' : State α} {l : List Char} (h : step number convert st l = some st') : ∃ ext, st'.labels = st.labels ++ ext := by
  simp only [step] at h
  split at h
  · cases h; exact ⟨[], by simp⟩
  · split at h
    · simp only [keyword] at h
      split at h
      · split at h
        · cases h
        · split at h
          · cases h
          · cases h; exact ⟨[], by simp⟩
      · split at h <;> cases h <;> exact ⟨[], by simp⟩
    · split at h
      · simp only [vertex] at h
        split at h
        · cases h
        · split at h
          · cases h
          · split at h
            · cases h
            · cases h; exact ⟨_, rfl⟩
      · exact ⟨[], by rw [edge_labels h, List.append_nil]⟩
      · cases h; exact ⟨[], by simp⟩

theorem fold_labels (ls : List (List Char)) : ∀ (st st' : State α), ls.foldlM (step number convert) st = some st' → ∃ ext, st'.labels = st.labels ++ ext := by
  induction ls with
  | nil => intro st st' h; cases h; exact ⟨[], by simp⟩
  | cons l ls ih =>
    intro st st' h
    rw [List.foldlM_cons] at h
    cases h1 : step number convert st l with
    | none => rw [h1] at h; cases h
    | some s1 =>
      rw [h1] at h
      obtain ⟨e1, he1⟩ := step_labels h1
      obtain ⟨e2, he2⟩ := ih s1 st' h
      exact ⟨e1 ++ e2, by rw [he2, he1, List.append_assoc]⟩

/-- C129. A reader cannot read a file with labels twice. -/
theorem _root_.Aleph.C129_again (hn : Numbers number) (text : List Char) {ls : List (List Char)} {u : Bool} (hl : Spec.Lines text ls u)
    {n : ℕ} {vs : List (List Char × List Char × ℕ)} {es : List (ℕ × ℕ × Option (List Char))} (h : File ls n vs es) (hvs : vs ≠ []) (stored labels : List (List Char × List Char)) (K : Complex α)
    (h1 : read number convert stored text = some (labels, K)) : read number convert labels text = none := by
  obtain ⟨V, E, rfl, hV, hE⟩ := h
  have hgood : (vs.map fun x => x.1).Nodup ∧ ∀ x ∈ vs, stored.lookup x.1 = none := by
    by_contra hc
    rw [Aleph.C129_duplicate hn text hl hV stored] at h1
    · exact absurd h1 (by simp)
    · by_contra hc'
      push Not at hc'
      exact hc ⟨hc'.1, fun x hx => Option.not_isSome_iff_eq_none.1 (hc'.2 x hx)⟩
  refine Aleph.C129_duplicate hn text hl hV labels (Or.inr ?_)
  obtain ⟨x, hx⟩ := List.exists_mem_of_ne_nil vs hvs
  refine ⟨x, hx, ?_⟩
  rw [read_eq text hl, List.foldlM_append, vertexPart_spec hn hV stored hgood.1 hgood.2] at h1
  cases hst : E.foldlM (step number convert) ⟨.vertices, n, vs.map (fun x => Simplex.ofVertex x.2.2 0), stored ++ vs.map (fun x => (x.1, x.2.1))⟩ with
  | none => simp only [Option.bind_eq_bind, Option.bind_some, hst] at h1; cases h1
  | some st =>
    simp only [Option.bind_eq_bind, Option.bind_some, hst] at h1
    obtain ⟨ext, hext⟩ := fold_labels E _ _ hst
    have : labels = st.labels := by cases h1; rfl
    rw [this, hext, List.lookup_append, List.lookup_append]
    have hmem : ((vs.map fun x => (x.1, x.2.1)).lookup x.1).isSome := by
      rw [List.lookup_isSome_iff]
      exact ⟨(x.1, x.2.1), List.mem_map.2 ⟨x, hx, rfl⟩, by simp⟩
    cases stored.lookup x.1 <;> simp [hmem]

/-- C129. If there are labels, but fewer than declared, edges raise an exception. -/
theorem _root_.Aleph.C129_missing (hn : Numbers number) (text : List Char) {ls : List (List Char)} {u : Bool} (hl : Spec.Lines text ls u)
    {n : ℕ} {vs : List (List Char × List Char × ℕ)} {es : List (ℕ × ℕ × Option (List Char))} (h : File ls n vs es) (hvs : vs ≠ []) (hes : es ≠ []) (hlen : vs.length < n)
    (stored : List (List Char × List Char)) : read number convert stored text = none := by
  by_cases hc : ¬ (vs.map fun x => x.1).Nodup ∨ ∃ x ∈ vs, (stored.lookup x.1).isSome
  · obtain ⟨V, E, rfl, hV, hE⟩ := h
    exact Aleph.C129_duplicate hn text hl hV stored hc
  · push Not at hc
    obtain ⟨V, E, rfl, hV, ⟨_, h0⟩ | ⟨hh, E', rfl, h3, h4⟩⟩ := h
    · exact absurd h0 hes
    · rw [read_eq text hl, List.foldlM_append, vertexPart_spec hn hV stored hc.1 fun x hx => Option.not_isSome_iff_eq_none.1 (hc.2 x hx)]
      simp only [Option.bind_eq_bind, Option.bind_some, List.foldlM_cons]
      rw [step_edges _ h3]
      simp only [Option.bind_some]
      have hfail : ∀ (ls : List (List Char)) (es : List (ℕ × ℕ × Option (List Char))), EdgeLines ls es → es ≠ [] → ∀ st : State α, st.mode = .edges → st.simplices ≠ [] →
          st.simplices.length < st.numVertices → ls.foldlM (step number convert) st = none := by
        intro ls es h
        induction h with
        | nil => intro h; exact absurd rfl h
        | comment l ls es hl _ ih =>
          intro he st hm h1 h2
          rw [List.foldlM_cons, step_comment st hl]
          exact ih he st hm h1 h2
        | header l ls es hl _ ih =>
          intro he st hm h1 h2
          rw [List.foldlM_cons, step_edges st hl]
          exact ih he { st with mode := .edges } rfl h1 h2
        | cons l u v w ls es hl _ ih =>
          intro _ st hm h1 h2
          have : st.simplices.isEmpty = false := by simpa using h1
          rw [List.foldlM_cons, step_edge hn st hm hl, if_pos (by rw [this]; simpa using h2)]
          rfl
      rw [hfail E' es h4 hes _ rfl (by simpa using hvs) (by simpa using hlen)]

theorem takeDrop {p : Char → Bool} (s : List Char) : s = s.takeWhile p ++ s.dropWhile p := (List.takeWhile_append_dropWhile).symm

/-- Lines that the expression for vertices accepts. -/
theorem matchVertex_some {t id label : List Char} (h : matchVertex t = some (id, label)) :
    ∃ b, t = id ++ b ++ '"' :: label ++ ['"'] ∧ id ≠ [] ∧ (∀ c ∈ id, 48 ≤ c.toNat ∧ c.toNat ≤ 57) ∧ Blanks b ∧ Inline label := by
  simp only [matchVertex] at h
  split at h
  · rename_i lab hq
    split at h
    · rename_i hc
      simp only [Bool.and_eq_true, Bool.not_eq_true', List.isEmpty_eq_false_iff, List.all_eq_true, beq_iff_eq] at hc
      simp only [Option.some.injEq, Prod.mk.injEq] at h
      obtain ⟨rfl, rfl⟩ := h
      refine ⟨(t.dropWhile isDigit).takeWhile Strings.isSpace, ?_, hc.1.1.1, ?_, ⟨hc.1.1.2, ?_⟩, ?_, ?_⟩
      · have hlab : lab.dropLast ++ ['"'] = lab := by
          obtain ⟨ys, rfl⟩ := List.getLast?_eq_some_iff.1 hc.1.2
          simp
        rw [List.append_assoc, List.cons_append, hlab, ← hq, List.append_assoc, List.takeWhile_append_dropWhile, List.takeWhile_append_dropWhile]
      · exact fun c hc => (isDigit_iff c).1 (List.mem_takeWhile_imp hc)
      · exact fun c hc => (blank_iff c).1 (List.mem_takeWhile_imp hc)
      · intro hm
        have := hc.2 _ hm
        simp [isAny] at this
      · intro hm
        have := hc.2 _ hm
        simp [isAny] at this
    · cases h
  · cases h

/-- C129. A line between the vertices that is not a vertex, a comment or a keyword raises an exception; in particular, this concerns empty lines. -/
theorem _root_.Aleph.C129_vertex_error (hn : Numbers number) (text : List Char) {V rest : List (List Char)} {l t : List Char} {u : Bool} (hl : Spec.Lines text (V ++ l :: rest) u)
    {n : ℕ} {vs : List (List Char × List Char × ℕ)} (h : VertexPart V n vs) (ht : Content l t) (h1 : t.head? ≠ some '%') (h2 : t.head? ≠ some '*')
    (h3 : ¬ ∃ id label v, VertexLine l id label v) (stored : List (List Char × List Char)) : read number convert stored text = none := by
  by_cases hc : ¬ (vs.map fun x => x.1).Nodup ∨ ∃ x ∈ vs, (stored.lookup x.1).isSome
  · exact Aleph.C129_duplicate hn text hl h stored hc
  · push Not at hc
    have hm : matchVertex t = none := by
      cases hm : matchVertex t with
      | none => rfl
      | some r =>
        obtain ⟨b, rfl, e1, e2, e3, e4⟩ := matchVertex_some (id := r.1) (label := r.2) hm
        exact absurd ⟨r.1, r.2, _, b, ht, ⟨e1, e2, rfl⟩, e3, e4⟩ h3
    rw [read_eq text hl, List.foldlM_append, vertexPart_spec hn h stored hc.1 fun x hx => Option.not_isSome_iff_eq_none.1 (hc.2 x hx)]
    simp only [Option.bind_eq_bind, Option.bind_some, List.foldlM_cons]
    rw [step_plain _ ht h1 h2]
    simp only [vertex, hm]
    rfl

/-- C129. Empty lines between the vertices raise an exception. -/
theorem _root_.Aleph.C129_empty_line (hn : Numbers number) (text : List Char) {V rest : List (List Char)} {l : List Char} {u : Bool} (hl : Spec.Lines text (V ++ l :: rest) u)
    {n : ℕ} {vs : List (List Char × List Char × ℕ)} (h : VertexPart V n vs) (ht : Content l []) (stored : List (List Char × List Char)) : read number convert stored text = none := by
  refine Aleph.C129_vertex_error hn text hl h ht (by simp) (by simp) ?_ stored
  rintro ⟨id, label, v, b, h1, _⟩
  have := (trim_content h1).symm.trans (trim_content ht)
  simp at this

/-- Lines that the expression for edges accepts. -/
theorem matchEdge_some {t d e : List Char} {w : Option (List Char)} (h : matchEdge t = some (d, e, w)) :
    ∃ b b', t = d ++ b ++ e ++ b' ++ w.getD [] ∧ d ≠ [] ∧ (∀ c ∈ d, 48 ≤ c.toNat ∧ c.toNat ≤ 57) ∧ Blanks b ∧ e ≠ [] ∧ (∀ c ∈ e, 48 ≤ c.toNat ∧ c.toNat ≤ 57) ∧
      (∀ c ∈ b', Blank c) ∧ ∀ c ∈ w.getD [], c = '.' ∨ (48 ≤ c.toNat ∧ c.toNat ≤ 57) := by
  simp only [matchEdge] at h
  split at h
  · rename_i hc
    simp only [Bool.and_eq_true, Bool.not_eq_true', List.isEmpty_eq_false_iff, List.all_eq_true, Bool.or_eq_true, beq_iff_eq] at hc
    simp only [Option.some.injEq, Prod.mk.injEq] at h
    obtain ⟨rfl, rfl, rfl⟩ := h
    have hw : ∀ w : List Char, (if w.isEmpty = true then none else some w).getD [] = w := by
      intro w
      cases w <;> rfl
    rw [hw]
    refine ⟨(t.dropWhile isDigit).takeWhile Strings.isSpace, (((t.dropWhile isDigit).dropWhile Strings.isSpace).dropWhile isDigit).takeWhile Strings.isSpace, ?_, hc.1.1.1, ?_, ⟨hc.1.1.2, ?_⟩, hc.1.2, ?_, ?_, ?_⟩
    · simp only [List.append_assoc, List.takeWhile_append_dropWhile]
    · exact fun c hc => (isDigit_iff c).1 (List.mem_takeWhile_imp hc)
    · exact fun c hc => (blank_iff c).1 (List.mem_takeWhile_imp hc)
    · exact fun c hc => (isDigit_iff c).1 (List.mem_takeWhile_imp hc)
    · exact fun c hc => (blank_iff c).1 (List.mem_takeWhile_imp hc)
    · intro c hcm
      rcases hc.2 c hcm with h | h
      · exact Or.inr ((isDigit_iff c).1 h)
      · exact Or.inl h
  · cases h

theorem edgeLines_mode (hn : Numbers number) {ls : List (List Char)} {es : List (ℕ × ℕ × Option (List Char))} (h : EdgeLines ls es) : ∀ (st st' : State α), st.mode = .edges →
    ls.foldlM (step number convert) st = some st' → st'.mode = .edges := by
  induction h with
  | nil => intro st st' hm h; cases h; exact hm
  | comment l ls es hl _ ih =>
    intro st st' hm h
    rw [List.foldlM_cons, step_comment st hl] at h
    exact ih st st' hm h
  | header l ls es hl _ ih =>
    intro st st' hm h
    rw [List.foldlM_cons, step_edges st hl] at h
    exact ih { st with mode := .edges } st' rfl h
  | cons l u v w ls es hl _ ih =>
    intro st st' hm h
    rw [List.foldlM_cons, step_edge hn st hm hl] at h
    generalize (if st.simplices.isEmpty then (List.range st.numVertices).map fun i => Simplex.ofVertex (i + 1) 0 else st.simplices) = S at h
    split at h
    · cases h
    · exact ih { st with simplices := S ++ [Simplex.ofRange [u, v] (edgeWeight convert w)] } st' hm h

/-- C129. A line between the edges that is not a comment or a keyword must consist of two numbers, optionally followed by whitespace and a text with digits and dots; otherwise, an exception is
raised. -/
theorem _root_.Aleph.C129_edge_error (hn : Numbers number) (text : List Char) {P E rest : List (List Char)} {hh l t : List Char} {u : Bool} (hl : Spec.Lines text (P ++ hh :: (E ++ l :: rest)) u)
    {es : List (ℕ × ℕ × Option (List Char))} (hE : EdgesHeader hh) (hes : EdgeLines E es) (ht : Content l t) (h1 : t.head? ≠ some '%') (h2 : t.head? ≠ some '*') (h3 : ¬ EdgeText t)
    (stored : List (List Char × List Char)) : read number convert stored text = none := by
  have hm : matchEdge t = none := by
    cases hm : matchEdge t with
    | none => rfl
    | some r =>
      obtain ⟨d, e, w⟩ := r
      obtain ⟨b, b', rfl, e1, e2, e3, e4, e5, e6, e7⟩ := matchEdge_some hm
      exact absurd ⟨d, b, e, b', _, _, _, rfl, ⟨e1, e2, rfl⟩, e3, ⟨e4, e5, rfl⟩, e6, e7⟩ h3
  rw [read_eq text hl, List.foldlM_append]
  cases hP : P.foldlM (step number convert) ⟨.unspecified, 0, [], stored⟩ with
  | none => rfl
  | some st =>
    simp only [Option.bind_eq_bind, Option.bind_some, List.foldlM_cons]
    rw [step_edges st hE]
    simp only [Option.bind_some, List.foldlM_append]
    cases hE' : E.foldlM (step number convert) ({ st with mode := .edges } : State α) with
    | none => rfl
    | some st' =>
      have hmode := edgeLines_mode hn hes { st with mode := .edges } st' rfl hE'
      simp only [Option.bind_eq_bind, Option.bind_some, List.foldlM_cons]
      rw [step_plain st' ht h1 h2]
      simp only [hmode, edge, hm, ite_self]
      rfl

/-- C129. Negative weights raise an exception. -/
theorem _root_.Aleph.C129_negative (hn : Numbers number) (text : List Char) {P E rest : List (List Char)} {hh l d b e b' w : List Char} {u : Bool}
    (hl : Spec.Lines text (P ++ hh :: (E ++ l :: rest)) u) {es : List (ℕ × ℕ × Option (List Char))} (hE : EdgesHeader hh) (hes : EdgeLines E es) {x : ℕ} (hd : Numeral d x) (ht : Content l (d ++ b ++ e ++ b' ++ '-' :: w)) (stored : List (List Char × List Char)) : read number convert stored text = none := by
  have hh := numeral_head (s := b ++ e ++ b' ++ '-' :: w) hd
  rw [show d ++ (b ++ e ++ b' ++ '-' :: w) = d ++ b ++ e ++ b' ++ '-' :: w by simp] at hh
  refine Aleph.C129_edge_error hn text hl hE hes ht hh.1 hh.2 ?_ stored
  rintro ⟨d', c', e', f', w', _, _, heq, g1, g2, g3, g4, g5⟩
  have hm : '-' ∈ d' ++ c' ++ e' ++ f' ++ w' := by rw [← heq]; simp
  simp only [List.mem_append] at hm
  rcases hm with (((hm | hm) | hm) | hm) | hm
  · exact absurd (g1.2.1 _ hm) (by decide)
  · exact absurd (g2.2 _ hm) (by simp [Blank])
  · exact absurd (g3.2.1 _ hm) (by decide)
  · exact absurd (g4 _ hm) (by simp [Blank])
  · exact absurd (g5 _ hm) (by decide)

/-- C129. Whitespace between the second number and the weight is not required: a line like `1 2.5` is an edge between the vertices 1 and 2, with a weight of .5. -/
theorem _root_.Aleph.C129_joined (hn : Numbers number) (text : List Char) {V : List (List Char)} {hh l d b e f : List Char} {u : Bool} (hl : Spec.Lines text (V ++ [hh, l]) u) {n : ℕ}
    (hV : VertexPart V n []) (hE : EdgesHeader hh) {x y : ℕ} (hd : Numeral d x) (hb : Blanks b) (he : Numeral e y) (hf : ∀ c ∈ f, 48 ≤ c.toNat ∧ c.toNat ≤ 57)
    (ht : Content l (d ++ b ++ e ++ '.' :: f)) (hxy : x ≠ y) (stored : List (List Char × List Char)) :
    ∃ K : Complex α, read number convert stored text = some (stored, K) ∧ ∃ s ∈ K, s.vset = {x, y} ∧ s.data = convert ('.' :: f) := by
  have hm : matchEdge (d ++ b ++ e ++ '.' :: f) = some (d, e, some ('.' :: f)) := by
    have e1 : ∀ c ∈ d, isDigit c = true := fun c hc => (isDigit_iff c).2 (hd.2.1 c hc)
    have e2 : ∀ c, (b ++ (e ++ '.' :: f)).head? = some c → isDigit c = false := fun c hc => isDigit_blank (hb.2 c (head_append hb.1 hc))
    have e3 : ∀ c ∈ b, Strings.isSpace c = true := fun c hc => (blank_iff c).2 (hb.2 c hc)
    have e4 : ∀ c, (e ++ '.' :: f).head? = some c → Strings.isSpace c = false := fun c hc => isSpace_digit (he.2.1 c (head_append he.1 hc))
    have e5 : ∀ c ∈ e, isDigit c = true := fun c hc => (isDigit_iff c).2 (he.2.1 c hc)
    have e6 : ∀ c, ('.' :: f).head? = some c → isDigit c = false := by
      intro c hc
      simp only [List.head?_cons, Option.some.injEq] at hc
      subst hc
      decide
    have e7 : ('.' :: f).dropWhile Strings.isSpace = '.' :: f := by
      rw [List.dropWhile_cons, if_neg (by decide)]
    rw [show d ++ b ++ e ++ '.' :: f = d ++ (b ++ (e ++ '.' :: f)) by simp]
    simp only [matchEdge, tw e1 e2, dw e1 e2, tw e3 e4, dw e3 e4, tw e5 e6, dw e5 e6, e7]
    rw [if_pos]
    · rfl
    · simp only [Bool.and_eq_true, Bool.not_eq_true', List.isEmpty_eq_false_iff, List.all_eq_true, List.mem_cons]
      refine ⟨⟨⟨hd.1, hb.1⟩, he.1⟩, ?_⟩
      rintro c (rfl | hc)
      · decide
      · rw [(isDigit_iff c).2 (hf c hc)]; rfl
  have hh' := numeral_head (s := b ++ e ++ '.' :: f) hd
  rw [show d ++ (b ++ e ++ '.' :: f) = d ++ b ++ e ++ '.' :: f by simp] at hh'
  rw [read_eq text hl, List.foldlM_append, vertexPart_spec hn hV stored (by simp) (by simp)]
  simp only [Option.bind_eq_bind, Option.bind_some, List.foldlM_cons, List.foldlM_nil]
  rw [step_edges _ hE]
  simp only [Option.bind_some]
  rw [step_plain _ ht hh'.1 hh'.2]
  simp only [edge, hm, hn d x hd, hn e y he, List.map_nil, List.isEmpty_nil, if_true, List.length_map, List.length_range, lt_irrefl, if_false, Option.bind_some, List.append_nil]
  refine ⟨_, rfl, ?_⟩
  have hcol := insertRange_collects (((List.range n).map fun i => ([i + 1], (0 : α))) ++ [([x, y], convert ('.' :: f))]) (by
    intro z hz
    rcases List.mem_append.1 hz with hz | hz
    · obtain ⟨i, _, rfl⟩ := List.mem_map.1 hz
      simp
    · rw [List.mem_singleton] at hz
      subst hz
      simp)
  rw [List.map_append, List.map_map] at hcol
  have hmap : (List.range n).map ((fun e : List ℕ × α => Simplex.ofRange e.1 e.2) ∘ fun i => ([i + 1], (0 : α))) = (List.range n).map fun i => Simplex.ofVertex (i + 1) 0 :=
    List.map_congr_left fun i _ => (ofVertex_eq _ _).symm
  rw [hmap] at hcol
  obtain ⟨_, h2, _, h4⟩ := hcol
  have hin := h2 ([x, y], convert ('.' :: f)) (by simp)
  obtain ⟨s, hs, hs'⟩ := List.mem_map.1 hin
  refine ⟨s, hs, by simpa using hs', ?_⟩
  have := h4 s hs
  rw [List.find?_append, List.find?_eq_none.2] at this
  · rw [hs'] at this
    simpa using this.symm
  · intro z hz hz'
    obtain ⟨i, _, rfl⟩ := List.mem_map.1 hz
    have h5 : ({i + 1} : Finset ℕ) = {x, y} := by
      have := of_decide_eq_true hz'
      rw [hs'] at this
      simpa using this
    have hx : x ∈ ({i + 1} : Finset ℕ) := by rw [h5]; simp
    have hy : y ∈ ({i + 1} : Finset ℕ) := by rw [h5]; simp
    rw [Finset.mem_singleton] at hx hy
    exact hxy (hx.trans hy.symm)

/-- C129. A file that cannot be opened raises an exception; from any other file, its text is read, and labels of previous calls remain. -/
theorem _root_.Aleph.C129_file (stored : List (List Char × List Char)) :
    readFile (α := α) number convert stored none = none ∧ ∀ text, readFile (α := α) number convert stored (some text) = read number convert stored text :=
  ⟨rfl, fun _ => rfl⟩

/-! ### Examples -/

/-- There is a conversion of numbers. -/
theorem numbers_exists : Numbers (fun d => some (d.foldl (fun n c => 10 * n + (c.toNat - 48)) 0)) := fun _ _ h => congrArg some h.2.2

theorem example_vertices : VertexPart ["% x".toList, "*vertices 2".toList, "1 \"A\"".toList, "2 \"B\"".toList] 2 [(['1'], ['A'], 1), (['2'], ['B'], 2)] := by
  refine ⟨["% x".toList], "*vertices 2".toList, _, rfl, ?_, ?_, .cons _ _ _ _ _ _ ?_ (.cons _ _ _ _ _ _ ?_ .nil)⟩
  · intro l hl
    rw [List.mem_singleton] at hl
    subst hl
    exact Or.inl ⟨"% x".toList, content_self (by simp [Blank]) (by simp [Blank]), by simp⟩
  · refine ⟨"vertices".toList, [' '], ['2'], ?_, Or.inl ?_, ⟨by simp, by simp [Blank]⟩, by simp [Inline], by simp [Numeral]⟩
    · exact content_self (by simp [Blank]) (by simp [Blank])
    · unfold Word; simp
  · exact ⟨[' '], content_self (by simp [Blank]) (by simp [Blank]), by simp [Numeral], ⟨by simp, by simp [Blank]⟩, by simp [Inline]⟩
  · exact ⟨[' '], content_self (by simp [Blank]) (by simp [Blank]), by simp [Numeral], ⟨by simp, by simp [Blank]⟩, by simp [Inline]⟩

theorem example_file : File ["% x".toList, "*vertices 2".toList, "1 \"A\"".toList, "2 \"B\"".toList, "*Edges".toList, "1 2 23".toList] 2 [(['1'], ['A'], 1), (['2'], ['B'], 2)]
    [(1, 2, some "23".toList)] := by
  refine ⟨_, ["*Edges".toList, "1 2 23".toList], ?_, example_vertices, Or.inr ⟨_, _, rfl, ?_, .cons _ _ _ _ _ _ ?_ .nil⟩⟩
  · simp
  · refine ⟨"Edges".toList, [], content_self (by simp [Blank]) (by simp [Blank]), Or.inl ?_, Or.inl rfl⟩
    unfold Word
    simp
  · exact ⟨['1'], [' '], ['2'], by simp [Numeral], ⟨by simp, by simp [Blank]⟩, by simp [Numeral], by simp, by simp, [' '], ⟨by simp, by simp [Blank]⟩, content_self (by simp [Blank]) (by simp [Blank])⟩

/-- Hypotheses of C129: a file with two vertices and an edge. -/
example : ∃ K : Complex ℕ, read (fun d => some (d.foldl (fun n c => 10 * n + (c.toNat - 48)) 0)) List.length [] "% x\n*vertices 2\n1 \"A\"\n2 \"B\"\n*Edges\n1 2 23".toList =
    some ([(['1'], ['A']), (['2'], ['B'])], K) ∧ Collects K [([1], 0), ([2], 0), ([1, 2], 2)] := by
  have hl : Spec.Lines "% x\n*vertices 2\n1 \"A\"\n2 \"B\"\n*Edges\n1 2 23".toList
      ["% x".toList, "*vertices 2".toList, "1 \"A\"".toList, "2 \"B\"".toList, "*Edges".toList, "1 2 23".toList] true :=
    .cons "% x".toList "*vertices 2\n1 \"A\"\n2 \"B\"\n*Edges\n1 2 23".toList _ true (by simp) (.cons "*vertices 2".toList "1 \"A\"\n2 \"B\"\n*Edges\n1 2 23".toList _ true (by simp)
      (.cons "1 \"A\"".toList "2 \"B\"\n*Edges\n1 2 23".toList _ true (by simp) (.cons "2 \"B\"".toList "*Edges\n1 2 23".toList _ true (by simp)
      (.cons "*Edges".toList "1 2 23".toList _ true (by simp) (.last _ (by simp) (by simp))))))
  exact Aleph.C129_read_partial numbers_exists _ hl example_file [] (by simp) (by simp) (by simp) (by simp)

end Aleph.PajekReader
