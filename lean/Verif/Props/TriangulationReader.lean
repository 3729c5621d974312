import Verif.Model.TriangulationReader
import Verif.Spec.TriangulationReader
import Verif.Props.Strings
import Verif.Lemmas.Collects
import Mathlib.Data.List.Forall2

/-!
# C128: lexicographic triangulations
-/

namespace Aleph.TriangulationReader

open Spec Spec.Triangulation

variable {α : Type} [Zero α]

theorem blank_iff (c : Char) : Strings.isSpace c = true ↔ Blank c := isSpace_iff c

theorem trim_content {l t : List Char} (h : Content l t) : Strings.trim l = t := by
  obtain ⟨a, b, rfl, ha, hb, h1, h2⟩ := h
  have hb' : ∀ c ∈ b.reverse, Strings.isSpace c = true := fun c hc => (blank_iff c).2 (hb c (List.mem_reverse.1 hc))
  have ha' : ∀ c ∈ a, Strings.isSpace c = true := fun c hc => (blank_iff c).2 (ha c hc)
  have e1 : ∀ (x y : List Char), (∀ c ∈ x, Strings.isSpace c = true) → (x ++ y).dropWhile Strings.isSpace = y.dropWhile Strings.isSpace := by
    intro x y hx
    rw [List.dropWhile_append, List.dropWhile_eq_nil_iff.2 hx]
    rfl
  have e2 : ∀ (y : List Char), (∀ c, y.head? = some c → ¬ Blank c) → y.dropWhile Strings.isSpace = y := by
    intro y hy
    cases y with
    | nil => rfl
    | cons c y =>
      rw [List.dropWhile_cons_of_neg]
      rw [blank_iff]
      exact hy c rfl
  simp only [Strings.trim, Strings.rtrim, Strings.ltrim, List.reverse_append]
  rw [e1 _ _ hb']
  by_cases ht : t = []
  · subst ht
    rw [List.reverse_nil, List.nil_append]
    have : (a.reverse).dropWhile Strings.isSpace = [] := List.dropWhile_eq_nil_iff.2 fun c hc => ha' c (List.mem_reverse.1 hc)
    rw [this]
    rfl
  · have : (t.reverse ++ a.reverse).dropWhile Strings.isSpace = t.reverse ++ a.reverse := by
      apply e2
      intro c hc
      rw [List.head?_append_of_ne_nil _ (by simpa using ht), List.head?_reverse] at hc
      exact h2 c hc
    rw [this, List.reverse_append, List.reverse_reverse, List.reverse_reverse, e1 _ _ ha', e2 _ h1]

theorem content_self {t : List Char} (h1 : ∀ c, t.head? = some c → ¬ Blank c) (h2 : ∀ c, t.getLast? = some c → ¬ Blank c) : Content t t :=
  ⟨[], [], by simp, by simp, by simp, h1, h2⟩

theorem content_exists (l : List Char) : Content l (Strings.trim l) := by
  obtain ⟨_, ⟨a, b, h1, h2, h3⟩, h4, h5⟩ := C70_trim l
  refine ⟨a, b, h1, fun c hc => (blank_iff c).1 (h2 c hc), fun c hc => (blank_iff c).1 (h3 c hc), fun c hc hb => ?_, fun c hc hb => ?_⟩
  · have := h4 c hc; rw [(blank_iff c).2 hb] at this; cases this
  · have := h5 c hc; rw [(blank_iff c).2 hb] at this; cases this

/-! ### Texts of simplices -/

theorem digit_ne {c : Char} (h : 48 ≤ c.toNat ∧ c.toNat ≤ 57) : c ≠ ',' ∧ c ≠ '[' ∧ c ≠ ']' ∧ ¬ Blank c := by
  refine ⟨?_, ?_, ?_, ?_⟩
  · rintro rfl; revert h; decide
  · rintro rfl; revert h; decide
  · rintro rfl; revert h; decide
  · intro hb
    simp only [Blank, List.mem_cons, List.not_mem_nil, or_false] at hb
    rcases hb with rfl | rfl | rfl | rfl | rfl | rfl <;> revert h <;> decide

theorem blank_ne {c : Char} (h : Blank c) : c ≠ ',' ∧ c ≠ '[' ∧ c ≠ ']' := by
  simp only [Blank, List.mem_cons, List.not_mem_nil, or_false] at h
  rcases h with rfl | rfl | rfl | rfl | rfl | rfl <;> decide

theorem vertex_chars {t : List Char} {v : ℕ} (h : Vertex t v) : ∀ c ∈ t, c ≠ ',' ∧ c ≠ '[' ∧ c ≠ ']' := by
  obtain ⟨a, d, b, rfl, ha, hb, _, hd, _⟩ := h
  intro c hc
  rcases List.mem_append.1 hc with hc | hc
  · rcases List.mem_append.1 hc with hc | hc
    · exact blank_ne (ha c hc)
    · exact ⟨(digit_ne (hd c hc)).1, (digit_ne (hd c hc)).2.1, (digit_ne (hd c hc)).2.2.1⟩
  · exact blank_ne (hb c hc)

theorem numbers_chars {b : List Char} {vs : List ℕ} (h : Numbers b vs) : ∀ c ∈ b, c ≠ '[' ∧ c ≠ ']' := by
  induction h with
  | one t v hv => exact fun c hc => (vertex_chars hv c hc).2
  | cons t v s vs hv _ ih =>
    intro c hc
    rcases List.mem_append.1 hc with hc | hc
    · exact (vertex_chars hv c hc).2
    · rcases List.mem_cons.1 hc with rfl | hc
      · decide
      · exact ih c hc

theorem splitEach_prefix (sep : Char) (t : List Char) (ht : ∀ c ∈ t, c ≠ sep) : ∀ (cur : List Char) (m : Bool) (s : List Char),
    splitEach sep cur m (t ++ s) = splitEach sep (t.reverse ++ cur) m s := by
  induction t with
  | nil => intros; rfl
  | cons c t ih =>
    intro cur m s
    rw [List.cons_append, splitEach, if_neg (ht c (by simp)), ih fun c hc => ht c (by simp [hc])]
    simp

/-- What is known about the conversion of texts to vertices: a number in decimal notation, possibly surrounded by whitespace, is read. -/
def Reads (convert : List Char → ℕ) : Prop := ∀ t v, Vertex t v → convert t = v

/-- `trim` of a vertex, at one or both ends, is a vertex. -/
theorem vertex_ltrim {t : List Char} {v : ℕ} (h : Vertex t v) : Vertex (t.dropWhile Strings.isSpace) v := by
  obtain ⟨a, d, b, rfl, ha, hb, hd0, hd, hv⟩ := h
  refine ⟨[], d, b, ?_, by simp, hb, hd0, hd, hv⟩
  rw [List.append_assoc, List.dropWhile_append, List.dropWhile_eq_nil_iff.2 fun c hc => (blank_iff c).2 (ha c hc)]
  cases d with
  | nil => exact absurd rfl hd0
  | cons c d =>
    simp only [List.isEmpty_nil, if_true, List.nil_append, List.cons_append]
    rw [List.dropWhile_cons_of_neg]
    rw [blank_iff]
    exact (digit_ne (hd c (by simp))).2.2.2

theorem vertex_rtrim {t : List Char} {v : ℕ} (h : Vertex t v) : Vertex (Strings.rtrim t) v := by
  obtain ⟨a, d, b, rfl, ha, hb, hd0, hd, hv⟩ := h
  refine ⟨a, d, [], ?_, ha, by simp, hd0, hd, hv⟩
  simp only [Strings.rtrim, List.reverse_append]
  rw [List.dropWhile_append, List.dropWhile_eq_nil_iff.2 fun c hc => (blank_iff c).2 (hb c (List.mem_reverse.1 hc))]
  have : d.reverse ≠ [] := by simpa using hd0
  obtain ⟨c, d', hcd⟩ := List.exists_cons_of_ne_nil this
  have hc : c ∈ d := by rw [← List.mem_reverse, hcd]; simp
  simp only [List.isEmpty_nil, if_true, hcd, List.cons_append]
  rw [List.dropWhile_cons_of_neg (by rw [blank_iff]; exact (digit_ne (hd c hc)).2.2.2), List.append_nil]
  rw [← List.cons_append, ← hcd]
  simp

theorem vertex_ne_nil {t : List Char} {v : ℕ} (h : Vertex t v) : t ≠ [] := by
  obtain ⟨a, d, b, rfl, _, _, hd0, _⟩ := h
  simp [hd0]

theorem numbers_ltrim {b : List Char} {vs : List ℕ} (h : Numbers b vs) : Numbers (b.dropWhile Strings.isSpace) vs := by
  cases h with
  | one t v hv => exact .one _ _ (vertex_ltrim hv)
  | cons t v s vs hv hs =>
    have : (t ++ ',' :: s).dropWhile Strings.isSpace = t.dropWhile Strings.isSpace ++ ',' :: s := by
      have hne := vertex_ne_nil (vertex_ltrim hv)
      rw [List.dropWhile_append]
      simp [hne]
    rw [this]
    exact .cons _ _ _ _ (vertex_ltrim hv) hs

theorem rtrim_append {x y : List Char} (hy : Strings.rtrim y ≠ []) : Strings.rtrim (x ++ y) = x ++ Strings.rtrim y := by
  simp only [Strings.rtrim, List.reverse_append] at hy ⊢
  have : y.reverse.dropWhile Strings.isSpace ≠ [] := by simpa using hy
  rw [List.dropWhile_append]
  simp [this]

theorem numbers_ne_nil {b : List Char} {vs : List ℕ} (h : Numbers b vs) : b ≠ [] := by
  cases h with
  | one t v hv => exact vertex_ne_nil hv
  | cons t v s vs hv hs => simp

theorem numbers_rtrim {b : List Char} {vs : List ℕ} (h : Numbers b vs) : Numbers (Strings.rtrim b) vs := by
  induction h with
  | one t v hv => exact .one _ _ (vertex_rtrim hv)
  | cons t v s vs hv hs ih =>
    have e : t ++ ',' :: s = (t ++ [',']) ++ s := by simp
    rw [e, rtrim_append (numbers_ne_nil ih)]
    have := Numbers.cons t v _ vs hv ih
    simpa using this

theorem splitEach_numbers (convert : List Char → ℕ) (hc : Reads convert) {b : List Char} {vs : List ℕ} (h : Numbers b vs) :
    ∀ m, (splitEach ',' [] m b).map convert = vs := by
  induction h with
  | one t v hv =>
    intro m
    have := splitEach_prefix ',' t (fun c hc => (vertex_chars hv c hc).1) [] m []
    rw [List.append_nil, List.append_nil] at this
    rw [this, splitEach]
    have hne := vertex_ne_nil hv
    simp [hne, hc t v hv]
  | cons t v s vs hv _ ih =>
    intro m
    rw [splitEach_prefix ',' t (fun c hc => (vertex_chars hv c hc).1), List.append_nil, splitEach, if_pos rfl, List.map_cons, ih, List.reverse_reverse, hc t v hv]

/-- The vertices that are read from the text between two brackets. -/
theorem tokens_spec (convert : List Char → ℕ) (hc : Reads convert) {b : List Char} {vs : List ℕ} (h : Numbers b vs) :
    (splitEach ',' [] false (Strings.trim b)).map convert = vs :=
  splitEach_numbers convert hc (numbers_ltrim (numbers_rtrim h)) false

/-! ### Parsing blocks -/

theorem charAt_append (pre : List Char) (c : Char) (s : List Char) : charAt (pre ++ c :: s) pre.length = c := by
  simp [charAt]

theorem idxOf?_append {c : Char} (x s : List Char) (h : c ∉ x) : (x ++ c :: s).idxOf? c = some x.length := by
  induction x with
  | nil => simp [List.idxOf?_cons]
  | cons d x ih =>
    rw [List.mem_cons, not_or] at h
    rw [List.cons_append, List.idxOf?_cons, ih h.2]
    have : (d == c) = false := by simpa using fun e : d = c => h.1 e.symm
    simp [this]

theorem findFrom_append {c : Char} (pre x s : List Char) (h : c ∉ x) : findFrom c (pre ++ x ++ c :: s) pre.length = some (pre.length + x.length) := by
  rw [findFrom, List.append_assoc, List.drop_left, idxOf?_append x s h, Option.map_some, Nat.add_comm]

/-- A character of a gap. -/
def isGap (c : Char) : Bool := c == ',' || Strings.isSpace c

theorem isGap_iff (c : Char) : isGap c = true ↔ c = ',' ∨ Blank c := by
  rw [isGap, Bool.or_eq_true, beq_iff_eq, blank_iff]

theorem isGap_ne {c : Char} (h : isGap c = true) : c ≠ '[' ∧ c ≠ ']' := by
  rcases (isGap_iff c).1 h with rfl | h
  · decide
  · exact (blank_ne h).2

theorem skip_cond (c : Char) : (decide (c = ',') || Strings.isSpace c) = isGap c := by
  rw [isGap, Bool.beq_eq_decide_eq]

variable (convert : List Char → ℕ)

/-- One round for a character that is not a bracket. -/
theorem parseLoop_other (block : List Char) (fuel it : ℕ) (K : Complex α) (hit : it ≠ block.length) (h : charAt block it ≠ '[' ∧ charAt block it ≠ ']') :
    parseLoop convert block (fuel + 1) it K [] false = parseLoop convert block fuel (if isGap (charAt block it) then it + 1 else it) K [] false := by
  rw [parseLoop, if_neg hit]
  simp only [if_neg h.1, if_neg h.2, skip_cond, Bool.false_eq_true, if_false]

theorem parseLoop_gap (g : List Char) (hg : Gap g) : ∀ (pre rest : List Char) (fuel : ℕ) (K : Complex α),
    parseLoop convert (pre ++ g ++ rest) (g.length + fuel) pre.length K [] false = parseLoop convert (pre ++ g ++ rest) fuel (pre ++ g).length K [] false := by
  induction g with
  | nil => intro pre rest fuel K; simp
  | cons c g ih =>
    intro pre rest fuel K
    have hc : isGap c = true := (isGap_iff c).2 (hg c (by simp))
    have e : pre ++ c :: g ++ rest = (pre ++ [c]) ++ g ++ rest := by simp
    have e1 : charAt (pre ++ c :: g ++ rest) pre.length = c := by
      rw [List.append_assoc, List.cons_append, charAt_append]
    rw [List.length_cons, show g.length + 1 + fuel = (g.length + fuel) + 1 by omega, parseLoop_other]
    · rw [e1, if_pos hc]
      have := ih (fun d hd => hg d (by simp [hd])) (pre ++ [c]) rest fuel K
      rw [← e, show (pre ++ [c]).length = pre.length + 1 by simp, show (pre ++ [c] ++ g) = pre ++ c :: g by simp] at this
      exact this
    · simp
    · rw [e1]; exact isGap_ne hc

theorem parseLoop_item (hc : Reads convert) {b : List Char} {vs : List ℕ} (hb : Numbers b vs) (pre rest : List Char) (fuel : ℕ) (K : Complex α) :
    parseLoop convert (pre ++ ('[' :: b ++ ']' :: rest)) (fuel + 2) pre.length K [] false =
      match Complex.pushBack K (Simplex.ofRange vs 0) with
      | none => .error .terminate
      | some K' => parseLoop convert (pre ++ ('[' :: b ++ ']' :: rest)) fuel
          ((pre ++ ('[' :: b ++ [']'])).length + if isGap (charAt (pre ++ ('[' :: b ++ ']' :: rest)) (pre ++ ('[' :: b ++ [']'])).length) then 1 else 0) K' [] false := by
  have hch := numbers_chars hb
  have hn1 : ']' ∉ '[' :: b := by
    intro h
    rcases List.mem_cons.1 h with h | h
    · revert h; decide
    · exact (hch _ h).2 rfl
  generalize hB : pre ++ ('[' :: b ++ ']' :: rest) = block
  have e1 : charAt block pre.length = '[' := by rw [← hB, List.cons_append, charAt_append]
  have e2 : findFrom '[' block pre.length = some pre.length := by
    have := findFrom_append (c := '[') pre [] (b ++ ']' :: rest) (by simp)
    rw [← hB]
    simpa using this
  have e3 : findFrom ']' block pre.length = some (pre.length + (b.length + 1)) := by
    have := findFrom_append (c := ']') pre ('[' :: b) rest hn1
    rw [← hB]
    simpa using this
  have e4 : (block.drop (pre.length + 1)).take (pre.length + (b.length + 1) - pre.length - 1) = b := by
    have : block = (pre ++ ['[']) ++ (b ++ ']' :: rest) := by rw [← hB]; simp
    rw [this, List.drop_left' (by simp), show pre.length + (b.length + 1) - pre.length - 1 = b.length by omega, List.take_left]
  have hl1 : pre.length ≠ block.length := by rw [← hB]; simp
  have hg1 : isGap '[' = false := by decide
  rw [show fuel + 2 = (fuel + 1) + 1 by omega, parseLoop, if_neg hl1]
  simp only [e1, if_true, Bool.false_eq_true, if_false, skip_cond, hg1, e2, e3, e4, tokens_spec convert hc hb, List.nil_append]
  rw [show pre.length + (pre.length + (b.length + 1) - pre.length) = (pre ++ '[' :: b).length by simp]
  have e5 : charAt block (pre ++ '[' :: b).length = ']' := by
    rw [← hB, ← List.append_assoc, charAt_append]
  have hl2 : (pre ++ '[' :: b).length ≠ block.length := by rw [← hB]; simp
  have hne : ¬ (']' = '[') := by decide
  rw [parseLoop, if_neg hl2]
  simp only [e5, hne, if_false, if_true]
  rw [show (pre ++ '[' :: b).length + 1 = (pre ++ ('[' :: b ++ [']'])).length by simp; omega]
  cases Complex.pushBack K (Simplex.ofRange vs 0) with
  | none => rfl
  | some K' =>
    simp only [skip_cond, Bool.false_eq_true, if_false]
    split <;> simp

theorem numbers_vertices_ne {b : List Char} {vs : List ℕ} (h : Numbers b vs) : vs ≠ [] := by
  cases h <;> simp

theorem parseLoop_items (hc : Reads convert) {s : List Char} {fs : List (List ℕ)} (hs : Items s fs) : ∀ (g : List Char), Gap g → ∀ (pre : List Char) (c : Char) (post : List Char),
    isGap c = false → ∀ (K : Complex α), ∃ n, n ≤ (g ++ s).length ∧ ∀ fuel,
      parseLoop convert (pre ++ (g ++ s) ++ c :: post) (n + fuel) pre.length K [] false =
      parseLoop convert (pre ++ (g ++ s) ++ c :: post) fuel (pre ++ (g ++ s)).length (Complex.insertRange K (fs.map fun vs => Simplex.ofRange vs 0)).1 [] false := by
  induction hs with
  | nil =>
    intro g hg pre c post _ K
    refine ⟨g.length, by simp, fun fuel => ?_⟩
    rw [List.append_nil]
    exact parseLoop_gap convert g hg pre (c :: post) fuel K
  | cons b vs g' s fs hb hg' _ ih =>
    intro g hg pre c post hcc K
    obtain ⟨K', hK'⟩ : ∃ K', Complex.pushBack K (Simplex.ofRange vs 0) = some K' := by
      simp only [Complex.pushBack]
      have : (Simplex.ofRange vs (0 : α)).vertices.isEmpty = false := by
        obtain ⟨v, hv⟩ := List.exists_mem_of_ne_nil vs (numbers_vertices_ne hb)
        have : v ∈ (Simplex.ofRange vs (0 : α)).vertices := by
          rw [Simplex.ofRange, mem_uniq, (List.perm_insertionSort _ _).mem_iff]; exact hv
        cases h : (Simplex.ofRange vs (0 : α)).vertices with
        | nil => rw [h] at this; simp at this
        | cons _ _ => rfl
      rw [this]
      simp only [Bool.false_eq_true, if_false]
      split <;> exact ⟨_, rfl⟩
    have eins : Complex.insertRange K (((vs :: fs).map fun vs => Simplex.ofRange vs 0)) = Complex.insertRange K' (fs.map fun vs => Simplex.ofRange vs 0) := by
      rw [List.map_cons, Complex.insertRange, hK']
    rw [eins]
    -- the gap after the simplex, without the character that is skipped at once
    have hstep : ∃ n, n ≤ (g' ++ s).length ∧ ∀ fuel, parseLoop convert (pre ++ (g ++ ('[' :: b ++ ']' :: (g' ++ s))) ++ c :: post) (n + fuel + 2) (pre ++ g).length K [] false =
        parseLoop convert (pre ++ (g ++ ('[' :: b ++ ']' :: (g' ++ s))) ++ c :: post) fuel (pre ++ (g ++ ('[' :: b ++ ']' :: (g' ++ s)))).length
          (Complex.insertRange K' (fs.map fun vs => Simplex.ofRange vs 0)).1 [] false := by
      have eB : pre ++ (g ++ ('[' :: b ++ ']' :: (g' ++ s))) ++ c :: post = (pre ++ g) ++ ('[' :: b ++ ']' :: (g' ++ s ++ c :: post)) := by simp
      have hitem := fun fuel => parseLoop_item convert hc hb (pre ++ g) (g' ++ s ++ c :: post) fuel K
      simp only [hK'] at hitem
      cases g' with
      | nil =>
        obtain ⟨n, hn, h⟩ := ih [] (by simp [Gap]) ((pre ++ g) ++ ('[' :: b ++ [']'])) c post hcc K'
        refine ⟨n, by simpa using hn, fun fuel => ?_⟩
        have hch : isGap (charAt ((pre ++ g) ++ ('[' :: b ++ ']' :: ([] ++ s ++ c :: post))) ((pre ++ g) ++ ('[' :: b ++ [']'])).length) = false := by
          have : (pre ++ g) ++ ('[' :: b ++ ']' :: ([] ++ s ++ c :: post)) = ((pre ++ g) ++ ('[' :: b ++ [']'])) ++ (s ++ c :: post) := by simp
          rw [this]
          cases s with
          | nil => rw [List.nil_append, charAt_append]; exact hcc
          | cons d s =>
            show isGap (charAt ((pre ++ g) ++ ('[' :: b ++ [']']) ++ d :: (s ++ c :: post)) _) = false
            rw [charAt_append]
            rename_i hs'
            cases hs'
            decide
        rw [eB, hitem, hch]
        have := h fuel
        simp only [List.nil_append, Bool.false_eq_true, if_false, Nat.add_zero] at this ⊢
        have e2 : (pre ++ g) ++ ('[' :: b ++ [']']) ++ s ++ c :: post = (pre ++ g) ++ ('[' :: b ++ ']' :: (s ++ c :: post)) := by simp
        have e3 : (pre ++ g) ++ ('[' :: b ++ [']']) ++ s = pre ++ (g ++ ('[' :: b ++ ']' :: s)) := by simp
        rw [e2, e3] at this
        exact this
      | cons d g' =>
        have hd : isGap d = true := (isGap_iff d).2 (hg' d (by simp))
        obtain ⟨n, hn, h⟩ := ih g' (fun x hx => hg' x (by simp [hx])) ((pre ++ g) ++ ('[' :: b ++ [']', d])) c post hcc K'
        refine ⟨n, by simp at hn ⊢; omega, fun fuel => ?_⟩
        have hch : isGap (charAt ((pre ++ g) ++ ('[' :: b ++ ']' :: (d :: g' ++ s ++ c :: post))) ((pre ++ g) ++ ('[' :: b ++ [']'])).length) = true := by
          have : (pre ++ g) ++ ('[' :: b ++ ']' :: (d :: g' ++ s ++ c :: post)) = ((pre ++ g) ++ ('[' :: b ++ [']'])) ++ d :: (g' ++ s ++ c :: post) := by simp
          rw [this, charAt_append]
          exact hd
        rw [eB, hitem, hch]
        have := h fuel
        simp only [if_true]
        have e2 : (pre ++ g) ++ ('[' :: b ++ [']', d]) ++ (g' ++ s) ++ c :: post = (pre ++ g) ++ ('[' :: b ++ ']' :: (d :: g' ++ s ++ c :: post)) := by simp
        have e3 : (pre ++ g) ++ ('[' :: b ++ [']', d]) ++ (g' ++ s) = pre ++ (g ++ ('[' :: b ++ ']' :: (d :: g' ++ s))) := by simp
        have e4 : ((pre ++ g) ++ ('[' :: b ++ [']', d])).length = ((pre ++ g) ++ ('[' :: b ++ [']'])).length + 1 := by simp; omega
        rw [e2, e3, e4] at this
        exact this
    obtain ⟨n, hn, h⟩ := hstep
    refine ⟨g.length + (n + 2), by simp at hn ⊢; omega, fun fuel => ?_⟩
    have hgap := parseLoop_gap convert g hg pre (('[' :: b ++ ']' :: (g' ++ s)) ++ c :: post) (n + 2 + fuel) K
    have e : pre ++ g ++ (('[' :: b ++ ']' :: (g' ++ s)) ++ c :: post) = pre ++ (g ++ ('[' :: b ++ ']' :: (g' ++ s))) ++ c :: post := by simp
    rw [e] at hgap
    rw [Nat.add_assoc, hgap, show n + 2 + fuel = n + fuel + 2 by omega, h]

/-- More rounds do not change a result. -/
theorem parseLoop_mono (block : List Char) : ∀ (fuel it : ℕ) (K : Complex α) (vs : List ℕ) (p : Bool) (r : Except Failure (Complex α)),
    r ≠ .error .running → parseLoop convert block fuel it K vs p = r → parseLoop convert block (fuel + 1) it K vs p = r := by
  intro fuel
  induction fuel with
  | zero =>
    intro it K vs p r hr h
    exact absurd h.symm hr
  | succ fuel ih =>
    intro it K vs p r hr h
    rw [parseLoop] at h ⊢
    split
    · rename_i h1
      rw [if_pos h1] at h
      exact h
    · rename_i h1
      rw [if_neg h1] at h
      simp only at h ⊢
      split
      · rename_i h2
        rw [if_pos h2] at h
        split
        · rename_i h3
          rw [if_pos h3] at h
          exact h
        · rename_i h3
          rw [if_neg h3] at h
          simp only [if_true] at h ⊢
          split
          · rename_i h4 h5
            simp only [h4, h5] at h
            exact ih _ _ _ _ _ hr h
          · rename_i h4
            split at h
            · rename_i h6 h7
              exact absurd h7 (h4 _ _ h6)
            · exact h
      · rename_i h2
        rw [if_neg h2] at h
        split
        · rename_i h3
          rw [if_pos h3] at h
          split
          · rename_i h4
            rw [if_pos h4] at h
            split <;> rename_i h5
            · simp only [h5] at h
              exact h
            · simp only [h5] at h
              simp only [Bool.false_eq_true, if_false] at h ⊢
              exact ih _ _ _ _ _ hr h
          · rename_i h4
            rw [if_neg h4] at h
            exact h
        · rename_i h3
          rw [if_neg h3] at h
          split
          · rename_i h4
            rw [if_pos h4] at h
            split
            · rename_i h5 h6
              simp only [h5, h6] at h
              exact ih _ _ _ _ _ hr h
            · rename_i h5
              split at h
              · rename_i h7 h8
                exact absurd h8 (h5 _ _ h7)
              · exact h
          · rename_i h4
            rw [if_neg h4] at h
            exact ih _ _ _ _ _ hr h

theorem parseLoop_mono' (block : List Char) (n fuel it : ℕ) (K : Complex α) (vs : List ℕ) (p : Bool) (r : Except Failure (Complex α))
    (hr : r ≠ .error .running) (h : parseLoop convert block fuel it K vs p = r) : parseLoop convert block (n + fuel) it K vs p = r := by
  induction n with
  | zero => rw [Nat.zero_add]; exact h
  | succ n ih => rw [Nat.succ_add]; exact parseLoop_mono convert block _ _ _ _ _ _ hr ih

/-! ### Brackets -/

theorem count_eq_zero' {c : Char} {l : List Char} (h : ∀ x ∈ l, x ≠ c) : l.count c = 0 := List.count_eq_zero.2 fun hc => h c hc rfl

theorem gap_count {g : List Char} (hg : Gap g) : g.count '[' = 0 ∧ g.count ']' = 0 :=
  ⟨count_eq_zero' fun x hx => (isGap_ne ((isGap_iff x).2 (hg x hx))).1, count_eq_zero' fun x hx => (isGap_ne ((isGap_iff x).2 (hg x hx))).2⟩

theorem numbers_count {b : List Char} {vs : List ℕ} (h : Numbers b vs) : b.count '[' = 0 ∧ b.count ']' = 0 :=
  ⟨count_eq_zero' fun x hx => (numbers_chars h x hx).1, count_eq_zero' fun x hx => (numbers_chars h x hx).2⟩

/-- All prefixes have at least as many opening as closing brackets. -/
def Open (s : List Char) : Prop := ∀ p, p <+: s → p.count ']' ≤ p.count '['

theorem open_append {s t : List Char} (hs : Open s) (ht : Open t) : Open (s ++ t) := by
  rintro p ⟨q, hq⟩
  rcases List.append_eq_append_iff.1 hq with ⟨u, rfl, _⟩ | ⟨u, rfl, h⟩
  · exact hs p ⟨u, rfl⟩
  · have h1 := hs s (List.prefix_refl _)
    have h2 := ht u ⟨q, h.symm⟩
    rw [List.count_append, List.count_append]
    omega

theorem open_none {s : List Char} (h : s.count ']' = 0) : Open s := by
  rintro p ⟨q, rfl⟩
  rw [List.count_append] at h
  omega

theorem items_count {s : List Char} {fs : List (List ℕ)} (hs : Items s fs) : s.count '[' = s.count ']' ∧ Open s := by
  induction hs with
  | nil => exact ⟨rfl, open_none rfl⟩
  | cons b vs g s fs hb hg _ ih =>
    obtain ⟨b1, b2⟩ := numbers_count hb
    obtain ⟨g1, g2⟩ := gap_count hg
    constructor
    · simp [List.count_append, b1, b2, g1, g2, ih.1]
    · have e : '[' :: b ++ ']' :: (g ++ s) = ('[' :: b ++ [']']) ++ (g ++ s) := by simp
      rw [e]
      refine open_append ?_ (open_append (open_none g2) ih.2)
      rintro p hp
      rcases List.prefix_concat_iff.1 hp with rfl | hp
      · simp [List.count_append, b1, b2]
      · obtain ⟨q, hq⟩ := hp
        have : ('[' :: b).count ']' = 0 := by simp [b2]
        rw [← hq, List.count_append] at this
        omega

theorem block_counts {B : List Char} {fs : List (List ℕ)} (h : Block B fs) :
    isBlockFinished B = true ∧ ∀ p q, p ≠ [] → q ≠ [] → B = p ++ q → isBlockFinished p = false := by
  obtain ⟨g, s, hg, hs, rfl⟩ := h
  obtain ⟨g1, g2⟩ := gap_count hg
  obtain ⟨s1, s2⟩ := items_count hs
  constructor
  · simp [isBlockFinished, List.count_append, g1, g2, s1]
  · intro p q hp hq e
    obtain ⟨c, p', rfl⟩ := List.exists_cons_of_ne_nil hp
    rw [List.cons_append, List.cons_append, List.cons.injEq] at e
    obtain ⟨rfl, e⟩ := e
    have hpre : p' <+: g ++ s := by
      rcases List.prefix_concat_iff.1 (⟨q, e.symm⟩ : p' <+: g ++ s ++ [']']) with h | h
      · rw [h] at e
        exact absurd (List.append_right_eq_self.1 e.symm) hq
      · exact h
    have := open_append (open_none g2) s2 p' hpre
    simp only [isBlockFinished, List.count_cons_self, beq_eq_false_iff_ne]
    have h2 : ('[' :: p').count ']' = p'.count ']' := by simp
    rw [h2]
    omega

/-! ### Blocks -/

/-- The simplices with the given vertices, without repetitions. -/
def complexOf (fs : List (List ℕ)) : Complex α := (Complex.insertRange [] (fs.map fun vs => Simplex.ofRange vs 0)).1

theorem parseBlock_spec (hc : Reads convert) {B : List Char} {fs : List (List ℕ)} (h : Block B fs) :
    ∀ fuel, B.length ≤ fuel → parseBlock (α := α) convert fuel B = .ok (complexOf fs) := by
  intro fuel hf
  have hfin := (block_counts h).1
  obtain ⟨g, s, hg, hs, rfl⟩ := h
  have e0 : findFrom '[' ('[' :: (g ++ s) ++ [']']) 0 = some 0 := by
    simp [findFrom, List.idxOf?_cons]
  rw [parseBlock, hfin]
  simp only [Bool.not_true, Bool.false_eq_true, if_false, e0]
  obtain ⟨n, hn, h⟩ := parseLoop_items (α := α) convert hc hs g hg ['['] ']' [] (by decide) []
  obtain ⟨m, rfl⟩ : ∃ m, fuel = n + (m + 1) := ⟨fuel - n - 1, by simp at hf hn; omega⟩
  have := h (m + 1)
  simp only [List.singleton_append, List.length_singleton] at this
  rw [this]
  have e5 : charAt ('[' :: (g ++ s) ++ [']']) ('[' :: (g ++ s)).length = ']' := charAt_append _ _ _
  have hl2 : ('[' :: (g ++ s)).length ≠ ('[' :: (g ++ s) ++ [']']).length := by simp
  have hne : ¬ (']' = '[') := by decide
  rw [parseLoop, if_neg hl2]
  simp only [e5, hne, if_false, if_true, Bool.false_eq_true]
  rfl

/-! ### Lines -/

theorem step_ignored (fuel : ℕ) (st : State α) {l : List Char} (h : Ignored l) : step convert fuel st l = .ok st := by
  obtain ⟨t, h1, h2⟩ := h
  simp only [step, trim_content h1]
  rw [if_pos]
  rcases h2 with rfl | h2
  · rfl
  · rw [h2]; simp

theorem step_other (fuel : ℕ) (st : State α) {l t : List Char} (h : Content l t) (h1 : t ≠ []) (h2 : t.head? ≠ some '#') :
    step convert fuel st l = (do
      let st ← match t.idxOf? '=' with
        | some p =>
          if st.parsingList then .error .exception
          else .ok { st with parsingList := true, block := Strings.trim (t.drop (p + 1)) }
        | none => .ok (if st.parsingList then { st with block := Strings.trim (st.block ++ t) } else st)
      if isBlockFinished st.block then
        let K ← parseBlock convert fuel st.block
        .ok { parsingList := false, block := [], result := st.result ++ [K] }
      else .ok st) := by
  have hb : (t.isEmpty || t.head? == some '#') = false := by
    rw [Bool.or_eq_false_iff]
    exact ⟨by simpa using h1, by simpa using h2⟩
  simp only [step, trim_content h, hb, Bool.false_eq_true, if_false]
  cases t.idxOf? '=' <;> rfl

theorem idxOf?_none {t : List Char} (h : '=' ∉ t) : t.idxOf? '=' = none := by
  rw [List.idxOf?_eq_none_iff]; exact h

theorem more_nil (fuel : ℕ) (st : State α) {ls : List (List Char)} (h : More ls []) : ls.foldlM (step convert fuel) st = .ok st := by
  generalize hb : ([] : List Char) = b at h
  induction h with
  | nil => rfl
  | skip l ls b hl _ ih =>
    rw [List.foldlM_cons, step_ignored convert fuel st hl]
    exact ih hb
  | cons l t ls b _ ht _ _ _ _ =>
    exact absurd (List.append_eq_nil_iff.1 hb.symm).1 ht

theorem block_head {B : List Char} {fs : List (List ℕ)} (h : Block B fs) : B.head? = some '[' := by
  obtain ⟨g, s, _, _, rfl⟩ := h; rfl

theorem more_spec (hc : Reads convert) (fuel : ℕ) {ls : List (List Char)} {b : List Char} (h : More ls b) : ∀ (p : List Char) (fs : List (List ℕ)) (r : List (Complex α)),
    p ≠ [] → b ≠ [] → Block (p ++ b) fs → (p ++ b).length ≤ fuel →
    ls.foldlM (step convert fuel) ⟨true, p, r⟩ = .ok ⟨false, [], r ++ [complexOf fs]⟩ := by
  induction h with
  | nil => intro p fs r _ hb; exact absurd rfl hb
  | skip l ls b hl _ ih =>
    intro p fs r hp hb hB hf
    rw [List.foldlM_cons, step_ignored convert fuel _ hl]
    exact ih p fs r hp hb hB hf
  | cons l t ls b hl ht h1 h2 hm ih =>
    intro p fs r hp _ hB hf
    have hcont := hl
    obtain ⟨_, _, _, _, _, _, hlast⟩ := hl
    have htrim : Strings.trim (p ++ t) = p ++ t := by
      refine trim_content (content_self ?_ ?_)
      · intro c hcc
        have := block_head hB
        rw [List.head?_append_of_ne_nil _ hp] at this hcc
        rw [this] at hcc
        obtain rfl := Option.some.inj hcc
        simp [Blank]
      · intro c hcc
        rw [List.getLast?_append_of_ne_nil _ ht] at hcc
        exact hlast c hcc
    rw [List.foldlM_cons, step_other convert fuel _ hcont ht h1, idxOf?_none h2]
    simp only [if_true, htrim, bind, Except.bind]
    rw [← List.append_assoc] at hB hf
    by_cases hb : b = []
    · subst hb
      rw [List.append_nil] at hB hf
      rw [(block_counts hB).1, parseBlock_spec convert hc hB fuel hf]
      simp only [if_true]
      exact more_nil convert fuel _ hm
    · rw [(block_counts hB).2 (p ++ t) b (by simp [hp]) hb rfl]
      simp only [Bool.false_eq_true, if_false]
      exact ih (p ++ t) fs r (by simp [hp]) hb hB hf

theorem file_spec (hc : Reads convert) {ls : List (List Char)} {r : List (List (List ℕ))} (h : File ls r) :
    ∃ F, ∀ fuel, F ≤ fuel → ∀ (Ks : List (Complex α)), ls.foldlM (step convert fuel) ⟨false, [], Ks⟩ = .ok ⟨false, [], Ks ++ r.map complexOf⟩ := by
  induction h with
  | nil => exact ⟨0, fun _ _ Ks => by simp; rfl⟩
  | skip l ls r hl _ ih =>
    obtain ⟨F, hF⟩ := ih
    refine ⟨F, fun fuel hf Ks => ?_⟩
    rw [List.foldlM_cons, step_ignored convert fuel _ hl]
    exact hF fuel hf Ks
  | block l t name a first b more ls fs r hl ht hname hcomment ha hfirst hmore hB _ ih =>
    obtain ⟨F, hF⟩ := ih
    refine ⟨max F (first ++ b).length, fun fuel hf Ks => ?_⟩
    have hne : t ≠ [] := by rw [ht]; simp
    have hh : t.head? ≠ some '#' := by
      rw [ht]
      cases name with
      | nil => simp
      | cons c name => simpa using hcomment
    have hpos : t.idxOf? '=' = some name.length := by rw [ht]; exact idxOf?_append name a hname
    have hdrop : t.drop (name.length + 1) = a := by
      rw [ht, show name ++ '=' :: a = (name ++ ['=']) ++ a by simp, List.drop_left' (by simp)]
    rw [List.foldlM_cons, step_other convert fuel _ hl hne hh, hpos]
    simp only [Bool.false_eq_true, if_false, hdrop, trim_content ha, bind, Except.bind]
    have key : List.foldlM (step convert fuel) ⟨true, first, Ks⟩ more = (.ok ⟨false, [], Ks ++ [complexOf fs]⟩ : Except Failure (State α)) ∨ b = [] := by
      by_cases hb : b = []
      · exact Or.inr hb
      · exact Or.inl (more_spec convert hc fuel hmore first fs Ks hfirst hb hB (le_trans (le_max_right _ _) hf))
    by_cases hb : b = []
    · subst hb
      rw [List.append_nil] at hB hf
      rw [(block_counts hB).1, parseBlock_spec convert hc hB fuel (le_trans (le_max_right _ _) hf)]
      simp only [if_true]
      rw [List.foldlM_append, more_nil convert fuel _ hmore]
      have := hF fuel (le_trans (le_max_left _ _) hf) (Ks ++ [complexOf fs])
      simp only [bind, Except.bind]
      rw [this]
      simp
    · have h1 := key.resolve_right hb
      rw [(block_counts hB).2 first b hfirst hb rfl]
      simp only [Bool.false_eq_true, if_false]
      rw [List.foldlM_append, h1]
      have := hF fuel (le_trans (le_max_left _ _) hf) (Ks ++ [complexOf fs])
      simp only [bind, Except.bind]
      rw [this]
      simp

/-! ### Theorems -/

/-- A complex consists of the given simplices: one for each set of vertices, in the order of their first occurrences, with zero data. -/
def _root_.Aleph.Spec.Triangulation.IsComplexOf (K : Complex α) (fs : List (List ℕ)) : Prop :=
  WF K ∧ (∀ vs ∈ fs, vs.toFinset ∈ K.map Simplex.vset) ∧ (K.map Simplex.vset).Sublist (fs.map List.toFinset) ∧ ∀ s ∈ K, s.data = 0

theorem insertRange_complex : ∀ (fs : List (List ℕ)) (K : Complex α), (∀ vs ∈ fs, vs ≠ []) → WF K → (∀ s ∈ K, s.data = 0) →
    ∃ L, (Complex.insertRange K (fs.map fun vs => Simplex.ofRange vs 0)).1 = K ++ L ∧ WF (K ++ L) ∧ (∀ vs ∈ fs, vs.toFinset ∈ (K ++ L).map Simplex.vset) ∧
      (L.map Simplex.vset).Sublist (fs.map List.toFinset) ∧ ∀ s ∈ L, s.data = 0 := by
  intro fs
  induction fs with
  | nil =>
    intro K _ hK _
    exact ⟨[], by simp [Complex.insertRange], by simpa using hK, by simp, by simp, by simp⟩
  | cons vs fs ih =>
    intro K hne hK h0
    have hvs := ofRange_ne_nil (α := α) (hne vs (by simp)) 0
    rw [List.map_cons, Complex.insertRange]
    by_cases hcon : K.contains (Simplex.ofRange vs (0 : α)).vertices = true
    · have e : K.pushBack (Simplex.ofRange vs 0) = some K := by simp [Complex.pushBack, hvs, hcon]
      rw [e]
      obtain ⟨L, l1, l2, l3, l4, l5⟩ := ih K (fun v hv => hne v (by simp [hv])) hK h0
      refine ⟨L, l1, l2, ?_, ?_, l5⟩
      · intro v hv
        rcases List.mem_cons.1 hv with rfl | hv
        · rw [Complex.contains, Complex.find, List.find?_isSome] at hcon
          obtain ⟨s, hs, hs'⟩ := hcon
          rw [List.map_append, List.mem_append]
          left
          refine List.mem_map.2 ⟨s, hs, ?_⟩
          rw [← ofRange_vset v (0 : α), Simplex.vset, Simplex.vset]
          have : s.vertices = (Simplex.ofRange v (0 : α)).vertices := by simpa using hs'
          rw [this]
        · exact l3 v hv
      · exact l4.cons _
    · have e : K.pushBack (Simplex.ofRange vs 0) = some (K ++ [Simplex.ofRange vs 0]) := by simp [Complex.pushBack, hvs, hcon]
      rw [e]
      have hwf : WF (K ++ [Simplex.ofRange vs 0]) := pushBack_wf hK (ofRange_normal vs 0) e
      obtain ⟨L, l1, l2, l3, l4, l5⟩ := ih (K ++ [Simplex.ofRange vs 0]) (fun v hv => hne v (by simp [hv])) hwf (by
        intro s hs
        rcases List.mem_append.1 hs with hs | hs
        · exact h0 s hs
        · rw [List.mem_singleton] at hs; rw [hs]; rfl)
      refine ⟨Simplex.ofRange vs 0 :: L, by rw [l1]; simp, by simpa using l2, ?_, ?_, ?_⟩
      · intro v hv
        rcases List.mem_cons.1 hv with rfl | hv
        · refine List.mem_map.2 ⟨Simplex.ofRange v 0, by simp, ofRange_vset v 0⟩
        · have := l3 v hv
          simpa using this
      · rw [List.map_cons, List.map_cons, ofRange_vset]
        exact l4.cons_cons _
      · intro s hs
        rcases List.mem_cons.1 hs with rfl | hs
        · rfl
        · exact l5 s hs

theorem complexOf_spec {fs : List (List ℕ)} (h : ∀ vs ∈ fs, vs ≠ []) : IsComplexOf (complexOf (α := α) fs) fs := by
  obtain ⟨L, l1, l2, l3, l4, l5⟩ := insertRange_complex (α := α) fs [] h ⟨by simp, by simp, by simp⟩ (by simp)
  rw [List.nil_append] at l1 l2 l3
  rw [complexOf, l1]
  exact ⟨l2, l3, l4, l5⟩

theorem items_ne {s : List Char} {fs : List (List ℕ)} (h : Items s fs) : ∀ vs ∈ fs, vs ≠ [] := by
  induction h with
  | nil => simp
  | cons b vs g s fs hb _ _ ih =>
    intro v hv
    rcases List.mem_cons.1 hv with rfl | hv
    · exact numbers_vertices_ne hb
    · exact ih v hv

theorem file_ne {ls : List (List Char)} {r : List (List (List ℕ))} (h : File ls r) : ∀ fs ∈ r, ∀ vs ∈ fs, vs ≠ [] := by
  induction h with
  | nil => simp
  | skip _ _ _ _ _ ih => exact ih
  | block l t name a first b more ls fs r _ _ _ _ _ _ _ hB _ ih =>
    intro x hx
    rcases List.mem_cons.1 hx with rfl | hx
    · obtain ⟨_, _, _, hs, _⟩ := hB
      exact items_ne hs
    · exact ih x hx

/-- C128 (partial). A file in the format of lexicographic triangulations is read completely: one complex for each block, with one simplex for each set of vertices in the block, in
the order of the file.  Blocks may extend over several lines; whitespace around numbers and simplices, empty lines and comments do not matter.  The list of a block must start in the same
line as its name, see `C128_split_name`. -/
theorem _root_.Aleph.C128_read_partial (hc : Reads convert) (text : List Char) {ls : List (List Char)} {u : Bool} (hl : Spec.Lines text ls u) {r : List (List (List ℕ))} (h : File ls r) :
    ∃ F, ∀ fuel, F ≤ fuel → ∃ Ks : List (Complex α), read convert fuel text = .ok Ks ∧ List.Forall₂ IsComplexOf Ks r := by
  obtain ⟨F, hF⟩ := file_spec (α := α) convert hc h
  refine ⟨F, fun fuel hf => ⟨r.map complexOf, ?_, ?_⟩⟩
  · rw [read, getlines_spec text ls u hl, hF fuel hf []]
    simp
  · rw [List.forall₂_map_left_iff, List.forall₂_same]
    exact fun fs hfs => complexOf_spec (file_ne h fs hfs)

/-- C128. The name of a block and its list must not be in different lines: instead of the block, two empty complexes are reported. -/
theorem _root_.Aleph.C128_split_name (text name l l' B : List Char) {u : Bool} (hl : Spec.Lines text [l, l'] u) (h1 : Content l (name ++ ['='])) (hname : '=' ∉ name)
    (hcomment : name.head? ≠ some '#') (h2 : Content l' B) (hB : ∃ fs, Block B fs) (hB' : '=' ∉ B) (fuel : ℕ) :
    read (α := α) convert (fuel + 1) text = .ok [[], []] := by
  obtain ⟨fs, hB⟩ := hB
  have hh : (name ++ ['=']).head? ≠ some '#' := by
    cases name with
    | nil => simp
    | cons c name => simpa using hcomment
  have hpos : (name ++ ['=']).idxOf? '=' = some name.length := idxOf?_append name [] hname
  have hdrop : (name ++ ['=']).drop (name.length + 1) = [] := by simp
  have hp : parseBlock (α := α) convert (fuel + 1) [] = .ok [] := by simp [parseBlock, isBlockFinished, findFrom, parseLoop]
  have hb := block_head hB
  have hBne : B ≠ [] := by rintro rfl; simp at hb
  have hBc : B.head? ≠ some '#' := by rw [hb]; decide
  have htrim : Strings.trim ([] : List Char) = [] := rfl
  have hfin : isBlockFinished [] = true := rfl
  rw [read, getlines_spec text _ u hl, List.foldlM_cons, step_other convert _ _ h1 (by simp) hh, hpos]
  simp only [Bool.false_eq_true, if_false, hdrop, htrim, bind, Except.bind, hfin, if_true, hp]
  rw [List.foldlM_cons, step_other convert _ _ h2 hBne hBc, idxOf?_none hB']
  simp only [Bool.false_eq_true, if_false, bind, Except.bind, hfin, if_true, hp]
  rfl

/-- C128. A line without equals sign outside of blocks, which is neither empty nor a comment, adds an empty complex to the result. -/
theorem _root_.Aleph.C128_stray (text l t : List Char) {u : Bool} (hl : Spec.Lines text [l] u) (h1 : Content l t) (h2 : t ≠ []) (h3 : t.head? ≠ some '#') (h4 : '=' ∉ t) (fuel : ℕ) :
    read (α := α) convert (fuel + 1) text = .ok [[]] := by
  have hp : parseBlock (α := α) convert (fuel + 1) [] = .ok [] := by simp [parseBlock, isBlockFinished, findFrom, parseLoop]
  have hfin : isBlockFinished [] = true := rfl
  rw [read, getlines_spec text _ u hl, List.foldlM_cons, step_other convert _ _ h1 h2 h3, idxOf?_none h4]
  simp only [Bool.false_eq_true, if_false, bind, Except.bind, hfin, if_true, hp]
  rfl

/-- C128. A block without closing brackets at the end of a file is ignored; a block that starts within another block raises an exception. -/
theorem _root_.Aleph.C128_unfinished (text l name a first : List Char) (ls : List (List Char)) {u : Bool} (hl : Spec.Lines text (l :: ls) u) (h1 : Content l (name ++ '=' :: a))
    (hname : '=' ∉ name) (hcomment : name.head? ≠ some '#') (ha : Content a first) (hopen : first.count '[' ≠ first.count ']') (fuel : ℕ) :
    ((∀ x ∈ ls, Ignored x) → read (α := α) convert fuel text = .ok []) ∧
    (∀ (l' : List Char) (t' : List Char) (ls' : List (List Char)), ls = l' :: ls' → Content l' t' → '=' ∈ t' → t'.head? ≠ some '#' → read (α := α) convert fuel text = .error .exception) := by
  have hh : (name ++ '=' :: a).head? ≠ some '#' := by
    cases name with
    | nil => simp
    | cons c name => simpa using hcomment
  have hpos : (name ++ '=' :: a).idxOf? '=' = some name.length := idxOf?_append name a hname
  have hdrop : (name ++ '=' :: a).drop (name.length + 1) = a := by
    rw [show name ++ '=' :: a = (name ++ ['=']) ++ a by simp, List.drop_left' (by simp)]
  have hfin : isBlockFinished first = false := by simpa [isBlockFinished] using hopen
  have hstep : step (α := α) convert fuel ⟨false, [], []⟩ l = .ok ⟨true, first, []⟩ := by
    rw [step_other convert _ _ h1 (by simp) hh, hpos]
    simp only [Bool.false_eq_true, if_false, hdrop, trim_content ha, bind, Except.bind, hfin]
  constructor
  · intro hig
    have : ls.foldlM (step (α := α) convert fuel) ⟨true, first, []⟩ = .ok ⟨true, first, []⟩ := by
      clear hl
      induction ls with
      | nil => rfl
      | cons x ls ih =>
        rw [List.foldlM_cons, step_ignored convert fuel _ (hig x (by simp))]
        exact ih fun y hy => hig y (by simp [hy])
    rw [read, getlines_spec text _ u hl, List.foldlM_cons, hstep]
    simp only [bind, Except.bind, this]
  · rintro l' t' ls' rfl hl' heq hcom
    have hne : t' ≠ [] := by rintro rfl; simp at heq
    have hstep' : step (α := α) convert fuel ⟨true, first, []⟩ l' = .error .exception := by
      obtain ⟨p, hp⟩ : ∃ p, t'.idxOf? '=' = some p := by
        cases h : t'.idxOf? '=' with
        | none => exact absurd heq (List.idxOf?_eq_none_iff.1 h)
        | some p => exact ⟨p, rfl⟩
      rw [step_other convert _ _ hl' hne hcom, hp]
      simp only [if_true, bind, Except.bind]
    rw [read, getlines_spec text _ u hl, List.foldlM_cons, hstep]
    simp only [bind, Except.bind]
    rw [List.foldlM_cons, hstep']
    simp only [bind, Except.bind]

theorem parseLoop_hang (block : List Char) (it : ℕ) (K : Complex α) (hit : it ≠ block.length) (h : charAt block it ≠ '[' ∧ charAt block it ≠ ']') (hg : isGap (charAt block it) = false) :
    ∀ fuel, parseLoop convert block fuel it K [] false = .error .running := by
  intro fuel
  induction fuel with
  | zero => rfl
  | succ fuel ih =>
    rw [parseLoop_other convert block fuel it K hit h, hg]
    exact ih

/-- C128. The reader never returns if a list contains any other character between its simplices, for instance a digit: for all numbers of rounds, the loop is still running. -/
theorem _root_.Aleph.C128_hang (hc : Reads convert) (text l name first g s : List Char) (c : Char) (post : List Char) (ls : List (List Char)) (fs : List (List ℕ)) {u : Bool} (hl : Spec.Lines text (l :: ls) u)
    (a : List Char) (h1 : Content l (name ++ '=' :: a)) (hname : '=' ∉ name) (hcomment : name.head? ≠ some '#') (ha : Content a first) (hg : Gap g) (hs : Items s fs)
    (hfirst : first = '[' :: (g ++ s) ++ c :: post) (hcc : c ≠ '[' ∧ c ≠ ']' ∧ c ≠ ',' ∧ ¬ Blank c) (hbal : first.count '[' = first.count ']') (fuel : ℕ) :
    read (α := α) convert fuel text = .error .running := by
  have hh : (name ++ '=' :: a).head? ≠ some '#' := by
    cases name with
    | nil => simp
    | cons c name => simpa using hcomment
  have hpos : (name ++ '=' :: a).idxOf? '=' = some name.length := idxOf?_append name a hname
  have hdrop : (name ++ '=' :: a).drop (name.length + 1) = a := by
    rw [show name ++ '=' :: a = (name ++ ['=']) ++ a by simp, List.drop_left' (by simp)]
  have hfin : isBlockFinished first = true := by simpa [isBlockFinished] using hbal
  have hgc : isGap c = false := by
    rw [← Bool.not_eq_true, isGap_iff]
    push Not
    exact ⟨hcc.2.2.1, hcc.2.2.2⟩
  have hp : parseBlock (α := α) convert fuel first = .error .running := by
    have e0 : findFrom '[' first 0 = some 0 := by
      rw [hfirst]
      simp [findFrom, List.idxOf?_cons]
    rw [parseBlock, hfin]
    simp only [Bool.not_true, Bool.false_eq_true, if_false, e0]
    obtain ⟨n, _, h⟩ := parseLoop_items (α := α) convert hc hs g hg ['['] c post hgc []
    have e5 : charAt ('[' :: (g ++ s) ++ c :: post) ('[' :: (g ++ s)).length = c := charAt_append _ _ _
    by_contra hne
    have := parseLoop_mono' convert first n fuel _ _ _ _ _ hne rfl
    rw [hfirst] at this hne
    have h' := h fuel
    simp only [List.singleton_append, List.length_singleton] at h'
    rw [h', parseLoop_hang convert _ _ _ (by simp) (by rw [e5]; exact ⟨hcc.1, hcc.2.1⟩) (by rw [e5]; exact hgc)] at this
    exact hne this.symm
  rw [read, getlines_spec text _ u hl, List.foldlM_cons, step_other convert _ _ h1 (by simp) hh, hpos]
  simp only [Bool.false_eq_true, if_false, hdrop, trim_content ha, bind, Except.bind, hfin, if_true, hp]

/-- C128. A simplex without vertices is not rejected: if the conversion of an empty text is zero, which is the case for the conversion by streams, it is the vertex 0. -/
theorem _root_.Aleph.C128_empty_simplex (h0 : convert [] = 0) (fuel : ℕ) : parseBlock (α := α) convert (fuel + 4) "[[]]".toList = .ok [Simplex.ofVertex 0 0] := by
  show parseBlock (α := α) convert (fuel + 4) ['[', '[', ']', ']'] = _
  simp [parseBlock, isBlockFinished, findFrom, parseLoop, charAt, List.idxOf?_cons, Strings.isSpace, Strings.trim, Strings.rtrim, Strings.ltrim, splitEach, h0, Complex.pushBack, Simplex.ofRange, uniq, Simplex.ofVertex,
    Complex.contains, Complex.find]

/-- C128. A file that cannot be opened raises an exception. -/
theorem _root_.Aleph.C128_file (fuel : ℕ) : readFile (α := α) convert fuel none = .error .exception := rfl

/-! ### Examples -/

/-- There is a conversion that reads numbers. -/
theorem reads_exists : Reads (fun t => (t.filter fun c => decide (48 ≤ c.toNat ∧ c.toNat ≤ 57)).foldl (fun n c => 10 * n + (c.toNat - 48)) 0) := by
  rintro t v ⟨a, d, b, rfl, ha, hb, _, hd, hv⟩
  have hf : ∀ l : List Char, (∀ c ∈ l, Blank c) → l.filter (fun c => decide (48 ≤ c.toNat ∧ c.toNat ≤ 57)) = [] := by
    intro l hl
    rw [List.filter_eq_nil_iff]
    intro c hc h
    exact (digit_ne (of_decide_eq_true h)).2.2.2 (hl c hc)
  have hd' : d.filter (fun c => decide (48 ≤ c.toNat ∧ c.toNat ≤ 57)) = d := by
    rw [List.filter_eq_self]
    exact fun c hc => decide_eq_true (hd c hc)
  simp only [List.filter_append, hf a ha, hf b hb, hd', List.nil_append, List.append_nil]
  exact hv

/-- A block that extends over two lines, with a blank before a number. -/
theorem example_file : File ["m=[[1,2],".toList, "[2, 3]]".toList] [[[1, 2], [2, 3]]] := by
  have hv : ∀ c, c ∈ ['1', '2', '3'] → Vertex [c] (c.toNat - 48) := by
    intro c hc
    simp only [List.mem_cons, List.not_mem_nil, or_false] at hc
    refine ⟨[], [c], [], by simp, by simp, by simp, by simp, ?_, by simp⟩
    rcases hc with rfl | rfl | rfl <;> simp
  have hb : Vertex [' ', '3'] 3 := ⟨[' '], ['3'], [], by simp, by simp [Blank], by simp, by simp, by simp, by simp⟩
  have b1 : Numbers ['1', ',', '2'] [1, 2] := .cons ['1'] 1 ['2'] [2] (hv '1' (by simp)) (.one _ _ (hv '2' (by simp)))
  have b2 : Numbers ['2', ',', ' ', '3'] [2, 3] := .cons ['2'] 2 [' ', '3'] [3] (hv '2' (by simp)) (.one _ _ hb)
  have items : Items "[1,2],[2, 3]".toList [[1, 2], [2, 3]] := .cons ['1', ',', '2'] [1, 2] [','] "[2, 3]".toList [[2, 3]] b1 (by simp [Gap]) (.cons ['2', ',', ' ', '3'] [2, 3] [] [] [] b2 (by simp [Gap]) .nil)
  have hself : ∀ t : List Char, (∀ c, t.head? = some c → ¬ Blank c) → (∀ c, t.getLast? = some c → ¬ Blank c) → Content t t := fun t => content_self
  have hmore : More ["[2, 3]]".toList] "[2, 3]]".toList := by
    have := More.cons "[2, 3]]".toList "[2, 3]]".toList [] [] (hself _ (by simp [Blank]) (by simp [Blank])) (by simp) (by simp) (by simp) .nil
    simpa using this
  exact .block "m=[[1,2],".toList "m=[[1,2],".toList ['m'] "[[1,2],".toList "[[1,2],".toList "[2, 3]]".toList ["[2, 3]]".toList] [] _ _
    (hself _ (by simp [Blank]) (by simp [Blank])) (by simp) (by simp) (by simp) (hself _ (by simp [Blank]) (by simp [Blank])) (by simp) hmore
    ⟨[], "[1,2],[2, 3]".toList, by simp [Gap], items, by simp⟩ .nil

/-- Hypotheses of C128: the lines of the example. -/
example : Spec.Lines "m=[[1,2],\n[2, 3]]".toList ["m=[[1,2],".toList, "[2, 3]]".toList] true :=
  .cons "m=[[1,2],".toList "[2, 3]]".toList _ true (by simp) (.last _ (by simp) (by simp))

/-- The reader does not return for a list of numbers. -/
example : read (α := ℕ) (fun t => (t.filter fun c => decide (48 ≤ c.toNat ∧ c.toNat ≤ 57)).foldl (fun n c => 10 * n + (c.toNat - 48)) 0) 1000 "x=[1,2]".toList = .error .running :=
  C128_hang _ reads_exists _ "x=[1,2]".toList ['x'] "[1,2]".toList [] [] '1' ",2]".toList [] [] (.last _ (by simp) (by simp)) "[1,2]".toList
    (content_self (by simp [Blank]) (by simp [Blank])) (by simp) (by simp) (content_self (by simp [Blank]) (by simp [Blank])) (by simp [Gap]) .nil (by simp) (by simp [Blank]) (by decide) 1000

end Aleph.TriangulationReader
