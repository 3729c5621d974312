import Verif.Model.ConnectivityAnalysis
import Verif.Lemmas.LexOrder
import Verif.Lemmas.MeshQueries
import Verif.Props.AdjacencyMatrixReader
import Verif.Props.DiagramJson
import Verif.Props.Filesystem

/-!
# C162: the tool `connectivity_matrix_analysis`
-/

namespace Aleph.ConnectivityAnalysis

open Finset Spec SpanningTree Files

/-! ### Texts that are not JSON -/

/-- Reads a text from left to right, keeping track of strings; fails at an opening brace right after a closing brace.  The last character is kept. -/
def scan : Bool × Char → List Char → Option (Bool × Char)
  | q, [] => some q
  | (true, _), c :: t => scan (c != '"', c) t
  | (false, p), c :: t => if p = '}' ∧ c = '{' then none else scan (c == '"', c) t

theorem scan_append (q : Bool × Char) (s t : List Char) : scan q (s ++ t) = (scan q s).bind fun q' => scan q' t := by
  induction s generalizing q with
  | nil => rfl
  | cons c s ih =>
    obtain ⟨b, p⟩ := q
    cases b
    · simp only [List.cons_append, scan]
      split
      · rfl
      · exact ih _
    · simp only [List.cons_append, scan]
      exact ih _

theorem scan_last {q r : Bool × Char} {t : List Char} {c : Char} (h : scan q (t ++ [c]) = some r) : r.2 = c := by
  rw [scan_append] at h
  cases h1 : scan q t with
  | none => rw [h1] at h; simp at h
  | some q' =>
    rw [h1] at h
    obtain ⟨b, p⟩ := q'
    cases b
    · simp only [Option.bind_some, scan] at h
      split at h
      · cases h
      · cases h; rfl
    · simp only [Option.bind_some, scan] at h
      cases h; rfl

/-- Outside of strings, the text can be read after any character. -/
def Reads (t : List Char) : Prop := ∀ p, p ≠ '}' → ∃ l, scan (false, p) t = some (false, l)

theorem scan_cons {p c : Char} {t : List Char} (hc : c ≠ '"') (h : p ≠ '}' ∨ c ≠ '{') : scan (false, p) (c :: t) = scan (false, c) t := by
  rw [scan, if_neg (by rintro ⟨h1, h2⟩; rcases h with h | h <;> contradiction), show (c == '"') = false by simpa using hc]

theorem scan_blank {g : List Char} (hg : JsonBlank g) (p : Char) : ∃ l, scan (false, p) g = some (false, l) ∧ (p ≠ '}' → l ≠ '}') := by
  induction g generalizing p with
  | nil => exact ⟨p, rfl, id⟩
  | cons c g ih =>
    have hc := hg c (List.mem_cons_self ..)
    obtain ⟨l, h1, h2⟩ := ih (fun c hc => hg c (List.mem_cons_of_mem _ hc)) c
    refine ⟨l, ?_, fun _ => h2 (by rintro rfl; revert hc; decide)⟩
    rw [scan_cons (by rintro rfl; revert hc; decide) (.inr (by rintro rfl; revert hc; decide))]
    exact h1

theorem scan_plain {s : List Char} (hs : JsonPlain s) (p : Char) : ∃ l, scan (true, p) s = some (true, l) := by
  induction s generalizing p with
  | nil => exact ⟨p, rfl⟩
  | cons c s ih =>
    obtain ⟨l, h⟩ := ih (fun c hc => hs c (List.mem_cons_of_mem _ hc)) c
    refine ⟨l, ?_⟩
    have hc := (hs c (List.mem_cons_self ..)).1
    rw [scan, show (c != '"') = true by simpa using hc]
    exact h

/-- A string. -/
theorem scan_string {s : List Char} (hs : JsonPlain s) (p : Char) : scan (false, p) ('"' :: s ++ ['"']) = some (false, '"') := by
  obtain ⟨l, h⟩ := scan_plain hs '"'
  rw [List.cons_append, scan, if_neg (fun h => absurd h.2 (by decide)), show ('"' == '"') = true from rfl, scan_append, h]
  rfl

theorem scan_digits {t : List Char} (h : ∀ c ∈ t, '0' ≤ c ∧ c ≤ '9') (p : Char) : ∃ l, scan (false, p) t = some (false, l) := by
  induction t generalizing p with
  | nil => exact ⟨p, rfl⟩
  | cons c t ih =>
    have hc := h c (List.mem_cons_self ..)
    obtain ⟨l, h1⟩ := ih (fun c hc => h c (List.mem_cons_of_mem _ hc)) c
    refine ⟨l, ?_⟩
    rw [scan_cons (by rintro rfl; revert hc; decide) (.inr (by rintro rfl; revert hc; decide))]
    exact h1

/-- The beginning of a member. -/
theorem scan_key {g k h : List Char} (hg : JsonBlank g) (hk : JsonPlain k) (hh : JsonBlank h) {p : Char} (s : List Char) :
    scan (false, p) (g ++ '"' :: k ++ '"' :: h ++ ':' :: s) = scan (false, ':') s := by
  obtain ⟨l1, e1, -⟩ := scan_blank hg p
  have e2 := scan_string hk l1
  obtain ⟨l3, e3, -⟩ := scan_blank hh '"'
  rw [show g ++ '"' :: k ++ '"' :: h ++ ':' :: s = g ++ (('"' :: k ++ ['"']) ++ (h ++ ':' :: s)) by simp, scan_append, e1, Option.bind_some, scan_append, e2, Option.bind_some,
    scan_append, e3, Option.bind_some, scan_cons (by decide) (.inr (by decide))]

mutual

theorem json_reads {t : List Char} {v : Json} : IsJson t v → Reads t
  | .blank g t h v hg hh ht => by
    intro p hp
    obtain ⟨l1, e1, n1⟩ := scan_blank hg p
    obtain ⟨l2, e2⟩ := json_reads ht l1 (n1 hp)
    obtain ⟨l3, e3, -⟩ := scan_blank hh l2
    exact ⟨l3, by rw [List.append_assoc, scan_append, e1, Option.bind_some, scan_append, e2, Option.bind_some, e3]⟩
  | .text s hs => fun p _ => ⟨_, scan_string hs p⟩
  | .number t n hn => fun p _ => scan_digits hn.2.1 p
  | .negative t n hn => fun p _ => by
    rw [scan_cons (by decide) (.inr (by decide))]
    exact scan_digits hn.2.1 _
  | .emptyArray g hg => fun p _ => by
    obtain ⟨l, e, -⟩ := scan_blank hg '['
    refine ⟨']', ?_⟩
    rw [List.cons_append, scan_cons (by decide) (.inr (by decide)), scan_append, e, Option.bind_some, scan_cons (by decide) (.inr (by decide)), scan]
  | .array t vs ht => fun p _ => by
    obtain ⟨l, e⟩ := elements_reads ht '[' (by decide)
    refine ⟨']', ?_⟩
    rw [List.cons_append, scan_cons (by decide) (.inr (by decide)), scan_append, e, Option.bind_some, scan_cons (by decide) (.inr (by decide)), scan]
  | .emptyObject g hg => fun p hp => by
    obtain ⟨l, e, -⟩ := scan_blank hg '{'
    refine ⟨'}', ?_⟩
    rw [List.cons_append, scan_cons (by decide) (.inl hp), scan_append, e, Option.bind_some, scan_cons (by decide) (.inr (by decide)), scan]
  | .object t ms ht => fun p hp => by
    obtain ⟨l, e⟩ := members_reads ht '{' (by decide)
    refine ⟨'}', ?_⟩
    rw [List.cons_append, scan_cons (by decide) (.inl hp), scan_append, e, Option.bind_some, scan_cons (by decide) (.inr (by decide)), scan]

theorem elements_reads {t : List Char} {vs : List Json} : IsElements t vs → Reads t
  | .one t v ht => json_reads ht
  | .cons t s v vs ht hs => fun p hp => by
    obtain ⟨l1, e1⟩ := json_reads ht p hp
    obtain ⟨l2, e2⟩ := elements_reads hs ',' (by decide)
    refine ⟨l2, ?_⟩
    rw [scan_append, e1, Option.bind_some, scan_cons (by decide) (.inr (by decide)), e2]

theorem members_reads {t : List Char} {ms : List (List Char × Json)} : IsMembers t ms → Reads t
  | .one g k h t v hg hk hh ht => fun p _ => by
    obtain ⟨l1, e1⟩ := json_reads ht ':' (by decide)
    exact ⟨l1, by rw [scan_key hg hk hh, e1]⟩
  | .cons g k h t s v ms hg hk hh ht hs => fun p _ => by
    obtain ⟨l1, e1⟩ := json_reads ht ':' (by decide)
    obtain ⟨l2, e2⟩ := members_reads hs ',' (by decide)
    refine ⟨l2, ?_⟩
    rw [show g ++ '"' :: k ++ '"' :: h ++ ':' :: t ++ ',' :: s = g ++ '"' :: k ++ '"' :: h ++ ':' :: (t ++ ',' :: s) by simp, scan_key hg hk hh,
      scan_append, e1, Option.bind_some, scan_cons (by decide) (.inr (by decide)), e2]

end

variable {α : Type}

/-- The value that the documentation of the JSON format promises for a diagram, with the attributes added by the tool. -/
def reported [DecidableEq α] (inf : α) (print : α → List Char) (total : ℕ → Diagram α → List Char) (entropy : Diagram α → List Char) (name : List Char) (D : Diagram α) : Json :=
  .object ([("betti".toList, .number (D.points.countP fun p => p.2 = inf)), ("dimension".toList, .number D.dimension),
    ("persistent_entropy".toList, .text (entropy D)), ("total_persistence_1".toList, .text (total 1 D)), ("total_persistence_2".toList, .text (total 2 D))] ++
    (if name = [] then [] else [("name".toList, .text name)]) ++
    [("size".toList, .number D.points.length), ("diagram".toList, .array (D.points.map fun p => .array [.text (print p.1), .text (print p.2)]))])

/-- The diagram with another value for infinity, if there is one. -/
def finite [DecidableEq α] (inf : α) (infinity : Option α) (D : Diagram α) : Diagram α :=
  ⟨D.dimension, D.points.map fun p => if p.2 = inf then (p.1, infinity.getD inf) else p⟩

theorem replace_eq [DecidableEq α] (inf : α) (infinity : Option α) (D : Diagram α) : replace inf infinity D = finite inf infinity D := by
  have key : D = finite inf (some inf) D := by
    unfold finite
    refine congrArg (Diagram.mk D.dimension) ?_
    conv_lhs => rw [← List.map_id D.points]
    refine List.map_congr_left fun p _ => ?_
    split
    · next h => simp [← h]
    · rfl
  cases infinity with
  | none => exact key
  | some x =>
    unfold replace
    simp only
    split
    · next h => rw [h]; exact key
    · rfl

theorem diagramText_json [DecidableEq α] (inf : α) {printNat : ℕ → List Char} {print : α → List Char} {total : ℕ → Diagram α → List Char} {entropy : Diagram α → List Char}
    (hn : ∀ n, IsDecimal (printNat n) n) (hp : ∀ x, JsonPlain (print x)) (ht : ∀ k D, JsonPlain (total k D)) (he : ∀ D, JsonPlain (entropy D)) (infinity : Option α) {filename name : List Char}
    (hf : Filename filename name) (hname : JsonPlain name) (D : Diagram α) :
    IsJson (diagramText inf printNat print total entropy infinity filename D) (reported inf print total entropy name (finite inf infinity D)) := by
  rw [diagramText, (C138_basename filename name).2 hf, replace_eq]
  have := C112_write_partial inf printNat print name [("persistent_entropy".toList, entropy (finite inf infinity D)), ("total_persistence_1".toList, total 1 (finite inf infinity D)),
    ("total_persistence_2".toList, total 2 (finite inf infinity D))] (finite inf infinity D) hn hp hname (by
      intro e hm
      simp only [List.mem_cons, List.not_mem_nil, or_false] at hm
      rcases hm with rfl | rfl | rfl
      · exact ⟨by simp only [JsonPlain]; decide, he _⟩
      · exact ⟨by simp only [JsonPlain]; decide, ht _ _⟩
      · exact ⟨by simp only [JsonPlain]; decide, ht _ _⟩)
  simpa [DiagramJson.diagramValue, reported] using this

theorem diagramText_shape [DecidableEq α] (inf : α) (printNat : ℕ → List Char) (print : α → List Char) (total : ℕ → Diagram α → List Char) (entropy : Diagram α → List Char) (infinity : Option α)
    (filename : List Char) (D : Diagram α) : ∃ s t, diagramText inf printNat print total entropy infinity filename D = s ++ ['}'] ∧
      diagramText inf printNat print total entropy infinity filename D = '{' :: t := by
  have h : ∀ (name : List Char) (kvs : List (List Char × List Char)) (D : Diagram α), ∃ s t, DiagramJson.write inf printNat print name kvs D = s ++ ['}'] ∧
      DiagramJson.write inf printNat print name kvs D = '{' :: t := by
    intro name kvs D
    unfold DiagramJson.write
    exact ⟨_, _, (List.append_assoc _ [']', '\n'] ['}']).symm, rfl⟩
  exact h _ _ _

theorem output_nil : IsJson (output []) (.object [("diagrams".toList, .array [])]) := by
  have h1 := IsJson.emptyArray ['\n', '\n'] (by intro c hc; simp at hc; exact .inr (.inl hc))
  have h2 := IsJson.blank [' '] _ ['\n'] _ (by intro c hc; simp at hc; exact .inl hc) (by intro c hc; simp at hc; exact .inr (.inl hc)) h1
  have h3 := IsJson.object _ _ (IsMembers.one ['\n'] "diagrams".toList [] _ _ (by intro c hc; simp at hc; exact .inr (.inl hc)) (by unfold JsonPlain; decide) DiagramJson.blank_nil h2)
  have h4 := IsJson.blank [] _ ['\n'] _ DiagramJson.blank_nil (by intro c hc; simp at hc; exact .inr (.inl hc)) h3
  exact h4

theorem output_one {t : List Char} {v : Json} (h : IsJson t v) : IsJson (output [t]) (.object [("diagrams".toList, .array [v])]) := by
  have h0 := IsJson.blank ['\n'] _ ['\n'] _ (by intro c hc; simp at hc; exact .inr (.inl hc)) (by intro c hc; simp at hc; exact .inr (.inl hc)) h
  have h1 := IsJson.array _ _ (IsElements.one _ _ h0)
  have h2 := IsJson.blank [' '] _ ['\n'] _ (by intro c hc; simp at hc; exact .inl hc) (by intro c hc; simp at hc; exact .inr (.inl hc)) h1
  have h3 := IsJson.object _ _ (IsMembers.one ['\n'] "diagrams".toList [] _ _ (by intro c hc; simp at hc; exact .inr (.inl hc)) (by unfold JsonPlain; decide) DiagramJson.blank_nil h2)
  have h4 := IsJson.blank [] _ ['\n'] _ DiagramJson.blank_nil (by intro c hc; simp at hc; exact .inr (.inl hc)) h3
  have e : output [t] = [] ++ ('{' :: (['\n'] ++ '"' :: "diagrams".toList ++ '"' :: [] ++ ':' :: ([' '] ++ ('[' :: (['\n'] ++ t ++ ['\n']) ++ [']']) ++ ['\n'])) ++ ['}']) ++ ['\n'] := by
    unfold output
    rw [show "{\n\"diagrams\": [\n".toList = '{' :: '\n' :: '"' :: "diagrams".toList ++ ['"', ':', ' ', '[', '\n'] by decide,
      show "\n]\n}\n".toList = ['\n', ']', '\n', '}', '\n'] by decide]
    simp only [List.flatten_cons, List.flatten_nil, List.append_nil, List.append_assoc, List.cons_append, List.nil_append]
  rw [e]
  exact h4

theorem output_two {s t : List Char} {v : Json} (h : IsJson (s ++ ['}']) v) (rest : List (List Char)) (u : Json) : ¬ IsJson (output ((s ++ ['}']) :: ('{' :: t) :: rest)) u := by
  intro hu
  obtain ⟨l, e⟩ := json_reads hu 'x' (by decide)
  unfold output at e
  rw [List.append_assoc, scan_append, show scan (false, 'x') "{\n\"diagrams\": [\n".toList = some (false, '\n') by decide, Option.bind_some, List.flatten_cons, List.append_assoc,
    scan_append] at e
  obtain ⟨l', e'⟩ := json_reads h '\n' (by decide)
  have hl : l' = '}' := scan_last e'
  rw [e', Option.bind_some, hl, List.flatten_cons, List.cons_append, List.cons_append, scan, if_pos ⟨rfl, rfl⟩] at e
  cases e

/-! ### Options and output -/

/-- The arguments of the option for infinity. -/
def infinities (opts : List Opt) : List (List Char) := opts.filterMap fun o => match o with | .infinity a => some a | _ => none

theorem options_none (stod : List Char → Option α) (stoul : List Char → Option ℕ) (opts : List Opt) (s : Settings α) :
    opts.foldlM (setOption stod stoul) s = none ↔ (∃ a, Opt.dimension a ∈ opts ∧ stoul a = none) ∨ ∃ a, Opt.infinity a ∈ opts ∧ stod a = none := by
  induction opts generalizing s with
  | nil => simp
  | cons o opts ih =>
    rw [List.foldlM_cons]
    cases o with
    | dimension a =>
      cases h : stoul a with
      | none =>
        simp only [setOption, h, Option.map_none]
        exact ⟨fun _ => .inl ⟨a, by simp, h⟩, fun _ => rfl⟩
      | some d =>
        simp only [setOption, h, Option.map_some]
        refine (ih _).trans ?_
        simp only [List.mem_cons, Opt.dimension.injEq, reduceCtorEq, false_or]
        refine or_congr_left ⟨fun ⟨b, h1, h2⟩ => ⟨b, .inr h1, h2⟩, fun ⟨b, h1, h2⟩ => ⟨b, h1.resolve_left ?_, h2⟩⟩
        rintro rfl
        rw [h] at h2
        cases h2
    | infinity a =>
      cases h : stod a with
      | none =>
        simp only [setOption, h, Option.map_none]
        exact ⟨fun _ => .inr ⟨a, by simp, h⟩, fun _ => rfl⟩
      | some d =>
        simp only [setOption, h, Option.map_some]
        refine (ih _).trans ?_
        simp only [List.mem_cons, Opt.infinity.injEq, reduceCtorEq, false_or]
        refine or_congr_right ⟨fun ⟨b, h1, h2⟩ => ⟨b, .inr h1, h2⟩, fun ⟨b, h1, h2⟩ => ⟨b, h1.resolve_left ?_, h2⟩⟩
        rintro rfl
        rw [h] at h2
        cases h2
    | keepUnpaired => exact (ih _).trans (by simp)
    | verbose => exact (ih _).trans (by simp)
    | unknown => exact (ih _).trans (by simp)

theorem options_some (stod : List Char → Option α) (stoul : List Char → Option ℕ) (opts : List Opt) (s s' : Settings α) (h : opts.foldlM (setOption stod stoul) s = some s') :
    (s'.keepUnpaired = true ↔ s.keepUnpaired = true ∨ Opt.keepUnpaired ∈ opts) ∧
    s'.infinity = match (infinities opts).getLast? with
      | none => s.infinity
      | some a => stod a := by
  induction opts generalizing s with
  | nil => cases h; simp [infinities]
  | cons o opts ih =>
    rw [List.foldlM_cons] at h
    cases o with
    | dimension a =>
      cases hd : stoul a with
      | none => simp [setOption, hd] at h
      | some d =>
        simp only [setOption, hd, Option.map_some] at h
        obtain ⟨h1, h2⟩ := ih _ h
        exact ⟨by simpa using h1, h2⟩
    | infinity a =>
      cases hd : stod a with
      | none => simp [setOption, hd] at h
      | some d =>
        simp only [setOption, hd, Option.map_some] at h
        obtain ⟨h1, h2⟩ := ih _ h
        refine ⟨by simpa using h1, ?_⟩
        rw [h2]
        have : infinities (.infinity a :: opts) = a :: infinities opts := rfl
        rw [this, List.getLast?_cons]
        cases (infinities opts).getLast? with
        | none => exact hd.symm
        | some b => rfl
    | keepUnpaired =>
      obtain ⟨h1, h2⟩ := ih _ h
      exact ⟨by rw [h1]; simp, h2⟩
    | verbose =>
      obtain ⟨h1, h2⟩ := ih _ h
      exact ⟨by simpa using h1, h2⟩
    | unknown =>
      obtain ⟨h1, h2⟩ := ih _ h
      exact ⟨by simpa using h1, h2⟩

theorem keep_eq (stod : List Char → Option α) (stoul : List Char → Option ℕ) {opts : List Opt} {s : Settings α} (h : opts.foldlM (setOption stod stoul) {} = some s) :
    s.keepUnpaired = decide (Opt.keepUnpaired ∈ opts) ∧ s.infinity = (infinities opts).getLast?.bind stod := by
  obtain ⟨h1, h2⟩ := options_some stod stoul opts _ _ h
  constructor
  · rw [Bool.eq_iff_iff, h1]
    simp
  · rw [h2]
    cases (infinities opts).getLast? <;> rfl

theorem mapM_none_iff {β γ : Type} {f : β → Option γ} {l : List β} : l.mapM f = none ↔ ∃ x ∈ l, f x = none := by
  induction l with
  | nil => simp
  | cons a l ih =>
    rw [List.mapM_cons]
    cases ha : f a with
    | none => simp [ha]
    | some y =>
      cases hl : l.mapM f with
      | none => simpa [ha] using ih.1 hl
      | some ys =>
        have : ¬ ∃ x ∈ l, f x = none := fun h => by rw [ih.2 h] at hl; cases hl
        simpa [ha] using this

theorem texts_spec {β γ δ : Type} {g : β → Option (List γ)} {h : β → γ → δ} {l : List β} {texts : List (List δ)}
    (H : List.Forall₂ (fun f T => (g f).map (fun Ds => Ds.map (h f)) = some T) l texts) :
    ∃ Dss, List.Forall₂ (fun f Ds => g f = some Ds) l Dss ∧ List.Forall₂ (fun t D => ∃ f ∈ l, t = h f D) texts.flatten Dss.flatten := by
  induction H with
  | nil => exact ⟨[], .nil, .nil⟩
  | @cons f T l texts h1 _ ih =>
    obtain ⟨Dss, d1, d2⟩ := ih
    obtain ⟨Ds, e1, rfl⟩ := Option.map_eq_some_iff.1 h1
    refine ⟨Ds :: Dss, .cons e1 d1, ?_⟩
    rw [List.flatten_cons, List.flatten_cons]
    refine List.rel_append ?_ (d2.imp fun t D ⟨f', h1, h2⟩ => ⟨f', List.mem_cons_of_mem _ h1, h2⟩)
    rw [List.forall₂_map_left_iff, List.forall₂_same]
    exact fun D _ => ⟨f, by simp, rfl⟩

/-- C162. There is an exception if and only if the argument of an option is not a number, or there are file names one of which cannot be processed.  Without file names, the status is `-1` and there is no
output.  The option for the dimension has no effect otherwise. -/
theorem _root_.Aleph.C162_errors [LinearOrder α] [Zero α] [Sub α] (inf : α) (stod : List Char → Option α) (stoul : List Char → Option ℕ) (number : List Char → Option α)
    (printNat : ℕ → List Char) (print : α → List Char) (total : ℕ → Diagram α → List Char) (entropy : Diagram α → List Char) (files : List Char → Option (List Char)) (opts : List Opt)
    (filenames : List (List Char)) :
    (main inf stod stoul number printNat print total entropy files opts filenames = none ↔
      (∃ a, Opt.dimension a ∈ opts ∧ stoul a = none) ∨ (∃ a, Opt.infinity a ∈ opts ∧ stod a = none) ∨
        ∃ f ∈ filenames, files f = none ∨ ∃ text, files f = some text ∧ diagramsOfFile inf number (decide (Opt.keepUnpaired ∈ opts)) (some text) = none) ∧
    (filenames = [] → ∀ r, main inf stod stoul number printNat print total entropy files opts filenames = some r → r = (-1, [])) := by
  have hfile : ∀ keep file, diagramsOfFile inf number keep file = none ↔ file = none ∨ ∃ text, file = some text ∧ diagramsOfFile inf number keep (some text) = none := by
    intro keep file
    cases file with
    | none => simp [diagramsOfFile]
    | some text => simp
  unfold main
  cases ho : opts.foldlM (setOption stod stoul) {} with
  | none =>
    have := (options_none stod stoul opts _).1 ho
    refine ⟨⟨fun _ => ?_, fun _ => rfl⟩, fun _ r hr => by cases hr⟩
    rcases this with h | h
    · exact .inl h
    · exact .inr (.inl h)
  | some s =>
    have hno : ¬ ((∃ a, Opt.dimension a ∈ opts ∧ stoul a = none) ∨ ∃ a, Opt.infinity a ∈ opts ∧ stod a = none) := by
      intro h
      rw [(options_none stod stoul opts _).2 h] at ho
      cases ho
    simp only
    by_cases hf : filenames = []
    · subst hf
      simp only [List.length_nil, Nat.lt_one_iff, if_true]
      refine ⟨⟨fun h => (by cases h), fun h => ?_⟩, fun _ r hr => by cases hr; rfl⟩
      rcases h with h | h | ⟨f, hf, -⟩
      · exact absurd (.inl h) hno
      · exact absurd (.inr h) hno
      · cases hf
    · rw [if_neg (by have := List.length_pos_of_ne_nil hf; omega)]
      refine ⟨?_, fun h => absurd h hf⟩
      rw [(keep_eq stod stoul ho).1]
      split
      · next hm =>
        obtain ⟨f, hf1, hf2⟩ := mapM_none_iff.1 hm
        exact ⟨fun _ => .inr (.inr ⟨f, hf1, (hfile _ _).1 (by simpa using hf2)⟩), fun _ => rfl⟩
      · next texts hm =>
        refine ⟨fun h => (by cases h), fun h => ?_⟩
        rcases h with h | h | ⟨f, hf1, hf2⟩
        · exact absurd (.inl h) hno
        · exact absurd (.inr h) hno
        · rw [mapM_none_iff.2 ⟨f, hf1, by rw [(hfile _ _).2 hf2]; rfl⟩] at hm
          cases hm

/-- C162. The output contains all diagrams of all files in this order.  It is the JSON object that is expected if there is at most one diagram.  If there are at least two, it is not JSON, as
there are no commas between them. -/
theorem _root_.Aleph.C162_output_partial [LinearOrder α] [Zero α] [Sub α] (inf : α) (stod : List Char → Option α) (stoul : List Char → Option ℕ) (number : List Char → Option α)
    (printNat : ℕ → List Char) (print : α → List Char) (total : ℕ → Diagram α → List Char) (entropy : Diagram α → List Char) (files : List Char → Option (List Char)) (opts : List Opt)
    (filenames : List (List Char)) (hn : ∀ n, IsDecimal (printNat n) n) (hp : ∀ x, JsonPlain (print x)) (ht : ∀ k D, JsonPlain (total k D)) (he : ∀ D, JsonPlain (entropy D))
    (hname : ∀ f ∈ filenames, ∀ name, Filename f name → JsonPlain name) (hne : filenames ≠ []) (r : ℤ × List Char)
    (h : main inf stod stoul number printNat print total entropy files opts filenames = some r) :
    r.1 = 0 ∧ ∃ Dss, List.Forall₂ (fun f Ds => diagramsOfFile inf number (decide (Opt.keepUnpaired ∈ opts)) (files f) = some Ds) filenames Dss ∧
      (Dss.flatten = [] → IsJson r.2 (.object [("diagrams".toList, .array [])])) ∧
      (∀ D, Dss.flatten = [D] → ∃ f ∈ filenames, ∃ name, Filename f name ∧
        IsJson r.2 (.object [("diagrams".toList, .array [reported inf print total entropy name (finite inf ((infinities opts).getLast?.bind stod) D)])])) ∧
      (2 ≤ Dss.flatten.length → ∀ v, ¬ IsJson r.2 v) := by
  unfold main at h
  cases ho : opts.foldlM (setOption stod stoul) {} with
  | none => rw [ho] at h; cases h
  | some s =>
    obtain ⟨k1, k2⟩ := keep_eq stod stoul ho
    simp only [ho, k1, k2] at h
    rw [if_neg (by have := List.length_pos_of_ne_nil hne; omega)] at h
    split at h
    · cases h
    · next texts hm =>
      cases h
      refine ⟨rfl, ?_⟩
      obtain ⟨Dss, d1, d2⟩ := texts_spec (Mesh.mapM_some _ _ _ hm)
      set infinity := (infinities opts).getLast?.bind stod with hinf
      refine ⟨Dss, d1, ?_, ?_, ?_⟩
      · intro h0
        rw [h0, List.forall₂_nil_right_iff] at d2
        rw [d2]
        exact output_nil
      · intro D h1
        rw [h1] at d2
        obtain ⟨t, ts, ⟨f, hf, rfl⟩, h2, h3⟩ := List.forall₂_cons_right_iff.1 d2
        rw [List.forall₂_nil_right_iff] at h2
        subst h2
        rw [h3]
        have hF := (C138_basename f _).1 rfl
        exact ⟨f, hf, _, hF, output_one (diagramText_json inf hn hp ht he infinity hF (hname f hf _ hF) D)⟩
      · intro h2 v
        match hD : Dss.flatten, h2 with
        | D :: D' :: rest, _ =>
          rw [hD] at d2
          obtain ⟨t, ts, ⟨f, hf, rfl⟩, h2, h3⟩ := List.forall₂_cons_right_iff.1 d2
          obtain ⟨t', ts', ⟨f', hf', rfl⟩, -, h3'⟩ := List.forall₂_cons_right_iff.1 h2
          subst h3'
          rw [h3]
          have hF := (C138_basename f _).1 rfl
          have hj := diagramText_json inf hn hp ht he infinity hF (hname f hf _ hF) D
          obtain ⟨a, -, ha, -⟩ := diagramText_shape inf printNat print total entropy infinity f D
          obtain ⟨-, b, -, hb⟩ := diagramText_shape inf printNat print total entropy infinity f' D'
          rw [ha] at hj ⊢
          rw [hb]
          exact output_two hj _ v

/-! ### Diagrams -/

theorem build_length [LinearOrder α] [Zero α] (ignoreZero : Bool) (strategy : AdjacencyMatrixReader.Strategy) (f : α → α → α → α) (n : ℕ) (a : α) (values : List α) :
    (AdjacencyMatrixReader.build ignoreZero strategy f n a values).length ≤ n * n + n := by
  obtain ⟨L, h1, -, h3⟩ := AdjacencyMatrixReader.build_eq ignoreZero strategy f n a values
  rw [h1, (sort_perm L _).length_eq, h3, List.length_append, List.length_map, List.length_range, List.length_flatMap]
  refine Nat.add_le_add_right ?_ n
  refine (List.sum_le_card_nsmul _ n ?_).trans (by simp)
  intro x hx
  obtain ⟨y, -, rfl⟩ := List.mem_map.1 hx
  unfold AdjacencyMatrixReader.rowEdges
  exact (List.length_filterMap_le _ _).trans (by simp)

/-- The complex of a file. -/
theorem file_spec [LinearOrder α] [AddCommGroup α] (inf : α) (number : List Char → Option α) (keep : Bool) {text : List Char} {rows : List (List α)} (ht : MatrixText number text rows)
    (hr : ∀ r ∈ rows, r.length = rows.length) (h1 : 1 ≤ rows.length) {hi : α} (hhi : IsGreatest {v | ∃ y x, entry rows y x = some v} hi) :
    ∃ K : Complex α, diagramsOfFile inf number keep (some text) = diagramsOf inf keep K ∧ WF K ∧ FaceClosed K ∧ K.length ≤ rows.length * rows.length + rows.length ∧
      ∀ t w, HasData K t w ↔ AdjacencyData (fun w => w ≠ 0) (fun w => hi - w) 0 rows t w := by
  obtain ⟨ls, b, ws, t1, t2, t3, t4⟩ := ht
  have hne : rows ≠ [] := by rintro rfl; simp at h1
  obtain ⟨a, l, hv, hread⟩ := C76_read_partial true .zero distance number text 0 [] ls b t1 ws t2 rows hne hr t3 t4
  have hlo : ∃ lo, IsLeast {v | ∃ y x, entry rows y x = some v} lo := by
    obtain ⟨hl, -⟩ := AdjacencyMatrixReader.minmax_spec (a :: l) a
    refine ⟨(AdjacencyMatrixReader.minmax a (a :: l)).1, ?_⟩
    convert hl using 1
    ext v
    show (∃ y x, entry rows y x = some v) ↔ (v = a ∨ v ∈ a :: l)
    rw [← AdjacencyMatrixReader.mem_flatten_iff, hv]
    simp
  obtain ⟨lo, hlo⟩ := hlo
  obtain ⟨c1, c2, -, c4, -⟩ := C75_graph_partial true .zero distance rows hr a l hv lo hi hlo hhi
  refine ⟨_, by simp only [diagramsOfFile, hread], c1, c2, build_length _ _ _ _ _ _, fun t w => (c4 t w).trans ?_⟩
  simp only [true_and]
  exact Iff.rfl

/-- The edges of the graph of a matrix, ignoring zeros. -/
def edges [Zero α] (n : ℕ) (M : ℕ → ℕ → α) (u v : ℕ) : Prop := u < v ∧ v < n ∧ M u v ≠ 0

theorem graph_spec [AddCommGroup α] {K : Complex α} {rows : List (List α)} {hi : α} (hr : ∀ r ∈ rows, r.length = rows.length)
    (h : ∀ t w, HasData K t w ↔ AdjacencyData (fun w => w ≠ 0) (fun w => hi - w) 0 rows t w) {M : ℕ → ℕ → α}
    (hM : ∀ y < rows.length, ∀ x < rows.length, entry rows y x = some (M y x)) :
    (∀ v, Has K {v} ↔ v < rows.length) ∧ (∀ u v, u < v → (Has K {u, v} ↔ edges rows.length M u v)) ∧ (∀ v x, HasData K {v} x → x = 0) ∧
      ∀ u v x, u < v → HasData K {u, v} x → x = hi - M u v := by
  have hhas : ∀ t, Has K t ↔ ∃ w, HasData K t w := fun t => ⟨fun ⟨s, h1, h2⟩ => ⟨_, s, h1, h2, rfl⟩, fun ⟨w, s, h1, h2, _⟩ => ⟨s, h1, h2⟩⟩
  have hv : ∀ v x, HasData K {v} x ↔ v < rows.length ∧ x = 0 := by
    intro v x
    rw [h]
    constructor
    · intro hd
      generalize ht : ({v} : Finset ℕ) = t at hd
      cases hd with
      | vertex i hi' => rw [singleton_injective ht]; exact ⟨hi', rfl⟩
      | edge y x w hlt =>
        have := congrArg card ht
        rw [card_singleton, card_pair (by omega)] at this
        omega
    · rintro ⟨h1, rfl⟩
      exact .vertex v h1
  have he : ∀ u v x, u < v → (HasData K {u, v} x ↔ edges rows.length M u v ∧ x = hi - M u v) := by
    intro u v x huv
    rw [h]
    constructor
    · intro hd
      generalize ht : ({u, v} : Finset ℕ) = t at hd
      cases hd with
      | vertex i hi' =>
        have := congrArg card ht
        rw [card_singleton, card_pair (by omega)] at this
        omega
      | edge y x w hlt hw h0 =>
        have hmem : ∀ z, z = u ∨ z = v ↔ z = y ∨ z = x := by
          intro z
          have := congrArg (z ∈ ·) ht
          simpa using this
        obtain ⟨rfl, rfl⟩ : y = u ∧ x = v := by
          have h1 := (hmem u).1 (.inl rfl)
          have h2 := (hmem v).1 (.inr rfl)
          omega
        obtain ⟨g1, g2⟩ := MatrixReader.entry_isSome hr hw
        rw [hM y g1 x g2] at hw
        cases hw
        exact ⟨⟨huv, g2, h0⟩, rfl⟩
    · rintro ⟨⟨-, h2, h3⟩, rfl⟩
      exact .edge u v (M u v) huv (hM u (by omega) v h2) h3
  refine ⟨fun v => ?_, fun u v huv => ?_, fun v x h => ((hv v x).1 h).2, fun u v x huv h => ((he u v x huv).1 h).2⟩
  · rw [hhas]
    exact ⟨fun ⟨w, h⟩ => ((hv v w).1 h).1, fun h => ⟨0, (hv v 0).2 ⟨h, rfl⟩⟩⟩
  · rw [hhas]
    exact ⟨fun ⟨w, h⟩ => ((he u v w huv).1 h).1, fun h => ⟨_, (he u v _ huv).2 ⟨h, rfl⟩⟩⟩

/-- C162. The part of the description that holds: for the matrix of a connected graph (weights that are zero are ignored), there is a single point of dimension zero that is unpaired, and the other
ones correspond to the edges of a spanning tree, whose weights are subtracted from the largest one.  Missing (and wrong, see `C162_witness`): the weight of the spanning tree is maximal, i.e. the points
are those of the filtration of the graph by its weights. -/
theorem _root_.Aleph.C162_spanning_tree_partial [LinearOrder α] [AddCommGroup α] (inf : α) (number : List Char → Option α) (keep : Bool) (text : List Char) (rows : List (List α))
    (ht : MatrixText number text rows) (hr : ∀ r ∈ rows, r.length = rows.length) (h1 : 1 ≤ rows.length) (hsize : rows.length * rows.length + rows.length ≤ idxMax) (hi : α)
    (hhi : IsGreatest {v | ∃ y x, entry rows y x = some v} hi) (M : ℕ → ℕ → α) (hM : ∀ y < rows.length, ∀ x < rows.length, entry rows y x = some (M y x))
    (hc : ∀ a < rows.length, ∀ b < rows.length, Relation.EqvGen (fun u v => u < v ∧ v < rows.length ∧ M u v ≠ 0) a b) (hkeep : keep = true ∨ 2 ≤ rows.length) :
    ∃ Ds T, diagramsOfFile inf number keep (some text) = some Ds ∧ SpanningTree rows.length (fun u v => u < v ∧ v < rows.length ∧ M u v ≠ 0) T ∧
      (pointsOfDimension 0 Ds).Perm ((0, inf) :: T.map fun e => (0, hi - M e.1 e.2)) := by
  obtain ⟨K, k1, k2, k3, k4, k5⟩ := file_spec inf number keep ht hr h1 hhi
  obtain ⟨g1, g2, g3, g4⟩ := graph_spec hr k5 hM
  have hF := sortLex_filtration k2 k3
  have hperm := sort_perm K Simplex.lt
  have hlen : (K.sort Simplex.lt).length ≤ idxMax := by rw [hperm.length_eq]; omega
  obtain ⟨p, Ds, p1, p2, p3⟩ := C51_pipeline inf (K.sort Simplex.lt) hF hlen keep
  have hhas : ∀ t, Has (K.sort Simplex.lt) t ↔ Has K t := fun t => exists_congr fun s => and_congr_left fun _ => hperm.mem_iff
  have hdata : ∀ t x, HasData (K.sort Simplex.lt) t x ↔ HasData K t x := fun t x => exists_congr fun s => and_congr_left fun _ => hperm.mem_iff
  obtain ⟨T, t1, t2⟩ := points_tree inf hF hlen h1 (fun v => (hhas _).trans (g1 v)) (fun u v huv => (hhas _).trans (g2 u v huv)) (fun u v h => h.1) hc
    (fun v x h => g3 v x ((hdata _ _).1 h)) (fun u v x huv h => g4 u v x huv ((hdata _ _).1 h)) hkeep p1
  refine ⟨Ds, T, by rw [k1, diagramsOf, p3], t1, ?_⟩
  rw [pointsOfDimension_eq p2]
  exact t2

/-- C162, disagreement: as the complex is not sorted by its weights but lexicographically, the points of dimension zero for a matrix without zeros (above its diagonal) are determined by its first row alone. -/
theorem _root_.Aleph.C162_first_row [LinearOrder α] [AddCommGroup α] (inf : α) (number : List Char → Option α) (keep : Bool) (text : List Char) (rows : List (List α))
    (ht : MatrixText number text rows) (hr : ∀ r ∈ rows, r.length = rows.length) (h1 : 1 ≤ rows.length) (hsize : rows.length * rows.length + rows.length ≤ idxMax) (hi : α)
    (hhi : IsGreatest {v | ∃ y x, entry rows y x = some v} hi) (M : ℕ → ℕ → α) (hM : ∀ y < rows.length, ∀ x < rows.length, entry rows y x = some (M y x))
    (h0 : ∀ u v, u < v → v < rows.length → M u v ≠ 0) (hkeep : keep = true ∨ 2 ≤ rows.length) :
    ∃ Ds, diagramsOfFile inf number keep (some text) = some Ds ∧
      (pointsOfDimension 0 Ds).Perm ((0, inf) :: (List.range (rows.length - 1)).map fun k => (0, hi - M 0 (k + 1))) := by
  obtain ⟨K, k1, k2, k3, k4, k5⟩ := file_spec inf number keep ht hr h1 hhi
  obtain ⟨g1, g2, g3, g4⟩ := graph_spec hr k5 hM
  have hF := sortLex_filtration k2 k3
  have hperm := sort_perm K Simplex.lt
  obtain ⟨p, Ds, p1, p2, p3⟩ := C51_pipeline inf (K.sort Simplex.lt) hF (by rw [hperm.length_eq]; omega) keep
  obtain ⟨dv, de, e1, e2, e3⟩ := star_points inf k2 k3 (by omega) h1 g1 (fun u v huv => (g2 u v huv).trans ⟨fun h => h.2.1, fun h => ⟨huv, h, h0 u v huv h⟩⟩) hkeep p1
  refine ⟨Ds, by rw [k1, diagramsOf, p3], ?_⟩
  rw [pointsOfDimension_eq p2]
  refine e3.trans (List.Perm.of_eq ?_)
  rw [g3 0 _ (e1 0 h1)]
  refine congrArg _ (List.map_congr_left fun k hk => ?_)
  rw [List.mem_range] at hk
  rw [g3 _ _ (e1 (k + 1) (by omega)), g4 0 (k + 1) _ (by omega) (e2 (k + 1) (by omega) (by omega))]

/-- C162. A file whose number of values is not the square of the number of its lines (without empty lines and comments) leads to an exception. -/
theorem _root_.Aleph.C162_not_square [LinearOrder α] [AddCommGroup α] (inf : α) (number : List Char → Option α) (keep : Bool) (text : List Char)
    (ls : List (List Char)) (b : Bool) (hl : Lines text ls b) (ws : List (List Char)) (hws : Words text ws) (values : List α)
    (hne : values ≠ []) (hnum : ws.map number = values.map some) (hsq : values.length ≠ (ls.filter fun l => decide (l ≠ [] ∧ l.head? ≠ some '#')).length ^ 2) :
    diagramsOfFile inf number keep (some text) = none := by
  simp only [diagramsOfFile, C76_not_square true .zero distance number text 0 [] ls b hl ws hws values hne hnum hsq]

/-! ### Examples -/

/-- Numbers with decimal digits. -/
def digits (t : List Char) : Option ℤ := (MatrixReader.digits t).map Int.ofNat

/-- C162, disagreement: a triangle with weights 1, 1, and 3.  The points of the filtration by weight are (0,0), (0,2), and an unpaired one, but the tool reports (0,2) twice.  After an exchange of the first two
rows and columns, i.e. for the same graph with other names of its vertices, the result is different. -/
theorem _root_.Aleph.C162_witness :
    (diagramsOfFile 100 digits false (some "0 1 1\n1 0 3\n1 3 0\n".toList)).map (pointsOfDimension 0) = some [(0, 100), (0, 2), (0, 2)] ∧
    (diagramsOfFile 100 digits false (some "0 1 3\n1 0 1\n3 1 0\n".toList)).map (pointsOfDimension 0) = some [(0, 100), (0, 2), (0, 0)] ∧
    ((AdjacencyMatrixReader.read true .zero distance digits "0 1 1\n1 0 3\n1 3 0\n".toList 0 []).bind fun r => calculatePersistenceDiagrams .twist .vector 100 r.2).map (pointsOfDimension 0) =
      some [(0, 100), (0, 2), (0, 0)] := by
  decide +kernel

/-- The hypotheses of `C162_spanning_tree_partial` and `C162_first_row` hold for the triangle of `C162_witness`. -/
example : MatrixText digits "0 1 1\n1 0 3\n1 3 0\n".toList [[0, 1, 1], [1, 0, 3], [1, 3, 0]] ∧ IsGreatest {v : ℤ | ∃ y x, entry [[0, 1, 1], [1, 0, 3], [1, 3, 0]] y x = some v} 3 ∧
    (∀ y < 3, ∀ x < 3, entry [[0, 1, 1], [1, 0, 3], [1, 3, 0]] y x = some (([[0, 1, 1], [1, 0, 3], [1, 3, 0]].getD y []).getD x (0 : ℤ))) ∧
    ∀ u v, u < v → v < 3 → ([[0, 1, 1], [1, 0, 3], [1, 3, 0]].getD u []).getD v (0 : ℤ) ≠ 0 := by
  refine ⟨⟨["0 1 1".toList, "1 0 3".toList, "1 3 0".toList], false, [[['0'], ['1'], ['1']], [['1'], ['0'], ['3']], [['1'], ['3'], ['0']]], ?_, ?_, by decide, ?_⟩, ⟨⟨1, 2, rfl⟩, ?_⟩, by decide, ?_⟩
  · exact .cons "0 1 1".toList _ _ _ (by decide) (.cons "1 0 3".toList _ _ _ (by decide) (.cons "1 3 0".toList _ _ _ (by decide) .nil))
  · have hw : ∀ a b c : Char, a ∉ whitespace → b ∉ whitespace → c ∉ whitespace → Words [a, ' ', b, ' ', c] [[a], [b], [c]] := by
      intro a b c ha hb hc
      refine .cons [] [a] ' ' [b, ' ', c] _ (by simp) (by simp) (by simpa using ha) (by decide) ?_
      refine .cons [] [b] ' ' [c] _ (by simp) (by simp) (by simpa using hb) (by decide) ?_
      exact .last [] [c] (by simp) (by simp) (by simpa using hc)
    exact .cons (hw '0' '1' '1' (by decide) (by decide) (by decide)) (.cons (hw '1' '0' '3' (by decide) (by decide) (by decide))
      (.cons (hw '1' '3' '0' (by decide) (by decide) (by decide)) .nil))
  · exact .cons (by decide) (.cons (by decide) (.cons (by decide) .nil))
  · rintro v ⟨y, x, h⟩
    have hm : v ∈ [[0, 1, 1], [1, 0, 3], [1, 3, (0 : ℤ)]].flatten := (AdjacencyMatrixReader.mem_flatten_iff _ v).2 ⟨y, x, h⟩
    simp at hm
    omega
  · intro u v huv hv
    interval_cases v <;> interval_cases u <;> decide

/-- There are two diagrams if unpaired points are kept, so that the output is not JSON by `C162_output_partial`. -/
example : (diagramsOfFile 100 digits true (some "0 1 1\n1 0 3\n1 3 0\n".toList)).map (fun Ds => Ds.map fun D => (D.dimension, D.points)) =
    some [(0, [(0, 100), (0, 2), (0, 2)]), (1, [(0, 100)])] := by
  decide +kernel

end Aleph.ConnectivityAnalysis
