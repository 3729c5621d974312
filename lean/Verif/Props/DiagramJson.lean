import Mathlib.Tactic.NormNum
import Verif.Model.DiagramJson

/-!
# Properties of persistence diagrams in JSON format
-/

namespace Aleph.DiagramJson

open Spec

variable {α : Type} [DecidableEq α]

/-- The value that describes a diagram. -/
def diagramValue (inf : α) (print : α → List Char) (name : List Char) (kvs : List (List Char × List Char)) (D : Diagram α) : Json :=
  .object ([("betti".toList, .number (D.points.countP fun p => p.2 = inf)), ("dimension".toList, .number D.dimension)] ++
    kvs.map (fun pair => (pair.1, .text pair.2)) ++ (if name = [] then [] else [("name".toList, .text name)]) ++
    [("size".toList, .number D.points.length),
     ("diagram".toList, .array (D.points.map fun p => .array [.text (print p.1), .text (print p.2)]))])

theorem quoted_json {s : List Char} (h : JsonPlain s) : IsJson (quoted s) (.text s) := .text s h

theorem blank_nil : JsonBlank [] := by
  intro c hc
  cases hc

theorem blank_level : JsonBlank ('\n' :: level) := by
  intro c hc
  simp only [level, List.mem_cons, List.not_mem_nil, or_false] at hc
  tauto

theorem blank_spaces : JsonBlank (level ++ level) := by
  intro c hc
  simp only [level, List.cons_append, List.nil_append, List.mem_cons, List.not_mem_nil, or_false] at hc
  tauto

theorem json_space {t : List Char} {v : Json} (h : IsJson t v) : IsJson (' ' :: t) v := by
  have := IsJson.blank [' '] t [] v (by intro c hc; simp at hc; exact Or.inl hc) blank_nil h
  simpa using this

/-- A line in front of further lines; the line feed of the previous line belongs to it. -/
theorem field_members {key value s : List Char} {v : Json} {ms : List (List Char × Json)} (hk : JsonPlain key) (hv : IsJson value v)
    (h : IsMembers ('\n' :: s) ms) : IsMembers ('\n' :: (field key value ++ s)) ((key, v) :: ms) := by
  have := IsMembers.cons ('\n' :: level) key [] (' ' :: value) ('\n' :: s) v ms blank_level hk blank_nil (json_space hv) h
  simpa [field, quoted, List.append_assoc] using this

theorem fields_members {kvs : List (List Char × List Char)} {s : List Char} {ms : List (List Char × Json)}
    (hk : ∀ e ∈ kvs, JsonPlain e.1 ∧ JsonPlain e.2) (h : IsMembers ('\n' :: s) ms) :
    IsMembers ('\n' :: ((kvs.map fun pair => field pair.1 (quoted pair.2)).flatten ++ s)) (kvs.map (fun pair => (pair.1, Json.text pair.2)) ++ ms) := by
  induction kvs with
  | nil => simpa using h
  | cons e kvs ih =>
    have h1 := hk e (List.mem_cons_self ..)
    have := field_members h1.1 (quoted_json h1.2) (ih fun e he => hk e (List.mem_cons_of_mem _ he))
    simpa [List.append_assoc] using this

omit [DecidableEq α] in
theorem point_json {print : α → List Char} (hp : ∀ x, JsonPlain (print x)) (p : α × α) :
    IsJson (pointText print p) (.array [.text (print p.1), .text (print p.2)]) := by
  have h1 := IsJson.array _ _ (IsElements.cons _ _ _ _ (quoted_json (hp p.1)) (IsElements.one _ _ (quoted_json (hp p.2))))
  have := IsJson.blank (level ++ level) _ [] _ blank_spaces blank_nil h1
  simpa [pointText, List.append_assoc] using this

omit [DecidableEq α] in
theorem points_json {print : α → List Char} (hp : ∀ x, JsonPlain (print x)) (ps : List (α × α)) (hne : ps ≠ []) :
    IsElements ('\n' :: pointsText print ps) (ps.map fun p => .array [.text (print p.1), .text (print p.2)]) := by
  have hnl : JsonBlank ['\n'] := by
    intro c hc
    simp at hc
    exact Or.inr (Or.inl hc)
  have hpoint : ∀ p, IsJson ('\n' :: pointText print p) (.array [.text (print p.1), .text (print p.2)]) := by
    intro p
    have := IsJson.blank ['\n'] _ [] _ hnl blank_nil (point_json hp p)
    simpa using this
  induction ps with
  | nil => exact absurd rfl hne
  | cons p ps ih =>
    cases ps with
    | nil => exact IsElements.one _ _ (hpoint p)
    | cons q rest =>
      have := IsElements.cons _ _ _ _ (hpoint p) (ih (by simp))
      simpa [pointsText, List.append_assoc] using this

theorem elements_end {t : List Char} {vs : List Json} (h : IsElements t vs) {g : List Char} (hg : JsonBlank g) : IsElements (t ++ g) vs := by
  suffices h' : ∀ (n : ℕ) (t : List Char) (vs : List Json), vs.length = n → IsElements t vs → IsElements (t ++ g) vs from h' _ t vs rfl h
  intro n
  induction n with
  | zero =>
    intro t vs hn h
    cases h with
    | one t v h => simp at hn
    | cons t s v vs h hs => simp at hn
  | succ n ih =>
    intro t vs hn h
    cases h with
    | one t v h =>
      have := IsElements.one _ _ (IsJson.blank [] t g v blank_nil hg h)
      simpa using this
    | cons t s v vs h hs =>
      have := IsElements.cons t (s ++ g) v vs h (ih s vs (by simpa using hn) hs)
      simpa [List.append_assoc] using this

omit [DecidableEq α] in
theorem array_json {print : α → List Char} (hp : ∀ x, JsonPlain (print x)) (ps : List (α × α)) :
    IsJson ('[' :: '\n' :: pointsText print ps ++ '\n' :: level ++ [']']) (.array (ps.map fun p => .array [.text (print p.1), .text (print p.2)])) := by
  by_cases hne : ps = []
  · subst hne
    have := IsJson.emptyArray ('\n' :: '\n' :: level) (by
      intro c hc
      simp only [level, List.mem_cons, List.not_mem_nil, or_false] at hc
      tauto)
    simpa [pointsText] using this
  · have := IsJson.array _ _ (elements_end (points_json hp ps hne) blank_level)
    simpa [List.append_assoc] using this

theorem plain_keys : JsonPlain "betti".toList ∧ JsonPlain "dimension".toList ∧ JsonPlain "name".toList ∧ JsonPlain "size".toList ∧
    JsonPlain "diagram".toList := by
  refine ⟨?_, ?_, ?_, ?_, ?_⟩ <;> (unfold JsonPlain; decide)

omit [DecidableEq α] in
/-- The lines after the name. -/
theorem last_members (printNat : ℕ → List Char) {print : α → List Char} (hn : ∀ n, IsDecimal (printNat n) n) (hp : ∀ x, JsonPlain (print x))
    (ps : List (α × α)) :
    IsMembers ('\n' :: (field "size".toList (printNat ps.length) ++
      (level ++ quoted "diagram".toList ++ [':', ' ', '[', '\n'] ++ pointsText print ps ++ ['\n'] ++ level ++ [']', '\n'])))
      [("size".toList, .number ps.length), ("diagram".toList, .array (ps.map fun p => .array [.text (print p.1), .text (print p.2)]))] := by
  obtain ⟨k1, k2, k3, k4, k5⟩ := plain_keys
  refine field_members k4 (IsJson.number _ _ (hn ps.length)) ?_
  have hv := IsJson.blank [' '] _ ['\n'] _ (by intro c hc; simp at hc; exact Or.inl hc) (by intro c hc; simp at hc; exact Or.inr (Or.inl hc))
    (array_json hp ps)
  have := IsMembers.one ('\n' :: level) "diagram".toList [] _ _ blank_level k5 blank_nil hv
  simpa [quoted, List.append_assoc] using this

/-- **C112.** The output is a JSON text that stands for the diagram, provided that names, keys and additional values contain neither quotes nor
backslashes nor control characters. -/
theorem _root_.Aleph.C112_write_partial (inf : α) (printNat : ℕ → List Char) (print : α → List Char) (name : List Char)
    (kvs : List (List Char × List Char)) (D : Diagram α) (hn : ∀ n, IsDecimal (printNat n) n) (hp : ∀ x, JsonPlain (print x)) (hname : JsonPlain name)
    (hk : ∀ e ∈ kvs, JsonPlain e.1 ∧ JsonPlain e.2) : IsJson (write inf printNat print name kvs D) (diagramValue inf print name kvs D) := by
  obtain ⟨k1, k2, k3, k4, k5⟩ := plain_keys
  have hb : D.betti inf = D.points.countP fun p => p.2 = inf := rfl
  have h4 := last_members printNat hn hp D.points
  have h3 : IsMembers ('\n' :: ((if name.isEmpty then [] else field "name".toList (quoted name)) ++ (field "size".toList (printNat D.points.length) ++
      (level ++ quoted "diagram".toList ++ [':', ' ', '[', '\n'] ++ pointsText print D.points ++ ['\n'] ++ level ++ [']', '\n']))))
      ((if name = [] then [] else [("name".toList, Json.text name)]) ++ [("size".toList, .number D.points.length),
        ("diagram".toList, .array (D.points.map fun p => .array [.text (print p.1), .text (print p.2)]))]) := by
    by_cases h0 : name = []
    · subst h0
      simpa using h4
    · rw [if_neg h0, if_neg (by simpa using h0)]
      exact field_members k3 (quoted_json hname) h4
  have h1 := field_members k1 (IsJson.number _ _ (hn (D.betti inf))) (field_members k2 (IsJson.number _ _ (hn D.dimension)) (fields_members hk h3))
  have := IsJson.object _ _ h1
  simpa [write, diagramValue, hb, List.append_assoc] using this

theorem isDecimal_toDigits (n : ℕ) : IsDecimal (Nat.toDigits 10 n) n := by
  have h10 : (1 : ℕ) < 10 := by norm_num
  have hdig : ∀ d < 10, '0' ≤ d.digitChar ∧ d.digitChar ≤ '9' ∧ d.digitChar.toNat - 48 = d ∧ (d.digitChar = '0' → d = 0) := by decide
  suffices h : Nat.toDigits 10 n ≠ [] ∧ (∀ c ∈ Nat.toDigits 10 n, '0' ≤ c ∧ c ≤ '9') ∧ ((Nat.toDigits 10 n).head? = some '0' → n = 0) ∧
      (Nat.toDigits 10 n).foldl (fun n c => 10 * n + (c.toNat - 48)) 0 = n from
    ⟨h.1, h.2.1, fun h0 => by rw [h.2.2.1 h0]; exact Nat.toDigits_zero 10, h.2.2.2⟩
  induction n using Nat.strong_induction_on with
  | _ n ih =>
    rw [Nat.toDigits_eq_if h10]
    by_cases hn : n < 10
    · rw [if_pos hn]
      have h := hdig n hn
      refine ⟨by simp, ?_, ?_, ?_⟩
      · intro c hc
        rw [List.mem_singleton] at hc
        subst hc
        exact ⟨h.1, h.2.1⟩
      · intro h0
        exact h.2.2.2 (by simpa using h0)
      · simpa using h.2.2.1
    · rw [if_neg hn]
      obtain ⟨i1, i2, i3, i4⟩ := ih (n / 10) (by omega)
      have h := hdig (n % 10) (by omega)
      refine ⟨by simp, ?_, ?_, ?_⟩
      · intro c hc
        rcases List.mem_append.mp hc with hc | hc
        · exact i2 c hc
        · rw [List.mem_singleton] at hc
          subst hc
          exact ⟨h.1, h.2.1⟩
      · intro h0
        rw [List.head?_append_of_ne_nil _ i1] at h0
        have := i3 h0
        omega
      · rw [List.foldl_append, i4]
        simp only [List.foldl_cons, List.foldl_nil]
        rw [h.2.2.1]
        omega

/-- A diagram with a point and an unpaired point, with a name and an additional pair. -/
example : IsJson
    (write none (Nat.toDigits 10) (fun x : Option ℕ => x.elim ['i', 'n', 'f'] (Nat.toDigits 10)) "torus".toList [("file".toList, "a.txt".toList)]
      ⟨1, [(some 0, some 12), (some 3, none)]⟩)
    (.object [("betti".toList, .number 1), ("dimension".toList, .number 1), ("file".toList, .text "a.txt".toList), ("name".toList, .text "torus".toList),
      ("size".toList, .number 2), ("diagram".toList, .array [.array [.text ['0'], .text ['1', '2']], .array [.text ['3'], .text ['i', 'n', 'f']]])]) := by
  refine C112_write_partial none (Nat.toDigits 10) _ _ _ _ isDecimal_toDigits ?_ ?_ ?_
  · intro x
    cases x with
    | none => unfold JsonPlain; decide
    | some n =>
      intro c hc
      have := (isDecimal_toDigits n).2.1 c hc
      have h0 : 48 ≤ c.toNat := this.1
      have h9 : c.toNat ≤ 57 := this.2
      refine ⟨?_, ?_, by omega⟩
      · rintro rfl
        exact absurd h0 (by decide)
      · rintro rfl
        exact absurd h9 (by decide)
  · unfold JsonPlain; decide
  · unfold JsonPlain; decide

/-- Names are not escaped: a name with quotes adds a member to the object. -/
theorem _root_.Aleph.C112_injection (inf : α) (printNat : ℕ → List Char) (print : α → List Char) (D : Diagram α) (a key value : List Char)
    (hn : ∀ n, IsDecimal (printNat n) n) (hp : ∀ x, JsonPlain (print x)) (ha : JsonPlain a) (hk : JsonPlain key) (hv : JsonPlain value) :
    IsJson (write inf printNat print (a ++ "\", \"".toList ++ key ++ "\": \"".toList ++ value) [] D)
      (.object ([("betti".toList, .number (D.points.countP fun p => p.2 = inf)), ("dimension".toList, .number D.dimension), ("name".toList, .text a),
        (key, .text value), ("size".toList, .number D.points.length),
        ("diagram".toList, .array (D.points.map fun p => .array [.text (print p.1), .text (print p.2)]))])) := by
  obtain ⟨k1, k2, k3, k4, k5⟩ := plain_keys
  have hb : D.betti inf = D.points.countP fun p => p.2 = inf := rfl
  have h4 := last_members printNat hn hp D.points
  have h3 := IsMembers.cons [' '] key [] (' ' :: quoted value) _ _ _ (by intro c hc; simp at hc; exact Or.inl hc) hk blank_nil
    (json_space (quoted_json hv)) h4
  have h2 := IsMembers.cons ('\n' :: level) "name".toList [] (' ' :: quoted a) _ _ _ blank_level k3 blank_nil (json_space (quoted_json ha)) h3
  have h2' : IsMembers ('\n' :: (field "name".toList (quoted (a ++ "\", \"".toList ++ key ++ "\": \"".toList ++ value)) ++
      (field "size".toList (printNat D.points.length) ++ (level ++ quoted "diagram".toList ++ [':', ' ', '[', '\n'] ++ pointsText print D.points ++ ['\n'] ++
        level ++ [']', '\n'])))) [("name".toList, .text a), (key, .text value), ("size".toList, .number D.points.length),
      ("diagram".toList, .array (D.points.map fun p => .array [.text (print p.1), .text (print p.2)]))] := by
    simpa [field, quoted, List.append_assoc] using h2
  have h1 := field_members k1 (IsJson.number _ _ (hn (D.betti inf))) (field_members k2 (IsJson.number _ _ (hn D.dimension)) h2')
  have := IsJson.object _ _ h1
  simpa [write, hb, List.append_assoc] using this

theorem lookup_iff {ms : List (List Char × Json)} {k : List Char} {v : Json} : ms.lookup k = some v ↔ HasMember (.object ms) k v := by
  constructor
  · intro h
    induction ms with
    | nil => cases h
    | cons e ms ih =>
      rw [List.lookup_cons] at h
      by_cases hk : k = e.1
      · rw [show (k == e.1) = true by simpa using hk] at h
        obtain rfl := Option.some.inj h
        subst hk
        exact HasMember.intro [] _ _ _ (by simp)
      · rw [show (k == e.1) = false by simpa using hk] at h
        generalize ho : Json.object ms = o at ih
        cases ih h with
        | intro a k v b ha =>
          obtain rfl := Json.object.inj ho
          refine HasMember.intro (e :: a) k v b ?_
          intro e' he'
          rcases List.mem_cons.mp he' with rfl | he'
          · exact fun h => hk h.symm
          · exact ha e' he'
  · intro h
    generalize ho : Json.object ms = o at h
    cases h with
    | intro a k v b ha =>
      obtain rfl := Json.object.inj ho
      clear ho
      induction a with
      | nil => simp
      | cons e a ih =>
        have := ha e (List.mem_cons_self ..)
        rw [List.cons_append, List.lookup_cons, show (k == e.1) = false by simpa using fun h => this h.symm]
        exact ih fun e' he' => ha e' (List.mem_cons_of_mem _ he')

theorem member_iff {k : List Char} {v w : Json} : member k v = .ok w ↔ HasMember v k w := by
  cases v with
  | object ms =>
    rw [← lookup_iff, member]
    cases ms.lookup k <;> simp
  | negative s => exact ⟨fun h => (by cases h), fun h => (by cases h)⟩
  | text s => exact ⟨fun h => (by cases h), fun h => (by cases h)⟩
  | number s => exact ⟨fun h => (by cases h), fun h => (by cases h)⟩
  | array s => exact ⟨fun h => (by cases h), fun h => (by cases h)⟩

theorem getUint_iff {limit n : ℕ} {v : Json} : getUint limit v = .ok n ↔ v = .number n ∧ n < limit := by
  cases v with
  | number m =>
    rw [getUint]
    by_cases h : m < limit
    · rw [if_pos h]
      constructor
      · intro h'
        cases h'
        exact ⟨rfl, h⟩
      · rintro ⟨h', _⟩
        cases h'
        rfl
    · rw [if_neg h]
      constructor
      · intro h'
        cases h'
      · rintro ⟨h', h2⟩
        cases h'
        exact absurd h2 h
  | negative s => simp [getUint]
  | text s => simp [getUint]
  | object s => simp [getUint]
  | array s => simp [getUint]

theorem getArray_iff {v : Json} {vs : List Json} : getArray v = .ok vs ↔ v = .array vs := by
  cases v <;> simp [getArray]

theorem bind_ok {ε β γ : Type} {x : Except ε β} {f : β → Except ε γ} {c : γ} : (x >>= f) = .ok c ↔ ∃ b, x = .ok b ∧ f b = .ok c := by
  cases x with
  | error e => exact ⟨fun h => (by cases h), fun ⟨_, h, _⟩ => (by cases h)⟩
  | ok b => exact ⟨fun h => ⟨b, rfl, h⟩, fun ⟨_, h, h'⟩ => (by cases h; exact h')⟩

omit [DecidableEq α] in
theorem readPoint_iff {convert : List Char → α} {D E : Diagram α} {v : Json} :
    readPoint convert D v = .ok E ↔ ∃ p, PointOf convert v p ∧ E = ⟨D.dimension, D.points ++ [p]⟩ := by
  rw [readPoint, bind_ok]
  constructor
  · rintro ⟨cs, h1, h2⟩
    rw [getArray_iff] at h1
    subst h1
    match cs, h2 with
    | a :: b :: rest, h2 =>
      simp only [bind_ok] at h2
      obtain ⟨x, hx, y, hy, h3⟩ := h2
      cases a with
      | text x' =>
        cases b with
        | text y' =>
          cases hx
          cases hy
          cases h3
          exact ⟨_, PointOf.intro x y rest, rfl⟩
        | _ => cases hy
      | _ => cases hx
  · rintro ⟨p, hp, rfl⟩
    cases hp with
    | intro x y rest => exact ⟨_, rfl, rfl⟩

omit [DecidableEq α] in
theorem readPoints_iff {convert : List Char → α} {vs : List Json} {D E : Diagram α} :
    vs.foldlM (readPoint convert) D = .ok E ↔ ∃ ps, List.Forall₂ (PointOf convert) vs ps ∧ E = ⟨D.dimension, D.points ++ ps⟩ := by
  induction vs generalizing D with
  | nil =>
    rw [List.foldlM_nil]
    constructor
    · intro h
      cases h
      exact ⟨[], .nil, by simp⟩
    · rintro ⟨ps, h, rfl⟩
      cases h
      simp only [List.append_nil]
      rfl
  | cons v vs ih =>
    rw [List.foldlM_cons, bind_ok]
    constructor
    · rintro ⟨F, h1, h2⟩
      obtain ⟨p, hp, rfl⟩ := readPoint_iff.mp h1
      obtain ⟨ps, hps, rfl⟩ := ih.mp h2
      exact ⟨p :: ps, .cons hp hps, by simp⟩
    · rintro ⟨ps, h, rfl⟩
      cases h with
      | cons hp hps => exact ⟨_, readPoint_iff.mpr ⟨_, hp, rfl⟩, ih.mpr ⟨_, hps, by simp⟩⟩

theorem readDiagram_iff {inf : α} {limit : ℕ} {convert : List Char → α} {v : Json} {D : Diagram α} :
    readDiagram inf limit convert v = .ok D ↔ DiagramOf inf limit convert v D.dimension D.points := by
  have hb : ∀ E : Diagram α, E.betti inf = E.points.countP fun p => p.2 = inf := fun _ => rfl
  simp only [readDiagram, bind_ok, member_iff, getUint_iff, getArray_iff, readPoints_iff]
  constructor
  · rintro ⟨d, ⟨_, hd, rfl, hd'⟩, b, ⟨_, hb', rfl, hb''⟩, n, ⟨_, hn, rfl, hn'⟩, vs, ⟨_, hvs, rfl⟩, E, ⟨ps, hps, rfl⟩, h⟩
    split at h
    · cases h
    · rename_i h1
      split at h
      · cases h
      · rename_i h2
        cases h
        rw [hb] at h2
        simp only [Diagram.setDimension, Diagram.empty, List.nil_append, ne_eq, not_not] at h1 h2 ⊢
        subst h1 h2
        exact ⟨hd, hb', hn, hd', hb'', hn', vs, hvs, hps⟩
  · rintro ⟨h1, h2, h3, h4, h5, h6, vs, h7, h8⟩
    refine ⟨_, ⟨_, h1, rfl, h4⟩, _, ⟨_, h2, rfl, h5⟩, _, ⟨_, h3, rfl, h6⟩, vs, ⟨_, h7, rfl⟩, _, ⟨_, h8, rfl⟩, ?_⟩
    simp [Diagram.setDimension, Diagram.empty, hb]

theorem mapM_ok {ε β γ : Type} {f : β → Except ε γ} {l : List β} {r : List γ} : l.mapM f = .ok r ↔ List.Forall₂ (fun b c => f b = .ok c) l r := by
  induction l generalizing r with
  | nil =>
    rw [List.mapM_nil]
    constructor
    · intro h
      cases h
      exact .nil
    · intro h
      cases h
      rfl
  | cons b l ih =>
    rw [List.mapM_cons, bind_ok]
    constructor
    · rintro ⟨c, h1, h2⟩
      obtain ⟨r', h3, h4⟩ := bind_ok.mp h2
      cases h4
      exact .cons h1 (ih.mp h3)
    · intro h
      cases h with
      | cons h1 h2 => exact ⟨_, h1, bind_ok.mpr ⟨_, ih.mpr h2, rfl⟩⟩

/-- **C112.** Reading succeeds exactly for objects with an array `diagrams` of consistent diagrams, and yields these diagrams in order. -/
theorem _root_.Aleph.C112_read (inf : α) (limit : ℕ) (convert : List Char → α) (document : Json) (Ds : List (Diagram α)) :
    read inf limit convert document = .ok Ds ↔
      ∃ vs, HasMember document "diagrams".toList (.array vs) ∧
        List.Forall₂ (fun v D => DiagramOf inf limit convert v D.dimension D.points) vs Ds := by
  have hf : ∀ (vs : List Json), vs.mapM (readDiagram inf limit convert) = .ok Ds ↔
      List.Forall₂ (fun v D => DiagramOf inf limit convert v D.dimension D.points) vs Ds := by
    intro vs
    rw [mapM_ok]
    simp only [readDiagram_iff]
  cases document with
  | object ms =>
    rw [read]
    cases h : ms.lookup "diagrams".toList with
    | none =>
      constructor
      · intro h
        cases h
      · rintro ⟨vs, h1, _⟩
        rw [← lookup_iff, h] at h1
        cases h1
    | some v =>
      rw [bind_ok]
      simp only [getArray_iff, hf, ← lookup_iff, h, Option.some.injEq]
  | negative s => exact ⟨fun h => (by cases h), fun ⟨_, h, _⟩ => (by cases h)⟩
  | text s => exact ⟨fun h => (by cases h), fun ⟨_, h, _⟩ => (by cases h)⟩
  | number s => exact ⟨fun h => (by cases h), fun ⟨_, h, _⟩ => (by cases h)⟩
  | array s => exact ⟨fun h => (by cases h), fun ⟨_, h, _⟩ => (by cases h)⟩

/-- An object without an array of diagrams is an exception; in particular, the output of the writer on its own. -/
theorem _root_.Aleph.C112_single (inf : α) (limit : ℕ) (convert : List Char → α) (print : α → List Char) (name : List Char)
    (kvs : List (List Char × List Char)) (D : Diagram α) (hk : ∀ e ∈ kvs, e.1 ≠ "diagrams".toList) :
    read inf limit convert (diagramValue inf print name kvs D) = .error .exception := by
  rw [diagramValue, read]
  rw [show List.lookup "diagrams".toList _ = none from ?_]
  rw [List.lookup_eq_none_iff]
  intro e he
  simp only [List.mem_append, List.mem_map, List.mem_cons, List.not_mem_nil, or_false] at he
  rw [bne_iff_ne]
  rcases he with (((rfl | rfl) | ⟨e', he', rfl⟩) | he) | rfl | rfl
  · simp
  · simp
  · exact fun h => hk e' he' h.symm
  · split at he
    · cases he
    · rw [List.mem_singleton] at he
      subst he
      simp
  · simp
  · simp

theorem value_of (inf : α) (limit : ℕ) (convert : List Char → α) (print : α → List Char) (name : List Char) (kvs : List (List Char × List Char))
    (D : Diagram α) (hc : ∀ p ∈ D.points, convert (print p.1) = p.1 ∧ convert (print p.2) = p.2)
    (hk : ∀ e ∈ kvs, e.1 ≠ "size".toList ∧ e.1 ≠ "diagram".toList) (hd : D.dimension < limit) (hs : D.points.length < limit) :
    DiagramOf inf limit convert (diagramValue inf print name kvs D) D.dimension D.points := by
  have hname : ∀ k, k ≠ "name".toList → ∀ e ∈ (if name = [] then [] else [("name".toList, Json.text name)]), e.1 ≠ k := by
    intro k hk e he
    split at he
    · cases he
    · rw [List.mem_singleton] at he
      subst he
      exact fun h => hk h.symm
  refine ⟨?_, ?_, ?_, hd, ?_, hs, D.points.map (fun p => .array [.text (print p.1), .text (print p.2)]), ?_, ?_⟩
  · exact HasMember.intro [("betti".toList, _)] _ _ _ (by simp)
  · exact HasMember.intro [] _ _ _ (by simp)
  · rw [diagramValue]
    refine HasMember.intro _ _ _ _ ?_
    intro e he
    simp only [List.mem_append, List.mem_map, List.mem_cons, List.not_mem_nil, or_false] at he
    rcases he with ((rfl | rfl) | ⟨e', he', rfl⟩) | he
    · simp
    · simp
    · exact (hk e' he').1
    · exact hname _ (by decide) e he
  · exact lt_of_le_of_lt List.countP_le_length hs
  · rw [diagramValue, show ∀ (l : List (List Char × Json)) a b, l ++ [a, b] = (l ++ [a]) ++ b :: [] from fun l a b => by simp]
    refine HasMember.intro _ _ _ _ ?_
    intro e he
    simp only [List.mem_append, List.mem_map, List.mem_cons, List.not_mem_nil, or_false] at he
    rcases he with (((rfl | rfl) | ⟨e', he', rfl⟩) | he) | rfl
    · simp
    · simp
    · exact (hk e' he').2
    · exact hname _ (by decide) e he
    · simp
  · rw [List.forall₂_map_left_iff, List.forall₂_same]
    intro p hp
    have := PointOf.intro (convert := convert) (print p.1) (print p.2) []
    rwa [(hc p hp).1, (hc p hp).2] at this

/-- **C112.** Diagrams that are written and put into an array `diagrams` are read back, if coordinates survive the conversion to text and back, and
if additional keys differ from the two that are written after them. -/
theorem _root_.Aleph.C112_round_trip (inf : α) (limit : ℕ) (convert : List Char → α) (print : α → List Char)
    (Es : List (List Char × List (List Char × List Char) × Diagram α))
    (hE : ∀ E ∈ Es, (∀ p ∈ E.2.2.points, convert (print p.1) = p.1 ∧ convert (print p.2) = p.2) ∧
      (∀ e ∈ E.2.1, e.1 ≠ "size".toList ∧ e.1 ≠ "diagram".toList) ∧ E.2.2.dimension < limit ∧ E.2.2.points.length < limit) :
    read inf limit convert (.object [("diagrams".toList, .array (Es.map fun E => diagramValue inf print E.1 E.2.1 E.2.2))]) = .ok (Es.map fun E => E.2.2) := by
  rw [C112_read]
  refine ⟨_, HasMember.intro [] _ _ _ (by simp), ?_⟩
  rw [List.forall₂_map_left_iff, List.forall₂_map_right_iff, List.forall₂_same]
  intro E hE'
  obtain ⟨h1, h2, h3, h4⟩ := hE E hE'
  exact value_of inf limit convert print E.1 E.2.1 E.2.2 h1 h2 h3 h4

/-- Additional pairs may not be called `size`: the reader then takes their value for the number of points. -/
theorem _root_.Aleph.C112_key (inf : α) (limit : ℕ) (convert : List Char → α) (print : α → List Char) (name value : List Char) (D : Diagram α) :
    ∀ Ds, read inf limit convert (.object [("diagrams".toList, .array [diagramValue inf print name [("size".toList, value)] D])]) ≠ .ok Ds := by
  intro Ds h
  rw [C112_read] at h
  obtain ⟨vs, h1, h2⟩ := h
  rw [← lookup_iff] at h1
  simp only [List.lookup_cons_self, Option.some.injEq, Json.array.injEq] at h1
  subst h1
  cases h2 with
  | cons h3 h4 =>
    have := lookup_iff.mpr h3.2.2.1
    rw [diagramValue] at h3
    have := lookup_iff.mpr h3.2.2.1
    have hs : ("size".toList == "betti".toList) = false := by decide
    have hs' : ("size".toList == "dimension".toList) = false := by decide
    simp only [List.map_cons, List.map_nil, List.cons_append, List.nil_append, List.lookup_cons, hs, hs', beq_self_eq_true, Option.some.injEq] at this
    cases this

/-- An empty diagram and a diagram with a name, two points and an additional pair. -/
example : read (none : Option ℕ) 1000 (fun t => if t = ['i'] then none else some t.length)
    (.object [("diagrams".toList, .array ([([], [], ⟨0, []⟩), ("x".toList, [("k".toList, "v".toList)], ⟨1, [(some 2, some 3), (some 4, none)]⟩)].map
      fun E : List Char × List (List Char × List Char) × Diagram (Option ℕ) =>
        diagramValue none (fun x => x.elim ['i'] fun n => List.replicate n '1') E.1 E.2.1 E.2.2))]) =
    .ok [⟨0, []⟩, ⟨1, [(some 2, some 3), (some 4, none)]⟩] := by
  rw [C112_round_trip]
  · rfl
  · decide

end Aleph.DiagramJson
