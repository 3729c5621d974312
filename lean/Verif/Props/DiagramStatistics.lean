import Verif.Model.DiagramStatistics
import Verif.Spec.DiagramStatistics
import Verif.Props.DiagramNorms
import Verif.Props.Filesystem
import Verif.Props.TextReaders
import Verif.Props.DiagramJson
import Verif.Props.TopologicalDistance

/-!
# C152: the tool for statistics of persistence diagrams
-/

namespace Aleph.DiagramStatistics

open Spec.DiagramStatistics
open Spec.Files (Filename)
open Spec.TopologicalDistance (Decimal Divides)

/-! ### Names of files -/

theorem matchStem_eq (stem : List Char) : matchStem stem = TopologicalDistance.matchName (stem ++ ['.', 't', 'x', 't']) := by
  unfold matchStem TopologicalDistance.matchName
  have : (stem ++ ['.', 't', 'x', 't']).reverse = 't' :: 'x' :: 't' :: '.' :: stem.reverse := by simp
  rw [this]
  rfl

theorem value_decimal {digits : List Char} {v : ℕ} (h : ∀ c ∈ digits, c.isDigit) (hv : Decimal digits v) : value digits = v :=
  TopologicalDistance.decimal_unique (TopologicalDistance.decimal_value digits h) hv

theorem extension_txt {s : List Char} : Spec.Files.Extension (s ++ ['.', 't', 'x', 't']) s ['.', 't', 'x', 't'] := by
  refine ⟨rfl, Or.inr ⟨⟨by simp, ?_, ?_⟩, ['t', 'x', 't'], rfl, by decide⟩⟩
  · intro h
    have := congrArg List.length h
    simp at this
  · intro h
    have := congrArg List.length h
    simp at this

/-- **C152 (names).** If the name of a file, without directories, consists of a name, an underscore, one of the letters `d` and `k`, digits and `.txt`, the data set has this name and this dimension
(as remainder; numbers that are too large raise an exception).  For other files, the name of the data set is the name of the file without its extension, and the dimension is zero; this
requires that the extension is not `.txt` or is the only one. -/
theorem _root_.Aleph.C152_names_partial (ulongMax unsignedMax : ℕ) (path base : List Char) (hb : Filename path base) :
    (∀ name digits v, Divides base name digits → Decimal digits v →
      parseFilename ulongMax unsignedMax path = if v ≤ ulongMax then .ok (name, v % (unsignedMax + 1)) else .error .exception) ∧
    (∀ s e, (∀ name digits, ¬ Divides base name digits) → Spec.Files.Extension base s e → (e ≠ ['.', 't', 'x', 't'] ∨ '.' ∉ s) → parseFilename ulongMax unsignedMax path = .ok (s, 0)) := by
  constructor
  · intro name digits v hd hv
    have hm := TopologicalDistance.matchName_divides hd
    obtain ⟨letter, hl, he, hne, hdig, hn⟩ := hd
    obtain ⟨h1, h2⟩ := (C138_extension path (name ++ ['_', letter] ++ digits) ['.', 't', 'x', 't']).2 ⟨base, hb, by rw [he]; exact extension_txt⟩
    unfold parseFilename
    have h3 : matchStem (name ++ ['_', letter] ++ digits) = some (name, digits) := by rw [matchStem_eq, ← he, hm]
    rw [if_pos h2, h1]
    simp only [h3]
    rw [value_decimal hdig hv]
    by_cases h : v ≤ ulongMax
    · rw [if_neg (by omega), if_pos h]
    · rw [if_pos (by omega), if_neg h]
  · intro s e hno hext hdot
    obtain ⟨h1, h2⟩ := (C138_extension path s e).2 ⟨base, hb, hext⟩
    unfold parseFilename
    by_cases he : e = ['.', 't', 'x', 't']
    · rw [if_pos (by rw [h2, he]), h1]
      have hm : matchStem s = none := by
        rw [matchStem_eq]
        cases hm : TopologicalDistance.matchName (s ++ ['.', 't', 'x', 't']) with
        | none => rfl
        | some nd =>
          refine absurd (TopologicalDistance.divides_matchName hm) ?_
          have := hno nd.1 nd.2
          rwa [hext.1, he] at this
      simp only [hm]
      have hs : '.' ∉ s := hdot.resolve_left (fun h => h he)
      have hslash : s = [] ∨ '/' ∉ s := by
        right
        rcases hb with ⟨_, h⟩ | ⟨_, _, h⟩ | ⟨_, _, _, _, h, _⟩
        · rw [h] at hext
          have := hext.1
          rw [he] at this
          simp at this
        · rw [h] at hext
          have := congrArg List.length hext.1
          rw [he] at this
          simp at this
        · rw [hext.1] at h
          exact fun hs => h (List.mem_append_left _ hs)
      rw [((C138_extension s s []).2 ⟨s, ?_, by simp [Spec.Files.Extension, hs]⟩).1]
      by_cases h0 : s = []
      · exact Or.inl ⟨h0, h0⟩
      · exact Or.inr (Or.inr ⟨[], [], by simp, h0, hslash.resolve_left h0, by simp, by simp⟩)
    · rw [if_neg (by rw [h2]; exact he), h1]

/-- **C152 (extensions).** The code violates the property: if the name of a file ends in `.txt`, and does not state a dimension, a further extension is removed as well; `v1.0.txt` and `v1.1.txt` are both
called `v1`. -/
theorem _root_.Aleph.C152_names_wrong (ulongMax unsignedMax : ℕ) (s e : List Char) (hs : s ≠ []) (h1 : '/' ∉ s) (h2 : '/' ∉ e) (h3 : '.' ∉ e)
    (hno : ∀ name digits, ¬ Divides (s ++ '.' :: e ++ ['.', 't', 'x', 't']) name digits) (hdots : s ++ '.' :: e ≠ ['.', '.']) :
    parseFilename ulongMax unsignedMax (s ++ '.' :: e ++ ['.', 't', 'x', 't']) = .ok (s, 0) := by
  have hf : ∀ t : List Char, t ≠ [] → '/' ∉ t → Filename t t := fun t h0 h => Or.inr (Or.inr ⟨[], [], by simp, h0, h, by simp, by simp⟩)
  obtain ⟨g1, g2⟩ := (C138_extension (s ++ '.' :: e ++ ['.', 't', 'x', 't']) (s ++ '.' :: e) ['.', 't', 'x', 't']).2 ⟨_, hf _ (by simp) (by simp [h1, h2]), extension_txt⟩
  unfold parseFilename
  rw [if_pos g2, g1]
  have hm : matchStem (s ++ '.' :: e) = none := by
    rw [matchStem_eq]
    cases hm : TopologicalDistance.matchName (s ++ '.' :: e ++ ['.', 't', 'x', 't']) with
    | none => rfl
    | some nd => exact absurd (TopologicalDistance.divides_matchName hm) (hno nd.1 nd.2)
  simp only [hm]
  rw [((C138_extension (s ++ '.' :: e) s ('.' :: e)).2 ⟨_, hf _ (by simp) (by simp [h1, h2]), rfl, Or.inr ⟨⟨by simp, ?_, hdots⟩, e, rfl, h3⟩⟩).1]
  intro h
  have := congrArg List.length h
  simp at this
  have := List.length_pos_of_ne_nil hs
  omega

/-! ### Statistics -/

theorem quotient_iff {x : ℝ} {n : ℕ} {y : ℝ} : quotient x n = some y ↔ n ≠ 0 ∧ y * n = x := by
  unfold quotient
  by_cases h : n = 0
  · simp [h]
  · have hn : (n : ℝ) ≠ 0 := by exact_mod_cast h
    rw [if_neg h, Option.some.injEq, div_eq_iff hn]
    exact ⟨fun e => ⟨h, e.symm⟩, fun e => e.2.symm⟩

/-- **C152 (statistics).** Each line contains the statistics of the diagram that remains after the removal of invalid points: its number of points, the sum of powers of persistence values, the quotient of
this sum by the number of points, the largest persistence value, and the mean persistence value. -/
theorem _root_.Aleph.C152_statistics (maxv : ℝ) (invalid : Option ℝ) (p : ℝ) (input : Input) :
    let r := statistics maxv invalid p input
    r.filename = input.filename ∧ r.name = input.name ∧ r.dimension = input.dimension ∧ r.power = p ∧
      IsStatistics (clean maxv invalid input.diagram).points p r.features r.total r.normalized r.infinity r.average := by
  refine ⟨rfl, rfl, rfl, rfl, ⟨rfl, ?_, ?_, ?_, ?_⟩⟩
  · exact (C66_total_persistence _ (clean maxv invalid input.diagram) p).1
  · intro x
    have : (statistics maxv invalid p input).normalized = quotient (statistics maxv invalid p input).total (clean maxv invalid input.diagram).points.length := rfl
    rw [this, quotient_iff]
    simp only [ne_eq, List.length_eq_zero_iff]
  · by_cases h : (clean maxv invalid input.diagram).points = []
    · exact Or.inl ⟨h, (C66_infinity_norm _).1 h⟩
    · exact Or.inr ((C66_infinity_norm _).2 h)
  · intro x
    have hs : (DiagramNorms.persistenceValues (clean maxv invalid input.diagram) false).foldl (· + ·) 0 = ((clean maxv invalid input.diagram).points.map fun q => q.2 - q.1).sum := by
      rw [List.sum_eq_foldl]
      rfl
    have : (statistics maxv invalid p input).average = quotient ((DiagramNorms.persistenceValues (clean maxv invalid input.diagram) false).foldl (· + ·) 0)
      (clean maxv invalid input.diagram).points.length := rfl
    rw [this, quotient_iff, hs]
    simp only [ne_eq, List.length_eq_zero_iff]

/-- **C152 (invalid points).** Without the option for invalid values (or if it is the largest number) the diagram is not modified.  Otherwise the points that contain the value are removed; the order of the other
ones is preserved.  The claim requires that no other points are on the diagonal. -/
theorem _root_.Aleph.C152_invalid_partial (maxv : ℝ) (D : Diagram ℝ) :
    clean maxv none D = D ∧ clean maxv (some maxv) D = D ∧
    ∀ x, x ≠ maxv → (∀ q ∈ D.points, q.1 = q.2 → q.1 = x) → (clean maxv (some x) D).points = D.points.filter fun q => decide (q.1 ≠ x ∧ q.2 ≠ x) := by
  refine ⟨rfl, by simp [clean], fun x hx h => ?_⟩
  unfold clean Diagram.removeDiagonal
  simp only [hx, ne_eq, not_false_eq_true, if_true]
  rw [List.filter_map]
  generalize D.points = l at h
  induction l with
  | nil => rfl
  | cons q l ih =>
    have ih := ih fun q hq => h q (List.mem_cons_of_mem _ hq)
    have hq := h q List.mem_cons_self
    rw [List.filter_cons, List.filter_cons]
    by_cases h1 : q.1 = x ∨ q.2 = x
    · have e1 : ((fun p : ℝ × ℝ => !decide (p.1 = p.2)) ∘ fun p => if p.1 = x ∨ p.2 = x then (0, 0) else p) q = false := by simp [h1]
      have e2 : decide (¬q.1 = x ∧ ¬q.2 = x) = false := by
        rw [decide_eq_false_iff_not]; tauto
      rw [e1, e2]
      simpa using ih
    · have hne : q.1 ≠ q.2 := fun e => h1 (Or.inl (hq e))
      have e1 : ((fun p : ℝ × ℝ => !decide (p.1 = p.2)) ∘ fun p => if p.1 = x ∨ p.2 = x then (0, 0) else p) q = true := by simp [h1, hne]
      have e2 : decide (¬q.1 = x ∧ ¬q.2 = x) = true := by
        rw [decide_eq_true_eq]; tauto
      rw [e1, e2]
      simp only [if_true, List.map_cons, if_neg h1]
      rw [ih]

/-- **C152 (diagonal).** The code violates the property: with the option, all points on the diagonal are removed as well. -/
theorem _root_.Aleph.C152_diagonal_wrong (maxv x : ℝ) (hx : x ≠ maxv) (D : Diagram ℝ) : ∀ q ∈ (clean maxv (some x) D).points, q.1 ≠ q.2 := by
  intro q hq
  unfold clean Diagram.removeDiagonal at hq
  simp only [hx, ne_eq, not_false_eq_true, if_true] at hq
  simpa using (List.mem_filter.1 hq).2

/-! ### Options -/

/-- **C152 (options).** The last value of each option counts; the power is two by default.  An unknown option is undefined. -/
theorem _root_.Aleph.C152_options (opts : List Opt) :
    (∀ i p, settings opts = .ok (i, p) → Opt.unknown ∉ opts ∧
      (∀ x, i = some x ↔ ∃ a b, opts = a ++ .invalid x :: b ∧ ∀ y, Opt.invalid y ∉ b) ∧
      ((∃ a b, opts = a ++ .power p :: b ∧ ∀ y, Opt.power y ∉ b) ∨ ((∀ y, Opt.power y ∉ opts) ∧ p = 2))) ∧
    (Opt.unknown ∈ opts → settings opts = .error .undefined) ∧ (Opt.unknown ∉ opts → ∃ i p, settings opts = .ok (i, p)) := by
  have key : ∀ opts : List Opt, (Opt.unknown ∈ opts ∧ settings opts = .error .undefined) ∨ (Opt.unknown ∉ opts ∧ ∃ i p, settings opts = .ok (i, p) ∧
      (∀ x, i = some x ↔ ∃ a b, opts = a ++ .invalid x :: b ∧ ∀ y, Opt.invalid y ∉ b) ∧
      ((∃ a b, opts = a ++ .power p :: b ∧ ∀ y, Opt.power y ∉ b) ∨ ((∀ y, Opt.power y ∉ opts) ∧ p = 2))) := by
    intro opts
    induction opts using List.reverseRecOn with
    | nil => exact Or.inr ⟨by simp, none, 2, rfl, by simp, Or.inr ⟨by simp, rfl⟩⟩
    | append_singleton l o ih =>
      have hstep : settings (l ++ [o]) = (settings l >>= fun s => setOption s o) := by
        unfold settings
        rw [List.foldlM_append]
        congr 1
        funext s
        simp
      have hmem : ∀ {q : Opt} {b : List Opt} {a : List Opt}, l ++ [o] = a ++ q :: b → (b = [] ∧ o = q ∧ a = l) ∨ ∃ b', b = b' ++ [o] ∧ l = a ++ q :: b' := by
        intro q b a h
        rcases List.eq_nil_or_concat b with rfl | ⟨b', c, rfl⟩
        · obtain ⟨e1, e2⟩ := List.append_inj' h rfl
          exact Or.inl ⟨rfl, by simpa using e2, e1.symm⟩
        · rw [List.concat_eq_append, show a ++ q :: (b' ++ [c]) = (a ++ q :: b') ++ [c] by simp] at h
          obtain ⟨e1, e2⟩ := List.append_inj' h rfl
          have e2 : o = c := by simpa using e2
          exact Or.inr ⟨b', by rw [e2, List.concat_eq_append], e1⟩
      rcases ih with ⟨h1, h2⟩ | ⟨h1, i, p, h2, h3, h4⟩
      · left
        refine ⟨by simp [h1], ?_⟩
        rw [hstep, h2]
        rfl
      · rw [hstep, h2]
        cases o with
        | unknown => exact Or.inl ⟨by simp, rfl⟩
        | invalid x =>
          refine Or.inr ⟨by simp [h1], some x, p, rfl, ?_, ?_⟩
          · intro y
            rw [Option.some.injEq]
            constructor
            · rintro rfl
              exact ⟨l, [], rfl, by simp⟩
            · rintro ⟨a, b, h, hb⟩
              rcases hmem h with ⟨_, e, _⟩ | ⟨b', rfl, _⟩
              · exact Opt.invalid.inj e
              · exact absurd (by simp) (hb x)
          · rcases h4 with ⟨a, b, rfl, hb⟩ | ⟨hb, rfl⟩
            · exact Or.inl ⟨a, b ++ [.invalid x], by simp, by simpa using hb⟩
            · exact Or.inr ⟨by simpa using hb, rfl⟩
        | power q =>
          refine Or.inr ⟨by simp [h1], i, q, rfl, ?_, Or.inl ⟨l, [], rfl, by simp⟩⟩
          intro y
          rw [h3]
          constructor
          · rintro ⟨a, b, rfl, hb⟩
            exact ⟨a, b ++ [.power q], by simp, by simpa using hb⟩
          · rintro ⟨a, b, h, hb⟩
            rcases hmem h with ⟨_, e, _⟩ | ⟨b', rfl, h'⟩
            · cases e
            · exact ⟨a, b', h', fun z hz => hb z (by simp [hz])⟩
  refine ⟨?_, ?_, ?_⟩
  · intro i p h
    rcases key opts with ⟨_, h2⟩ | ⟨h1, i', p', h2, h3, h4⟩
    · rw [h2] at h; cases h
    · rw [h2] at h; cases h
      exact ⟨h1, h3, h4⟩
  · intro h
    rcases key opts with ⟨_, h2⟩ | ⟨h1, _⟩
    · exact h2
    · exact absurd h h1
  · intro h
    rcases key opts with ⟨h1, _⟩ | ⟨_, i, p, h2, _⟩
    · exact absurd h1 h
    · exact ⟨i, p, h2⟩

/-! ### Output -/

theorem mapM_forall₂_ok {β γ : Type} {f : β → Except Failure γ} {as : List β} {bs : List γ} (h : List.Forall₂ (fun a b => f a = .ok b) as bs) : as.mapM f = .ok bs := by
  induction h with
  | nil => rfl
  | cons h1 _ ih => rw [List.mapM_cons, h1, ih]; rfl

theorem mapM_error {β γ : Type} {f : β → Except Failure γ} {as : List β} {a : β} (ha : a ∈ as) (h : ∃ e, f a = .error e) : ∃ e, as.mapM f = .error e := by
  obtain ⟨e, h⟩ := h
  induction as with
  | nil => simp at ha
  | cons x as ih =>
    rw [List.mapM_cons]
    cases hx : f x with
    | error e => exact ⟨e, rfl⟩
    | ok y =>
      rcases List.mem_cons.1 ha with rfl | ha
      · rw [h] at hx; cases hx
      · obtain ⟨e, he⟩ := ih ha
        exact ⟨e, by rw [he]; rfl⟩

theorem lines_flatMap {β : Type} (g : β → List Char) (l : List β) : EndedLines (l.map g) (l.flatMap fun x => g x ++ ['\n']) := by
  induction l with
  | nil => exact .nil
  | cons x l ih =>
    have := EndedLines.cons (l := g x) ih
    simpa using this

theorem line_eq (a b c d e f g h i : List Char) : ['\''] ++ a ++ ['\''] ++ [','] ++ b ++ [','] ++ c ++ [','] ++ d ++ [','] ++ e ++ [','] ++ f ++ [','] ++ g ++ [','] ++ h ++ [','] ++ i ++ ['\n'] =
    '\'' :: a ++ ['\''] ++ ',' :: (b ++ ',' :: (c ++ ',' :: (d ++ ',' :: (e ++ ',' :: (f ++ ',' :: (g ++ ',' :: (h ++ ',' :: i))))))) ++ ['\n'] := by
  simp

/-- **C152 (output).** The output consists of a line with the names of the columns and a line for each file, in the order of the arguments: nine texts that are separated by commas. -/
theorem _root_.Aleph.C152_output (ulongMax unsignedMax : ℕ) (maxv : ℝ) (convert : List Char → ℝ) (print : ℝ → List Char) (nan : List Char) (files : List Char → Option (List Char)) (opts : List Opt)
    (filenames : List (List Char)) (hne : filenames ≠ []) (invalid : Option ℝ) (p : ℝ) (hopts : settings opts = .ok (invalid, p)) (inputs : List Input)
    (hin : List.Forall₂ (fun filename i => i.filename = filename ∧ parseFilename ulongMax unsignedMax filename = .ok (i.name, i.dimension) ∧
      TextReaders.loadDiagram convert (files filename) = some i.diagram) filenames inputs) :
    ∃ first rest text, main ulongMax unsignedMax maxv convert print nan files opts filenames = .ok (0, text) ∧ EndedLines (first :: rest) text ∧
      Separated ["file".toList, "name".toList, "dimension".toList, "n_features".toList, "power".toList, "total_persistence".toList, "total_persistence_normalized".toList,
        "infinity_norm".toList, "average_persistence".toList] first ∧
      List.Forall₂ (fun i l => ∃ r, r = statistics maxv invalid p i ∧ ∃ dim num, Spec.IsDecimal dim i.dimension ∧ Spec.IsDecimal num r.features ∧
        Separated ['\'' :: i.filename ++ ['\''], i.name, dim, num, print p, print r.total, (r.normalized.map print).getD nan, print r.infinity, (r.average.map print).getD nan] l) inputs rest := by
  have hload : loadAll ulongMax unsignedMax convert files filenames = .ok inputs := by
    refine mapM_forall₂_ok (hin.imp ?_)
    rintro filename ⟨f, D, n, d⟩ ⟨h1, h2, h3⟩
    simp only at h1 h2 h3
    subst h1
    simp only [h2, h3]
  have hmain : main ulongMax unsignedMax maxv convert print nan files opts filenames = .ok (0, header ++ inputs.flatMap fun input => line print nan (statistics maxv invalid p input)) := by
    unfold main
    rw [hopts]
    simp only
    rw [if_neg (by simpa using hne), hload]
  set g : Row → List Char := fun r => '\'' :: r.filename ++ ['\''] ++ ',' :: (r.name ++ ',' :: (Nat.toDigits 10 r.dimension ++ ',' :: (Nat.toDigits 10 r.features ++ ',' :: (print r.power ++ ',' :: (print r.total ++ ',' ::
    ((r.normalized.map print).getD nan ++ ',' :: (print r.infinity ++ ',' :: (r.average.map print).getD nan))))))) with hg
  have hline : ∀ r, line print nan r = g r ++ ['\n'] := by
    intro r
    exact line_eq _ _ _ _ _ _ _ _ _
  set first : List Char := ("file".toList ++ ',' :: ("name".toList ++ ',' :: ("dimension".toList ++ ',' :: ("n_features".toList ++ ',' :: ("power".toList ++ ',' :: ("total_persistence".toList ++ ',' :: ("total_persistence_normalized".toList ++ ',' :: ("infinity_norm".toList ++ ',' :: "average_persistence".toList)))))))) with hfirst
  refine ⟨first, inputs.map fun i => g (statistics maxv invalid p i), _, hmain, ?_, ?_, ?_⟩
  · have h1 : header = first ++ ['\n'] := by decide +kernel
    rw [h1]
    simp only [hline]
    have := EndedLines.cons (l := first)
      (lines_flatMap (fun i => g (statistics maxv invalid p i)) inputs)
    simpa using this
  · exact .cons (.cons (.cons (.cons (.cons (.cons (.cons (.cons (.one _))))))))
  · rw [List.forall₂_map_right_iff, List.forall₂_same]
    intro i _
    refine ⟨_, rfl, _, _, DiagramJson.isDecimal_toDigits _, DiagramJson.isDecimal_toDigits _, ?_⟩
    exact .cons (.cons (.cons (.cons (.cons (.cons (.cons (.cons (.one _))))))))

/-- **C152 (failures).** Nothing is printed if a file cannot be loaded, or has a name whose number is too large; without files the result is −1. -/
theorem _root_.Aleph.C152_failure (ulongMax unsignedMax : ℕ) (maxv : ℝ) (convert : List Char → ℝ) (print : ℝ → List Char) (nan : List Char) (files : List Char → Option (List Char)) (opts : List Opt)
    (hopts : Opt.unknown ∉ opts) :
    main ulongMax unsignedMax maxv convert print nan files opts [] = .ok (-1, []) ∧
    ∀ filenames, ∀ filename ∈ filenames, (TextReaders.loadDiagram convert (files filename) = none ∨ ∃ e, parseFilename ulongMax unsignedMax filename = .error e) →
      ∃ e, main ulongMax unsignedMax maxv convert print nan files opts filenames = .error e := by
  obtain ⟨i, p, h⟩ := (C152_options opts).2.2 hopts
  refine ⟨by unfold main; rw [h]; rfl, fun filenames filename hm hf => ?_⟩
  have : ∃ e, loadAll ulongMax unsignedMax convert files filenames = .error e := by
    refine mapM_error hm ?_
    cases hp : parseFilename ulongMax unsignedMax filename with
    | error e => exact ⟨e, by simp only⟩
    | ok nd =>
      rcases hf with hf | ⟨e, hf⟩
      · exact ⟨.exception, by simp only [hf]⟩
      · rw [hp] at hf; cases hf
  obtain ⟨e, he⟩ := this
  refine ⟨e, ?_⟩
  unfold main
  rw [h]
  simp only
  rw [if_neg (by simpa using List.ne_nil_of_mem hm), he]

/-- **C152 (commas).** The code violates the property that each line has nine columns: names are not quoted, so that the line of a name with a comma has ten columns. -/
theorem _root_.Aleph.C152_commas_wrong (print : ℝ → List Char) (nan : List Char) (r : Row) (a b : List Char) (hr : r.name = a ++ ',' :: b) :
    ∃ l, line print nan r = l ++ ['\n'] ∧ ∃ fields, fields.length = 10 ∧ Separated fields l := by
  refine ⟨'\'' :: r.filename ++ ['\''] ++ ',' :: (a ++ ',' :: (b ++ ',' :: (Nat.toDigits 10 r.dimension ++ ',' :: (Nat.toDigits 10 r.features ++ ',' :: (print r.power ++ ',' :: (print r.total ++ ',' ::
    ((r.normalized.map print).getD nan ++ ',' :: (print r.infinity ++ ',' :: (r.average.map print).getD nan)))))))), ?_, _, ?_,
    .cons (.cons (.cons (.cons (.cons (.cons (.cons (.cons (.cons (.one _)))))))))⟩
  · unfold line
    rw [hr, line_eq, List.append_assoc a]
    rfl
  · rfl

/-! ### Examples -/

/-- Hypotheses of C152_names_partial. -/
example : Filename "data/torus_d12.txt".toList "torus_d12.txt".toList ∧ Divides "torus_d12.txt".toList "torus".toList "12".toList ∧ Decimal "12".toList 12 :=
  ⟨Or.inr (Or.inr ⟨"data/".toList, [], by decide, by decide, by decide, by decide, by decide⟩),
    ⟨'d', Or.inl rfl, by decide, by decide, by decide, by decide, by decide⟩, by have := Decimal.snoc (d := 2) (Decimal.snoc (d := 1) .nil (by decide)) (by decide); exact this⟩

/-- An instance of C152_names_wrong: two files with the same name. -/
example : parseFilename 1000 1000 "v1.0.txt".toList = .ok ("v1".toList, 0) ∧ parseFilename 1000 1000 "v1.1.txt".toList = .ok ("v1".toList, 0) ∧
    parseFilename 1000 1000 "v1.1.dat".toList = .ok ("v1.1".toList, 0) := by decide

/-- Hypotheses of C152_names_wrong. -/
example : ∀ name digits, ¬ Divides ("v1".toList ++ '.' :: "0".toList ++ ['.', 't', 'x', 't']) name digits := by
  intro name digits h
  have := TopologicalDistance.matchName_divides h
  have h2 : TopologicalDistance.matchName ("v1".toList ++ '.' :: "0".toList ++ ['.', 't', 'x', 't']) = none := by decide
  rw [h2] at this
  cases this

/-- Hypotheses of C152_invalid_partial. -/
example : (∀ q ∈ ([(1, 3), (0, 5), (7, 7), (7, 2)] : List (ℝ × ℝ)), q.1 = q.2 → q.1 = 7) ∧ (7 : ℝ) ≠ 100 := by
  constructor
  · intro q hq
    simp only [List.mem_cons, List.not_mem_nil, or_false] at hq
    rcases hq with rfl | rfl | rfl | rfl <;> norm_num
  · norm_num

/-- Hypotheses of C152_output. -/
example (convert : List Char → ℝ) : TextReaders.loadDiagram convert (some "1 3\n".toList) = some ⟨0, [(convert ['1'], convert ['3'])]⟩ ∧
    settings [.power 3, .invalid 1, .power 1] = .ok (some 1, 1) := by
  refine ⟨?_, rfl⟩
  rfl

end Aleph.DiagramStatistics
