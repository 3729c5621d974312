import Verif.Model.IndicatorTool
import Verif.Spec.IndicatorTool
import Verif.Spec.Options
import Verif.Lemmas.Options
import Verif.Props.Filesystem
import Verif.Props.PersistenceIndicator
import Verif.Props.TextReaders
import Mathlib.Algebra.Order.Ring.Rat
import Mathlib.Algebra.Field.Rat

/-!
# C177: the tool `persistence_indicator_function`, and step functions as texts
-/

namespace Aleph.IndicatorTool

open Spec Step Spec.Files

variable {α : Type}

theorem write_spec (print : α → List Char) (f : Fn α) : IsStepText print f (write print f) := by
  induction f with
  | nil => exact .nil
  | cons e f ih =>
    have := IsStepText.cons (print := print) e.a e.b e.y f _ ih
    simpa [write] using this

theorem getlines_line {w : List Char} (h : '\n' ∉ w) (current rest : List Char) : Strings.getlines current (w ++ '\n' :: rest) = (current.reverse ++ w) :: Strings.getlines [] rest := by
  induction w generalizing current with
  | nil => simp [Strings.getlines]
  | cons c w ih =>
    rw [List.mem_cons, not_or] at h
    rw [List.cons_append, Strings.getlines, if_neg (Ne.symm h.1), ih h.2]
    simp

/-- C177. A function that was written to a file is read again from this file, provided that the numbers can be read. -/
theorem _root_.Aleph.C177_round_trip [LinearOrder α] (print : α → List Char) (scan : List Char → Option (α × α)) (f : Fn α) (hf : IsStepFunction f)
    (hscan : ∀ e ∈ f, ∀ x, x = e.a ∨ x = e.b → scan (print x ++ '\t' :: print e.y) = some (x, e.y)) (hempty : scan [] = none)
    (hline : ∀ e ∈ f, ∀ x, x = e.a ∨ x = e.b ∨ x = e.y → '\n' ∉ print x) :
    Step.read scan [] (write print f ++ ['\n']) = some f ∧ IsStepText print f (write print f) := by
  refine ⟨?_, write_spec print f⟩
  unfold Step.read
  have key : ∀ (g k : Fn α), IsStepFunction (g ++ k) → (∀ e ∈ k, ∀ x, x = e.a ∨ x = e.b → scan (print x ++ '\t' :: print e.y) = some (x, e.y)) →
      (∀ e ∈ k, ∀ x, x = e.a ∨ x = e.b ∨ x = e.y → '\n' ∉ print x) →
      readLines scan (Strings.getlines [] (write print k ++ ['\n'])) g = some (g ++ k) := by
    intro g k
    induction k generalizing g with
    | nil =>
      intro _ _ _
      simp [write, Strings.getlines, readLines, hempty]
    | cons e k ih =>
      intro h1 h2 h3
      have e1 : write print (e :: k) ++ ['\n'] = (print e.a ++ '\t' :: print e.y) ++ '\n' :: ((print e.b ++ '\t' :: print e.y) ++ '\n' :: (write print k ++ ['\n'])) := by
        simp [write]
      have n1 := h3 e (by simp) e.a (by simp)
      have n2 := h3 e (by simp) e.b (by simp)
      have n3 := h3 e (by simp) e.y (by simp)
      rw [e1, getlines_line (by simp [n1, n3]), getlines_line (by simp [n2, n3])]
      simp only [List.reverse_nil, List.nil_append, readLines, h2 e (by simp) e.a (.inl rfl), h2 e (by simp) e.b (.inr rfl), if_true]
      have hp : e.a < e.b := h1.proper e (by simp)
      have hb : ∀ e' ∈ g, e'.b ≤ e.a := fun e' he' => (List.pairwise_append.1 h1.ordered).2.2 e' he' e (by simp)
      rw [Step.add, if_pos hp, insert_last (n := ⟨e.a, e.b, e.y⟩) hb (fun e' he' => h1.proper e' (by simp [he'])) hp, Option.bind_some]
      rw [ih _ (by simpa using h1) (fun e' he' => h2 e' (by simp [he'])) (fun e' he' => h3 e' (by simp [he']))]
      simp
  have := key [] f hf hscan hline
  simpa using this

/-- The argument of an option for the directory. -/
def Opt.outputWord : Opt → Option (List Char)
  | .output w => some w
  | _ => none

/-- The argument of an option for the prefix. -/
def Opt.prefixWord : Opt → Option (List Char)
  | .prefix w => some w
  | _ => none

/-- Whether the mean is calculated. -/
def Opt.isMean : Opt → Prop
  | .mean => True
  | _ => False

theorem settings_some (opts : List Opt) : opts.foldlM (fun s o => some (setOption s o)) (⟨"/tmp".toList, "PIF_".toList, false⟩ : Settings) = some (settings opts) := by
  unfold settings
  generalize (⟨"/tmp".toList, "PIF_".toList, false⟩ : Settings) = s
  induction opts generalizing s with
  | nil => rfl
  | cons o opts ih => exact ih _

theorem settings_spec (opts : List Opt) : IsLastValue Opt.outputWord some "/tmp".toList opts (settings opts).outputDirectory ∧ IsLastValue Opt.prefixWord some "PIF_".toList opts (settings opts).pre ∧
    ((settings opts).calculateMean = true ↔ ∃ o ∈ opts, o.isMean) := by
  refine ⟨lastValue_of_foldlM (get := Settings.outputDirectory) ?_ ?_ (settings_some opts), lastValue_of_foldlM (get := Settings.pre) ?_ ?_ (settings_some opts), ?_⟩
  · intro s o s' w hp h
    cases o <;> simp only [Opt.outputWord, Option.some.injEq, reduceCtorEq] at hp
    subst hp
    simp only [setOption, Option.some.injEq] at h
    rw [← h]
  · intro s o s' hp h
    cases o <;> simp only [Opt.outputWord, reduceCtorEq, setOption, Option.some.injEq] at hp h <;> rw [← h]
  · intro s o s' w hp h
    cases o <;> simp only [Opt.prefixWord, Option.some.injEq, reduceCtorEq] at hp
    subst hp
    simp only [setOption, Option.some.injEq] at h
    rw [← h]
  · intro s o s' hp h
    cases o <;> simp only [Opt.prefixWord, reduceCtorEq, setOption, Option.some.injEq] at hp h <;> rw [← h]
  · unfold settings
    have : ∀ s : Settings, (opts.foldl setOption s).calculateMean = true ↔ s.calculateMean = true ∨ ∃ o ∈ opts, o.isMean := by
      induction opts with
      | nil => simp
      | cons o opts ih =>
        intro s
        rw [List.foldl_cons, ih]
        cases o <;> simp [setOption, Opt.isMean]
    rw [this]
    simp

theorem directory_spec (word : List Char) : IsDirectory word (directory word) := by
  unfold directory IsDirectory
  cases hw : word.isEmpty with
  | true =>
    left
    rw [List.isEmpty_iff] at hw
    subst hw
    exact ⟨rfl, by decide⟩
  | false =>
    right
    have hne : word ≠ [] := by simpa using hw
    simp only [Bool.false_eq_true, if_false]
    have hiff : (∃ w, word = w ++ ['/']) ↔ word.getLast? = some '/' := by
      constructor
      · rintro ⟨w, rfl⟩
        simp
      · intro h
        rw [List.getLast?_eq_some_iff] at h
        exact h
    by_cases h : word.getLast? = some '/'
    · left
      exact ⟨hiff.2 h, by simp [h]⟩
    · right
      exact ⟨hne, fun hc => h (hiff.1 hc), by simp [h]⟩

/-- The contents of a file are a persistence diagram with these points. -/
def _root_.Aleph.Spec.IsDiagramFile (convert : List Char → α) (text : Option (List Char)) (points : List (α × α)) : Prop :=
  ∃ t ls b entries, text = some t ∧ Lines t ls b ∧ List.Forall₂ (DiagramLine convert) ls entries ∧ points = entries.filterMap id

theorem load_ok {convert : List Char → α} {text : Option (List Char)} {points : List (α × α)} (h : IsDiagramFile convert text points) :
    TextReaders.loadDiagram convert text = some ⟨0, points⟩ := by
  obtain ⟨t, ls, b, entries, rfl, hl, he, rfl⟩ := h
  exact ((C111_load convert hl).1 _).2 ⟨entries, he, rfl⟩

theorem ok_load {convert : List Char → α} {text : Option (List Char)} {D : Diagram α} (h : TextReaders.loadDiagram convert text = some D) :
    IsDiagramFile convert text D.points := by
  cases text with
  | none => cases h
  | some t =>
    obtain ⟨ls, b, hl⟩ := lines_exist t
    obtain ⟨entries, he, hD⟩ := ((C111_load convert hl).1 D).1 h
    exact ⟨t, ls, b, entries, rfl, hl, he, by rw [hD]⟩

/-- A diagram whose indicator function is calculated correctly: its points lie on one side of the diagonal, the numbers are fine enough, and points on the diagonal are not the first ones. -/
def _root_.Aleph.Spec.IsTame [LinearOrder α] [Ring α] (next : α → α) (D : List (α × α)) : Prop :=
  2 * D.length < 2 ^ 32 ∧ NextFits next D ∧
    ((∀ p ∈ D, p.1 ≤ p.2) ∧ (∀ p ∈ D, p.1 = p.2 → 0 < p.1 ∨ ∃ q ∈ D, q.1 < p.1) ∨ (∀ p ∈ D, p.2 ≤ p.1) ∧ ∀ p ∈ D, p.1 = p.2 → 0 < p.1 ∨ ∃ q ∈ D, q.2 < p.1)

/-- The finite points of a diagram. -/
def _root_.Aleph.Spec.finitePoints [DecidableEq α] (inf : α) (points : List (α × α)) : List (α × α) := points.filter fun p => p.2 ≠ inf

/-- The file with the indicator function of a diagram: its name consists of the directory, the prefix, the stem of the name of the diagram, and an extension; it contains the function that counts the active
intervals of the finite points. -/
def _root_.Aleph.Spec.IsIndicatorFile [LinearOrder α] [Ring α] (c : Context α) (pre path : List Char) (points : List (α × α)) (x : List Char × List Char) : Prop :=
  (∃ name st ext, Filename path name ∧ Spec.Files.Extension name st ext ∧ x.1 = pre ++ st ++ ".txt".toList) ∧
    ∃ f text, IsStepFunction f ∧ (∀ t, Regular c.next (finitePoints c.inf points) t → eval f t = (activeIntervals (finitePoints c.inf points) t : α)) ∧ IsStepText c.print f text ∧ x.2 = text ++ ['\n']

theorem basename_basename (path : List Char) : Filesystem.basename (Filesystem.basename path) = Filesystem.basename path := by
  rw [C138_basename]
  have h := (C138_basename path _).1 rfl
  generalize Filesystem.basename path = name at h
  rcases h with ⟨-, rfl⟩ | ⟨-, -, rfl⟩ | ⟨d, s, -, h1, h2, -, -⟩
  · exact .inl ⟨rfl, rfl⟩
  · exact .inr (.inl ⟨by simp, by simp, rfl⟩)
  · exact .inr (.inr ⟨[], [], by simp, h1, h2, by simp, by simp⟩)

theorem stem_spec (path : List Char) : ∃ name ext, Filename path name ∧ Spec.Files.Extension name (Filesystem.stem (Filesystem.basename path)) ext := by
  obtain ⟨name, h1, h2⟩ := (C138_extension (Filesystem.basename path) _ _).1 ⟨rfl, rfl⟩
  rw [← C138_basename, basename_basename, C138_basename] at h1
  exact ⟨name, _, h1, h2⟩

theorem finite_eq [LinearOrder α] (inf : α) (points : List (α × α)) : ((⟨0, points⟩ : Diagram α).removeUnpaired inf).points = finitePoints inf points := by
  simp only [Diagram.removeUnpaired, finitePoints]
  refine List.filter_congr fun p _ => ?_
  simp [Diagram.isUnpaired]

theorem loadAll_ok [LinearOrder α] (c : Context α) (files : List Char → Option (List Char)) {args : List (List Char)} {diagrams : List (List (α × α))}
    (h : List.Forall₂ (fun path points => IsDiagramFile c.convert (files path) points) args diagrams) : loadAll c files args = .ok (diagrams.map fun points => (⟨0, points⟩ : Diagram α).removeUnpaired c.inf) := by
  induction h with
  | nil => rfl
  | cons h _ ih =>
    rw [loadAll, load_ok h]
    simp only [ih]
    rfl

theorem pif_ok [LinearOrder α] [Ring α] [IsStrictOrderedRing α] (c : Context α) (points : List (α × α)) (h : IsTame c.next (finitePoints c.inf points)) :
    ∃ f, Pif.pif c.next c.inf (finitePoints c.inf points) = some f ∧ IsStepFunction f ∧
      ∀ t, Regular c.next (finitePoints c.inf points) t → eval f t = (activeIntervals (finitePoints c.inf points) t : α) := by
  obtain ⟨h1, h2, ⟨h3, h4⟩ | ⟨h3, h4⟩⟩ := h
  · exact C40_active_intervals_partial c.next c.inf _ h3 h1 h2 h4
  · refine C40_inverted_partial c.next c.inf _ h3 (fun p hp => ?_) h1 h2 h4
    have := (List.mem_filter.1 hp).2
    simpa using this

theorem process_plain [LinearOrder α] [Ring α] [IsStrictOrderedRing α] (c : Context α) (pre : List Char) {args : List (List Char)} {diagrams : List (List (α × α))} (hl : args.length = diagrams.length)
    (ht : ∀ D ∈ diagrams, IsTame c.next (finitePoints c.inf D)) (mean : Fn α) :
    ∃ out, process c pre false args (diagrams.map fun points => (⟨0, points⟩ : Diagram α).removeUnpaired c.inf) mean = .ok (mean, out) ∧
      List.Forall₂ (fun p x => IsIndicatorFile c pre p.1 p.2 x) (args.zip diagrams) out := by
  induction args generalizing diagrams with
  | nil =>
    cases diagrams with
    | nil => exact ⟨[], rfl, .nil⟩
    | cons => cases hl
  | cons path args ih =>
    cases diagrams with
    | nil => cases hl
    | cons points diagrams =>
      obtain ⟨out, h1, h2⟩ := ih (diagrams := diagrams) (by simpa using hl) fun D hD => ht D (by simp [hD])
      obtain ⟨f, f1, f2, f3⟩ := pif_ok c points (ht points (by simp))
      refine ⟨(pre ++ Filesystem.stem (Filesystem.basename path) ++ ".txt".toList, Step.write c.print f ++ ['\n']) :: out, ?_, List.Forall₂.cons ?_ h2⟩
      · simp only [List.map_cons, process, finite_eq, f1, Bool.false_eq_true, if_false, h1]
      · obtain ⟨name, ext, n1, n2⟩ := stem_spec path
        exact ⟨⟨name, _, ext, n1, n2, rfl⟩, f, _, f2, f3, write_spec _ _, rfl⟩

theorem process_mean [LinearOrder α] [Ring α] [IsStrictOrderedRing α] (c : Context α) (pre : List Char) {args : List (List Char)} {diagrams : List (List (α × α))} (hl : args.length = diagrams.length)
    (ht : ∀ D ∈ diagrams, IsTame c.next (finitePoints c.inf D)) (mean mean' : Fn α) (out : List (List Char × List Char))
    (h : process c pre true args (diagrams.map fun points => (⟨0, points⟩ : Diagram α).removeUnpaired c.inf) mean = .ok (mean', out)) :
    List.Forall₂ (fun p x => IsIndicatorFile c pre p.1 p.2 x) (args.zip diagrams) out := by
  induction args generalizing diagrams mean mean' out with
  | nil =>
    cases diagrams with
    | nil =>
      simp only [process, Except.ok.injEq, Prod.mk.injEq] at h
      rw [← h.2]
      exact .nil
    | cons => cases hl
  | cons path args ih =>
    cases diagrams with
    | nil => cases hl
    | cons points diagrams =>
      obtain ⟨f, f1, f2, f3⟩ := pif_ok c points (ht points (by simp))
      simp only [List.map_cons, process, finite_eq, f1, if_true] at h
      cases hs : Step.sum c.next c.previous mean f with
      | none => rw [hs] at h; cases h
      | some m =>
        rw [hs] at h
        simp only at h
        cases hp : process c pre true args (diagrams.map fun points => (⟨0, points⟩ : Diagram α).removeUnpaired c.inf) m with
        | error e => rw [hp] at h; cases h
        | ok r =>
          obtain ⟨m', out'⟩ := r
          rw [hp] at h
          simp only [Except.ok.injEq, Prod.mk.injEq] at h
          obtain ⟨-, rfl⟩ := h
          refine List.Forall₂.cons ?_ (ih (by simpa using hl) (fun D hD => ht D (by simp [hD])) _ _ _ hp)
          obtain ⟨name, ext, n1, n2⟩ := stem_spec path
          exact ⟨⟨name, _, ext, n1, n2, rfl⟩, f, _, f2, f3, write_spec _ _, rfl⟩

/-- C177. For each diagram, a file with its indicator function is written, in the given order.  The last options determine the directory and the prefix.  If the mean is requested and the program ends in an
ordinary way, one further file is written at the end.  Missing, and wrong: the mean need not be the mean of the functions (`C177_mean_witness`), and files may be overwritten (`C177_overwritten_witness`). -/
theorem _root_.Aleph.C177_files_partial [LinearOrder α] [Field α] [IsStrictOrderedRing α] (c : Context α) (files : List Char → Option (List Char)) (opts : List Opt) (args : List (List Char))
    (diagrams : List (List (α × α))) (hne : opts ≠ [] ∨ args ≠ []) (hload : List.Forall₂ (fun path points => IsDiagramFile c.convert (files path) points) args diagrams)
    (ht : ∀ D ∈ diagrams, IsTame c.next (finitePoints c.inf D)) :
    ∃ word dir pre, IsLastValue Opt.outputWord some "/tmp".toList opts word ∧ IsDirectory word dir ∧ IsLastValue Opt.prefixWord some "PIF_".toList opts pre ∧
      ((¬∃ o ∈ opts, o.isMean) → ∃ out, main c files opts args = .ok (0, out) ∧ List.Forall₂ (fun p x => IsIndicatorFile c (dir ++ pre) p.1 p.2 x) (args.zip diagrams) out) ∧
      ((∃ o ∈ opts, o.isMean) → ∀ r all, main c files opts args = .ok (r, all) → ∃ out text, r = 0 ∧ all = out ++ [(dir ++ pre ++ "mean.txt".toList, text)] ∧
        List.Forall₂ (fun p x => IsIndicatorFile c (dir ++ pre) p.1 p.2 x) (args.zip diagrams) out) := by
  obtain ⟨s1, s2, s3⟩ := settings_spec opts
  refine ⟨_, _, _, s1, directory_spec _, s2, ?_, ?_⟩
  · intro hm
    rw [← s3, Bool.not_eq_true] at hm
    obtain ⟨out, h1, h2⟩ := process_plain c (directory (settings opts).outputDirectory ++ (settings opts).pre) hload.length_eq ht []
    refine ⟨out, ?_, h2⟩
    unfold main
    have : (opts.isEmpty && args.isEmpty) = false := by
      rcases hne with h | h <;> simp [h]
    simp only [this, Bool.false_eq_true, if_false, loadAll_ok c files hload, hm, h1]
  · intro hm r all h
    rw [← s3] at hm
    unfold main at h
    have : (opts.isEmpty && args.isEmpty) = false := by
      rcases hne with h | h <;> simp [h]
    simp only [this, Bool.false_eq_true, if_false, loadAll_ok c files hload, hm, if_true] at h
    cases hp : process c (directory (settings opts).outputDirectory ++ (settings opts).pre) true args (diagrams.map fun points => (⟨0, points⟩ : Diagram α).removeUnpaired c.inf) [] with
    | error e => rw [hp] at h; cases h
    | ok x =>
      obtain ⟨mean, out⟩ := x
      rw [hp] at h
      simp only at h
      split at h
      · cases h
      · simp only [Except.ok.injEq, Prod.mk.injEq] at h
        obtain ⟨rfl, rfl⟩ := h
        exact ⟨out, _, rfl, rfl, process_mean c _ hload.length_eq ht _ _ _ hp⟩

theorem contents_of_nodup {out : List (List Char × List Char)} (h : (out.map (·.1)).Nodup) {x : List Char × List Char} (hx : x ∈ out) : FileContents out x.1 x.2 := by
  obtain ⟨before, after, rfl⟩ := List.append_of_mem hx
  refine ⟨before, after, rfl, fun y hy he => ?_⟩
  rw [List.map_append, List.map_cons, List.nodup_append, List.nodup_cons] at h
  exact h.2.1.1 (List.mem_map.2 ⟨y, hy, he⟩)

/-- C177. If the names of the diagrams differ without their extensions, and if the mean is not requested, then there is a file for each diagram at the end. -/
theorem _root_.Aleph.C177_contents [LinearOrder α] [Field α] [IsStrictOrderedRing α] (c : Context α) (files : List Char → Option (List Char)) (opts : List Opt) (args : List (List Char))
    (diagrams : List (List (α × α))) (hne : opts ≠ [] ∨ args ≠ []) (hload : List.Forall₂ (fun path points => IsDiagramFile c.convert (files path) points) args diagrams)
    (ht : ∀ D ∈ diagrams, IsTame c.next (finitePoints c.inf D)) (hm : ¬∃ o ∈ opts, o.isMean)
    (hst : args.Pairwise fun p q => ∀ n st ext n' st' ext', Filename p n → Spec.Files.Extension n st ext → Filename q n' → Spec.Files.Extension n' st' ext' → st ≠ st') :
    ∃ word dir pre out, IsLastValue Opt.outputWord some "/tmp".toList opts word ∧ IsDirectory word dir ∧ IsLastValue Opt.prefixWord some "PIF_".toList opts pre ∧ main c files opts args = .ok (0, out) ∧
      ∀ p ∈ args.zip diagrams, ∃ name text, FileContents out name text ∧ IsIndicatorFile c (dir ++ pre) p.1 p.2 (name, text) := by
  obtain ⟨word, dir, pre, h1, h2, h3, h4, -⟩ := C177_files_partial c files opts args diagrams hne hload ht
  obtain ⟨out, h5, h6⟩ := h4 hm
  refine ⟨word, dir, pre, out, h1, h2, h3, h5, ?_⟩
  have hz : (args.zip diagrams).Pairwise fun p q => ∀ n st ext n' st' ext', Filename p.1 n → Spec.Files.Extension n st ext → Filename q.1 n' → Spec.Files.Extension n' st' ext' → st ≠ st' := by
    rw [← List.pairwise_map (f := Prod.fst) (R := fun p q => ∀ n st ext n' st' ext', Filename p n → Spec.Files.Extension n st ext → Filename q n' → Spec.Files.Extension n' st' ext' → st ≠ st'),
      List.map_fst_zip (by rw [hload.length_eq])]
    exact hst
  have hnd : (out.map (·.1)).Nodup := by
    clear h5
    generalize args.zip diagrams = ps at h6 hz
    induction h6 with
    | nil => simp
    | @cons p x ps out hpx hrest ih =>
      rw [List.pairwise_cons] at hz
      rw [List.map_cons, List.nodup_cons]
      refine ⟨fun hmem => ?_, ih hz.2⟩
      obtain ⟨y, hy, he⟩ := List.mem_map.1 hmem
      obtain ⟨q, hq, hqy⟩ : ∃ q ∈ ps, IsIndicatorFile c (dir ++ pre) q.1 q.2 y := by
        clear ih hz hpx hmem
        induction hrest with
        | nil => cases hy
        | cons h _ ih' =>
          rcases List.mem_cons.1 hy with rfl | hy
          · exact ⟨_, by simp, h⟩
          · obtain ⟨q, hq, h⟩ := ih' hy
            exact ⟨q, by simp [hq], h⟩
      obtain ⟨⟨n, st, ext, n1, n2, n3⟩, -⟩ := hpx
      obtain ⟨⟨n', st', ext', n1', n2', n3'⟩, -⟩ := hqy
      rw [n3, n3'] at he
      have : st' = st := by simpa using he
      exact hz.1 q hq n st ext n' st' ext' n1 n2 n1' n2' this.symm
  intro p hp
  obtain ⟨x, hx, hpx⟩ : ∃ x ∈ out, IsIndicatorFile c (dir ++ pre) p.1 p.2 x := by
    clear hz hnd h5
    generalize args.zip diagrams = ps at h6 hp
    induction h6 with
    | nil => cases hp
    | cons h _ ih' =>
      rcases List.mem_cons.1 hp with rfl | hp
      · exact ⟨_, by simp, h⟩
      · obtain ⟨q, hq, h⟩ := ih' hp
        exact ⟨q, by simp [hq], h⟩
  exact ⟨x.1, x.2, contents_of_nodup hnd hx, hpx⟩

/-- C177. If one of the files is not a persistence diagram, or if the mean of no diagrams is requested, there is an exception; without any arguments the tool fails. -/
theorem _root_.Aleph.C177_failures [LinearOrder α] [Field α] (c : Context α) (files : List Char → Option (List Char)) (opts : List Opt) (args : List (List Char)) :
    (∀ path ∈ args, (¬∃ points, IsDiagramFile c.convert (files path) points) → main c files opts args = .error .exception) ∧
    ((∃ o ∈ opts, o.isMean) → main c files opts [] = .error .exception) ∧ main c files [] [] = .ok (-1, []) := by
  refine ⟨?_, ?_, rfl⟩
  · intro path hpath hbad
    have key : loadAll c files args = .error .exception := by
      induction args with
      | nil => cases hpath
      | cons p args ih =>
        rw [loadAll]
        cases hl : TextReaders.loadDiagram c.convert (files p) with
        | none => rfl
        | some D =>
          rcases List.mem_cons.1 hpath with rfl | hp
          · exact absurd ⟨_, ok_load hl⟩ hbad
          · simp only [ih hp]
    unfold main
    have : (opts.isEmpty && args.isEmpty) = false := by
      cases args with
      | nil => cases hpath
      | cons => simp
    simp only [this, Bool.false_eq_true, if_false, key]
  · intro hm
    have h1 := (settings_spec opts).2.2.2 hm
    unfold main
    have : opts ≠ [] := by
      rintro rfl
      obtain ⟨o, h, -⟩ := hm
      cases h
    simp [this, loadAll, process, h1, Step.sdiv]

/-! ### Examples -/

/-- Rational numbers. -/
def demo : Context ℚ where
  inf := 1000
  next x := x + 1 / 100
  previous x := x - 1 / 100
  convert w := (w.foldl (fun n c => 10 * n + (c.toNat - 48)) 0 : ℕ)
  print x := (toString x).toList

/-- Three files. -/
def demoFiles (name : List Char) : Option (List Char) :=
  if name = "a.txt".toList then some "0 10\n20 30\n".toList
  else if name = "b/c.txt".toList then some "0 10\n".toList
  else if name = "d/c.txt".toList then some "5 10\n".toList
  else none

example : main demo demoFiles [.output "out".toList] ["a.txt".toList, "b/c.txt".toList] =
    .ok (0, [("out/PIF_a.txt".toList, "0\t1\n10\t1\n10\t0\n20\t0\n20\t1\n30\t1\n\n".toList), ("out/PIF_c.txt".toList, "0\t1\n10\t1\n\n".toList)]) := by
  decide +kernel

example : IsTame demo.next [(0, 10), (20, 30)] := by
  refine ⟨by decide, ?_, .inl ⟨by decide, by decide⟩⟩
  rintro v ⟨⟨p, hp, rfl⟩, q, hq, h⟩
  simp only [List.mem_cons, List.not_mem_nil, or_false] at hp hq
  rcases hp with rfl | rfl <;> rcases hq with rfl | rfl <;> norm_num at h

/-- C177, disagreement: the mean of a single function, which vanishes between 10 and 20, is 1 between 0 and 30. -/
theorem _root_.Aleph.C177_mean_witness : main demo demoFiles [.mean] ["a.txt".toList] =
    .ok (0, [("/tmp/PIF_a.txt".toList, "0\t1\n10\t1\n10\t0\n20\t0\n20\t1\n30\t1\n\n".toList), ("/tmp/PIF_mean.txt".toList, "0\t1\n30\t1\n\n".toList)]) := by
  decide +kernel

/-- C177, disagreement: the second of two diagrams with the same name overwrites the result for the first one. -/
theorem _root_.Aleph.C177_overwritten_witness : main demo demoFiles [] ["b/c.txt".toList, "d/c.txt".toList] =
    .ok (0, [("/tmp/PIF_c.txt".toList, "0\t1\n10\t1\n\n".toList), ("/tmp/PIF_c.txt".toList, "5\t1\n10\t1\n\n".toList)]) := by
  decide +kernel

end Aleph.IndicatorTool
