import Verif.Model.Strings
import Verif.Spec.Strings
import Mathlib.Data.List.TakeWhile

/-!
# C70: trimming and splitting of strings
-/

namespace Aleph

open Strings

theorem isSpace_iff (c : Char) : isSpace c = true ↔ c ∈ [' ', '\t', '\n', '\x0b', '\x0c', '\r'] := by
  have h : ∀ d : Char, c = d ↔ c.toNat = d.toNat := fun d => by
    rw [← Char.toNat_inj]
  unfold isSpace
  simp only [Bool.or_eq_true, beq_iff_eq, Bool.and_eq_true, decide_eq_true_eq, List.mem_cons, List.not_mem_nil, or_false, h]
  have e : (' '.toNat = 32 ∧ '\t'.toNat = 9 ∧ '\n'.toNat = 10) ∧ '\x0b'.toNat = 11 ∧ '\x0c'.toNat = 12 ∧ '\r'.toNat = 13 := by
    decide
  obtain ⟨⟨e1, e2, e3⟩, e4, e5, e6⟩ := e
  rw [e1, e2, e3, e4, e5, e6]
  omega

/-- C70. `trim` removes whitespace (blank, tabulators, line feed, form feed, carriage return) at both ends, nothing else, and
all of it. -/
theorem C70_trim (s : List Char) :
    (∀ c, isSpace c = true ↔ c ∈ [' ', '\t', '\n', '\x0b', '\x0c', '\r']) ∧
    (∃ a b, s = a ++ trim s ++ b ∧ (∀ c ∈ a, isSpace c = true) ∧ ∀ c ∈ b, isSpace c = true) ∧
    (∀ c, (trim s).head? = some c → isSpace c = false) ∧ (∀ c, (trim s).getLast? = some c → isSpace c = false) := by
  have hr : ∃ b, s = rtrim s ++ b ∧ ∀ c ∈ b, isSpace c = true := by
    refine ⟨(s.reverse.takeWhile isSpace).reverse, ?_, ?_⟩
    · unfold rtrim
      rw [← List.reverse_append, List.takeWhile_append_dropWhile, List.reverse_reverse]
    · intro c hc
      rw [List.mem_reverse] at hc
      exact List.mem_takeWhile_imp hc
  obtain ⟨b, hb, hb'⟩ := hr
  have hl : rtrim s = (rtrim s).takeWhile isSpace ++ trim s := by
    unfold trim ltrim
    rw [List.takeWhile_append_dropWhile]
  refine ⟨isSpace_iff, ⟨(rtrim s).takeWhile isSpace, b, by rw [← hl, ← hb], fun c hc => List.mem_takeWhile_imp hc, hb'⟩, ?_, ?_⟩
  · intro c hc
    unfold trim ltrim at hc
    have := List.head?_dropWhile_not isSpace (rtrim s)
    rw [hc] at this
    simpa using this
  · intro c hc
    have h1 : (rtrim s).getLast? = some c := by
      rw [hl, List.getLast?_append, hc]; rfl
    unfold rtrim at h1
    rw [List.getLast?_reverse] at h1
    have := List.head?_dropWhile_not isSpace s.reverse
    rw [h1] at this
    simpa using this

theorem splitLoop_prefix (sep : Char → Bool) (t : List Char) (ht : ∀ c ∈ t, sep c = false) :
    ∀ (cur : List Char) (m : Bool) (s : List Char), splitLoop sep cur m (t ++ s) = splitLoop sep (t.reverse ++ cur) m s := by
  induction t with
  | nil => intro cur m s; rfl
  | cons c t ih =>
    intro cur m s
    rw [List.cons_append, splitLoop]
    simp only [ht c List.mem_cons_self, Bool.false_eq_true, if_false]
    rw [ih (fun c hc => ht c (List.mem_cons_of_mem _ hc))]
    simp

theorem splitLoop_gap (sep : Char → Bool) (g : List Char) (hg : ∀ c ∈ g, sep c = true) :
    ∀ s : List Char, splitLoop sep [] true (g ++ s) = splitLoop sep [] true s := by
  induction g with
  | nil => intro s; rfl
  | cons c g ih =>
    intro s
    rw [List.cons_append, splitLoop]
    simp only [hg c List.mem_cons_self, if_true, List.isEmpty_nil, Bool.and_self]
    exact ih (fun c hc => hg c (List.mem_cons_of_mem _ hc)) s

theorem splitLoop_matched (sep : Char → Bool) (s : List Char) : ∀ (cur : List Char), cur ≠ [] →
    splitLoop sep cur true s = splitLoop sep cur false s := by
  induction s with
  | nil => intro cur h; simp [splitLoop, h]
  | cons c s ih =>
    intro cur h
    rw [splitLoop, splitLoop]
    split
    · simp [h]
    · exact ih _ (by simp)

/-- C70. `split` returns exactly the fields of a string: the maximal parts without separators. -/
theorem C70_split (sep : Char → Bool) (s : List Char) (ts : List (List Char)) :
    split sep s = ts ↔ Spec.Fields sep s ts := by
  have hfun : ∀ s ts, Spec.Fields sep s ts → split sep s = ts := by
    intro s ts h
    have hgap : ∀ (cur g : List Char) (s : List Char), g ≠ [] → (∀ c ∈ g, sep c = true) →
        splitLoop sep cur false (g ++ s) = cur.reverse :: splitLoop sep [] true s := by
      intro cur g s hne hg
      cases g with
      | nil => exact absurd rfl hne
      | cons c g =>
        rw [List.cons_append, splitLoop]
        simp only [hg c List.mem_cons_self, if_true, Bool.false_and, Bool.false_eq_true, if_false]
        rw [splitLoop_gap sep g (fun c hc => hg c (List.mem_cons_of_mem _ hc))]
    induction h with
    | last t ht =>
      have := splitLoop_prefix sep t ht [] false []
      rw [List.append_nil] at this
      rw [split, this]
      simp [splitLoop]
    | final t g ht hne hg =>
      rw [split, splitLoop_prefix sep t ht]
      have := hgap (t.reverse ++ []) g [] hne hg
      rw [List.append_nil g] at this
      rw [this]
      simp [splitLoop]
    | cons t g s ts ht hne hg hs _ ih =>
      rw [split, List.append_assoc, splitLoop_prefix sep t ht, hgap _ g s hne hg]
      obtain ⟨c, r, rfl, hc⟩ := hs
      have h1 : splitLoop sep [] true (c :: r) = splitLoop sep [] false (c :: r) := by
        rw [splitLoop, splitLoop]
        simp only [hc, Bool.false_eq_true, if_false]
        exact splitLoop_matched sep r [c] (by simp)
      rw [h1]
      rw [split] at ih
      rw [ih]
      simp
  have hex : ∀ n s, s.length ≤ n → ∃ ts, Spec.Fields sep s ts := by
    intro n
    induction n with
    | zero =>
      intro s hs
      have : s = [] := List.length_eq_zero_iff.1 (by omega)
      subst this
      exact ⟨[[]], Spec.Fields.last [] (by simp)⟩
    | succ n ih =>
      intro s hs
      set t := s.takeWhile (fun c => !sep c) with ht
      set r := s.dropWhile (fun c => !sep c) with hr
      have hsr : s = t ++ r := (List.takeWhile_append_dropWhile).symm
      have htc : ∀ c ∈ t, sep c = false := fun c hc => by simpa using List.mem_takeWhile_imp hc
      cases hrc : r with
      | nil =>
        rw [hsr, hrc, List.append_nil]
        exact ⟨[t], Spec.Fields.last t htc⟩
      | cons c r' =>
        have hc : sep c = true := by
          have := List.head?_dropWhile_not (fun c => !sep c) s
          rw [← hr, hrc] at this
          simpa using this
        set g := (c :: r').takeWhile sep with hg
        set q := (c :: r').dropWhile sep with hq
        have hgq : c :: r' = g ++ q := (List.takeWhile_append_dropWhile).symm
        have hgne : g ≠ [] := by rw [hg]; simp [List.takeWhile, hc]
        have hgc : ∀ c ∈ g, sep c = true := fun c hc => List.mem_takeWhile_imp hc
        cases hqc : q with
        | nil =>
          rw [hsr, hrc, hgq, hqc, List.append_nil]
          exact ⟨[t], Spec.Fields.final t g htc hgne hgc⟩
        | cons d q' =>
          have hd : sep d = false := by
            have := List.head?_dropWhile_not sep (c :: r')
            rw [← hq, hqc] at this
            simpa using this
          have hlen : q.length ≤ n := by
            have h1 : s.length = t.length + (g.length + q.length) := by
              rw [hsr, hrc, hgq]; simp
            have h2 : 0 < g.length := List.length_pos_of_ne_nil hgne
            omega
          obtain ⟨ts, hts⟩ := ih q hlen
          refine ⟨t :: ts, ?_⟩
          rw [hsr, hrc, hgq, ← List.append_assoc]
          exact Spec.Fields.cons t g q ts htc hgne hgc ⟨d, q', hqc, hd⟩ hts
  constructor
  · rintro rfl
    obtain ⟨ts, hts⟩ := hex s.length s le_rfl
    rw [hfun s ts hts]
    exact hts
  · exact hfun s ts

theorem extract_eq (s : List Char) : ∀ cur, extract cur s =
    if cur = [] then splitLoop isSpace [] true s else splitLoop isSpace cur false s := by
  induction s with
  | nil => intro cur; by_cases h : cur = [] <;> simp [extract, splitLoop, h]
  | cons c s ih =>
    intro cur
    by_cases h : cur = []
    · subst h
      rw [extract, splitLoop]
      by_cases hc : isSpace c = true
      · simp [hc, ih []]
      · simp [hc, ih [c], splitLoop_matched]
    · rw [extract, if_neg h, splitLoop]
      by_cases hc : isSpace c = true
      · simp [hc, h, ih []]
      · simp [hc, ih (c :: cur)]

/-- C70. `splitByWhitespace` returns the fields of the string without its leading whitespace (none for a string that only
consists of whitespace), and `countTokens` their number. -/
theorem C70_whitespace (s : List Char) (ts : List (List Char)) :
    (splitByWhitespace s = ts ↔
      (ts = [] ∧ ∀ c ∈ s, isSpace c = true) ∨
      ∃ a r, s = a ++ r ∧ (∀ c ∈ a, isSpace c = true) ∧ (∃ c q, r = c :: q ∧ isSpace c = false) ∧
        Spec.Fields isSpace r ts) ∧
    countTokens s = (splitByWhitespace s).length := by
  refine ⟨?_, rfl⟩
  have h1 : splitByWhitespace s = splitLoop isSpace [] true s := by
    unfold splitByWhitespace; rw [extract_eq]; simp
  have h2 : ∀ a r, s = a ++ r → (∀ c ∈ a, isSpace c = true) → (∃ c q, r = c :: q ∧ isSpace c = false) →
      splitByWhitespace s = split isSpace r := by
    rintro a r hs ha ⟨c, q, rfl, hc⟩
    rw [h1, hs, splitLoop_gap isSpace a ha, split, splitLoop, splitLoop]
    simp only [hc, Bool.false_eq_true, if_false]
    exact splitLoop_matched _ q [c] (by simp)
  constructor
  · rintro rfl
    by_cases h : ∀ c ∈ s, isSpace c = true
    · left
      refine ⟨?_, h⟩
      rw [h1]
      have := splitLoop_gap isSpace s h []
      rw [List.append_nil] at this
      rw [this]
      simp [splitLoop]
    · right
      refine ⟨s.takeWhile isSpace, s.dropWhile isSpace, (List.takeWhile_append_dropWhile).symm,
        fun c hc => List.mem_takeWhile_imp hc, ?_, ?_⟩
      · cases hd : s.dropWhile isSpace with
        | nil =>
          rw [List.dropWhile_eq_nil_iff] at hd
          exact absurd hd h
        | cons c q =>
          refine ⟨c, q, rfl, ?_⟩
          have := List.head?_dropWhile_not isSpace s
          rw [hd] at this
          simpa using this
      · rw [← C70_split]
        symm
        refine h2 _ _ (List.takeWhile_append_dropWhile).symm (fun c hc => List.mem_takeWhile_imp hc) ?_
        cases hd : s.dropWhile isSpace with
        | nil =>
          rw [List.dropWhile_eq_nil_iff] at hd
          exact absurd hd h
        | cons c q =>
          refine ⟨c, q, rfl, ?_⟩
          have := List.head?_dropWhile_not isSpace s
          rw [hd] at this
          simpa using this
  · rintro (⟨rfl, h⟩ | ⟨a, r, hs, ha, hr, hf⟩)
    · rw [h1]
      have := splitLoop_gap isSpace s h []
      rw [List.append_nil] at this
      rw [this]
      simp [splitLoop]
    · rw [h2 a r hs ha hr]
      exact (C70_split _ _ _).2 hf

/-- Repeated `getline` reads the lines of a text. -/
theorem getlines_spec (text : List Char) : ∀ ls b, Spec.Lines text ls b → getlines [] text = ls := by
  have hpre : ∀ (l : List Char), '\n' ∉ l → ∀ cur s, getlines cur (l ++ s) = getlines (l.reverse ++ cur) s := by
    intro l
    induction l with
    | nil => intro _ cur s; rfl
    | cons c l ih =>
      intro h cur s
      rw [List.mem_cons, not_or] at h
      rw [List.cons_append, getlines, if_neg (Ne.symm h.1), ih h.2]
      simp
  intro ls b h
  induction h with
  | nil => simp [getlines]
  | last l hne hl =>
    have := hpre l hl [] []
    rw [List.append_nil] at this
    rw [this]
    simp [getlines, hne]
  | cons l s ls b hl _ ih =>
    rw [hpre l hl, getlines, if_pos rfl, ih]
    simp

theorem lines_exist (text : List Char) : ∃ ls b, Spec.Lines text ls b := by
  suffices h : ∀ n, ∀ text : List Char, text.length ≤ n → ∃ ls b, Spec.Lines text ls b from h _ text le_rfl
  intro n
  induction n with
  | zero =>
    intro text h
    have : text = [] := List.length_eq_zero_iff.1 (by omega)
    subst this
    exact ⟨[], false, Spec.Lines.nil⟩
  | succ n ih =>
    intro text h
    by_cases hm : '\n' ∈ text
    · obtain ⟨l, s, rfl, hl⟩ := List.append_of_mem hm |>.elim fun a ⟨b, hb⟩ => (by
        refine ⟨text.takeWhile (· != '\n'), (text.dropWhile (· != '\n')).tail, ?_, ?_⟩
        · cases hd : text.dropWhile (· != '\n') with
          | nil =>
            rw [List.dropWhile_eq_nil_iff] at hd
            simpa using hd _ hm
          | cons c q =>
            have := List.head?_dropWhile_not (· != '\n') text
            rw [hd] at this
            have hc : c = '\n' := by simpa using this
            subst hc
            rw [List.tail_cons, ← hd, List.takeWhile_append_dropWhile]
        · intro hmem
          simpa using List.mem_takeWhile_imp hmem :
          ∃ l s, text = l ++ '\n' :: s ∧ '\n' ∉ l)
      have hlen : s.length ≤ n := by simp at h; omega
      obtain ⟨ls, b, hs⟩ := ih s hlen
      exact ⟨l :: ls, b, Spec.Lines.cons l s ls b hl hs⟩
    · cases text with
      | nil => exact ⟨[], false, Spec.Lines.nil⟩
      | cons c s => exact ⟨[c :: s], true, Spec.Lines.last _ (by simp) hm⟩

example : split (fun c => c == ',' || isSpace c) "a, b;c,,d ".toList =
    ["a".toList, "b;c".toList, "d".toList] := by decide

example : splitByWhitespace "  to be\tor  not ".toList = ["to".toList, "be".toList, "or".toList, "not".toList] := by
  decide

example : trim " \t a b \n".toList = "a b".toList := by decide

example : split isSpace " a".toList = [[], ['a']] ∧ split isSpace [] = [[]] := by decide

end Aleph
