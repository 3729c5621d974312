import Verif.Model.DiagramEntropies
import Verif.Spec.DiagramEntropies
import Verif.Spec.DiagramStatistics
import Verif.Props.Entropy
import Verif.Props.TextReaders

/-!
# C163: the tool for entropies of persistence diagrams
-/

namespace Aleph.DiagramEntropies

open Entropy Strings Spec Spec.DiagramEntropies Spec.DiagramStatistics

theorem exists_nearest (points : List (ℝ × ℝ)) (h : 2 ≤ points.length) : ∃ r, NearestDistances points r := by
  have hex : ∀ i : Fin points.length, ∃ x, IsLeast {x | ∃ (j : ℕ) (hj : j < points.length), j ≠ i.1 ∧
      x = √((points[i.1].1 - points[j].1) ^ 2 + (points[i.1].2 - points[j].2) ^ 2)} x := by
    intro i
    let S := (Finset.univ.filter fun j : Fin points.length => j ≠ i).image fun j =>
      √((points[i.1].1 - points[j.1].1) ^ 2 + (points[i.1].2 - points[j.1].2) ^ 2)
    have hS : S.Nonempty := by
      rw [Finset.image_nonempty]
      by_cases h0 : i.1 = 0
      · exact ⟨⟨1, by omega⟩, by simp [Fin.ext_iff, h0]⟩
      · exact ⟨⟨0, by omega⟩, by simp [Fin.ext_iff]; omega⟩
    refine ⟨S.min' hS, ?_, ?_⟩
    · obtain ⟨j, hj, he⟩ := Finset.mem_image.1 (S.min'_mem hS)
      rw [Finset.mem_filter] at hj
      exact ⟨j.1, j.2, fun h => hj.2 (Fin.ext h), he.symm⟩
    · rintro x ⟨j, hj, hji, rfl⟩
      apply S.min'_le
      rw [Finset.mem_image]
      exact ⟨⟨j, hj⟩, by simp [Fin.ext_iff, hji], rfl⟩
  choose f hf using hex
  refine ⟨List.ofFn f, by simp, fun i h1 h2 => ?_⟩
  rw [List.getElem_ofFn]
  exact hf ⟨i, h2⟩

theorem exists_least (l : List ℝ) (h : l ≠ []) : (∃ a, IsLeast {x | x ∈ l} a) ∧ ∃ b, IsGreatest {x | x ∈ l} b := by
  have hne : l.toFinset.Nonempty := by simpa [List.toFinset_nonempty_iff] using h
  refine ⟨⟨l.toFinset.min' hne, ?_, fun x hx => ?_⟩, l.toFinset.max' hne, ?_, fun x hx => ?_⟩
  · simpa using l.toFinset.min'_mem hne
  · exact l.toFinset.min'_le x (by simpa using hx)
  · simpa using l.toFinset.max'_mem hne
  · exact l.toFinset.le_max' x (by simpa using hx)

theorem least_lt {f : ℝ × ℝ → ℝ} {points : List (ℝ × ℝ)} {a b : ℝ} (ha : IsLeast {x | x ∈ points.map f} a) (hb : IsGreatest {x | x ∈ points.map f} b)
    (h : ∃ p ∈ points, ∃ q ∈ points, f p ≠ f q) : a < b := by
  obtain ⟨p, hp, q, hq, hne⟩ := h
  have h1 := ha.2 (show f p ∈ {x | x ∈ points.map f} from List.mem_map_of_mem hp)
  have h2 := ha.2 (show f q ∈ {x | x ∈ points.map f} from List.mem_map_of_mem hq)
  have h3 := hb.2 (show f p ∈ {x | x ∈ points.map f} from List.mem_map_of_mem hp)
  have h4 := hb.2 (show f q ∈ {x | x ∈ points.map f} from List.mem_map_of_mem hq)
  rcases lt_or_gt_of_ne hne with h | h <;> linarith

/-- The line of a diagram. -/
theorem line_spec (sort : (ℕ → ℕ → Bool) → List ℕ → List ℕ) (hs : IsStdSort sort) (print : Option ℝ → List Char) (D : Diagram ℝ) :
    (D.points = [] ∨ Spread D.points → ∃ nn rg pe, NearestNeighbourEntropy D.points nn ∧ CellEntropy 20 D.points rg ∧ PersistenceEntropy D.points pe ∧
      line sort print D = .ok (print nn ++ '\t' :: print rg ++ '\t' :: print pe ++ ['\n'])) ∧
    (D.points ≠ [] → ¬Spread D.points → line sort print D = .error .undefined) := by
  obtain ⟨n1, n2, n3⟩ := C79_nearest_neighbours sort hs D
  obtain ⟨g1, g2⟩ := C79_grid_degenerate D 20
  constructor
  · intro h
    have hpe : PersistenceEntropy D.points (persistentEntropy D) := by
      by_cases hc : (∀ p ∈ D.points, p.1 < p.2) ∨ ∀ p ∈ D.points, p.2 < p.1
      · exact .inl ⟨hc, (C78_entropy_partial D).1 hc⟩
      · exact .inr ⟨hc, (C78_entropy_partial D).2 hc⟩
    rcases h with h | ⟨h1, h2⟩
    · refine ⟨some 0, some 0, _, .inl ⟨h, rfl⟩, .inl ⟨h, rfl⟩, hpe, ?_⟩
      unfold line
      rw [n1 h, g1 h]
      simp
    · have hne : D.points ≠ [] := by
        rintro h0
        rw [h0] at h1
        simp at h1
      have hlen : 2 ≤ D.points.length := by
        by_contra hc
        obtain ⟨p, hp, q, hq, hpq⟩ := h1
        have : D.points.length = 1 := by
          have := List.length_pos_iff.2 hne
          omega
        obtain ⟨a, ha⟩ := List.length_eq_one_iff.1 this
        rw [ha, List.mem_singleton] at hp hq
        exact hpq (by rw [hp, hq])
      obtain ⟨r, hr⟩ := exists_nearest D.points hlen
      obtain ⟨m1, m2⟩ := n3 r hlen hr.1 hr.2
      obtain ⟨⟨c0, hc0⟩, c1, hc1⟩ := exists_least (D.points.map (·.1)) (by simpa using hne)
      obtain ⟨⟨d0, hd0⟩, d1, hd1⟩ := exists_least (D.points.map (·.2)) (by simpa using hne)
      have hc := least_lt hc0 hc1 h1
      have hd := least_lt hd0 hd1 h2
      obtain ⟨-, H, hH, hH', -⟩ := C79_grid D 20 (by norm_num) c0 c1 d0 d1 hc0 hc1 hd0 hd1 hc hd
      rw [List.map_map] at hH'
      have hcell : CellEntropy 20 D.points (some H) := .inr ⟨c0, c1, d0, d1, hc0, hc1, hd0, hd1, hc, hd, by rw [hH']; rfl⟩
      by_cases hz : ∀ x ∈ r, x = 0
      · refine ⟨none, some H, _, .inr ⟨r, hr, .inl ⟨hz, rfl⟩⟩, hcell, hpe, ?_⟩
        unfold line
        rw [m1 hz, hH]
        simp
      · push Not at hz
        refine ⟨_, some H, _, .inr ⟨r, hr, .inr ⟨hz, rfl⟩⟩, hcell, hpe, ?_⟩
        unfold line
        rw [m2 hz, hH]
        simp
  · intro hne h
    have hg : gridEntropy D 20 = none := by
      refine g2 hne (.inr ?_)
      by_contra hc
      push Not at hc
      exact h hc
    unfold line
    rw [hg]
    split
    · rename_i h1 h2
      cases h2
    · rfl

/-- The contents of a file are a persistence diagram with these points. -/
def Contains (convert : List Char → ℝ) (text : Option (List Char)) (points : List (ℝ × ℝ)) : Prop :=
  ∃ t ls b entries, text = some t ∧ Lines t ls b ∧ List.Forall₂ (DiagramLine convert) ls entries ∧ points = entries.filterMap id

theorem contains_load {convert : List Char → ℝ} {text : Option (List Char)} {points : List (ℝ × ℝ)} (h : Contains convert text points) :
    TextReaders.loadDiagram convert text = some ⟨0, points⟩ := by
  obtain ⟨t, ls, b, entries, rfl, hl, he, rfl⟩ := h
  exact ((C111_load convert hl).1 _).2 ⟨entries, he, rfl⟩

theorem load_contains {convert : List Char → ℝ} {text : Option (List Char)} {D : Diagram ℝ} (h : TextReaders.loadDiagram convert text = some D) :
    Contains convert text D.points := by
  cases text with
  | none => cases h
  | some t =>
    obtain ⟨ls, b, hl⟩ := lines_exist t
    obtain ⟨entries, he, hD⟩ := ((C111_load convert hl).1 D).1 h
    exact ⟨t, ls, b, entries, rfl, hl, he, by rw [hD]⟩

theorem loadAll_ok {convert : List Char → ℝ} {files : List Char → Option (List Char)} {filenames : List (List Char)} {diagrams : List (List (ℝ × ℝ))}
    (h : List.Forall₂ (fun f points => Contains convert (files f) points) filenames diagrams) :
    loadAll convert files filenames = .ok (List.zipWith (fun f points => (f, ⟨0, points⟩)) filenames diagrams) := by
  induction h with
  | nil => rfl
  | cons h _ ih =>
    unfold loadAll at ih ⊢
    rw [List.mapM_cons, ih, contains_load h]
    rfl

theorem lines_ok {sort : (ℕ → ℕ → Bool) → List ℕ → List ℕ} {print : Option ℝ → List Char} {filenames : List (List Char)} {diagrams : List (List (ℝ × ℝ))}
    {texts : List (List Char)} (hlen : filenames.length = diagrams.length) (h : List.Forall₂ (fun points l => line sort print ⟨0, points⟩ = .ok (l ++ ['\n'])) diagrams texts) :
    ((List.zipWith (fun f points => ((f, ⟨0, points⟩) : List Char × Diagram ℝ)) filenames diagrams).mapM fun input => line sort print input.2) =
      .ok (texts.map (· ++ ['\n'])) := by
  induction h generalizing filenames with
  | nil => simp; rfl
  | cons h _ ih =>
    cases filenames with
    | nil => simp at hlen
    | cons f filenames =>
      rw [List.zipWith_cons_cons, List.mapM_cons, ih (by simpa using hlen), h]
      rfl

theorem ended (texts : List (List Char)) : EndedLines texts ((texts.map (· ++ ['\n'])).flatten) := by
  induction texts with
  | nil => exact .nil
  | cons l ls ih =>
    have := EndedLines.cons (l := l) ih
    simpa using this

/-- **C163 (output).** If all files contain persistence diagrams, each of which is empty or has different creation values and different destruction values, the program
prints one line per file, in the order of the arguments.  It consists of the entropy of nearest neighbours, the one of a grid of 20 × 20 cells, and the persistent entropy, separated by tabs.

Missing: other diagrams (see `C163_failure`). -/
theorem _root_.Aleph.C163_output_partial (sort : (ℕ → ℕ → Bool) → List ℕ → List ℕ) (hs : IsStdSort sort) (convert : List Char → ℝ) (print : Option ℝ → List Char)
    (files : List Char → Option (List Char)) (filenames : List (List Char)) (hne : filenames ≠ []) (diagrams : List (List (ℝ × ℝ)))
    (hfiles : List.Forall₂ (fun f points => Contains convert (files f) points) filenames diagrams) (hspread : ∀ points ∈ diagrams, points = [] ∨ Spread points) :
    ∃ lines text, main sort convert print files filenames = .ok (0, text) ∧ EndedLines lines text ∧
      List.Forall₂ (fun points l => ∃ nn rg pe, NearestNeighbourEntropy points nn ∧ CellEntropy 20 points rg ∧ PersistenceEntropy points pe ∧
        l = print nn ++ '\t' :: print rg ++ '\t' :: print pe) diagrams lines := by
  have hl : ∀ points ∈ diagrams, ∃ l, line sort print ⟨0, points⟩ = .ok (l ++ ['\n']) ∧ ∃ nn rg pe, NearestNeighbourEntropy points nn ∧ CellEntropy 20 points rg ∧
      PersistenceEntropy points pe ∧ l = print nn ++ '\t' :: print rg ++ '\t' :: print pe := by
    intro points hp
    obtain ⟨nn, rg, pe, h1, h2, h3, h4⟩ := (line_spec sort hs print ⟨0, points⟩).1 (hspread points hp)
    exact ⟨_, h4, nn, rg, pe, h1, h2, h3, rfl⟩
  have hex : ∃ texts, List.Forall₂ (fun points l => line sort print ⟨0, points⟩ = .ok (l ++ ['\n']) ∧ ∃ nn rg pe, NearestNeighbourEntropy points nn ∧ CellEntropy 20 points rg ∧
      PersistenceEntropy points pe ∧ l = print nn ++ '\t' :: print rg ++ '\t' :: print pe) diagrams texts := by
    clear hfiles hspread
    induction diagrams with
    | nil => exact ⟨[], .nil⟩
    | cons points diagrams ih =>
      obtain ⟨l, h⟩ := hl points (by simp)
      obtain ⟨ls, h'⟩ := ih fun p hp => hl p (by simp [hp])
      exact ⟨l :: ls, .cons h h'⟩
  obtain ⟨texts, ht⟩ := hex
  refine ⟨texts, _, ?_, ended texts, ht.imp fun _ _ h => h.2⟩
  unfold main
  rw [if_neg (by simpa using hne), loadAll_ok hfiles]
  simp only
  rw [lines_ok hfiles.length_eq (ht.imp fun _ _ h => h.1)]

/-- **C163 (failures).** Without files the result is −1, and nothing is printed.  A file that cannot be loaded raises an exception.  A diagram with points whose creation values (or destruction values) all agree,
for example one with a single point, leads to undefined behaviour. -/
theorem _root_.Aleph.C163_failure (sort : (ℕ → ℕ → Bool) → List ℕ → List ℕ) (hs : IsStdSort sort) (convert : List Char → ℝ) (print : Option ℝ → List Char)
    (files : List Char → Option (List Char)) (filenames : List (List Char)) :
    main sort convert print files [] = .ok (-1, []) ∧
    ((∃ f ∈ filenames, ∀ points, ¬Contains convert (files f) points) → main sort convert print files filenames = .error .exception) ∧
    ((∀ f ∈ filenames, ∃ points, Contains convert (files f) points) → (∃ f ∈ filenames, ∃ points, Contains convert (files f) points ∧ points ≠ [] ∧ ¬Spread points) →
      main sort convert print files filenames = .error .undefined) := by
  refine ⟨rfl, ?_, ?_⟩
  · rintro ⟨f, hf, h⟩
    have hne : filenames ≠ [] := List.ne_nil_of_mem hf
    have hl : loadAll convert files filenames = .error .exception := by
      clear hne
      unfold loadAll
      induction filenames with
      | nil => cases hf
      | cons x filenames ih =>
        rw [List.mapM_cons]
        cases hx : TextReaders.loadDiagram convert (files x) with
        | none => rfl
        | some D =>
          rcases List.mem_cons.1 hf with rfl | hf
          · exact absurd (load_contains hx) (h _)
          · rw [ih hf]
            rfl
    unfold main
    rw [if_neg (by simpa using hne), hl]
  · intro hall ⟨f, hf, points, hp, hp0, hsp⟩
    have hne : filenames ≠ [] := List.ne_nil_of_mem hf
    have hex : ∃ diagrams, List.Forall₂ (fun f points => Contains convert (files f) points) filenames diagrams := by
      clear hf hne
      induction filenames with
      | nil => exact ⟨[], .nil⟩
      | cons x filenames ih =>
        obtain ⟨p, hp⟩ := hall x (by simp)
        obtain ⟨ps, hps⟩ := ih fun y hy => hall y (by simp [hy])
        exact ⟨p :: ps, .cons hp hps⟩
    obtain ⟨diagrams, hd⟩ := hex
    have hbad : ((List.zipWith (fun f points => ((f, ⟨0, points⟩) : List Char × Diagram ℝ)) filenames diagrams).mapM fun input => line sort print input.2) = .error .undefined := by
      clear hall hne
      induction hd with
      | nil => cases hf
      | @cons x p filenames diagrams h hd ih =>
        rw [List.zipWith_cons_cons, List.mapM_cons]
        by_cases hx : p = [] ∨ Spread p
        · obtain ⟨nn, rg, pe, -, -, -, h4⟩ := (line_spec sort hs print ⟨0, p⟩).1 hx
          rcases List.mem_cons.1 hf with rfl | hf
          · have e1 := contains_load hp
            rw [contains_load h] at e1
            cases e1
            exact absurd hx (by rintro (h | h); exacts [hp0 h, hsp h])
          · rw [h4, ih hf]
            rfl
        · rw [not_or] at hx
          rw [(line_spec sort hs print ⟨0, p⟩).2 hx.1 hx.2]
          rfl
    unfold main
    rw [if_neg (by simpa using hne), loadAll_ok hd]
    simp only
    rw [hbad]

/-! ### Examples -/

/-- A file with two points, with a conversion of digits. -/
noncomputable def digit : List Char → ℝ := fun w => (((w.headD '0').toNat - 48 : ℕ) : ℝ)

example : Contains digit (some "0 1\n1 3\n".toList) [(0, 1), (1, 3)] ∧ Spread [(0, 1), (1, 3)] := by
  constructor
  · have h : TextReaders.loadDiagram digit (some "0 1\n1 3\n".toList) = some ⟨0, [(digit ['0'], digit ['1']), (digit ['1'], digit ['3'])]⟩ := rfl
    have h := load_contains h
    have e0 : digit ['0'] = 0 := by simp [digit]
    have e1 : digit ['1'] = 1 := by simp [digit]
    have e3 : digit ['3'] = 3 := by simp [digit]
    simpa only [e0, e1, e3] using h
  · refine ⟨⟨(0, 1), by simp, (1, 3), by simp, by norm_num⟩, (0, 1), by simp, (1, 3), by simp, by norm_num⟩

end Aleph.DiagramEntropies
