import Verif.Model.TextReaders
import Verif.Spec.TextReaders
import Verif.Props.MatrixReader

/-!
# Properties of readers for boundary matrices and persistence diagrams
-/

namespace Aleph.TextReaders

open Spec MatrixReader

variable {α : Type}

theorem mapM_map {β γ : Type} {g : β → Option γ} {l : List β} {r : List γ} : l.mapM g = some r ↔ l.map g = r.map some := by
  induction l generalizing r with
  | nil => cases r <;> simp
  | cons a l ih =>
    rw [List.mapM_cons]
    cases ha : g a with
    | none => cases r <;> simp [ha]
    | some b =>
      cases hl : l.mapM g with
      | none =>
        cases r with
        | nil => simp
        | cons c r =>
          simp only [Option.bind_eq_bind, Option.bind_some, Option.bind_none, List.map_cons, ha, List.cons.injEq, Option.some.injEq]
          constructor
          · intro h
            cases h
          · rintro ⟨_, h⟩
            rw [← ih, hl] at h
            cases h
      | some r' =>
        cases r with
        | nil => simp
        | cons c r =>
          have := ih (r := r)
          rw [hl] at this
          simp only [Option.bind_eq_bind, Option.bind_some, List.map_cons, ha, List.cons.injEq, Option.some.injEq]
          rw [← this]
          simp

/-- The first word of a line starts with the first character that is not whitespace. -/
theorem words_filter {s : List Char} {ts : List (List Char)} (h : Words s ts) : (s.filter fun c => !Strings.isSpace c) = ts.flatten := by
  have hy : ∀ g : List Char, (∀ c ∈ g, c ∈ whitespace) → (g.filter fun c => !Strings.isSpace c) = [] := by
    intro g hg
    rw [List.filter_eq_nil_iff]
    intro c hc
    simpa using (isSpace_eq c).2 (hg c hc)
  have hn : ∀ t : List Char, (∀ c ∈ t, c ∉ whitespace) → (t.filter fun c => !Strings.isSpace c) = t := by
    intro t ht
    rw [List.filter_eq_self]
    intro c hc
    have := mt (isSpace_eq c).1 (ht c hc)
    simpa using this
  induction h with
  | nil g hg => simpa using hy g hg
  | last g t hg _ ht => rw [List.filter_append, hy g hg, hn t ht]; simp
  | cons g t c s ts hg _ ht hc _ ih =>
    rw [List.filter_append, List.filter_append, hy g hg, hn t ht, List.filter_cons, ih]
    have := (isSpace_eq c).2 hc
    simp [this]

theorem words_ne {s : List Char} {ts : List (List Char)} (h : Words s ts) : ∀ t ∈ ts, t ≠ [] := by
  induction h with
  | nil => simp
  | last g t _ hne _ => simpa using hne
  | cons g t c s ts _ hne _ _ _ ih =>
    intro t' ht'
    rcases List.mem_cons.1 ht' with rfl | h
    · exact hne
    · exact ih t' h

/-- The effect of storing the columns of a list, from a given column on. -/
theorem set_all (k : Kind) : ∀ (cs : List (List ℕ)) (pre : List (List ℕ)) (dpre : List ℕ), pre.length = dpre.length →
    cs.foldlM (fun (st : Rep × ℕ) c => (st.1.setColumn k st.2 (c.insertionSort (· ≤ ·))).map fun r => (r, st.2 + 1))
      (⟨pre ++ List.replicate cs.length [], dpre ++ List.replicate cs.length 0⟩, pre.length) =
    some (⟨pre ++ cs.map fun c => Rep.store k ((c.insertionSort (· ≤ ·)).insertionSort (· ≤ ·)), dpre ++ cs.map fun c => c.length - 1⟩, pre.length + cs.length) := by
  intro cs
  induction cs with
  | nil =>
    intro pre dpre h
    simp
  | cons c cs ih =>
    intro pre dpre h
    rw [List.foldlM_cons]
    have h1 : pre.length < (pre ++ List.replicate (cs.length + 1) ([] : List ℕ)).length := by simp
    have h2 : pre.length < (dpre ++ List.replicate (cs.length + 1) 0).length := by simp; omega
    have hset : ∀ {β : Type} (l : List β) (n : ℕ) (d x : β), (l ++ List.replicate (n + 1) d).set l.length x = (l ++ [x]) ++ List.replicate n d := by
      intro β l n d x
      rw [List.set_append_right _ _ (le_refl _), Nat.sub_self, List.replicate_succ, List.set_cons_zero]
      simp
    unfold Rep.setColumn
    simp only [List.length_cons]
    rw [if_pos ⟨h1, h2⟩]
    simp only [Option.map_some, Option.bind_eq_bind, Option.bind_some]
    have e1 := hset pre cs.length [] (Rep.store k ((c.insertionSort (· ≤ ·)).insertionSort (· ≤ ·)))
    have e2 : (dpre ++ List.replicate (cs.length + 1) 0).set pre.length ((c.insertionSort (· ≤ ·)).length - 1) =
        (dpre ++ [c.length - 1]) ++ List.replicate cs.length 0 := by
      rw [h, hset, List.length_insertionSort]
    rw [e1, e2]
    have := ih (pre ++ [Rep.store k ((c.insertionSort (· ≤ ·)).insertionSort (· ≤ ·))]) (dpre ++ [c.length - 1]) (by simp [h])
    simp only [List.length_append, List.length_singleton] at this
    unfold Rep.setColumn at this
    rw [this]
    simp [Nat.add_assoc, Nat.add_comm 1]

/-- One line. -/
theorem loadLine_spec (k : Kind) (number : List Char → Option ℕ) (r : Rep) (j : ℕ) (l : List Char) {st : Rep × ℕ} :
    (r.data.length = r.dims.length) → (loadLine k number (r, j) l = some st ↔ (MatrixLine number l none ∧ st = (r, j)) ∨
      ∃ c, MatrixLine number l (some c) ∧ (r.setColumn k j (c.insertionSort (· ≤ ·))).map (fun r => (r, j + 1)) = some st) := by
  intro hlen
  unfold loadLine
  by_cases h0 : l.head? = none ∨ l.head? = some '#'
  · rw [if_pos h0, Option.some.injEq]
    constructor
    · rintro rfl
      left
      refine ⟨?_, rfl⟩
      cases l with
      | nil => exact .blank _ (.nil _ (by simp))
      | cons c l =>
        rcases h0 with h0 | h0
        · simp at h0
        · rw [List.head?_cons, Option.some.injEq] at h0
          subst h0
          exact .comment l
    · rintro (⟨_, rfl⟩ | ⟨c, hc, _⟩)
      · rfl
      · cases hc with
        | column _ w ws _ h1 h2 h3 h4 =>
          rcases h0 with h0 | h0
          · rw [List.head?_eq_none_iff] at h0
            subst h0
            have := words_extract h2
            simp [Strings.extract] at this
          · exact absurd h0 h1
  · rw [if_neg h0]
    rw [not_or] at h0
    obtain ⟨ws, hws⟩ := words_exist l
    simp only [words_extract hws]
    cases ws with
    | nil =>
      rw [List.isEmpty_nil, if_pos rfl, Option.some.injEq]
      constructor
      · rintro rfl
        exact Or.inl ⟨.blank _ hws, rfl⟩
      · rintro (⟨_, rfl⟩ | ⟨c, hc, _⟩)
        · rfl
        · cases hc with
          | column _ w ws _ h1 h2 h3 h4 =>
            have := (words_extract h2).symm.trans (words_extract hws)
            simp at this
    | cons w ws =>
      rw [List.isEmpty_cons, if_neg (by simp)]
      have hnone : ¬ MatrixLine number l none := by
        intro h
        cases h with
        | blank _ h =>
          have := (words_extract h).symm.trans (words_extract hws)
          simp at this
        | comment l => simp at h0
      have hsome : ∀ c, MatrixLine number l (some c) ↔ number w = some (c.length - 1) ∧ ws.map number = c.map some := by
        intro c
        constructor
        · intro h
          cases h with
          | column _ w' ws' _ h1 h2 h3 h4 =>
            have := (words_extract h2).symm.trans (words_extract hws)
            rw [List.cons.injEq] at this
            rw [← this.1, ← this.2]
            exact ⟨h3, h4⟩
        · rintro ⟨h3, h4⟩
          exact .column l w ws c h0.2 hws h3 h4
      have hdim : ∀ c r', r.setColumn k j (List.insertionSort (· ≤ ·) c) = some r' → r'.getDimension j = some (c.length - 1) := by
        intro c r' h
        unfold Rep.setColumn at h
        split at h
        · next hlt =>
          rw [Option.some.injEq] at h
          subst h
          unfold Rep.getDimension
          simp [List.getElem?_set_self hlt.2]
        · cases h
      constructor
      · intro h
        right
        cases hm : (w :: ws).mapM number with
        | none => rw [hm] at h; simp at h
        | some ns =>
          rw [hm] at h
          cases ns with
          | nil => simp at h
          | cons d c =>
            simp only at h
            rw [mapM_map, List.map_cons, List.map_cons, List.cons.injEq] at hm
            cases hs : r.setColumn k j (List.insertionSort (· ≤ ·) c) with
            | none => rw [hs] at h; simp at h
            | some r' =>
              rw [hs] at h
              simp only at h
              split at h
              · simp at h
              · next hd =>
                rw [not_not, hdim c r' hs, Option.some.injEq] at hd
                refine ⟨c, (hsome c).2 ⟨?_, hm.2⟩, ?_⟩
                · rw [hm.1, ← hd]
                · rw [hs, ← h]
                  rfl
      · rintro (⟨h, _⟩ | ⟨c, hc, hst⟩)
        · exact absurd h hnone
        · obtain ⟨h1, h2⟩ := (hsome c).1 hc
          have hm : (w :: ws).mapM number = some ((c.length - 1) :: c) := by
            rw [mapM_map, List.map_cons, List.map_cons, h1, h2]
          rw [hm]
          simp only
          cases hs : r.setColumn k j (List.insertionSort (· ≤ ·) c) with
          | none => rw [hs] at hst; simp at hst
          | some r' =>
            rw [hs] at hst
            simp only
            rw [if_neg (by rw [not_not]; exact hdim c r' hs)]
            exact hst

theorem setColumn_lengths {k : Kind} {r r' : Rep} {j : ℕ} {c : List ℕ} (h : r.setColumn k j c = some r') (hl : r.data.length = r.dims.length) :
    r'.data.length = r'.dims.length := by
  unfold Rep.setColumn at h
  split at h
  · rw [Option.some.injEq] at h
    subst h
    simpa using hl
  · cases h

/-- All lines. -/
theorem load_fold (k : Kind) (number : List Char → Option ℕ) (ls : List (List Char)) : ∀ (r : Rep) (j : ℕ) (st : Rep × ℕ), r.data.length = r.dims.length →
    (ls.foldlM (loadLine k number) (r, j) = some st ↔ ∃ entries, List.Forall₂ (MatrixLine number) ls entries ∧
      (entries.filterMap id).foldlM (fun (st : Rep × ℕ) c => (st.1.setColumn k st.2 (c.insertionSort (· ≤ ·))).map fun r => (r, st.2 + 1)) (r, j) = some st) := by
  induction ls with
  | nil =>
    intro r j st _
    simp
  | cons l ls ih =>
    intro r j st hlen
    rw [List.foldlM_cons, Option.bind_eq_bind, Option.bind_eq_some_iff]
    constructor
    · rintro ⟨⟨r', j'⟩, h1, h2⟩
      rcases (loadLine_spec k number r j l hlen).1 h1 with ⟨hb, he⟩ | ⟨c, hc, he⟩
      · rw [Prod.mk.injEq] at he
        obtain ⟨rfl, rfl⟩ := he
        obtain ⟨es, g1, g2⟩ := (ih r' j' st hlen).1 h2
        exact ⟨none :: es, .cons hb g1, by simpa using g2⟩
      · have hlen' : r'.data.length = r'.dims.length := by
          cases hs : r.setColumn k j (c.insertionSort (· ≤ ·)) with
          | none => rw [hs] at he; simp at he
          | some q =>
            rw [hs, Option.map_some, Option.some.injEq, Prod.mk.injEq] at he
            rw [← he.1]
            exact setColumn_lengths hs hlen
        obtain ⟨es, g1, g2⟩ := (ih r' j' st hlen').1 h2
        refine ⟨some c :: es, .cons hc g1, ?_⟩
        rw [List.filterMap_cons_some (f := id) (show id (some c) = some c from rfl), List.foldlM_cons, Option.bind_eq_bind]
        simp only [he, Option.bind_some, g2]
    · rintro ⟨es, g1, g2⟩
      cases g1 with
      | cons he hes =>
        rename_i e es
        cases e with
        | none =>
          exact ⟨(r, j), (loadLine_spec k number r j l hlen).2 (Or.inl ⟨he, rfl⟩), (ih r j st hlen).2 ⟨es, hes, by simpa using g2⟩⟩
        | some c =>
          rw [List.filterMap_cons_some (f := id) (show id (some c) = some c from rfl), List.foldlM_cons, Option.bind_eq_bind,
            Option.bind_eq_some_iff] at g2
          obtain ⟨⟨r', j'⟩, h1, h2⟩ := g2
          have hlen' : r'.data.length = r'.dims.length := by
            cases hs : r.setColumn k j (c.insertionSort (· ≤ ·)) with
            | none => simp only [hs] at h1; simp at h1
            | some q =>
              simp only [hs, Option.map_some, Option.some.injEq, Prod.mk.injEq] at h1
              rw [← h1.1]
              exact setColumn_lengths hs hlen
          exact ⟨(r', j'), (loadLine_spec k number r j l hlen).2 (Or.inr ⟨c, he, h1⟩), (ih r' j' st hlen').2 ⟨es, hes, h2⟩⟩

theorem counted_eq (number : List Char → Option ℕ) (hash : ∀ w, number ('#' :: w) = none) {ls : List (List Char)} {es : List (Option (List ℕ))}
    (h : List.Forall₂ (MatrixLine number) ls es) : ls.countP isCounted = (es.filterMap id).length := by
  have hone : ∀ l e, MatrixLine number l e → (isCounted l = true ↔ e.isSome = true) := by
    intro l e he
    unfold isCounted
    cases he with
    | blank _ hw =>
      rw [words_filter hw]
      simp
    | comment l =>
      have : (('#' :: l).filter fun c => !Strings.isSpace c) = '#' :: l.filter fun c => !Strings.isSpace c := by
        rw [List.filter_cons]
        simp [show Strings.isSpace '#' = false by decide]
      rw [this]
      simp
    | column _ w ws c h1 h2 h3 h4 =>
      rw [words_filter h2, List.flatten_cons]
      have hne := words_ne h2 w (List.mem_cons_self ..)
      cases w with
      | nil => exact absurd rfl hne
      | cons a w =>
        have : a ≠ '#' := by
          rintro rfl
          rw [hash w] at h3
          cases h3
        simp [this]
  induction h with
  | nil => rfl
  | cons he _ ih =>
    rename_i l e ls es _
    rw [List.countP_cons, ih]
    cases e with
    | none =>
      have : isCounted l = false := by
        rw [← Bool.not_eq_true, hone _ _ he]
        simp
      simp [this]
    | some c =>
      have : isCounted l = true := (hone _ _ he).2 rfl
      rw [List.filterMap_cons_some (f := id) (show id (some c) = some c from rfl)]
      simp [this]

theorem matrixLine_unique {number : List Char → Option ℕ} {l : List Char} {e e' : Option (List ℕ)}
    (h : MatrixLine number l e) (h' : MatrixLine number l e') : e = e' := by
  cases h with
  | blank _ hw =>
    cases h' with
    | blank _ _ => rfl
    | comment l => rfl
    | column _ w ws c h1 h2 h3 h4 =>
      have := (words_extract h2).symm.trans (words_extract hw)
      simp at this
  | comment l =>
    cases h' with
    | blank _ _ => rfl
    | comment _ => rfl
    | column _ w ws c h1 h2 h3 h4 => simp at h1
  | column _ w ws c h1 h2 h3 h4 =>
    cases h' with
    | blank _ hw =>
      have := (words_extract h2).symm.trans (words_extract hw)
      simp at this
    | comment _ => simp at h1
    | column _ w' ws' c' h1' h2' h3' h4' =>
      have := (words_extract h2).symm.trans (words_extract h2')
      rw [List.cons.injEq] at this
      rw [this.2, h4'] at h4
      have := (List.map_injective_iff.2 (Option.some_injective _)) h4
      rw [this]

theorem forall2_unique {number : List Char → Option ℕ} {ls : List (List Char)} {es es' : List (Option (List ℕ))}
    (h : List.Forall₂ (MatrixLine number) ls es) (h' : List.Forall₂ (MatrixLine number) ls es') : es = es' := by
  induction h generalizing es' with
  | nil => cases h'; rfl
  | cons h1 _ ih =>
    cases h' with
    | cons h1' h2' => rw [matrixLine_unique h1 h1', ih h2']

theorem load_eq (k : Kind) (number : List Char → Option ℕ) (hash : ∀ w, number ('#' :: w) = none) {text : List Char} {ls : List (List Char)} {b : Bool}
    (hl : Lines text ls b) (M : BM) : loadMatrix k number text = some M ↔ ∃ entries, List.Forall₂ (MatrixLine number) ls entries ∧
      M = ⟨⟨(entries.filterMap id).map fun c => Rep.store k ((c.insertionSort (· ≤ ·)).insertionSort (· ≤ ·)), (entries.filterMap id).map fun c => c.length - 1⟩, false⟩ := by
  unfold loadMatrix
  simp only [getlines_spec text ls b hl]
  have hempty : ∀ n, Rep.empty.setNumColumns n = ⟨List.replicate n [], List.replicate n 0⟩ := by
    intro n
    simp [Rep.setNumColumns, Rep.empty, Rep.resize]
  have key : ∀ entries, List.Forall₂ (MatrixLine number) ls entries →
      ls.foldlM (loadLine k number) (Rep.empty.setNumColumns (ls.countP isCounted), 0) =
        some (⟨(entries.filterMap id).map fun c => Rep.store k ((c.insertionSort (· ≤ ·)).insertionSort (· ≤ ·)), (entries.filterMap id).map fun c => c.length - 1⟩,
          (entries.filterMap id).length) := by
    intro entries he
    rw [load_fold _ _ _ _ _ _ (by rw [hempty]; simp)]
    refine ⟨entries, he, ?_⟩
    rw [counted_eq number hash he, hempty]
    have := set_all k (entries.filterMap id) [] [] rfl
    simp only [List.nil_append, List.length_nil, Nat.zero_add] at this
    exact this
  constructor
  · intro h
    cases hf : ls.foldlM (loadLine k number) (Rep.empty.setNumColumns (ls.countP isCounted), 0) with
    | none => rw [hf] at h; simp at h
    | some st =>
      obtain ⟨es, g1, _⟩ := (load_fold k number ls _ _ _ (by rw [hempty]; simp)).1 hf
      have := key es g1
      rw [this] at h
      exact ⟨es, g1, (Option.some.inj h).symm⟩
  · rintro ⟨es, g1, rfl⟩
    rw [key es g1]

/-- **C110.** A text is accepted if and only if every line is blank, a comment, or the description of a column; the matrix then has the described columns in
the order of the lines, with ascending indices and the given dimensions.  (`number` is the conversion of words; no number starts with `#`.  The set
representation removes repeated indices.) -/
theorem _root_.Aleph.C110_load (k : Kind) (number : List Char → Option ℕ) (hash : ∀ w, number ('#' :: w) = none) {text : List Char} {ls : List (List Char)}
    {b : Bool} (hl : Lines text ls b) :
    ((∃ M, loadMatrix k number text = some M) ↔ ∃ entries, List.Forall₂ (MatrixLine number) ls entries) ∧
    ∀ M entries, loadMatrix k number text = some M → List.Forall₂ (MatrixLine number) ls entries →
      M.dual = false ∧ M.numColumns = (entries.filterMap id).length ∧
      ∀ j c, (entries.filterMap id)[j]? = some c → M.rep.getDimension j = some (c.length - 1) ∧
        ∃ c', M.rep.getColumn j = some c' ∧ c'.Pairwise (· ≤ ·) ∧ (∀ i, i ∈ c' ↔ i ∈ c) ∧ (k ≠ .set ∨ c.Nodup → c'.Perm c) := by
  refine ⟨⟨?_, ?_⟩, ?_⟩
  · rintro ⟨M, hM⟩
    obtain ⟨es, h, _⟩ := (load_eq k number hash hl M).1 hM
    exact ⟨es, h⟩
  · rintro ⟨es, h⟩
    exact ⟨_, (load_eq k number hash hl _).2 ⟨es, h, rfl⟩⟩
  · intro M entries hM he
    obtain ⟨es, h, hMeq⟩ := (load_eq k number hash hl M).1 hM
    obtain rfl := forall2_unique h he
    subst hMeq
    refine ⟨rfl, by simp [BM.numColumns, Rep.numColumns], ?_⟩
    intro j c hj
    have hsort : (c.insertionSort (· ≤ ·)).insertionSort (· ≤ ·) = c.insertionSort (· ≤ ·) :=
      List.Pairwise.insertionSort_eq (List.pairwise_insertionSort _ _)
    have hperm : (c.insertionSort (· ≤ ·)).Perm c := List.perm_insertionSort (· ≤ ·) c
    refine ⟨by simp only [Rep.getDimension, List.getElem?_map, hj, Option.map_some], Rep.store k (c.insertionSort (· ≤ ·)), by simp only [Rep.getColumn, List.getElem?_map, hj, Option.map_some, hsort], ?_, ?_, ?_⟩
    · have := List.pairwise_insertionSort (· ≤ ·) c
      cases k
      · exact this
      · exact this
      · exact this.sublist (List.dedup_sublist _)
    · intro i
      cases k
      · exact hperm.mem_iff
      · exact hperm.mem_iff
      · exact List.mem_dedup.trans hperm.mem_iff
    · intro hk
      cases k
      · exact hperm
      · exact hperm
      · have hc : c.Nodup := by simpa using hk
        have : (c.insertionSort (· ≤ ·)).dedup = c.insertionSort (· ≤ ·) := (hperm.nodup_iff.2 hc).dedup
        show (c.insertionSort (· ≤ ·)).dedup.Perm c
        rw [this]
        exact hperm

/-- **C110.** A comment that is preceded by whitespace is not accepted (although the line is not counted as a column). -/
theorem _root_.Aleph.C110_indented_comment (k : Kind) (number : List Char → Option ℕ) (hash : ∀ w, number ('#' :: w) = none) {text : List Char}
    {ls : List (List Char)} {b : Bool} (hl : Lines text ls b) (g t : List Char) (hg : g ≠ []) (hw : ∀ c ∈ g, c ∈ whitespace) (hmem : g ++ '#' :: t ∈ ls) :
    loadMatrix k number text = none := by
  by_contra hne
  obtain ⟨M, hM⟩ := Option.ne_none_iff_exists'.1 hne
  obtain ⟨es, he⟩ := ((C110_load k number hash hl).1).1 ⟨M, hM⟩
  obtain ⟨i, hi, hget⟩ := List.mem_iff_getElem.1 hmem
  have hline := List.forall₂_iff_get.1 he
  have h := hline.2 i hi (hline.1 ▸ hi)
  rw [List.get_eq_getElem, hget] at h
  have hfilter : ((g ++ '#' :: t).filter fun c => !Strings.isSpace c) = '#' :: t.filter fun c => !Strings.isSpace c := by
    have h1 : (g.filter fun c => !Strings.isSpace c) = [] := by
      rw [List.filter_eq_nil_iff]
      intro c hc
      simpa using (isSpace_eq c).2 (hw c hc)
    rw [List.filter_append, h1, List.filter_cons]
    simp [show Strings.isSpace '#' = false by decide]
  generalize hq : g ++ '#' :: t = q at h hfilter
  generalize es.get ⟨i, hline.1 ▸ hi⟩ = e at h
  cases h with
  | blank _ hw' =>
    rw [words_filter hw'] at hfilter
    simp at hfilter
  | comment l =>
    cases g with
    | nil => exact hg rfl
    | cons c g =>
      rw [List.cons_append, List.cons.injEq] at hq
      have := hw c (List.mem_cons_self ..)
      rw [hq.1] at this
      simp [whitespace] at this
  | column _ w ws c h1 h2 h3 h4 =>
    rw [words_filter h2, List.flatten_cons] at hfilter
    cases w with
    | nil => exact words_ne h2 [] (List.mem_cons_self ..) rfl
    | cons a w =>
      rw [List.cons_append, List.cons.injEq] at hfilter
      rw [hfilter.1, hash] at h3
      cases h3

/-- The text of a matrix: one line per column, with the dimension and the indices. -/
def matrixText (print : ℕ → List Char) (r : Rep) : List Char :=
  ((r.dims.zip r.data).map fun e => print e.1 ++ e.2.flatMap fun i => ' ' :: print i).flatMap fun l => l ++ ['\n']

theorem lines_flatMap (ls : List (List Char)) (h : ∀ l ∈ ls, '\n' ∉ l) : Lines (ls.flatMap fun l => l ++ ['\n']) ls false := by
  induction ls with
  | nil => exact .nil
  | cons l ls ih =>
    have := Lines.cons l _ ls false (h l (List.mem_cons_self ..)) (ih fun l hl => h l (List.mem_cons_of_mem _ hl))
    rw [List.flatMap_cons, List.append_assoc]
    exact this

theorem words_print (print : ℕ → List Char) (hp : ∀ n, print n ≠ [] ∧ ∀ c ∈ print n, c ∉ whitespace) (n : ℕ) (ns : List ℕ) :
    Words (print n ++ ns.flatMap fun i => ' ' :: print i) (print n :: ns.map print) := by
  induction ns generalizing n with
  | nil =>
    have := Words.last [] (print n) (by simp) (hp n).1 (hp n).2
    simpa using this
  | cons m ns ih =>
    have := Words.cons [] (print n) ' ' _ _ (by simp) (hp n).1 (hp n).2 (by simp [whitespace]) (ih m)
    simpa using this

/-- **C110.** Writing a boundary matrix in the format and loading the text yields the matrix. -/
theorem _root_.Aleph.C110_round_trip (k : Kind) (number : List Char → Option ℕ) (hash : ∀ w, number ('#' :: w) = none) (print : ℕ → List Char)
    (hp : ∀ n, print n ≠ [] ∧ ∀ c ∈ print n, c ∉ whitespace) (hnum : ∀ n, number (print n) = some n) (r : Rep)
    (hdims : r.dims = r.data.map fun c => c.length - 1) (hsorted : ∀ c ∈ r.data, c.Pairwise (· < ·)) :
    loadMatrix k number (matrixText print r) = some ⟨r, false⟩ := by
  have hlines := lines_flatMap ((r.dims.zip r.data).map fun e => print e.1 ++ e.2.flatMap fun i => ' ' :: print i) (by
    intro l hl
    obtain ⟨e, _, rfl⟩ := List.mem_map.1 hl
    have hno : ∀ n, '\n' ∉ print n := fun n h => (hp n).2 _ h (by simp [whitespace])
    rw [List.mem_append, List.mem_flatMap]
    rintro (h | ⟨i, _, h⟩)
    · exact hno _ h
    · rcases List.mem_cons.1 h with h | h
      · exact absurd h (by decide)
      · exact hno _ h)
  refine (load_eq k number hash hlines _).2 ⟨r.data.map some, ?_, ?_⟩
  · rw [List.forall₂_map_left_iff, List.forall₂_map_right_iff, hdims, List.zip_map_left]
    have hz : ∀ l : List (List ℕ), List.Forall₂ (fun a b => MatrixLine number (print a.1 ++ a.2.flatMap fun i => ' ' :: print i) (some b))
        ((l.zip l).map (Prod.map (fun c => c.length - 1) id)) l := by
      intro l
      induction l with
      | nil => exact .nil
      | cons c l ih =>
        refine .cons ?_ ih
        refine .column _ (print (c.length - 1)) (c.map print) c ?_ (words_print print hp _ _) (hnum _) ?_
        · intro h
          have hne := (hp (c.length - 1)).1
          obtain ⟨a, w, hw⟩ := List.exists_cons_of_ne_nil hne
          simp only [Prod.map_fst] at h
          rw [hw, List.cons_append, List.head?_cons, Option.some.injEq] at h
          have := hnum (c.length - 1)
          rw [hw, h, hash] at this
          cases this
        · rw [List.map_map]
          refine List.map_congr_left fun i _ => hnum i
    exact hz r.data
  · have hid : (r.data.map some).filterMap id = r.data := by
      rw [List.filterMap_map]
      simp
    rw [hid]
    have hcol : (r.data.map fun c => Rep.store k ((c.insertionSort (· ≤ ·)).insertionSort (· ≤ ·))) = r.data := by
      conv_rhs => rw [← List.map_id r.data]
      refine List.map_congr_left fun c hc => ?_
      have hs := hsorted c hc
      have hle : c.Pairwise (· ≤ ·) := hs.imp fun h => h.le
      rw [List.Pairwise.insertionSort_eq hle, List.Pairwise.insertionSort_eq hle]
      cases k
      · rfl
      · rfl
      · exact List.Nodup.dedup (hs.imp fun h => h.ne)
    rw [hcol, ← hdims]

/-- **C110.** A file that cannot be opened yields an empty matrix instead of an error. -/
theorem _root_.Aleph.C110_missing_file (k : Kind) (number : List Char → Option ℕ) : loadMatrixFile k number none = some ⟨⟨[], []⟩, false⟩ := rfl

/-- **C110.** Indices are not checked: a column may refer to rows that the matrix does not have. -/
theorem _root_.Aleph.C110_unchecked_index (number : List Char → Option ℕ) (h0 : number ['0'] = some 0) (h1 : number ['1'] = some 1)
    (h7 : number ['7'] = some 7) :
    ∃ M, loadMatrix .vector number "1 0 7\n".toList = some M ∧ M.numColumns = 1 ∧ M.rep.getColumn 0 = some [0, 7] ∧ M.dualize = none := by
  refine ⟨⟨⟨[[0, 7]], [1]⟩, false⟩, ?_, rfl, rfl, by decide⟩
  have hlines : Strings.getlines [] "1 0 7\n".toList = ["1 0 7".toList] := by decide
  have hwords : Strings.extract [] "1 0 7".toList = [['1'], ['0'], ['7']] := by decide
  have hcount : ["1 0 7".toList].countP isCounted = 1 := by decide
  unfold loadMatrix
  simp only [hlines, hcount]
  have hm : [['1'], ['0'], ['7']].mapM number = some [1, 0, 7] := by
    rw [mapM_map]
    simp [h0, h1, h7]
  have hstep : loadLine .vector number (Rep.empty.setNumColumns 1, 0) "1 0 7".toList = some (⟨[[0, 7]], [1]⟩, 1) := by
    unfold loadLine
    rw [if_neg (by decide)]
    simp only [hwords]
    rw [if_neg (by decide), hm]
    rfl
  rw [List.foldlM_cons, hstep]
  rfl

/-! ### Persistence diagrams -/

theorem diagramLine_spec (convert : List Char → α) (D D' : Diagram α) (l : List Char) :
    diagramLine convert D l = some D' ↔ ∃ e, DiagramLine convert l e ∧ D' = ⟨D.dimension, D.points ++ e.toList⟩ := by
  unfold diagramLine
  by_cases h0 : l.head? = none ∨ l.head? = some '#'
  · rw [if_pos h0, Option.some.injEq]
    constructor
    · rintro rfl
      refine ⟨none, ?_, by simp⟩
      cases l with
      | nil => exact .empty
      | cons c l =>
        rcases h0 with h0 | h0
        · simp at h0
        · rw [List.head?_cons, Option.some.injEq] at h0
          subst h0
          exact .comment l
    · rintro ⟨e, he, rfl⟩
      cases he with
      | empty => simp
      | comment l => simp
      | point _ a b ws h1 h2 =>
        rcases h0 with h0 | h0
        · rw [List.head?_eq_none_iff] at h0
          subst h0
          have := words_extract h2
          simp [Strings.extract] at this
        · exact absurd h0 h1
  · rw [if_neg h0]
    rw [not_or] at h0
    obtain ⟨ws, hws⟩ := words_exist l
    rw [words_extract hws]
    have hpoint : ∀ e, DiagramLine convert l e ↔ ∃ a b rest, ws = a :: b :: rest ∧ e = some (convert a, convert b) := by
      intro e
      constructor
      · intro he
        cases he with
        | empty => simp at h0
        | comment l => simp at h0
        | point _ a b ws' h1 h2 => exact ⟨a, b, ws', (words_extract hws).symm.trans (words_extract h2), rfl⟩
      · rintro ⟨a, b, rest, rfl, rfl⟩
        exact .point l a b rest h0.2 hws
    cases ws with
    | nil =>
      simp only [hpoint]
      constructor
      · intro h
        cases h
      · rintro ⟨e, ⟨a, b, rest, h, _⟩, _⟩
        cases h
    | cons a ws =>
      cases ws with
      | nil =>
        simp only [hpoint]
        constructor
        · intro h
          cases h
        · rintro ⟨e, ⟨a, b, rest, h, _⟩, _⟩
          cases h
      | cons b rest =>
        simp only [hpoint, Option.some.injEq]
        constructor
        · rintro rfl
          exact ⟨_, ⟨a, b, rest, rfl, rfl⟩, rfl⟩
        · rintro ⟨e, ⟨a', b', rest', h, rfl⟩, rfl⟩
          rw [List.cons.injEq, List.cons.injEq] at h
          rw [h.1, h.2.1]
          rfl

theorem diagram_fold (convert : List Char → α) (ls : List (List Char)) (D D' : Diagram α) :
    ls.foldlM (diagramLine convert) D = some D' ↔ ∃ es, List.Forall₂ (DiagramLine convert) ls es ∧ D' = ⟨D.dimension, D.points ++ es.filterMap id⟩ := by
  induction ls generalizing D with
  | nil =>
    rw [List.foldlM_nil]
    constructor
    · intro h
      cases h
      exact ⟨[], .nil, by simp⟩
    · rintro ⟨es, h, rfl⟩
      cases h
      simp
  | cons l ls ih =>
    rw [List.foldlM_cons, Option.bind_eq_bind, Option.bind_eq_some_iff]
    constructor
    · rintro ⟨D1, h1, h2⟩
      obtain ⟨e, he, rfl⟩ := (diagramLine_spec convert D D1 l).1 h1
      obtain ⟨es, hes, rfl⟩ := (ih _).1 h2
      refine ⟨e :: es, .cons he hes, ?_⟩
      cases e with
      | none => simp
      | some p =>
        rw [List.filterMap_cons_some (f := id) (show id (some p) = some p from rfl)]
        simp
    · rintro ⟨es, h, rfl⟩
      cases h with
      | cons he hes =>
        rename_i e es
        refine ⟨_, (diagramLine_spec convert D _ l).2 ⟨e, he, rfl⟩, (ih _).2 ⟨es, hes, ?_⟩⟩
        cases e with
        | none => simp
        | some p =>
          rw [List.filterMap_cons_some (f := id) (show id (some p) = some p from rfl)]
          simp

/-- **C111.** A text is accepted if and only if every line is empty, a comment, or has at least two words; the diagram has dimension zero and the points
given by the first two words of the lines, in their order.  A file that cannot be opened is an error. -/
theorem _root_.Aleph.C111_load (convert : List Char → α) {text : List Char} {ls : List (List Char)} {b : Bool} (hl : Lines text ls b) :
    (∀ D, loadDiagram convert (some text) = some D ↔ ∃ entries, List.Forall₂ (DiagramLine convert) ls entries ∧ D = ⟨0, entries.filterMap id⟩) ∧
    loadDiagram convert none = none := by
  refine ⟨?_, rfl⟩
  intro D
  unfold loadDiagram
  simp only [getlines_spec text ls b hl]
  rw [diagram_fold]
  simp [Diagram.empty]

/-- **C111.** A line that consists of whitespace only is an error (only lines without any characters are ignored). -/
theorem _root_.Aleph.C111_blank_line (convert : List Char → α) {text : List Char} {ls : List (List Char)} {b : Bool} (hl : Lines text ls b) (l : List Char)
    (hne : l ≠ []) (hw : ∀ c ∈ l, c ∈ whitespace) (hmem : l ∈ ls) : loadDiagram convert (some text) = none := by
  by_contra h
  obtain ⟨D, hD⟩ := Option.ne_none_iff_exists'.1 h
  obtain ⟨es, he, _⟩ := ((C111_load convert hl).1 D).1 hD
  obtain ⟨i, hi, hget⟩ := List.mem_iff_getElem.1 hmem
  have hline := List.forall₂_iff_get.1 he
  have h := hline.2 i hi (hline.1 ▸ hi)
  rw [List.get_eq_getElem, hget] at h
  generalize es.get ⟨i, hline.1 ▸ hi⟩ = e at h
  cases h with
  | empty => exact hne rfl
  | comment l =>
    have := hw '#' (List.mem_cons_self ..)
    simp [whitespace] at this
  | point _ a b ws h1 h2 =>
    have := (words_extract h2).symm.trans (words_extract (Words.nil l hw))
    simp at this

/-- The text of a diagram: one line per point. -/
def diagramText (print : α → List Char) (points : List (α × α)) : List Char :=
  (points.map fun p => print p.1 ++ ' ' :: print p.2).flatMap fun l => l ++ ['\n']

/-- **C111.** Writing the points of a diagram and loading the text yields these points. -/
theorem _root_.Aleph.C111_round_trip (convert : List Char → α) (print : α → List Char)
    (hp : ∀ x, print x ≠ [] ∧ (∀ c ∈ print x, c ∉ whitespace) ∧ (print x).head? ≠ some '#') (hconv : ∀ x, convert (print x) = x) (points : List (α × α)) :
    loadDiagram convert (some (diagramText print points)) = some ⟨0, points⟩ := by
  have hno : ∀ x, '\n' ∉ print x := fun x h => (hp x).2.1 _ h (by simp [whitespace])
  have hlines := lines_flatMap (points.map fun p => print p.1 ++ ' ' :: print p.2) (by
    intro l hl
    obtain ⟨p, _, rfl⟩ := List.mem_map.1 hl
    rw [List.mem_append, List.mem_cons]
    rintro (h | h | h)
    · exact hno _ h
    · exact absurd h (by decide)
    · exact hno _ h)
  refine ((C111_load convert hlines).1 _).2 ⟨points.map some, ?_, ?_⟩
  · rw [List.forall₂_map_left_iff, List.forall₂_map_right_iff]
    refine List.forall₂_same.2 ?_
    intro p _
    have hw : Words (print p.1 ++ ' ' :: print p.2) [print p.1, print p.2] := by
      have h2 : Words (print p.2) [print p.2] := by
        have := Words.last [] (print p.2) (by simp) (hp p.2).1 (hp p.2).2.1
        simpa using this
      have := Words.cons [] (print p.1) ' ' _ _ (by simp) (hp p.1).1 (hp p.1).2.1 (by simp [whitespace]) h2
      simpa using this
    have := DiagramLine.point (convert := convert) _ _ _ [] (by
      obtain ⟨a, w, ha⟩ := List.exists_cons_of_ne_nil (hp p.1).1
      have hh := (hp p.1).2.2
      rw [ha] at hh ⊢
      simpa using hh) hw
    rwa [hconv, hconv] at this
  · rw [List.filterMap_map]
    simp

/-! ### Examples -/

example : loadMatrix .vector digits "# a triangle\n0\n0\n\n0\n1 0 1\n1 2 0\n  \n1 1 2\n2 3 5 4\n".toList =
    some ⟨⟨[[], [], [], [0, 1], [0, 2], [1, 2], [3, 4, 5]], [0, 0, 0, 1, 1, 1, 2]⟩, false⟩ := by decide

example : loadMatrix .vector digits "2 0 1\n".toList = none ∧ loadMatrix .vector digits " # x\n0\n".toList = none := by decide

example : ∀ w, digits ('#' :: w) = none := by
  intro w
  rfl

example : loadDiagram (fun w => (digits w).getD 0) (some "#x\n\n1 2\n 3 4 5\n".toList) = some ⟨0, [(1, 2), (3, 4)]⟩ := by decide

end Aleph.TextReaders
