import Verif.Model.Filesystem
import Verif.Spec.Filesystem
import Mathlib.Data.List.Basic
import Mathlib.Tactic.Common

/-!
# C138: names of files
-/

namespace Aleph.Filesystem

open Spec.Files

theorem takeWhile_ne (c : Char) (a b : List Char) (ha : c ∉ a) (hb : ∀ x, b.head? = some x → x = c) : (a ++ b).takeWhile (· != c) = a := by
  induction a with
  | nil =>
    cases b with
    | nil => rfl
    | cons x b =>
      obtain rfl := hb x rfl
      simp
  | cons x a ih =>
    have hx : x ≠ c := fun h => ha (h ▸ List.mem_cons_self)
    rw [List.cons_append, List.takeWhile_cons_of_pos (by simpa using hx), ih fun h => ha (List.mem_cons_of_mem _ h)]

theorem dropWhile_all (c : Char) (a b : List Char) (ha : ∀ x ∈ a, x = c) (hb : ∀ x, b.head? = some x → x ≠ c) : (a ++ b).dropWhile (· == c) = b := by
  induction a with
  | nil =>
    cases b with
    | nil => rfl
    | cons x b =>
      have := hb x rfl
      rw [List.nil_append, List.dropWhile_cons_of_neg (by simpa using this)]
  | cons x a ih =>
    rw [List.cons_append, List.dropWhile_cons_of_pos (by simpa using ha x List.mem_cons_self), ih fun y hy => ha y (List.mem_cons_of_mem _ hy)]

theorem mem_takeWhile (p : Char → Bool) (l : List Char) (x : Char) (h : x ∈ l.takeWhile p) : p x = true := by
  induction l with
  | nil => cases h
  | cons y l ih =>
    by_cases hy : p y = true
    · rw [List.takeWhile_cons_of_pos hy] at h
      rcases List.mem_cons.1 h with rfl | h
      · exact hy
      · exact ih h
    · rw [List.takeWhile_cons_of_neg hy] at h
      cases h

theorem basename_spec {path name : List Char} (h : Filename path name) : basename path = name := by
  rcases h with ⟨rfl, rfl⟩ | ⟨h1, h2, rfl⟩ | ⟨d, s, rfl, h1, h2, h3, h4⟩
  · rfl
  · rw [basename, if_neg (by simpa using h1), systemBasename]
    have := dropWhile_all '/' path.reverse [] (fun x hx => h2 x (List.mem_reverse.1 hx)) (by simp)
    rw [List.append_nil] at this
    simp only [this, List.isEmpty_nil, if_true]
  · rw [basename, if_neg (by simp [h1]), systemBasename]
    have e : (d ++ name ++ s).reverse = s.reverse ++ (name.reverse ++ d.reverse) := by simp
    have := dropWhile_all '/' s.reverse (name.reverse ++ d.reverse) (fun x hx => h3 x (List.mem_reverse.1 hx)) (by
      intro x hx
      rw [List.head?_append_of_ne_nil _ (by simpa using h1)] at hx
      rintro rfl
      exact h2 (List.mem_reverse.1 (List.mem_of_mem_head? hx)))
    rw [e, this]
    have ht := takeWhile_ne '/' name.reverse d.reverse (by simpa using h2) (by
      intro x hx
      rw [List.head?_reverse] at hx
      exact h4 x hx)
    have hne : (name.reverse ++ d.reverse).isEmpty = false := by
      rw [List.isEmpty_eq_false_iff]
      simp [h1]
    simp only [ht, hne, Bool.false_eq_true, if_false, List.reverse_reverse]

theorem filename_exists (path : List Char) : ∃ name, Filename path name := by
  by_cases h0 : path = []
  · exact ⟨[], Or.inl ⟨h0, rfl⟩⟩
  by_cases h1 : ∀ c ∈ path, c = '/'
  · exact ⟨['/'], Or.inr (Or.inl ⟨h0, h1, rfl⟩)⟩
  have e1 := List.takeWhile_append_dropWhile (p := fun c => c == '/') (l := path.reverse)
  have e2 := List.takeWhile_append_dropWhile (p := fun c => c != '/') (l := path.reverse.dropWhile fun c => c == '/')
  set s := path.reverse.takeWhile fun c => c == '/' with hs
  set r := path.reverse.dropWhile fun c => c == '/' with hr
  set n := r.takeWhile fun c => c != '/' with hn
  set d := r.dropWhile fun c => c != '/' with hd
  have hs' : ∀ c ∈ s, c = '/' := fun c hc => by simpa using mem_takeWhile _ _ _ hc
  have hrne : r ≠ [] := by
    intro h
    rw [h, List.append_nil] at e1
    refine h1 fun c hc => hs' c ?_
    rw [e1]
    exact List.mem_reverse.2 hc
  refine ⟨n.reverse, Or.inr (Or.inr ⟨d.reverse, s.reverse, ?_, ?_, ?_, ?_, ?_⟩)⟩
  · rw [← List.reverse_append, ← List.reverse_append, e2, e1, List.reverse_reverse]
  · have hhead : ∀ c, r.head? = some c → c ≠ '/' := by
      intro c hc
      have := List.head?_dropWhile_not (fun c => c == '/') path.reverse
      rw [← hr, hc] at this
      simpa using this
    cases hr' : r with
    | nil => exact absurd hr' hrne
    | cons x t =>
      have := hhead x (by rw [hr']; rfl)
      rw [hn, hr', List.takeWhile_cons_of_pos (by simpa using this)]
      simp
  · intro h
    have := mem_takeWhile _ _ _ (List.mem_reverse.1 h)
    simp at this
  · exact fun c hc => hs' c (List.mem_reverse.1 hc)
  · intro c hc
    rw [List.getLast?_reverse] at hc
    have := List.head?_dropWhile_not (fun c => c != '/') r
    rw [← hd, hc] at this
    simpa using this

/-- **C138 (names).** The name of a file is what remains of its path without the directory and slashes at the end. -/
theorem _root_.Aleph.C138_basename (path name : List Char) : basename path = name ↔ Filename path name := by
  constructor
  · rintro rfl
    obtain ⟨name, h⟩ := filename_exists path
    rwa [basename_spec h]
  · exact basename_spec

theorem undivided_iff (f : List Char) : undivided f = true ↔ '.' ∉ f ∨ f = ['.'] ∨ f = ['.', '.'] := by
  simp [undivided, or_assoc]

theorem lastDot_spec (a e : List Char) (he : '.' ∉ e) : lastDot (a ++ '.' :: e) = a.length := by
  have h : (a ++ '.' :: e).reverse.idxOf '.' = e.length := by
    have : (a ++ '.' :: e).reverse = e.reverse ++ '.' :: a.reverse := by simp
    rw [this, List.idxOf_append_of_notMem (by simpa using he)]
    simp
  rw [lastDot, h]
  simp

theorem split_exists (f : List Char) (h : '.' ∈ f) : ∃ a e, f = a ++ '.' :: e ∧ '.' ∉ e := by
  induction f with
  | nil => cases h
  | cons x f ih =>
    by_cases hf : '.' ∈ f
    · obtain ⟨a, e, rfl, he⟩ := ih hf
      exact ⟨x :: a, e, rfl, he⟩
    · rcases List.mem_cons.1 h with h | h
      · exact ⟨[], f, by rw [← h]; rfl, hf⟩
      · exact absurd h hf

/-- **C138 (extensions).** The stem and the extension are the parts of the name before the last dot and from the last dot on; there is no extension without a dot, and for special directories. -/
theorem _root_.Aleph.C138_extension (path s e : List Char) : (stem path = s ∧ extension path = e) ↔ ∃ name, Filename path name ∧ Spec.Files.Extension name s e := by
  have key : ∀ name s e, basename path = name → Spec.Files.Extension name s e → stem path = s ∧ extension path = e := by
    rintro name s e rfl ⟨h1, ⟨h2, rfl⟩ | ⟨⟨h2, h3, h4⟩, e, rfl, h5⟩⟩
    · have hu := (undivided_iff (basename path)).2 h2
      rw [List.append_nil] at h1
      rw [stem, extension]
      simp only [hu, if_true]
      exact ⟨h1, trivial⟩
    · have hu : undivided (basename path) = false := by
        rw [Bool.eq_false_iff, ne_eq, undivided_iff]
        tauto
      have hd : lastDot (basename path) = s.length := by
        rw [h1]
        exact lastDot_spec s e h5
      rw [stem, extension]
      simp only [hu, Bool.false_eq_true, if_false, hd]
      rw [h1]
      simp
  constructor
  · rintro ⟨rfl, rfl⟩
    refine ⟨basename path, (C138_basename _ _).1 rfl, ?_⟩
    have hex : ∃ s e, Spec.Files.Extension (basename path) s e := by
      by_cases h : '.' ∉ basename path ∨ basename path = ['.'] ∨ basename path = ['.', '.']
      · exact ⟨basename path, [], by simp, Or.inl ⟨h, rfl⟩⟩
      · push Not at h
        obtain ⟨a, e, h1, h2⟩ := split_exists _ h.1
        exact ⟨a, '.' :: e, h1, Or.inr ⟨h, e, rfl, h2⟩⟩
    obtain ⟨s, e, h⟩ := hex
    obtain ⟨h1, h2⟩ := key _ s e rfl h
    rw [h1, h2]
    exact h
  · rintro ⟨name, h1, h2⟩
    exact key name s e ((C138_basename _ _).2 h1) h2

/-- **C138 (parts).** Stem and extension are the whole name. -/
theorem _root_.Aleph.C138_parts (path : List Char) : stem path ++ extension path = basename path := by
  obtain ⟨name, h1, h2, _⟩ := (C138_extension path _ _).1 ⟨rfl, rfl⟩
  rw [(C138_basename path name).2 h1, h2]

/-- **C138 (directories).** Neither the directory nor slashes at the end have an influence. -/
theorem _root_.Aleph.C138_directory (directory name slashes : List Char) (hn : name ≠ []) (h : '/' ∉ name) (hs : ∀ c ∈ slashes, c = '/') (hd : ∀ c, directory.getLast? = some c → c = '/') :
    basename (directory ++ name ++ slashes) = name ∧ stem (directory ++ name ++ slashes) = stem name ∧ extension (directory ++ name ++ slashes) = extension name := by
  have h1 := basename_spec (path := directory ++ name ++ slashes) (name := name) (Or.inr (Or.inr ⟨directory, slashes, rfl, hn, h, hs, hd⟩))
  have h2 := basename_spec (path := name) (name := name) (Or.inr (Or.inr ⟨[], [], by simp, hn, h, by simp, by simp⟩))
  simp only [stem, extension, h1, h2, and_self]

/-- **C138 (temporary files).** The directory for temporary files is the value of the first environment variable that is set, or else a default of the system. -/
theorem _root_.Aleph.C138_temporary (env : String → Option (List Char)) (P_tmpdir PATH_TMP : Option (List Char)) :
    tempDirectory env P_tmpdir PATH_TMP = (([env "TMPDIR", env "TMP", env "TEMP", env "TEMPDIR", P_tmpdir, PATH_TMP].filterMap id).headD []) := by
  unfold tempDirectory
  cases env "TMPDIR" <;> cases env "TMP" <;> cases env "TEMP" <;> cases env "TEMPDIR" <;> cases P_tmpdir <;> cases PATH_TMP <;> rfl

/-- An example for `C138_basename` and `C138_extension`. -/
example : Filename "data/graph.1.gml/".toList "graph.1.gml".toList ∧ Spec.Files.Extension "graph.1.gml".toList "graph.1".toList ".gml".toList :=
  ⟨Or.inr (Or.inr ⟨"data/".toList, "/".toList, by decide, by decide, by decide, by decide, by decide⟩), by decide, Or.inr ⟨⟨by decide, by decide, by decide⟩, "gml".toList, by decide, by decide⟩⟩

end Aleph.Filesystem
