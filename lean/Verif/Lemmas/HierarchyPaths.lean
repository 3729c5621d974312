import Mathlib.Data.List.Nodup
import Mathlib.Data.Finset.Card
import Mathlib.Tactic.Tauto
import Verif.Spec.Hierarchy

/-!
# Shortest paths
-/

namespace Aleph.Hierarchy

open Spec.Hierarchy

variable {adj adj' : ℕ → ℕ → Prop} {a b : ℕ} {w : List ℕ}

theorem Path.mono (h : Path adj a w b) (hm : ∀ x y, adj x y → adj' x y) : Path adj' a w b := by
  induction h with
  | start => exact .start
  | step w b c _ hbc ih => exact .step w b c ih (hm _ _ hbc)

theorem Path.ne_nil (h : Path adj a w b) : w ≠ [] := by
  cases h <;> simp

theorem Path.head (h : Path adj a w b) : ∃ r, w = b :: r := by
  cases h with
  | start => exact ⟨[], rfl⟩
  | step w b' c h _ => exact ⟨w, rfl⟩

theorem Path.mem (h : Path adj a w b) {P : ℕ → Prop} (ha : P a) (hadj : ∀ x y, adj x y → P y) : ∀ x ∈ w, P x := by
  induction h with
  | start => simpa using ha
  | step w b c _ hbc ih =>
    intro x hx
    rcases List.mem_cons.mp hx with rfl | hx
    · exact hadj _ _ hbc
    · exact ih x hx

/-- Every final segment of the list is a path to its first vertex. -/
theorem Path.suffix (h : Path adj a w b) {l r : List ℕ} {c : ℕ} (hw : w = l ++ c :: r) : Path adj a (c :: r) c := by
  induction h generalizing l with
  | start =>
    cases l with
    | nil =>
      simp only [List.nil_append, List.cons.injEq] at hw
      obtain ⟨rfl, rfl⟩ := hw
      exact .start
    | cons x l => simp at hw
  | step w b c' h hbc ih =>
    cases l with
    | nil =>
      simp only [List.nil_append, List.cons.injEq] at hw
      obtain ⟨rfl, rfl⟩ := hw
      exact .step _ _ _ h hbc
    | cons x l =>
      simp only [List.cons_append, List.cons.injEq] at hw
      exact ih hw.2

theorem Path.pred {c : ℕ} {r : List ℕ} (h : Path adj a (b :: c :: r) b) : Path adj a (c :: r) c ∧ adj c b := by
  cases h with
  | step w b' c' h hbc =>
    obtain ⟨r', hr⟩ := Path.head h
    simp only [List.cons.injEq] at hr
    obtain ⟨rfl, _⟩ := hr
    exact ⟨h, hbc⟩

theorem shortest_start : Shortest adj a [a] a :=
  ⟨.start, fun w' h => by
    have := List.length_pos_iff.mpr (Path.ne_nil h)
    rw [List.length_singleton]
    omega⟩

theorem Shortest.eq_start (h : Shortest adj a w a) : w = [a] := by
  obtain ⟨r, rfl⟩ := Path.head h.1
  have := h.2 _ Path.start
  cases r with
  | nil => rfl
  | cons x r => simp at this

theorem Shortest.pred {c : ℕ} {r : List ℕ} (h : Shortest adj a (b :: c :: r) b) : Shortest adj a (c :: r) c ∧ adj c b := by
  obtain ⟨h1, h2⟩ := Path.pred h.1
  refine ⟨⟨h1, fun w' h' => ?_⟩, h2⟩
  have := h.2 _ (.step w' c b h' h2)
  simpa using this

theorem Shortest.nodup (h : Shortest adj a w b) : w.Nodup := by
  induction w generalizing b with
  | nil => exact List.nodup_nil
  | cons x w ih =>
    obtain ⟨r, hr⟩ := Path.head h.1
    simp only [List.cons.injEq] at hr
    obtain ⟨rfl, rfl⟩ := hr
    rw [List.nodup_cons]
    constructor
    · intro hx
      obtain ⟨l, r, rfl⟩ := List.append_of_mem hx
      have := h.2 _ (Path.suffix h.1 (l := x :: l) rfl)
      simp only [List.length_cons, List.length_append] at this
      omega
    · cases w with
      | nil => exact List.nodup_nil
      | cons c r => exact ih (Shortest.pred h).1

theorem exists_shortest (h : ∃ w, Path adj a w b) : ∃ w, Shortest adj a w b := by
  classical
  have h' : ∃ n, ∃ w, Path adj a w b ∧ w.length = n := by
    obtain ⟨w, hw⟩ := h
    exact ⟨_, w, hw, rfl⟩
  obtain ⟨w, hw, hn⟩ := Nat.find_spec h'
  exact ⟨w, hw, fun w' hw' => by rw [hn]; exact Nat.find_min' h' ⟨w', hw', rfl⟩⟩

/-- A search that satisfies the contract exists. -/
theorem exists_search : ∃ bfs, IsSearch bfs := by
  classical
  let P : List (ℕ × ℕ) → ℕ → ℕ → Prop := fun es a b =>
    ∃ p w', Shortest (fun x y => (x, y) ∈ es ∨ (y, x) ∈ es) a (b :: p :: w') b
  refine ⟨fun _ es a b => if h : P es a b then h.choose else 0, ?_⟩
  intro vs es a b w hab hw
  have hP : P es a b := by
    obtain ⟨w', hw'⟩ := exists_shortest ⟨w, hw⟩
    obtain ⟨r, rfl⟩ := Path.head hw'.1
    cases r with
    | nil =>
      exfalso
      generalize hl : [b] = l at hw'
      cases hw'.1 with
      | start => exact hab rfl
      | step w b' c h _ =>
        simp only [List.cons.injEq] at hl
        exact Path.ne_nil h hl.2.symm
    | cons c r => exact ⟨c, r, hw'⟩
  simp only [dif_pos hP]
  exact hP.choose_spec

theorem Shortest.congr (h : Shortest adj a w b) (hm : ∀ x y, adj x y ↔ adj' x y) : Shortest adj' a w b :=
  ⟨Path.mono h.1 fun x y => (hm x y).mp, fun w' h' => h.2 w' (Path.mono h' fun x y => (hm x y).mpr)⟩

/-- Equivalent vertices are connected by a path. -/
theorem path_of_eqvGen (hs : ∀ x y, adj x y → adj y x) (h : Relation.EqvGen adj a b) : ∃ w, Path adj a w b := by
  have htrans : ∀ {x y z w w'}, Path adj x w y → Path adj y w' z → ∃ w'', Path adj x w'' z := by
    intro x y z w w' h1 h2
    induction h2 with
    | start => exact ⟨w, h1⟩
    | step w2 b c _ hbc ih =>
      obtain ⟨w3, h3⟩ := ih
      exact ⟨_, .step w3 b c h3 hbc⟩
  have hsymm : ∀ {x y w}, Path adj x w y → ∃ w', Path adj y w' x := by
    intro x y w h1
    induction h1 with
    | start => exact ⟨_, .start⟩
    | step w2 b c _ hbc ih =>
      obtain ⟨w3, h3⟩ := ih
      exact htrans (.step [c] c b .start (hs _ _ hbc)) h3
  induction h with
  | rel x y h => exact ⟨_, .step [x] x y .start h⟩
  | refl x => exact ⟨_, .start⟩
  | symm x y _ ih =>
    obtain ⟨w, hw⟩ := ih
    exact hsymm hw
  | trans x y z _ _ ih1 ih2 =>
    obtain ⟨w1, h1⟩ := ih1
    obtain ⟨w2, h2⟩ := ih2
    exact htrans h1 h2

theorem eqvGen_of_path (h : Path adj a w b) : Relation.EqvGen adj a b := by
  induction h with
  | start => exact .refl _
  | step w b c _ hbc ih => exact .trans _ _ _ ih (.rel _ _ hbc)

end Aleph.Hierarchy
