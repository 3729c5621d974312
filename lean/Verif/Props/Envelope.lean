import Verif.Model.Envelope
import Verif.Spec.Envelope
import Verif.Props.PiecewiseLinear
import Mathlib.Order.Bounds.Basic
import Mathlib.Data.Set.Finite.Lattice
import Mathlib.Data.Set.Finite.List
import Mathlib.Data.Set.Finite.Lemmas
import Mathlib.Data.List.TakeWhile

/-!
# C84: envelopes of persistence diagrams
-/

namespace Aleph.Envelope

open Spec Pl

variable {α : Type} [LinearOrder α]

theorem before_iff (p q : α × α) : before q p = false ↔ p.1 < q.1 ∨ (p.1 = q.1 ∧ p.2 ≤ q.2) := by
  unfold before
  by_cases h : q.1 = p.1
  · simp [h]
  · rw [if_pos h]
    simp only [decide_eq_false_iff_not, not_lt]
    constructor
    · intro h1; exact Or.inl (lt_of_le_of_ne h1 (Ne.symm h))
    · rintro (h1 | h1)
      · exact h1.le
      · exact absurd h1.1.symm h

theorem sorted (l : List (α × α)) :
    (l.insertionSort fun p q => before q p = false).Pairwise fun p q => p.1 < q.1 ∨ (p.1 = q.1 ∧ p.2 ≤ q.2) := by
  have : Std.Total (fun p q : α × α => before q p = false) := ⟨fun p q => by
    rw [before_iff, before_iff]
    rcases lt_trichotomy p.1 q.1 with h | h | h
    · exact Or.inl (Or.inl h)
    · rcases le_total p.2 q.2 with h2 | h2
      · exact Or.inl (Or.inr ⟨h, h2⟩)
      · exact Or.inr (Or.inr ⟨h.symm, h2⟩)
    · exact Or.inr (Or.inl h)⟩
  have : IsTrans (α × α) (fun p q => before q p = false) := ⟨fun p q r => by
    rw [before_iff, before_iff, before_iff]
    rintro (h1 | ⟨h1, h2⟩) (h3 | ⟨h3, h4⟩)
    · exact Or.inl (h1.trans h3)
    · exact Or.inl (h3 ▸ h1)
    · exact Or.inl (h1 ▸ h3)
    · exact Or.inr ⟨h1.trans h3, h2.trans h4⟩⟩
  exact (List.pairwise_insertionSort _ l).imp fun {p q} h => (before_iff p q).1 h

theorem advance_eq (x : α) (g : List (α × α)) (it j : α × α) (r : List (α × α)) (hg : ∀ p ∈ g, p.1 = x) (hj : j.1 ≠ x) :
    advance x it (g ++ j :: r) = some ((it :: g).getLast (List.cons_ne_nil _ _), j :: r) := by
  induction g generalizing it with
  | nil => simp [advance, hj]
  | cons p g ih =>
    rw [List.cons_append, advance, if_pos (hg p (by simp)), ih p fun q hq => hg q (by simp [hq])]
    simp

theorem advance_none (x : α) (g : List (α × α)) (it : α × α) (hg : ∀ p ∈ g, p.1 = x) : advance x it g = none := by
  induction g generalizing it with
  | nil => rfl
  | cons p g ih => rw [advance, if_pos (hg p (by simp)), ih p fun q hq => hg q (by simp [hq])]

/-- The state before the value `x` is treated. -/
structure Ready (x : α) (X : List α) (it : α × α) (rest g r : List (α × α)) : Prop where
  split : rest = g ++ r
  group : ∀ p ∈ g, p.1 = x
  later : ∀ p ∈ r, p.1 ∈ X
  last : ((it :: g).getLast (List.cons_ne_nil _ _)).1 = x
  next : ∀ y ∈ X, ∃ p ∈ r, p.1 = y
  sorted : ((it :: g).getLast (List.cons_ne_nil _ _) :: r).Pairwise fun p q => p.1 < q.1 ∨ (p.1 = q.1 ∧ p.2 ≤ q.2)
  top : IsGreatest {y | (x, y) ∈ it :: rest} ((it :: g).getLast (List.cons_ne_nil _ _)).2
  old : ∀ y ∈ X, it.1 ≠ y

theorem ready (x : α) (X : List α) (hX : (x :: X).Pairwise (· < ·)) (it : α × α) (rest : List (α × α))
    (hs : (it :: rest).Pairwise fun p q => p.1 < q.1 ∨ (p.1 = q.1 ∧ p.2 ≤ q.2)) (h1 : ∀ p ∈ rest, p.1 ∈ x :: X)
    (h2 : ∀ y ∈ x :: X, y = it.1 ∨ ∃ p ∈ rest, p.1 = y) : ∃ g r, Ready x X it rest g r := by
  obtain ⟨hx, hX⟩ := List.pairwise_cons.1 hX
  set g := rest.takeWhile fun p => decide (p.1 = x) with hg
  set r := rest.dropWhile fun p => decide (p.1 = x) with hr
  have hsp : rest = g ++ r := (List.takeWhile_append_dropWhile).symm
  have hgx : ∀ p ∈ g, p.1 = x := fun p hp => by simpa using List.mem_takeWhile_imp hp
  have hrx : ∀ p ∈ r, p.1 ∈ X := by
    rcases hr' : r with _ | ⟨q, r'⟩
    · simp
    · have hq : q.1 ≠ x := by
        have := List.head_dropWhile_not (fun p : α × α => decide (p.1 = x)) (l := rest) (by rw [← hr, hr']; simp)
        simp only [← hr, hr', List.head_cons] at this
        simpa using this
      have hqm : q.1 ∈ X := by
        have := h1 q (by rw [hsp, hr']; simp)
        rcases List.mem_cons.1 this with h | h
        · exact absurd h hq
        · exact h
      intro p hp
      rcases List.mem_cons.1 hp with rfl | hp'
      · exact hqm
      · have hle : q.1 ≤ p.1 := by
          have h3 := (List.pairwise_cons.1 hs).2
          rw [hsp, hr', List.pairwise_append] at h3
          rcases (List.pairwise_cons.1 h3.2.1).1 p hp' with h | h
          · exact h.le
          · exact h.1.le
        have := h1 p (by rw [hsp, hr']; simp [hp'])
        rcases List.mem_cons.1 this with h | h
        · rw [h] at hle
          exact absurd (hx _ hqm) (not_lt.2 hle)
        · exact h
  have hlast : ((it :: g).getLast (List.cons_ne_nil _ _)).1 = x := by
    rcases List.eq_nil_or_concat g with h | ⟨g', q, h⟩
    · simp only [h, List.getLast_singleton]
      rcases h2 x (by simp) with h3 | ⟨p, hp, h3⟩
      · exact h3.symm
      · rw [hsp, h, List.nil_append] at hp
        exact absurd (hx _ (hrx p hp)) (by rw [h3]; exact lt_irrefl _)
    · have : ((it :: g).getLast (List.cons_ne_nil _ _)) = q := by simp [h]
      rw [this]
      exact hgx q (by rw [h]; simp)
  have hitx : it.1 ≤ x := by
    rcases g with _ | ⟨q, g'⟩
    · rw [← hlast]; simp
    · have h3 := (List.pairwise_cons.1 hs).1 q (by rw [hsp]; simp)
      rw [← hgx q (by simp)]
      rcases h3 with h | h
      · exact h.le
      · exact h.1.le
  have hold : ∀ y ∈ X, it.1 ≠ y := fun y hy h => absurd (hx y hy) (not_lt.2 (h ▸ hitx))
  have hs' : (it :: g ++ r).Pairwise fun p q => p.1 < q.1 ∨ (p.1 = q.1 ∧ p.2 ≤ q.2) := by
    rw [List.cons_append, ← hsp]; exact hs
  rw [List.pairwise_append] at hs'
  refine ⟨g, r, hsp, hgx, hrx, hlast, ?_, ?_, ⟨?_, ?_⟩, hold⟩
  · intro y hy
    rcases h2 y (by simp [hy]) with h | ⟨p, hp, h⟩
    · exact absurd h.symm (hold y hy)
    · rw [hsp] at hp
      rcases List.mem_append.1 hp with hp | hp
      · rw [hgx p hp] at h
        exact absurd (hx y hy) (by rw [h]; exact lt_irrefl _)
      · exact ⟨p, hp, h⟩
  · exact List.pairwise_cons.2 ⟨fun p hp => hs'.2.2 _ (List.getLast_mem _) p hp, hs'.2.1⟩
  · show (x, _) ∈ it :: rest
    rw [← hlast, hsp, ← List.cons_append]
    exact List.mem_append_left _ (List.getLast_mem _)
  · intro y hy
    have hy : (x, y) ∈ it :: rest := hy
    rw [hsp, ← List.cons_append] at hy
    rcases List.mem_append.1 hy with hy | hy
    · have h3 : ∀ (l : List (α × α)) (hl : l ≠ []), l.Pairwise (fun p q => p.1 < q.1 ∨ (p.1 = q.1 ∧ p.2 ≤ q.2)) →
          ∀ p ∈ l, p = l.getLast hl ∨ (p.1 < (l.getLast hl).1 ∨ (p.1 = (l.getLast hl).1 ∧ p.2 ≤ (l.getLast hl).2)) := by
        intro l hl hp p hpl
        rw [← List.dropLast_append_getLast hl, List.pairwise_append] at hp
        rw [← List.dropLast_append_getLast hl] at hpl
        rcases List.mem_append.1 hpl with h | h
        · exact Or.inr (hp.2.2 p h _ (by simp))
        · exact Or.inl (by simpa using h)
      rcases h3 _ (List.cons_ne_nil _ _) hs'.1 _ hy with h | h | h
      · rw [← h]
      · rw [hlast] at h; exact absurd h (lt_irrefl _)
      · exact h.2
    · exact absurd (hx _ (hrx _ hy)) (lt_irrefl _)

theorem loop_eq (X : List α) (hX : X.Pairwise (· < ·)) (it : α × α) (rest : List (α × α)) (j : α × α) (junk : List (α × α))
    (hs : (it :: rest).Pairwise fun p q => p.1 < q.1 ∨ (p.1 = q.1 ∧ p.2 ≤ q.2)) (h1 : ∀ p ∈ rest, p.1 ∈ X)
    (h2 : ∀ y ∈ X, y = it.1 ∨ ∃ p ∈ rest, p.1 = y) (hj : ∀ x ∈ X, (∀ y ∈ X, y ≤ x) → j.1 ≠ x) :
    ∃ l, loop X it (rest ++ j :: junk) = some l ∧ l.map Prod.fst = X ∧
      ∀ x ∈ X, ∀ y, (x, y) ∈ l ↔ IsGreatest {y | (x, y) ∈ it :: rest} y := by
  induction X generalizing it rest with
  | nil => exact ⟨[], rfl, rfl, by simp⟩
  | cons x X ih =>
    obtain ⟨g, r, R⟩ := ready x X hX it rest hs h1 h2
    obtain ⟨hx, hX⟩ := List.pairwise_cons.1 hX
    set it' := (it :: g).getLast (List.cons_ne_nil _ _) with hit
    have hadv : advance x it (rest ++ j :: junk) = some (it', r ++ j :: junk) := by
      rw [R.split, List.append_assoc]
      rcases hr : r with _ | ⟨q, r'⟩
      · rw [List.nil_append]
        apply advance_eq x g it j junk R.group
        apply hj x (by simp)
        intro y hy
        rcases List.mem_cons.1 hy with h | h
        · exact h.le
        · obtain ⟨p, hp, _⟩ := R.next y h
          rw [hr] at hp
          simp at hp
      · rw [List.cons_append]
        apply advance_eq x g it q _ R.group
        have := R.later q (by rw [hr]; simp)
        exact (hx _ this).ne'
    obtain ⟨l, hl, hm, hv⟩ := ih hX it' r R.sorted R.later (fun y hy => Or.inr (R.next y hy)) (by
      intro y hy h
      apply hj y (by simp [hy])
      intro z hz
      rcases List.mem_cons.1 hz with rfl | hz
      · exact (hx y hy).le
      · exact h z hz)
    refine ⟨(it'.1, it'.2) :: l, ?_, ?_, ?_⟩
    · rw [loop, hadv]
      simp only [Option.bind_eq_bind, Option.bind_some, hl]
    · rw [List.map_cons, hm, R.last]
    · intro y hy v
      rw [List.mem_cons]
      rcases List.mem_cons.1 hy with rfl | hy
      · constructor
        · rintro (h | h)
          · rw [Prod.mk.injEq] at h
            rw [h.2]
            exact R.top
          · have h3 := List.mem_map_of_mem (f := Prod.fst) h
            rw [hm] at h3
            exact absurd (hx _ h3) (lt_irrefl _)
        · intro h
          left
          rw [R.last, h.unique R.top]
      · have h3 : {v | (y, v) ∈ it :: rest} = {v | (y, v) ∈ it' :: r} := by
          ext v
          show (y, v) ∈ it :: rest ↔ (y, v) ∈ it' :: r
          rw [R.split, List.mem_cons, List.mem_cons, List.mem_append]
          constructor
          · rintro (h | h | h)
            · exact absurd (congrArg Prod.fst h).symm (R.old y hy)
            · exact absurd (R.group _ h) (hx y hy).ne'
            · exact Or.inr h
          · rintro (h | h)
            · have := congrArg Prod.fst h
              rw [R.last] at this
              exact absurd this (hx y hy).ne'
            · exact Or.inr (Or.inr h)
        rw [h3, ← hv y hy]
        constructor
        · rintro (h | h)
          · have := congrArg Prod.fst h
            rw [show ((it'.1, it'.2) : α × α).1 = x from R.last] at this
            exact absurd this (hx y hy).ne'
          · exact h
        · exact Or.inr

theorem loop_none (X : List α) (hX : X.Pairwise (· < ·)) (hne : X ≠ []) (it : α × α) (rest : List (α × α))
    (hs : (it :: rest).Pairwise fun p q => p.1 < q.1 ∨ (p.1 = q.1 ∧ p.2 ≤ q.2)) (h1 : ∀ p ∈ rest, p.1 ∈ X)
    (h2 : ∀ y ∈ X, y = it.1 ∨ ∃ p ∈ rest, p.1 = y) : loop X it rest = none := by
  induction X generalizing it rest with
  | nil => exact absurd rfl hne
  | cons x X ih =>
    obtain ⟨g, r, R⟩ := ready x X hX it rest hs h1 h2
    obtain ⟨hx, hX⟩ := List.pairwise_cons.1 hX
    rw [loop]
    rcases hr : r with _ | ⟨q, r'⟩
    · rw [R.split, hr, List.append_nil, advance_none x g it R.group]
      rfl
    · have hq := R.later q (by rw [hr]; simp)
      rw [R.split, hr, advance_eq x g it q r' R.group (hx _ hq).ne']
      simp only [Option.bind_eq_bind, Option.bind_some]
      rw [← hr, ih hX (List.ne_nil_of_mem hq) _ r R.sorted R.later (fun y hy => Or.inr (R.next y hy))]
      rfl

/-- The loop until the last value is the same for all memory contents. -/
theorem loop_junk (X : List α) (hX : X.Pairwise (· < ·)) (hne : X ≠ []) (it : α × α) (rest : List (α × α)) (m : α) (hm : m ∈ X)
    (hmax : ∀ y ∈ X, y ≤ m) (y : α) (j : α × α) (hj : j.1 ≠ m)
    (hs : (it :: rest).Pairwise fun p q => p.1 < q.1 ∨ (p.1 = q.1 ∧ p.2 ≤ q.2)) (h1 : ∀ p ∈ rest, p.1 ∈ X)
    (h2 : ∀ y ∈ X, y = it.1 ∨ ∃ p ∈ rest, p.1 = y) :
    ∃ l, loop X it (rest ++ [(m, y), j]) = some l ∧ l.map Prod.fst = X ∧ (m, y) ∈ l := by
  induction X generalizing it rest with
  | nil => exact absurd rfl hne
  | cons x X ih =>
    obtain ⟨g, r, R⟩ := ready x X hX it rest hs h1 h2
    obtain ⟨hx, hX⟩ := List.pairwise_cons.1 hX
    rw [loop]
    rcases hr : r with _ | ⟨q, r'⟩
    · have hnil : X = [] := by
        by_contra h
        obtain ⟨z, hz⟩ := List.exists_mem_of_ne_nil X h
        obtain ⟨p, hp, _⟩ := R.next z hz
        rw [hr] at hp
        simp at hp
      have hmx : m = x := by
        rw [hnil] at hm
        simpa using hm
      have := advance_eq x (g ++ [(m, y)]) it j [] (by
        intro p hp
        rcases List.mem_append.1 hp with h | h
        · exact R.group p h
        · rw [List.mem_singleton.1 h]; exact hmx) (hmx ▸ hj)
      rw [R.split, hr, List.append_nil, show g ++ [(m, y), j] = (g ++ [(m, y)]) ++ [j] by simp, this, hnil]
      refine ⟨[(m, y)], ?_, by rw [hmx]; rfl, by simp⟩
      simp [loop]
    · have hq := R.later q (by rw [hr]; simp)
      rw [R.split, hr, List.append_assoc, List.cons_append, advance_eq x g it q _ R.group (hx _ hq).ne']
      simp only [Option.bind_eq_bind, Option.bind_some]
      have hmX : m ∈ X := by
        rcases List.mem_cons.1 hm with h | h
        · exact absurd (hx _ hq) (not_lt.2 (h ▸ hmax q.1 (by simp [hq])))
        · exact h
      obtain ⟨l, hl, hl2, hl3⟩ := ih hX (List.ne_nil_of_mem hq) _ r hmX (fun y hy => hmax y (by simp [hy])) R.sorted R.later
        (fun y hy => Or.inr (R.next y hy))
      rw [← List.cons_append, ← hr, hl]
      refine ⟨_, rfl, ?_, List.mem_cons_of_mem _ hl3⟩
      rw [List.map_cons, hl2, R.last]

variable [Field α]

omit [Field α] in
theorem considered_eq (inf : α) (flag : Bool) (D : Diagram α) : (if flag then D.removeUnpaired inf else D).points = considered inf flag D.points := by
  unfold considered Diagram.removeUnpaired Diagram.isUnpaired
  cases flag
  · rfl
  · simp only [if_true]
    congr 1
    funext p
    simp

theorem mem_transform (D : Diagram α) (x y : α) : (x, y) ∈ transform D ↔ ∃ p ∈ D.points, p.1 + p.2 = x ∧ p.2 - p.1 = y := by
  unfold transform
  rw [List.mem_insertionSort, List.mem_map]
  simp only [Prod.mk.injEq]

omit [Field α] in
theorem xs_spec (P : List (α × α)) : (P.foldl (fun X p => setInsert p.1 X) []).Pairwise (· < ·) ∧
    ∀ x, x ∈ P.foldl (fun X p => setInsert p.1 X) [] ↔ ∃ p ∈ P, p.1 = x := by
  refine ⟨foldl_setInsert_sorted (fun p : α × α => p.1) P [] List.Pairwise.nil, ?_⟩
  intro x
  rw [foldl_setInsert_mem (fun p : α × α => p.1) P [] x]
  simp

theorem envelope_eq (inf : α) (flag : Bool) (junk : List (α × α)) (D : Diagram α) : ∃ P : List (α × α),
    (∀ x y, (x, y) ∈ P ↔ ∃ p ∈ considered inf flag D.points, p.1 + p.2 = x ∧ p.2 - p.1 = y) ∧
    P.Pairwise (fun p q => p.1 < q.1 ∨ (p.1 = q.1 ∧ p.2 ≤ q.2)) ∧
    envelope inf flag junk D = (match P with
      | [] => some []
      | it :: rest => loop (P.foldl (fun (X : List α) (p : α × α) => setInsert p.1 X) []) it (rest ++ junk)).bind construct := by
  refine ⟨transform (if flag then D.removeUnpaired inf else D), ?_, sorted _, rfl⟩
  intro x y
  rw [mem_transform, considered_eq]

variable [IsStrictOrderedRing α]

/-- C84. Partial: if the value found in memory behind the last point differs from the largest first coordinate, the result is the piecewise
linear function through the highest points. -/
theorem _root_.Aleph.C84_envelope_partial (inf : α) (flag : Bool) (D : Diagram α) (j : α × α) (junk : List (α × α))
    (hj : ∀ p ∈ considered inf flag D.points, (∀ q ∈ considered inf flag D.points, q.1 + q.2 ≤ p.1 + p.2) → j.1 ≠ p.1 + p.2) :
    ∃ f l, envelope inf flag (j :: junk) D = some f ∧ Peaks (considered inf flag D.points) l ∧ ∀ x, ValueAt l x (eval f x) := by
  obtain ⟨P, h1, h2, h3⟩ := envelope_eq inf flag (j :: junk) D
  obtain ⟨hX, hmX⟩ := xs_spec P
  set X := P.foldl (fun X p => setInsert p.1 X) [] with hXdef
  have hl : ∃ l : List (α × α), envelope inf flag (j :: junk) D = construct l ∧ l.map Prod.fst = X ∧
      ∀ x ∈ X, ∀ y, (x, y) ∈ l ↔ IsGreatest {y | (x, y) ∈ P} y := by
    rw [h3]
    rcases hP : P with _ | ⟨it, rest⟩
    · have : X = [] := by rw [hXdef, hP]; rfl
      rw [this]
      exact ⟨[], rfl, rfl, by simp⟩
    · obtain ⟨l, hl, hm, hv⟩ := loop_eq X hX it rest j junk (hP ▸ h2) (fun p hp => (hmX _).2 ⟨p, by rw [hP]; simp [hp], rfl⟩)
        (by
          intro y hy
          obtain ⟨p, hp, he⟩ := (hmX y).1 hy
          rw [hP] at hp
          rcases List.mem_cons.1 hp with h | h
          · exact Or.inl (by rw [← he, h])
          · exact Or.inr ⟨p, h, he⟩)
        (by
          intro x hx hmax
          obtain ⟨p, hp, he⟩ := (hmX x).1 hx
          obtain ⟨q, hq, hq1, hq2⟩ := (h1 p.1 p.2).1 hp
          rw [← he, ← hq1]
          apply hj q hq
          intro q' hq'
          rw [hq1, he]
          apply hmax
          exact (hmX _).2 ⟨(q'.1 + q'.2, q'.2 - q'.1), (h1 _ _).2 ⟨q', hq', rfl, rfl⟩, rfl⟩)
      rw [hP] at hXdef
      refine ⟨l, ?_, hm, hv⟩
      simp only [hl, Option.bind_some]
  obtain ⟨l, hl, hm, hv⟩ := hl
  have hasc : Ascending l := by
    have := hX
    rw [← hm, List.pairwise_map] at this
    exact this
  obtain ⟨f, hf, -, -, -, hval⟩ := (C42_construction l).1 (hm ▸ hX.imp fun h => h.ne)
  refine ⟨f, l, hl.trans hf, ⟨hasc, ?_⟩, hval⟩
  intro x y
  have hset : {v | ∃ p ∈ considered inf flag D.points, p.1 + p.2 = x ∧ p.2 - p.1 = v} = {y | (x, y) ∈ P} := by
    ext v
    exact (h1 x v).symm
  rw [hset]
  constructor
  · intro h
    have := List.mem_map_of_mem (f := Prod.fst) h
    rw [hm] at this
    exact (hv x this y).1 h
  · intro h
    exact (hv x ((hmX x).2 ⟨(x, y), h.1, rfl⟩) y).2 h

/-- C84. In this case, no point of the diagram is above the envelope, and the envelope touches a point for each first coordinate. -/
theorem _root_.Aleph.C84_above (inf : α) (flag : Bool) (D : Diagram α) (j : α × α) (junk : List (α × α))
    (hj : ∀ p ∈ considered inf flag D.points, (∀ q ∈ considered inf flag D.points, q.1 + q.2 ≤ p.1 + p.2) → j.1 ≠ p.1 + p.2) :
    ∃ f, envelope inf flag (j :: junk) D = some f ∧ ∀ p ∈ considered inf flag D.points, p.2 - p.1 ≤ eval f (p.1 + p.2) ∧
      ∃ q ∈ considered inf flag D.points, q.1 + q.2 = p.1 + p.2 ∧ q.2 - q.1 = eval f (p.1 + p.2) := by
  obtain ⟨f, l, h1, ⟨h2, h3⟩, h4⟩ := C84_envelope_partial inf flag D j junk hj
  refine ⟨f, h1, ?_⟩
  intro p hp
  obtain ⟨y, hy⟩ : ∃ y, IsGreatest {v | ∃ q ∈ considered inf flag D.points, q.1 + q.2 = p.1 + p.2 ∧ q.2 - q.1 = v} y := by
    have hfin : Set.Finite {v | ∃ q ∈ considered inf flag D.points, q.1 + q.2 = p.1 + p.2 ∧ q.2 - q.1 = v} := by
      apply ((List.finite_toSet (considered inf flag D.points)).image fun q => q.2 - q.1).subset
      rintro v ⟨q, hq, _, rfl⟩
      exact ⟨q, hq, rfl⟩
    obtain ⟨y, hy, hmax⟩ := Set.exists_max_image _ id hfin ⟨p.2 - p.1, p, hp, rfl, rfl⟩
    exact ⟨y, hy, fun z hz => hmax z hz⟩
  have hval : eval f (p.1 + p.2) = y := by
    have h5 : ValueAt l (p.1 + p.2) y := Or.inl ((h3 _ _).2 hy)
    have h6 := h4 (p.1 + p.2)
    rw [← C42_evaluation l h2] at h5 h6
    rw [← h5, h6]
  rw [hval]
  refine ⟨hy.2 ⟨p, hp, rfl, rfl⟩, ?_⟩
  exact hy.1

omit [IsStrictOrderedRing α] in
/-- C84. For every diagram with at least one (considered) point, the program reads memory behind the end of an array. -/
theorem _root_.Aleph.C84_overrun (inf : α) (flag : Bool) (D : Diagram α) :
    (considered inf flag D.points ≠ [] → envelope inf flag [] D = none) ∧
    (considered inf flag D.points = [] → ∀ junk, envelope inf flag junk D = some []) := by
  constructor
  · intro hne
    obtain ⟨P, h1, h2, h3⟩ := envelope_eq inf flag [] D
    obtain ⟨hX, hmX⟩ := xs_spec P
    obtain ⟨p, hp⟩ := List.exists_mem_of_ne_nil _ hne
    have hpP := (h1 _ _).2 ⟨p, hp, rfl, rfl⟩
    rw [h3]
    rcases hP : P with _ | ⟨it, rest⟩
    · rw [hP] at hpP; simp at hpP
    · have := loop_none _ hX (List.ne_nil_of_mem ((hmX _).2 ⟨_, hpP, rfl⟩)) it rest (hP ▸ h2)
        (fun p hp => (hmX _).2 ⟨p, by rw [hP]; simp [hp], rfl⟩)
        (by
          intro y hy
          obtain ⟨p, hp, he⟩ := (hmX y).1 hy
          rw [hP] at hp
          rcases List.mem_cons.1 hp with h | h
          · exact Or.inl (by rw [← he, h])
          · exact Or.inr ⟨p, h, he⟩)
      rw [hP] at this
      simp only [List.append_nil, this]
      rfl
  · intro he junk
    obtain ⟨P, h1, h2, h3⟩ := envelope_eq inf flag junk D
    have : P = [] := by
      rw [List.eq_nil_iff_forall_not_mem]
      rintro ⟨x, y⟩ hp
      obtain ⟨p, hp, _⟩ := (h1 x y).1 hp
      rw [he] at hp
      simp at hp
    rw [h3, this]
    rfl

/-- C84. The value at the largest first coordinate is arbitrary: it depends on the contents of this memory. -/
theorem _root_.Aleph.C84_arbitrary (inf : α) (flag : Bool) (D : Diagram α) (hne : considered inf flag D.points ≠ []) (y : α) :
    ∃ junk f, ∃ p ∈ considered inf flag D.points, (∀ q ∈ considered inf flag D.points, q.1 + q.2 ≤ p.1 + p.2) ∧
      envelope inf flag junk D = some f ∧ eval f (p.1 + p.2) = y := by
  obtain ⟨p, hp, hmax⟩ : ∃ p ∈ considered inf flag D.points, ∀ q ∈ considered inf flag D.points, q.1 + q.2 ≤ p.1 + p.2 := by
    obtain ⟨p, hp, h⟩ := Set.exists_max_image {p | p ∈ considered inf flag D.points} (fun p => p.1 + p.2) (List.finite_toSet _)
      (List.exists_mem_of_ne_nil _ hne)
    exact ⟨p, hp, h⟩
  obtain ⟨P, h1, h2, h3⟩ := envelope_eq inf flag [(p.1 + p.2, y), (p.1 + p.2 + 1, 0)] D
  obtain ⟨hX, hmX⟩ := xs_spec P
  have hpP := (h1 _ _).2 ⟨p, hp, rfl, rfl⟩
  rcases hP : P with _ | ⟨it, rest⟩
  · rw [hP] at hpP; simp at hpP
  · obtain ⟨l, hl, hm, hml⟩ := loop_junk _ hX (List.ne_nil_of_mem ((hmX _).2 ⟨_, hpP, rfl⟩)) it rest (p.1 + p.2)
      ((hmX _).2 ⟨_, hpP, rfl⟩)
      (by
        intro z hz
        obtain ⟨q, hq, he⟩ := (hmX z).1 hz
        obtain ⟨q', hq', he1, he2⟩ := (h1 q.1 q.2).1 hq
        rw [← he, ← he1]
        exact hmax q' hq') y (p.1 + p.2 + 1, 0) (by simp) (hP ▸ h2) (fun p hp => (hmX _).2 ⟨p, by rw [hP]; simp [hp], rfl⟩)
      (by
        intro y hy
        obtain ⟨p, hp, he⟩ := (hmX y).1 hy
        rw [hP] at hp
        rcases List.mem_cons.1 hp with h | h
        · exact Or.inl (by rw [← he, h])
        · exact Or.inr ⟨p, h, he⟩)
    have hnd : (l.map Prod.fst).Nodup := hm ▸ hX.imp fun h => h.ne
    obtain ⟨f, hf, -, -, -, hval⟩ := (C42_construction l).1 hnd
    refine ⟨[(p.1 + p.2, y), (p.1 + p.2 + 1, 0)], f, p, hp, hmax, ?_, ?_⟩
    · rw [h3]
      rw [hP] at hl
      simp only [hP, hl, Option.bind_some, hf]
    · have hasc : Ascending l := by
        have := hX
        rw [← hm, List.pairwise_map] at this
        exact this
      have h5 : ValueAt l (p.1 + p.2) y := Or.inl hml
      have h6 := hval (p.1 + p.2)
      rw [← C42_evaluation l hasc] at h5 h6
      rw [← h5, h6]

/-- A diagram with three points, two of which have the same first coordinate; the point `(9, 9)` is behind the end of the array. -/
example : envelope (100 : ℚ) true [(9, 9)] ⟨0, [(0, 4), (1, 3), (3, 5), (2, 100)]⟩ = some [(4, 4), (8, 2)] ∧
    considered (100 : ℚ) true [(0, 4), (1, 3), (3, 5), (2, 100)] = [(0, 4), (1, 3), (3, 5)] := by decide +kernel

end Aleph.Envelope
