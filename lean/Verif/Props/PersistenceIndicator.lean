import Verif.Spec.PersistenceIndicator
import Verif.Props.StepFunction
import Mathlib.Data.List.TakeWhile
import Mathlib.Algebra.Order.Ring.Int

/-!
# Persistence indicator functions (C40)
-/

namespace Aleph

open Spec

variable {α : Type}

namespace Pif

section Order

variable [LinearOrder α]

instance : Std.Total (le (α := α)) := ⟨by
  rintro ⟨a, b⟩ ⟨c, d⟩
  unfold le
  rcases lt_trichotomy a c with h | h | h
  · exact .inl (.inl h)
  · cases b <;> cases d <;> simp [h]
  · exact .inr (.inl h)⟩

instance : IsTrans (Event α) le := ⟨by
  rintro ⟨a, b⟩ ⟨c, d⟩ ⟨e, f⟩ h1 h2
  unfold le at *
  simp only at *
  rcases h1 with h1 | ⟨rfl, h1⟩
  · rcases h2 with h2 | ⟨rfl, h2⟩
    · exact .inl (lt_trans h1 h2)
    · exact .inl h1
  · rcases h2 with h2 | ⟨rfl, h2⟩
    · exact .inl h2
    · refine .inr ⟨rfl, ?_⟩
      cases b <;> cases d <;> cases f <;> simp_all⟩

theorem dropWhile_gt {a : α} {l : List (Event α)} (hs : l.Pairwise fun x y => x.1 ≤ y.1) (ha : ∀ x ∈ l, a ≤ x.1) :
    ∀ x ∈ l.dropWhile fun e => e.1 = a, a < x.1 := by
  induction l with
  | nil => simp
  | cons e l ih =>
    rw [List.pairwise_cons] at hs
    by_cases h : e.1 = a
    · rw [List.dropWhile_cons_of_pos (by simpa using h)]
      exact ih hs.2 fun x hx => ha x (by simp [hx])
    · rw [List.dropWhile_cons_of_neg (by simpa using h)]
      have h1 : a < e.1 := lt_of_le_of_ne (ha e (by simp)) (Ne.symm h)
      intro x hx
      rcases List.mem_cons.1 hx with rfl | hx
      · exact h1
      · exact lt_of_lt_of_le h1 (hs.1 x hx)

theorem update_eq {a c d : Nat} (hb : a + c < 2 ^ 32) (hd : d ≤ a + c) : update a c d = a + c - d := by
  unfold update
  rw [Nat.mod_eq_of_lt hb]
  have : a + c + 2 ^ 32 - d = (a + c - d) + 2 ^ 32 := by omega
  rw [this, Nat.add_mod_right, Nat.mod_eq_of_lt (by omega)]

/-- Creators up to `u`. -/
def cr (l : List (Event α)) (u : α) : Nat := l.countP fun e => !e.2 && decide (e.1 ≤ u)

/-- Destroyers up to `u`. -/
def de (l : List (Event α)) (u : α) : Nat := l.countP fun e => e.2 && decide (e.1 ≤ u)

theorem cr_append (k l : List (Event α)) (u : α) : cr (k ++ l) u = cr k u + cr l u := List.countP_append
theorem de_append (k l : List (Event α)) (u : α) : de (k ++ l) u = de k u + de l u := List.countP_append

theorem cr_gt {l : List (Event α)} {u : α} (h : ∀ e ∈ l, u < e.1) : cr l u = 0 := by
  rw [cr, List.countP_eq_zero]
  intro e he
  simp [h e he]

theorem de_gt {l : List (Event α)} {u : α} (h : ∀ e ∈ l, u < e.1) : de l u = 0 := by
  rw [de, List.countP_eq_zero]
  intro e he
  simp [h e he]

theorem cr_le {l : List (Event α)} {u : α} (h : ∀ e ∈ l, e.1 ≤ u) : cr l u = l.countP fun e => !e.2 :=
  List.countP_congr fun e he => by simp [h e he]

theorem de_le {l : List (Event α)} {u : α} (h : ∀ e ∈ l, e.1 ≤ u) : de l u = l.countP fun e => e.2 :=
  List.countP_congr fun e he => by simp [h e he]

omit [LinearOrder α] in
theorem creators_eq (l : List (Event α)) : l.length - l.countP (fun e => e.2) = l.countP fun e => !e.2 := by
  have := List.length_eq_countP_add_countP (fun e : Event α => e.2) (l := l)
  have h : (l.countP fun e : Event α => decide ¬e.2 = true) = l.countP fun e => !e.2 :=
    List.countP_congr fun e _ => by simp
  omega

end Order

section Loop

variable [LinearOrder α] [Ring α] [IsStrictOrderedRing α]

omit [IsStrictOrderedRing α] in
open Step in
theorem eval_append_before {f : Fn α} {e : Interval α} {t : α} (h : IsStepFunction (f ++ [e])) (ht : t < e.a) :
    eval (f ++ [e]) t = eval f t := by
  have hf : IsStepFunction f :=
    ⟨fun x hx => h.proper x (by simp [hx]), (List.pairwise_append.1 h.ordered).1⟩
  rw [eval_eq h, eval_eq hf, List.filter_append, List.filter_cons_of_neg (p := fun e : Interval α => e.contains t)]
  · simp
  · rw [contains_iff]
    exact fun h => absurd h.1 (not_le_of_gt ht)

open Step in
theorem loop_correct (next : α → α) (t : α) (n : Nat) : ∀ (rest : List (Event α)) (active : Nat) (v prev : α) (f : Fn α),
    rest.length ≤ n → rest.Pairwise (fun x y => x.1 ≤ y.1) → (∀ e ∈ rest, prev < e.1) → v ≤ prev →
    (v < t → prev ≤ t) → t ≠ v →
    (∀ e ∈ rest, ∀ e' ∈ rest, e.2 = false → e'.2 = true → e.1 = e'.1 →
      e.1 < next e.1 ∧ (∀ w ∈ rest, e.1 < w.1 → next e.1 < w.1) ∧ (e.1 < t → next e.1 ≤ t)) →
    (∀ e ∈ rest, t ≠ e.1) →
    (∀ u, de rest u ≤ active + cr rest u) → active + rest.length < 2 ^ 32 →
    active + rest.countP (fun e => !e.2) = rest.countP (fun e => e.2) →
    IsStepFunction f → (∀ e ∈ f, e.b ≤ v) →
    ∃ g, loop next n rest false active prev f = some g ∧ IsStepFunction g ∧ (t < v → eval g t = eval f t) ∧
      (v < t → eval g t = ((active + cr rest t - de rest t : Nat) : α)) := by
  induction n with
  | zero =>
    intro rest active v prev f hn _ _ _ _ _ _ _ _ _ htot hf hfv
    have : rest = [] := List.length_eq_zero_iff.1 (Nat.le_zero.1 hn)
    subst this
    refine ⟨f, rfl, hf, fun _ => rfl, ?_⟩
    intro h
    have h0 : active = 0 := by simpa using htot
    rw [h0, eval_outside hf]
    · simp [cr, de]
    · intro e he h'
      exact absurd (lt_of_lt_of_le h h'.2) (not_lt_of_ge (hfv e he))
  | succ n ih =>
    intro rest active v prev f hn hs hprev hvp htp htv hmix ht hH hbound htot hf hfv
    cases rest with
    | nil =>
      refine ⟨f, rfl, hf, fun _ => rfl, ?_⟩
      intro h
      have h0 : active = 0 := by simpa using htot
      rw [h0, eval_outside hf]
      · simp [cr, de]
      · intro e he h'
        exact absurd (lt_of_lt_of_le h h'.2) (not_lt_of_ge (hfv e he))
    | cons e l =>
      obtain ⟨same, hsame⟩ : ∃ same, same = e :: l.takeWhile fun e' => e'.1 = e.1 := ⟨_, rfl⟩
      obtain ⟨rest, hrest⟩ : ∃ rest, rest = l.dropWhile fun e' => e'.1 = e.1 := ⟨_, rfl⟩
      have hsplit : e :: l = same ++ rest := by rw [hsame, hrest, List.cons_append, List.takeWhile_append_dropWhile]
      have hsv : ∀ x ∈ same, x.1 = e.1 := by
        intro x hx
        rw [hsame] at hx
        rcases List.mem_cons.1 hx with rfl | hx
        · rfl
        · simpa using List.mem_takeWhile_imp hx
      rw [List.pairwise_cons] at hs
      have hrv : ∀ x ∈ rest, e.1 < x.1 := by
        intro x hx
        rw [hrest] at hx
        exact dropWhile_gt hs.2 hs.1 x hx
      have hmemr : ∀ x ∈ rest, x ∈ e :: l := fun x hx => by rw [hsplit]; simp [hx]
      have hmems : ∀ x ∈ same, x ∈ e :: l := fun x hx => by rw [hsplit]; simp [hx]
      have hlen : same.length + rest.length = (e :: l).length := by rw [hsplit, List.length_append]
      have hsl : 1 ≤ same.length := by rw [hsame]; simp
      have hcreators := creators_eq same
      have hcr : cr same e.1 = same.countP fun e => !e.2 := cr_le fun x hx => (hsv x hx).le
      have hde : de same e.1 = same.countP fun e => e.2 := de_le fun x hx => (hsv x hx).le
      have hH1 : (same.countP fun e => e.2) ≤ active + same.countP fun e => !e.2 := by
        have := hH e.1
        rw [hsplit, cr_append, de_append, cr_gt hrv, de_gt hrv, hcr, hde] at this
        omega
      have hcl : (same.countP fun e => !e.2) ≤ same.length := List.countP_le_length
      have hup : update active (same.length - same.countP fun e => e.2) (same.countP fun e => e.2) =
          active + (same.countP fun e => !e.2) - same.countP fun e => e.2 := by
        rw [hcreators]
        exact update_eq (by omega) hH1
      have hpe : prev < e.1 := hprev e (by simp)
      have hadd : Step.add f prev e.1 (active : α) = some (f ++ [⟨prev, e.1, (active : α)⟩]) := by
        rw [Step.add, if_pos hpe, insert_last (n := ⟨prev, e.1, (active : α)⟩) (fun x hx => le_trans (hfv x hx) hvp)
          hf.proper hpe]
      have hf' : IsStepFunction (f ++ [⟨prev, e.1, (active : α)⟩]) := by
        have := insert_isStep (n := ⟨prev, e.1, (active : α)⟩) hf hpe
        rwa [insert_last (n := ⟨prev, e.1, (active : α)⟩) (fun x hx => le_trans (hfv x hx) hvp) hf.proper hpe] at this
      have hte : t ≠ e.1 := ht e (by simp)
      -- the remaining rounds
      have key : ∀ prev', e.1 ≤ prev' → (∀ x ∈ rest, prev' < x.1) → (e.1 < t → prev' ≤ t) →
          ∃ g, loop next n rest false (update active (same.length - same.countP fun e => e.2) (same.countP fun e => e.2))
            prev' (f ++ [⟨prev, e.1, (active : α)⟩]) = some g ∧ IsStepFunction g ∧ (t < v → eval g t = eval f t) ∧
              (v < t → eval g t = ((active + cr (e :: l) t - de (e :: l) t : Nat) : α)) := by
        intro prev' h1 h2 h3
        rw [hup]
        obtain ⟨g, hg1, hg2, hg3, hg4⟩ := ih rest (active + (same.countP fun e => !e.2) - same.countP fun e => e.2) e.1 prev'
          (f ++ [⟨prev, e.1, (active : α)⟩]) (by simp only [List.length_cons] at hn hlen; omega)
          (by
            have : (e :: l).Pairwise (fun x y => x.1 ≤ y.1) := List.pairwise_cons.2 hs
            rw [hsplit] at this
            exact (List.pairwise_append.1 this).2.1)
          h2 h1 h3 hte
          (by
            intro x hx y hy hx2 hy2 hxy
            obtain ⟨k1, k2, k3⟩ := hmix x (hmemr x hx) y (hmemr y hy) hx2 hy2 hxy
            exact ⟨k1, fun w hw => k2 w (hmemr w hw), k3⟩)
          (fun x hx => ht x (hmemr x hx))
          (by
            intro u
            rcases lt_or_ge u e.1 with hu | hu
            · rw [de_gt (fun x hx => lt_trans hu (hrv x hx))]
              omega
            · have := hH u
              rw [hsplit, cr_append, de_append, cr_le (l := same) (fun x hx => (hsv x hx).le.trans hu),
                de_le (l := same) (fun x hx => (hsv x hx).le.trans hu)] at this
              omega)
          (by omega)
          (by
            rw [hsplit, List.countP_append, List.countP_append] at htot
            omega)
          hf'
          (by
            intro x hx
            rcases List.mem_append.1 hx with hx | hx
            · exact le_trans (hfv x hx) (le_trans hvp hpe.le)
            · rw [List.mem_singleton.1 hx])
        refine ⟨g, hg1, hg2, ?_, ?_⟩
        · intro h
          rw [hg3 (lt_of_lt_of_le h (le_trans hvp hpe.le)), eval_append_before hf' (lt_of_lt_of_le h hvp)]
        · intro h
          rcases lt_or_gt_of_ne hte with hlt | hgt
          · rw [hg3 hlt, eval_only hf' (e := ⟨prev, e.1, (active : α)⟩)]
            · have hall : ∀ x ∈ e :: l, t < x.1 := by
                intro x hx
                rw [hsplit] at hx
                rcases List.mem_append.1 hx with hx | hx
                · rw [hsv x hx]; exact hlt
                · exact lt_trans hlt (hrv x hx)
              rw [cr_gt hall, de_gt hall]
              rfl
            · refine ⟨by simp, htp h, hlt.le, ?_⟩
              intro x hx _ h2
              rcases List.mem_append.1 hx with hx | hx
              · exact absurd (lt_of_lt_of_le h h2) (not_lt_of_ge (hfv x hx))
              · exact List.mem_singleton.1 hx
          · rw [hg4 hgt, hsplit, cr_append, de_append, cr_le (l := same) (fun x hx => (hsv x hx).le.trans hgt.le),
              de_le (l := same) (fun x hx => (hsv x hx).le.trans hgt.le)]
            congr 1
            omega
      rw [loop]
      simp only [← hsame, ← hrest, hadd, Option.bind_some]
      split
      · simp only [Bool.false_eq_true, if_false]
        exact key e.1 le_rfl hrv fun h => h.le
      · next hc =>
        push Not at hc
        obtain ⟨-, hc2, hc3⟩ := hc
        rw [hcreators] at hc2 hc3
        obtain ⟨x, hx, hx2⟩ := List.countP_pos_iff.1 (Nat.pos_of_ne_zero hc3)
        have hd : 0 < same.countP fun e => e.2 := by omega
        obtain ⟨y, hy, hy2⟩ := List.countP_pos_iff.1 hd
        obtain ⟨k1, k2, k3⟩ := hmix x (hmems x hx) y (hmems y hy) (by simpa using hx2) hy2 (by rw [hsv x hx, hsv y hy])
        rw [hsv x hx] at k1 k2 k3
        exact key (next e.1) k1.le (fun w hw => k2 w (hmemr w hw) (hrv w hw)) k3

open Step in
/-- The whole algorithm for a sorted list of events that comes from intervals. -/
theorem run_correct (next : α → α) (t : α) (B : List (α × α)) (E : List (Event α))
    (hperm : E.Perm (B.flatMap fun p => [(p.1, false), (p.2, true)])) (hs : E.Pairwise fun x y => x.1 ≤ y.1)
    (hB : ∀ p ∈ B, p.1 ≤ p.2) (hsize : 2 * B.length < 2 ^ 32)
    (hmix : ∀ p ∈ B, ∀ q ∈ B, p.1 = q.2 → p.1 < next p.1 ∧ (∀ r ∈ B, (p.1 < r.1 → next p.1 < r.1) ∧
      (p.1 < r.2 → next p.1 < r.2)) ∧ (p.1 < t → next p.1 ≤ t))
    (ht : ∀ p ∈ B, t ≠ p.1 ∧ t ≠ p.2)
    (hdiag : ∀ p ∈ B, p.1 = p.2 → 0 < p.1 ∨ ∃ q ∈ B, q.1 < p.1) :
    ∃ g, loop next E.length E true 0 0 [] = some g ∧ IsStepFunction g ∧
      eval g t = ((B.countP fun p => p.1 < t ∧ t < p.2 : Nat) : α) := by
  have hmemE : ∀ e, e ∈ E ↔ ∃ p ∈ B, e = (p.1, false) ∨ e = (p.2, true) := by
    intro e
    rw [hperm.mem_iff, List.mem_flatMap]
    simp
  have hlenE : E.length = 2 * B.length := by
    rw [hperm.length_eq]
    clear hB hsize hmix ht hdiag hmemE hperm
    induction B with
    | nil => rfl
    | cons p B ih => simp only [List.flatMap_cons, List.length_append, ih, List.length_cons, List.length_nil]; omega
  have hcrE : ∀ u, cr E u = B.countP fun p => p.1 ≤ u := by
    intro u
    rw [cr, hperm.countP_eq]
    clear hB hsize hmix ht hdiag hmemE hperm hlenE
    induction B with
    | nil => rfl
    | cons p B ih => simp only [List.flatMap_cons, List.countP_append, ih, List.countP_cons]; simp [add_comm]
  have hdeE : ∀ u, de E u = B.countP fun p => p.2 ≤ u := by
    intro u
    rw [de, hperm.countP_eq]
    clear hB hsize hmix ht hdiag hmemE hperm hlenE hcrE
    induction B with
    | nil => rfl
    | cons p B ih => simp only [List.flatMap_cons, List.countP_append, ih, List.countP_cons]; simp [add_comm]
  have hcE : (E.countP fun e => !e.2) = B.length := by
    rw [hperm.countP_eq]
    clear hB hsize hmix ht hdiag hmemE hperm hlenE hcrE hdeE
    induction B with
    | nil => rfl
    | cons p B ih => simp only [List.flatMap_cons, List.countP_append, ih, List.countP_cons]; simp [add_comm]
  have hdE : (E.countP fun e => e.2) = B.length := by
    rw [hperm.countP_eq]
    clear hB hsize hmix ht hdiag hmemE hperm hlenE hcrE hdeE hcE
    induction B with
    | nil => rfl
    | cons p B ih => simp only [List.flatMap_cons, List.countP_append, ih, List.countP_cons]; simp [add_comm]
  have hH : ∀ u, de E u ≤ cr E u := by
    intro u
    rw [hcrE, hdeE]
    exact List.countP_mono_left fun p hp h => by simpa using le_trans (hB p hp) (by simpa using h)
  have hcount : cr E t - de E t = B.countP fun p => p.1 < t ∧ t < p.2 := by
    rw [hcrE, hdeE]
    clear hsize hmix hdiag hmemE hperm hlenE hcrE hdeE hcE hdE hH
    induction B with
    | nil => rfl
    | cons p B ih =>
      have ih := ih (fun p hp => hB p (by simp [hp])) fun p hp => ht p (by simp [hp])
      have hm : (B.countP fun p => p.2 ≤ t) ≤ B.countP fun p => p.1 ≤ t :=
        List.countP_mono_left fun p hp h => by simpa using le_trans (hB p (by simp [hp])) (by simpa using h)
      simp only [List.countP_cons, decide_eq_true_eq]
      obtain ⟨h1, h2⟩ := ht p (by simp)
      have h3 := hB p (by simp)
      rw [← ih]
      by_cases ha : p.1 ≤ t
      · have ha' : p.1 < t := lt_of_le_of_ne ha (Ne.symm h1)
        by_cases hb : p.2 ≤ t
        · simp only [ha, hb, ha', not_lt_of_ge hb, and_false, if_true, if_false]
          omega
        · simp only [ha, hb, ha', lt_of_not_ge hb, and_true, if_true, if_false]
          omega
      · have hb : ¬p.2 ≤ t := fun h => ha (le_trans h3 h)
        have ha' : ¬p.1 < t := fun h => ha h.le
        simp only [ha, hb, ha', false_and, if_false]
        omega
  rw [← hcount]
  have hmixE : ∀ e ∈ E, ∀ e' ∈ E, e.2 = false → e'.2 = true → e.1 = e'.1 →
      e.1 < next e.1 ∧ (∀ w ∈ E, e.1 < w.1 → next e.1 < w.1) ∧ (e.1 < t → next e.1 ≤ t) := by
    intro e he e' he' h1 h2 h3
    obtain ⟨p, hp, hpe⟩ := (hmemE e).1 he
    obtain ⟨q, hq, hqe⟩ := (hmemE e').1 he'
    have hpe : e = (p.1, false) := by
      rcases hpe with h | h
      · exact h
      · rw [h] at h1; cases h1
    have hqe : e' = (q.2, true) := by
      rcases hqe with h | h
      · rw [h] at h2; cases h2
      · exact h
    subst hpe hqe
    obtain ⟨k1, k2, k3⟩ := hmix p hp q hq h3
    refine ⟨k1, ?_, k3⟩
    intro w hw hlt
    obtain ⟨r, hr, rfl | rfl⟩ := (hmemE w).1 hw
    · exact (k2 r hr).1 hlt
    · exact (k2 r hr).2 hlt
  have htE : ∀ e ∈ E, t ≠ e.1 := by
    intro e he
    obtain ⟨p, hp, rfl | rfl⟩ := (hmemE e).1 he
    · exact (ht p hp).1
    · exact (ht p hp).2
  cases E with
  | nil => exact ⟨[], rfl, ⟨by simp, List.Pairwise.nil⟩, by simp [cr, de, eval]⟩
  | cons e l =>
    obtain ⟨same, hsame⟩ : ∃ same, same = e :: l.takeWhile fun e' => e'.1 = e.1 := ⟨_, rfl⟩
    obtain ⟨rest, hrest⟩ : ∃ rest, rest = l.dropWhile fun e' => e'.1 = e.1 := ⟨_, rfl⟩
    have hsplit : e :: l = same ++ rest := by rw [hsame, hrest, List.cons_append, List.takeWhile_append_dropWhile]
    have hsv : ∀ x ∈ same, x.1 = e.1 := by
      intro x hx
      rw [hsame] at hx
      rcases List.mem_cons.1 hx with rfl | hx
      · rfl
      · simpa using List.mem_takeWhile_imp hx
    rw [List.pairwise_cons] at hs
    have hrv : ∀ x ∈ rest, e.1 < x.1 := by
      intro x hx
      rw [hrest] at hx
      exact dropWhile_gt hs.2 hs.1 x hx
    have hmemr : ∀ x ∈ rest, x ∈ e :: l := fun x hx => by rw [hsplit]; simp [hx]
    have hmems : ∀ x ∈ same, x ∈ e :: l := fun x hx => by rw [hsplit]; simp [hx]
    have hlen : same.length + rest.length = (e :: l).length := by rw [hsplit, List.length_append]
    have hsl : 1 ≤ same.length := by rw [hsame]; simp
    have hcreators := creators_eq same
    have hH1 : (same.countP fun e => e.2) ≤ same.countP fun e => !e.2 := by
      have := hH e.1
      rw [hsplit, cr_append, de_append, cr_gt hrv, de_gt hrv, cr_le (l := same) fun x hx => (hsv x hx).le,
        de_le (l := same) fun x hx => (hsv x hx).le] at this
      omega
    have hcl : (same.countP fun e => !e.2) ≤ same.length := List.countP_le_length
    have hup : update 0 (same.length - same.countP fun e => e.2) (same.countP fun e => e.2) =
        (same.countP fun e => !e.2) - same.countP fun e => e.2 := by
      rw [hcreators, update_eq (by omega) (by omega), Nat.zero_add]
    have hte : t ≠ e.1 := htE e (by simp)
    have key : ∀ prev' f, e.1 ≤ prev' → (∀ x ∈ rest, prev' < x.1) → (e.1 < t → prev' ≤ t) →
        IsStepFunction f → (∀ x ∈ f, x.b ≤ e.1) → (t < e.1 → eval f t = 0) →
        ∃ g, loop next l.length rest false
            (update 0 (same.length - same.countP fun e => e.2) (same.countP fun e => e.2)) prev' f = some g ∧
          IsStepFunction g ∧ eval g t = ((cr (e :: l) t - de (e :: l) t : Nat) : α) := by
      intro prev' f h1 h2 h3 hf hfv hf0
      rw [hup]
      obtain ⟨g, hg1, hg2, hg3, hg4⟩ := loop_correct next t l.length rest
        ((same.countP fun e => !e.2) - same.countP fun e => e.2) e.1 prev' f
        (by simp only [List.length_cons] at hlen; omega)
        (by
          have : (e :: l).Pairwise (fun x y => x.1 ≤ y.1) := List.pairwise_cons.2 hs
          rw [hsplit] at this
          exact (List.pairwise_append.1 this).2.1)
        h2 h1 h3 hte
        (by
          intro x hx y hy hx2 hy2 hxy
          obtain ⟨k1, k2, k3⟩ := hmixE x (hmemr x hx) y (hmemr y hy) hx2 hy2 hxy
          exact ⟨k1, fun w hw => k2 w (hmemr w hw), k3⟩)
        (fun x hx => htE x (hmemr x hx))
        (by
          intro u
          rcases lt_or_ge u e.1 with hu | hu
          · rw [de_gt (fun x hx => lt_trans hu (hrv x hx))]
            omega
          · have := hH u
            rw [hsplit, cr_append, de_append, cr_le (l := same) (fun x hx => (hsv x hx).le.trans hu),
              de_le (l := same) (fun x hx => (hsv x hx).le.trans hu)] at this
            omega)
        (by omega)
        (by
          rw [hsplit, List.countP_append] at hcE hdE
          omega)
        hf hfv
      refine ⟨g, hg1, hg2, ?_⟩
      rcases lt_or_gt_of_ne hte with hlt | hgt
      · have hall : ∀ x ∈ e :: l, t < x.1 := by
          intro x hx
          rw [hsplit] at hx
          rcases List.mem_append.1 hx with hx | hx
          · rw [hsv x hx]; exact hlt
          · exact lt_trans hlt (hrv x hx)
        rw [hg3 hlt, hf0 hlt, cr_gt hall]
        simp
      · rw [hg4 hgt, hsplit, cr_append, de_append, cr_le (l := same) (fun x hx => (hsv x hx).le.trans hgt.le),
          de_le (l := same) (fun x hx => (hsv x hx).le.trans hgt.le)]
        congr 1
        omega
    rw [List.length_cons, loop]
    simp only [← hsame, ← hrest]
    split
    · simp only [if_true]
      exact key e.1 [] le_rfl hrv (fun h => h.le) ⟨by simp, List.Pairwise.nil⟩ (by simp) fun _ => rfl
    · next hc =>
      push Not at hc
      obtain ⟨-, hc2, hc3⟩ := hc
      rw [hcreators] at hc2 hc3
      obtain ⟨x, hx, hx2⟩ := List.countP_pos_iff.1 (Nat.pos_of_ne_zero hc3)
      have hd : 0 < same.countP fun e => e.2 := by omega
      obtain ⟨y, hy, hy2⟩ := List.countP_pos_iff.1 hd
      obtain ⟨k1, k2, k3⟩ := hmixE x (hmems x hx) y (hmems y hy) (by simpa using hx2) hy2 (by rw [hsv x hx, hsv y hy])
      rw [hsv x hx] at k1 k2 k3
      have hmin : ∀ p ∈ B, e.1 ≤ p.1 := by
        intro p hp
        have : (p.1, false) ∈ e :: l := (hmemE _).2 ⟨p, hp, .inl rfl⟩
        rcases List.mem_cons.1 this with h | h
        · rw [← h]
        · exact hs.1 _ h
      have hpos : 0 < e.1 := by
        obtain ⟨p, hp, hpy⟩ := (hmemE y).1 (hmems y hy)
        have hpy : y = (p.2, true) := by
          rcases hpy with h | h
          · rw [h] at hy2; cases hy2
          · exact h
        have hpe : p.2 = e.1 := by rw [← hsv y hy, hpy]
        have hpd : p.1 = p.2 := le_antisymm (hB p hp) (by rw [hpe]; exact hmin p hp)
        rcases hdiag p hp hpd with h | ⟨q, hq, h⟩
        · rw [← hpe, ← hpd]; exact h
        · rw [hpd, hpe] at h
          exact absurd h (not_lt_of_ge (hmin q hq))
      have hadd : Step.add [] 0 e.1 ((0 : Nat) : α) = some [⟨0, e.1, ((0 : Nat) : α)⟩] := by
        rw [Step.add, if_pos hpos]; rfl
      rw [hadd, Option.bind_some]
      have hst : IsStepFunction [(⟨0, e.1, ((0 : Nat) : α)⟩ : Interval α)] :=
        ⟨by simpa using hpos, List.pairwise_singleton _ _⟩
      refine key (next e.1) _ k1.le (fun w hw => k2 w (hmemr w hw) (hrv w hw)) k3 hst (by simp) ?_
      intro _
      rw [eval_eq hst]
      by_cases h : Interval.contains (⟨0, e.1, ((0 : Nat) : α)⟩ : Interval α) t = true
      · rw [List.filter_cons_of_pos (p := fun e : Interval α => e.contains t) h]; simp
      · rw [List.filter_cons_of_neg (p := fun e : Interval α => e.contains t) h]; simp

end Loop

theorem exists_below [LinearOrder α] [Ring α] [IsStrictOrderedRing α] (l : List α) : ∃ t, ∀ x ∈ l, t < x := by
  induction l with
  | nil => exact ⟨0, by simp⟩
  | cons a l ih =>
    obtain ⟨t, ht⟩ := ih
    refine ⟨min t (a - 1), ?_⟩
    intro x hx
    rcases List.mem_cons.1 hx with rfl | hx
    · exact lt_of_le_of_lt (min_le_right _ _) (sub_one_lt _)
    · exact lt_of_le_of_lt (min_le_left _ _) (ht x hx)

theorem exists_regular [LinearOrder α] [Ring α] [IsStrictOrderedRing α] (next : α → α) (D : List (α × α)) :
    ∃ t, Regular next D t := by
  obtain ⟨t, ht⟩ := exists_below (D.flatMap fun p => [p.1, p.2])
  have h : ∀ v, IsEvent D v → t < v := by
    rintro v ⟨p, hp, rfl | rfl⟩
    · exact ht _ (List.mem_flatMap.2 ⟨p, hp, by simp⟩)
    · exact ht _ (List.mem_flatMap.2 ⟨p, hp, by simp⟩)
  refine ⟨t, fun h' => lt_irrefl _ (h t h'), ?_⟩
  rintro v ⟨⟨p, hp, rfl⟩, -⟩ ⟨h1, -⟩
  exact absurd (h p.1 ⟨p, hp, .inl rfl⟩) (not_lt_of_gt h1)

end Pif

open Pif in
/-- C40. The persistence indicator function counts the intervals of the diagram that contain the argument, for every argument that
is not itself a coordinate of a point.  All points lie above the diagonal.  A point on the diagonal may have the smallest
coordinate of all points only if this coordinate is positive. -/
theorem C40_active_intervals_partial [LinearOrder α] [Ring α] [IsStrictOrderedRing α] (next : α → α) (inf : α)
    (D : List (α × α)) (hD : ∀ p ∈ D, p.1 ≤ p.2) (hsize : 2 * D.length < 2 ^ 32) (hnext : NextFits next D)
    (hdiag : ∀ p ∈ D, p.1 = p.2 → 0 < p.1 ∨ ∃ q ∈ D, q.1 < p.1) :
    ∃ f, pif next inf D = some f ∧ IsStepFunction f ∧
      ∀ t, Regular next D t → Step.eval f t = (activeIntervals D t : α) := by
  have hinv : isInverted inf D = false := by
    rw [isInverted, List.any_eq_false]
    intro p hp
    simp [hD p hp]
  have hE : events (isInverted inf D) D = D.flatMap fun p => [(p.1, false), (p.2, true)] := by
    rw [hinv]; rfl
  have key := fun t (ht : Regular next D t) => run_correct next t D ((events (isInverted inf D) D).insertionSort le)
    (by rw [hE]; exact List.perm_insertionSort _ _)
    (List.Pairwise.imp (fun h => h.elim le_of_lt fun h => h.1.le) (List.pairwise_insertionSort le _)) hD hsize
    (by
      intro p hp q hq hpq
      have hm : IsMixed D p.1 := ⟨⟨p, hp, rfl⟩, ⟨q, hq, hpq.symm⟩⟩
      obtain ⟨k1, k2⟩ := hnext p.1 hm
      exact ⟨k1, fun r hr => ⟨k2 _ ⟨r, hr, .inl rfl⟩, k2 _ ⟨r, hr, .inr rfl⟩⟩,
        fun h => le_of_not_gt fun h' => ht.2 p.1 hm ⟨h, h'⟩⟩)
    (fun p hp => ⟨fun h => ht.1 ⟨p, hp, .inl h⟩, fun h => ht.1 ⟨p, hp, .inr h⟩⟩) hdiag
  have hcount : ∀ t, activeIntervals D t = D.countP fun p => p.1 < t ∧ t < p.2 := by
    intro t
    refine List.countP_congr fun p hp => ?_
    rw [min_eq_left (hD p hp), max_eq_right (hD p hp)]
  obtain ⟨t0, ht0⟩ := exists_regular next D
  obtain ⟨f, hf, hstep, -⟩ := key t0 ht0
  refine ⟨f, hf, hstep, ?_⟩
  intro t ht
  obtain ⟨g, hg, -, h⟩ := key t ht
  rw [hf] at hg
  cases hg
  rw [h, hcount]

open Pif in
/-- C40, the same for diagrams whose points lie below the diagonal, e.g. of superlevel set filtrations. -/
theorem C40_inverted_partial [LinearOrder α] [Ring α] [IsStrictOrderedRing α] (next : α → α) (inf : α)
    (D : List (α × α)) (hD : ∀ p ∈ D, p.2 ≤ p.1) (hinf : ∀ p ∈ D, p.2 ≠ inf) (hsize : 2 * D.length < 2 ^ 32)
    (hnext : NextFits next D) (hdiag : ∀ p ∈ D, p.1 = p.2 → 0 < p.1 ∨ ∃ q ∈ D, q.2 < p.1) :
    ∃ f, pif next inf D = some f ∧ IsStepFunction f ∧
      ∀ t, Regular next D t → Step.eval f t = (activeIntervals D t : α) := by
  by_cases hinv : isInverted inf D = true
  case neg =>
    rw [isInverted, List.any_eq_true] at hinv
    push Not at hinv
    have hle : ∀ p ∈ D, p.1 ≤ p.2 := by
      intro p hp
      have := hinv p hp
      simp only [Diagram.isUnpaired, hinf p hp, decide_false, Bool.not_false, Bool.true_and, gt_iff_lt,
        ne_eq, decide_eq_true_eq, not_lt] at this
      exact this
    refine C40_active_intervals_partial next inf D hle hsize hnext ?_
    intro p hp h
    rcases hdiag p hp h with h | ⟨q, hq, h⟩
    · exact .inl h
    · exact .inr ⟨q, hq, lt_of_le_of_lt (hle q hq) h⟩
  have hE : (events (isInverted inf D) D).Perm ((D.map fun p => (p.2, p.1)).flatMap fun p => [(p.1, false), (p.2, true)]) := by
    rw [hinv]
    clear hD hinf hsize hnext hdiag hinv
    induction D with
    | nil => exact List.Perm.nil
    | cons p D ih =>
      rw [events, List.flatMap_cons, List.map_cons, List.flatMap_cons]
      refine List.Perm.append ?_ ih
      exact List.Perm.swap _ _ _
  have key := fun t (ht : Regular next D t) => run_correct next t (D.map fun p => (p.2, p.1))
    ((events (isInverted inf D) D).insertionSort le) ((List.perm_insertionSort _ _).trans hE)
    (List.Pairwise.imp (fun h => h.elim le_of_lt fun h => h.1.le) (List.pairwise_insertionSort le _))
    (by
      intro q hq
      obtain ⟨p, hp, rfl⟩ := List.mem_map.1 hq
      exact hD p hp)
    (by simpa using hsize)
    (by
      intro p' hp' q' hq' hpq
      obtain ⟨p, hp, rfl⟩ := List.mem_map.1 hp'
      obtain ⟨q, hq, rfl⟩ := List.mem_map.1 hq'
      have hm : IsMixed D p.2 := ⟨⟨q, hq, hpq.symm⟩, ⟨p, hp, rfl⟩⟩
      obtain ⟨k1, k2⟩ := hnext p.2 hm
      refine ⟨k1, ?_, fun h => le_of_not_gt fun h' => ht.2 p.2 hm ⟨h, h'⟩⟩
      intro r' hr'
      obtain ⟨r, hr, rfl⟩ := List.mem_map.1 hr'
      exact ⟨k2 _ ⟨r, hr, .inr rfl⟩, k2 _ ⟨r, hr, .inl rfl⟩⟩)
    (by
      intro q hq
      obtain ⟨p, hp, rfl⟩ := List.mem_map.1 hq
      exact ⟨fun h => ht.1 ⟨p, hp, .inr h⟩, fun h => ht.1 ⟨p, hp, .inl h⟩⟩)
    (by
      intro q hq h
      obtain ⟨p, hp, rfl⟩ := List.mem_map.1 hq
      simp only at h
      rcases hdiag p hp h.symm with h1 | ⟨r, hr, h1⟩
      · exact .inl (by simpa only [h] using h1)
      · exact .inr ⟨(r.2, r.1), List.mem_map.2 ⟨r, hr, rfl⟩, by simpa only [h] using h1⟩)
  have hcount : ∀ t, activeIntervals D t = (D.map fun p => (p.2, p.1)).countP fun p => p.1 < t ∧ t < p.2 := by
    intro t
    rw [List.countP_map]
    refine List.countP_congr fun p hp => ?_
    rw [min_eq_right (hD p hp), max_eq_left (hD p hp)]
    rfl
  obtain ⟨t0, ht0⟩ := exists_regular next D
  obtain ⟨f, hf, hstep, -⟩ := key t0 ht0
  refine ⟨f, hf, hstep, ?_⟩
  intro t ht
  obtain ⟨g, hg, -, h⟩ := key t ht
  have hg' : some f = some g := hf.symm.trans hg
  cases hg'
  rw [h, hcount]

/-- Two intervals that meet at 4, a third one that contains both, and a point on the diagonal. -/
def samplePif : List (ℤ × ℤ) := [(1, 4), (4, 8), (0, 10), (6, 6)]

example : (∀ p ∈ samplePif, p.1 ≤ p.2) ∧ 2 * samplePif.length < 2 ^ 32 ∧ NextFits (· + 1) samplePif ∧
    (∀ p ∈ samplePif, p.1 = p.2 → 0 < p.1 ∨ ∃ q ∈ samplePif, q.1 < p.1) ∧ Regular (· + 1) samplePif 7 ∧
    activeIntervals samplePif 7 = 2 := by
  refine ⟨by decide, by decide, ?_, by decide, ?_, by decide⟩
  · rintro v ⟨⟨p, hp, rfl⟩, ⟨r, hr, hrp⟩⟩
    refine ⟨Int.lt_succ _, ?_⟩
    rintro w ⟨q, hq, hw⟩ hlt
    have h46 : p.1 = 4 ∨ p.1 = 6 := by
      clear hlt hw
      revert p r
      decide
    simp only [samplePif, List.mem_cons, List.not_mem_nil, or_false] at hq
    rcases h46 with h | h <;> rw [h] at hlt ⊢ <;> rcases hq with rfl | rfl | rfl | rfl <;> rcases hw with rfl | rfl <;>
      revert hlt <;> decide
  · refine ⟨?_, fun v _ h => by have := h.1; have := h.2; simp only at this; omega⟩
    rintro ⟨p, hp, hw⟩
    simp only [samplePif, List.mem_cons, List.not_mem_nil, or_false] at hp
    rcases hp with rfl | rfl | rfl | rfl <;> revert hw <;> decide

example : (∀ p ∈ samplePif.map Prod.swap, p.2 ≤ p.1) ∧ (∀ p ∈ samplePif.map Prod.swap, p.2 ≠ 100) := by decide

/-- C40. For a diagram with a single point on the diagonal whose coordinates are not positive, the program is undefined
(for negative coordinates it terminates, because a function marked `noexcept` throws). -/
theorem C40_diagonal_witness : Pif.pif (· + 1) 100 [((-1 : ℤ), -1)] = none ∧
    Pif.pif (· + 1) 100 [((-1 : ℤ), -1), (0, 2)] = none := by decide +kernel

/-- C40. For numbers whose successor is another coordinate (which is common for integers), the program is undefined. -/
theorem C40_successor_witness : Pif.pif (· + 1) 100 [((0 : ℤ), 1), (1, 2)] = none := by decide +kernel

/-- C40. A diagram with points on both sides of the diagonal is not treated correctly: the number of active intervals
underflows. -/
theorem C40_both_sides_witness : ∃ f, Pif.pif (· + 1) 100 [((0 : ℤ), 10), (30, 20)] = some f ∧ Step.eval f 5 = 4294967295 ∧
    activeIntervals [((0 : ℤ), 10), (30, 20)] 5 = 1 :=
  ⟨[⟨0, 10, 4294967295⟩, ⟨10, 20, 0⟩, ⟨20, 30, 1⟩], by decide +kernel, by decide +kernel, by decide +kernel⟩

end Aleph
