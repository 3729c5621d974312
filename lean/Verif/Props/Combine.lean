import Verif.Model.Combine
import Verif.Spec.Combine
import Mathlib.Data.List.Sublists
import Mathlib.Tactic.Abel
import Mathlib.Algebra.Order.Group.Multiset

/-!
# C59: iteration over combinations
-/

namespace Aleph

open Spec Combine

variable {σ τ : Type}

theorem runUntil_append (f : σ → τ → σ × Bool) (s : σ) (l l' : List τ) :
    runUntil f s (l ++ l') =
      if (runUntil f s l).2 then runUntil f s l else runUntil f (runUntil f s l).1 l' := by
  induction l generalizing s with
  | nil => simp [runUntil]
  | cons x l ih =>
    have hc : ∀ m, runUntil f s (x :: m) =
        if (f s x).2 then ((f s x).1, true) else runUntil f (f s x).1 m := by
      intro m
      simp only [runUntil]
      split <;> rename_i h <;> simp [h]
    rw [List.cons_append, hc, hc]
    split_ifs with h1 h2
    · rfl
    · simp at h2
    · rw [ih]; simp_all
    · rw [ih]; simp_all

/-- The sublists of a given length in lexicographic order of positions. -/
def combs (d : ℕ) (l : List τ) : List (List τ) := (l.sublistsLen d).reverse

theorem combs_cons (d : ℕ) (a : τ) (l : List τ) :
    combs (d + 1) (a :: l) = (combs d l).map (a :: ·) ++ combs (d + 1) l := by
  simp [combs, List.sublistsLen_succ_cons]

theorem combs_full (l : List τ) : combs l.length l = [l] := by
  induction l with
  | nil => rfl
  | cons a l ih =>
    rw [List.length_cons, combs_cons, ih]
    have : combs (l.length + 1) l = [] := by
      have := List.length_sublistsLen (l.length + 1) l
      rw [Nat.choose_eq_zero_of_lt (Nat.lt_succ_self _)] at this
      simp [combs, List.length_eq_zero_iff.1 this]
    simp [this]

theorem rotate_eq (A B : List τ) :
    rotateDiscontinuous A B = ((B ++ A).take A.length, (B ++ A).drop A.length) := by
  unfold rotateDiscontinuous
  split_ifs with h
  · rw [List.take_append_of_le_length h, List.drop_append_of_le_length h]
    simp
  · obtain ⟨A1, A2, h1, h2, h3⟩ : ∃ A1 A2, A = A1 ++ A2 ∧ A1.length = A.length - B.length ∧ A2.length = B.length :=
      ⟨A.take (A.length - B.length), A.drop (A.length - B.length), by simp, by simp, by simp; omega⟩
    rw [← h2]
    have e : A.length = (B ++ A1).length := by rw [h1]; simp; omega
    rw [e]
    simp only [h1, List.take_left', List.drop_left', ← List.append_assoc]

/-- What the condition of the loop does. -/
def InnerOK (f : σ → List τ → σ × Bool) (P : List τ) (d : ℕ)
    (inner : τ → List τ → List τ → σ → σ × Bool × List τ × List τ) : Prop :=
  ∀ a A post s, A.length = d → post ≠ [] →
    ∃ A' post', inner a A post s =
        ((runUntil f s ((combs d (A ++ post)).map fun c => P ++ a :: c)).1,
          (runUntil f s ((combs d (A ++ post)).map fun c => P ++ a :: c)).2, A', post') ∧
      (A' ++ post').Perm (A ++ post) ∧
      ((runUntil f s ((combs d (A ++ post)).map fun c => P ++ a :: c)).2 = false →
        ∀ y Y, A ++ post = y :: Y → A' = Y.take d ∧ post' = y :: Y.drop d)

theorem loop_spec {f : σ → List τ → σ × Bool} {P : List τ} {d : ℕ}
    {inner : τ → List τ → List τ → σ → σ × Bool × List τ × List τ} (hi : InnerOK f P d inner) (n : ℕ) :
    ∀ a A pre post s, A.length = d → post.length = n →
      ∃ vis A' B', combs (d + 1) (a :: (A ++ post)) = vis ++ [(a :: (A ++ post)).drop n] ∧
        loop inner n a A pre post s = ((runUntil f s (vis.map (P ++ ·))).1,
          (runUntil f s (vis.map (P ++ ·))).2, A', B') ∧
        (A' ++ B').Perm (a :: A ++ (pre ++ post)) ∧
        ((runUntil f s (vis.map (P ++ ·))).2 = false →
          A' = (a :: (A ++ post)).drop n ∧ B' = pre ++ (a :: (A ++ post)).take n) := by
  induction n with
  | zero =>
    intro a A pre post s hA hp
    obtain rfl := List.length_eq_zero_iff.1 hp
    refine ⟨[], a :: A, pre, ?_, ?_, ?_, ?_⟩
    · rw [List.append_nil, ← hA]
      exact combs_full (a :: A)
    · simp [loop, runUntil]
    · simp
    · simp
  | succ n ih =>
    intro a A pre post s hA hp
    have hne : post ≠ [] := by rintro rfl; simp at hp
    obtain ⟨A1, post1, e1, e2, e3⟩ := hi a A post s hA hne
    cases hz : A ++ post with
    | nil => simp [hne] at hz
    | cons y Y =>
      have hY : Y.length = d + n := by
        have := congrArg List.length hz
        simp only [List.length_append, List.length_cons] at this
        omega
      rw [hz] at e1 e2 e3
      obtain ⟨vis, A', B', f1, f2, f3, f4⟩ := ih y (Y.take d) (pre ++ [a]) (Y.drop d)
        (runUntil f s ((combs d (y :: Y)).map fun c => P ++ a :: c)).1 (by simp; omega) (by simp; omega)
      rw [List.take_append_drop] at f1 f4
      have hvis : combs (d + 1) (a :: y :: Y) =
          ((combs d (y :: Y)).map (a :: ·) ++ vis) ++ [(a :: y :: Y).drop (n + 1)] := by
        rw [combs_cons, f1]; simp
      have hmap : (((combs d (y :: Y)).map (a :: ·) ++ vis)).map (P ++ ·) =
          ((combs d (y :: Y)).map fun c => P ++ a :: c) ++ vis.map (P ++ ·) := by
        simp [Function.comp_def]
      cases hb : (runUntil f s ((combs d (y :: Y)).map fun c => P ++ a :: c)).2 with
      | true =>
        refine ⟨_, a :: A1, pre ++ post1, hvis, ?_, ?_, ?_⟩
        · rw [hmap, runUntil_append, if_pos hb]
          rw [loop, e1, hb]
        · rw [List.append_assoc] at *
          rw [← Multiset.coe_eq_coe] at e2 ⊢
          rw [← hz] at e2
          simp only [← Multiset.coe_add, ← Multiset.cons_coe, Multiset.cons_add] at e2 ⊢
          congr 1
          rw [add_left_comm, e2, add_left_comm]
        · rw [hmap, runUntil_append, if_pos hb, hb]; simp
      | false =>
        obtain ⟨rfl, rfl⟩ := e3 hb y Y rfl
        refine ⟨_, A', B', hvis, ?_, ?_, ?_⟩
        · rw [hmap, runUntil_append, if_neg (by simp [hb])]
          rw [loop, e1, hb]
          exact f2
        · rw [← hz] at e2
          refine f3.trans ?_
          rw [← Multiset.coe_eq_coe] at e2 ⊢
          simp only [← Multiset.coe_add, ← Multiset.cons_coe, Multiset.add_cons,
            List.append_assoc, List.cons_append, List.nil_append] at e2 ⊢
          rw [Multiset.cons_swap]
          congr 1
          rw [add_left_comm, ← add_left_comm (pre : Multiset τ), ← e2, ← Multiset.add_cons]
        · rw [hmap, runUntil_append, if_neg (by simp [hb])]
          intro h
          obtain ⟨g1, g2⟩ := f4 h
          exact ⟨by simpa using g1, by simpa using g2⟩

theorem combine_spec (f : σ → List τ → σ × Bool) (d : ℕ) :
    ∀ (top : Bool) (P A B : List τ) (s : σ), A.length = d + 1 → B ≠ [] →
      ∃ A' B', combine f (d + 1) top P A B s =
          ((runUntil f s ((combs (d + 1) (A ++ B)).map (P ++ ·))).1,
            (runUntil f s ((combs (d + 1) (A ++ B)).map (P ++ ·))).2, A', B') ∧
        (A' ++ B').Perm (A ++ B) ∧
        ((runUntil f s ((combs (d + 1) (A ++ B)).map (P ++ ·))).2 = false →
          ∀ y Y, A ++ B = y :: Y →
            (top = true → A' = A ∧ B' = B) ∧
            (top = false → A' = Y.take (d + 1) ∧ B' = y :: Y.drop (d + 1))) := by
  have key : ∀ (d : ℕ) (top : Bool) (P A B : List τ) (s : σ), A.length = d + 1 → B ≠ [] →
      (∀ P, ∃ inner, InnerOK f P d inner ∧ ∀ top a A b B s,
        combine f (d + 1) top P (a :: A) (b :: B) s =
          finish f top P (loop inner (B.length + 1) a A [] (b :: B) s)) →
      ∃ A' B', combine f (d + 1) top P A B s =
          ((runUntil f s ((combs (d + 1) (A ++ B)).map (P ++ ·))).1,
            (runUntil f s ((combs (d + 1) (A ++ B)).map (P ++ ·))).2, A', B') ∧
        (A' ++ B').Perm (A ++ B) ∧
        ((runUntil f s ((combs (d + 1) (A ++ B)).map (P ++ ·))).2 = false →
          ∀ y Y, A ++ B = y :: Y →
            (top = true → A' = A ∧ B' = B) ∧
            (top = false → A' = Y.take (d + 1) ∧ B' = y :: Y.drop (d + 1))) := by
    intro d top P A B s hA hB h
    obtain ⟨inner, h1, h2⟩ := h P
    cases A with
    | nil => simp at hA
    | cons a A =>
      cases B with
      | nil => exact absurd rfl hB
      | cons b B =>
        have hA' : A.length = d := by simpa using hA
        obtain ⟨vis, A1, B1, f1, f2, f3, f4⟩ := loop_spec h1 (B.length + 1) a A [] (b :: B) s hA' (by simp)
        rw [h2, f2, List.cons_append, f1, List.map_append, runUntil_append]
        cases hr : (runUntil f s (vis.map (P ++ ·))).2 with
        | true =>
          refine ⟨A1, B1, ?_, by simpa using f3, ?_⟩
          · simp [finish, hr]
          · simp [hr]
        | false =>
          obtain ⟨g1, g2⟩ := f4 hr
          set X := a :: (A ++ b :: B) with hX
          have hXl : X.length = d + 1 + (B.length + 1) := by simp [hX]; omega
          have hone : runUntil f (runUntil f s (vis.map (P ++ ·))).1 ([X.drop (B.length + 1)].map (P ++ ·)) =
              f (runUntil f s (vis.map (P ++ ·))).1 (P ++ A1) := by
            rw [g1]
            simp only [List.map_cons, List.map_nil, runUntil]
            split <;> rename_i h <;> simp [h]
          rw [if_neg (by simp), hone]
          simp only [finish]
          rcases hf : f (runUntil f s (vis.map (P ++ ·))).1 (P ++ A1) with ⟨s', b'⟩
          cases b' with
          | true => exact ⟨A1, B1, rfl, by simpa using f3, by simp⟩
          | false =>
            have hA1 : A1.length = d + 1 := by rw [g1, List.length_drop]; omega
            cases top with
            | true =>
              simp only [if_true, rotate_eq]
              have e : B1 ++ A1 = X := by rw [g1, g2]; simp
              rw [e, hA1]
              refine ⟨_, _, rfl, by rw [List.take_append_drop], ?_⟩
              intro _ y Y _
              refine ⟨fun _ => ?_, by simp⟩
              rw [hX, ← hA', ← List.cons_append]
              constructor
              · exact List.take_left' (by simp)
              · exact List.drop_left' (by simp)
            | false =>
              simp only [Bool.false_eq_true, if_false, rotate_eq]
              have e0 : B1 = a :: (A ++ b :: B).take B.length := by rw [g2, hX]; simp
              have e : B1.drop 1 ++ A1 = A ++ b :: B := by rw [g1, e0, hX]; simp
              rw [e, hA1, e0]
              refine ⟨_, _, rfl, ?_, ?_⟩
              · simp only [List.take_succ_cons, List.take_zero, List.cons_append, List.nil_append]
                refine List.perm_middle.trans ?_
                rw [List.take_append_drop, hX]
              · intro _ y Y hy
                refine ⟨by simp, fun _ => ?_⟩
                simp only [hX, List.cons.injEq] at hy
                obtain ⟨rfl, rfl⟩ := hy
                simp
  induction d with
  | zero =>
    intro top P A B s hA hB
    refine key 0 top P A B s hA hB fun P => ?_
    refine ⟨fun a A post s => let r := f s (P ++ [a]); (r.1, r.2, A, post), ?_, ?_⟩
    · intro a A post s hA hp
      obtain rfl := List.length_eq_zero_iff.1 hA
      have hone : runUntil f s ((combs 0 ([] ++ post)).map fun c => P ++ a :: c) = f s (P ++ [a]) := by
        simp only [combs, List.sublistsLen_zero, List.reverse_cons, List.reverse_nil, List.nil_append,
          List.map_cons, List.map_nil, runUntil]
        split <;> rename_i h <;> simp [h]
      rw [hone]
      refine ⟨[], post, rfl, .refl _, ?_⟩
      intro _ y Y hy
      simpa using hy
    · intro top a A b B s
      simp [combine]
  | succ d ih =>
    intro top P A B s hA hB
    refine key (d + 1) top P A B s hA hB fun P => ?_
    refine ⟨fun a A post s => combine f (d + 1) false (P ++ [a]) A post s, ?_, ?_⟩
    · intro a A post s hA hp
      obtain ⟨A', B', e1, e2, e3⟩ := ih false (P ++ [a]) A post s hA hp
      simp only [List.append_assoc, List.cons_append, List.nil_append] at e1 e3
      exact ⟨A', B', e1, e2, fun h y Y hy => (e3 h y Y hy).2 trivial⟩
    · intro top a A b B s
      rw [combine, if_neg (by omega)]

/-- C59. `for_each_combination` calls the function on the subsets of the given size of the range, each exactly once
and in lexicographic order of positions, until the function returns `true`.  If it never does, the content of the
range is unchanged in the end; in any case it is a permutation of the original content. -/
theorem C59_for_each_combination (f : σ → List τ → σ × Bool) (d : ℕ) (l : List τ) (hd : d ≤ l.length) (s : σ) :
    ∃ l', Combine.forEach f d l s =
        ((runUntil f s (l.sublistsLen d).reverse).1, (runUntil f s (l.sublistsLen d).reverse).2, l') ∧
      l'.Perm l ∧ ((runUntil f s (l.sublistsLen d).reverse).2 = false → l' = l) := by
  have hone : ∀ x, runUntil f s [x] = f s x := by
    intro x
    simp only [runUntil]
    split <;> rename_i h <;> simp [h]
  cases d with
  | zero =>
    refine ⟨l, ?_, .refl _, fun _ => rfl⟩
    simp [forEach, combine, hone]
  | succ d =>
    by_cases hB : l.drop (d + 1) = []
    · have hl : l.length = d + 1 := by
        have := congrArg List.length hB
        simp at this; omega
      have hc : (l.sublistsLen (d + 1)).reverse = [l] := by
        rw [← hl]; exact combs_full l
      refine ⟨l, ?_, .refl _, fun _ => rfl⟩
      rw [hc, hone]
      have ht : l.take (d + 1) = l := List.take_of_length_le (by omega)
      rw [forEach, hB, ht]
      cases l with
      | nil => simp at hl
      | cons a l => simp [combine]
    · obtain ⟨A', B', e1, e2, e3⟩ := combine_spec f d true [] (l.take (d + 1)) (l.drop (d + 1)) s
        (by simp; omega) hB
      rw [List.take_append_drop] at e1 e2 e3
      simp only [List.nil_append, List.map_id', combs] at e1 e3
      refine ⟨A' ++ B', by rw [forEach, e1], e2, ?_⟩
      intro h
      cases hl : l with
      | nil => simp [hl] at hB
      | cons y Y =>
        obtain ⟨rfl, rfl⟩ := (e3 h y Y hl).1 trivial
        rw [← hl, List.take_append_drop]

theorem combs_lex (r : τ → τ → Prop) (d : ℕ) (l : List τ) (h : l.Pairwise r) :
    (combs d l).Pairwise (List.Lex r) := by
  induction l generalizing d with
  | nil => cases d <;> simp [combs]
  | cons a l ih =>
    cases d with
    | zero => simp [combs]
    | succ d =>
      rw [combs_cons, List.pairwise_append]
      obtain ⟨h1, h2⟩ := List.pairwise_cons.1 h
      refine ⟨?_, ih _ h2, ?_⟩
      · rw [List.pairwise_map]
        exact (ih d h2).imp fun h => List.Lex.cons h
      · intro c hc c' hc'
        obtain ⟨c, _, rfl⟩ := List.mem_map.1 hc
        have := List.mem_sublistsLen.1 (List.mem_reverse.1 hc')
        cases c' with
        | nil => simp at this
        | cons b c' => exact List.Lex.rel (h1 b (this.1.subset (by simp)))

/-- C59. The subsets visited: without repetition all subsets of the given size, ascending in the lexicographic order
if the range is sorted; there are binomially many. -/
theorem C59_combinations (r : τ → τ → Prop) (d : ℕ) (l : List τ) :
    (∀ c, c ∈ (l.sublistsLen d).reverse ↔ c.Sublist l ∧ c.length = d) ∧
      (l.Nodup → (l.sublistsLen d).reverse.Nodup) ∧
      (l.Pairwise r → (l.sublistsLen d).reverse.Pairwise (List.Lex r)) ∧
      (l.sublistsLen d).reverse.length = l.length.choose d := by
  refine ⟨fun c => ?_, fun h => ?_, combs_lex r d l, by simp⟩
  · rw [List.mem_reverse, List.mem_sublistsLen]
  · rw [List.nodup_reverse]
    exact List.nodup_sublistsLen d h

/-- Visiting all pairs out of four elements. -/
example : Combine.forEach (fun (s : List (List ℕ)) c => (s ++ [c], false)) 2 [1, 2, 3, 4] [] =
    ([[1, 2], [1, 3], [1, 4], [2, 3], [2, 4], [3, 4]], false, [1, 2, 3, 4]) := by decide

/-- Stopping at the first triple with odd sum. -/
example : Combine.forEach (fun (s : List (List ℕ)) c => (s ++ [c], c.sum % 2 == 1)) 3 [1, 2, 3, 4, 5] [] =
    ([[1, 2, 3], [1, 2, 4]], true, [1, 2, 4, 3, 5]) := by decide

end Aleph
