import Verif.Model.DiagramClasses
import Verif.Spec.DiagramClasses
import Verif.Props.UnionFind
import Mathlib.Data.List.Sort

/-!
# C194: Classes of equal diagrams
-/

namespace Aleph.DiagramClasses

open Spec ParentMap

variable {α : Type} [LinearOrder α]

theorem pointLess_total (a b : α × α) : pointLess b a = false ∨ pointLess a b = false := by
  unfold pointLess
  by_contra h
  push Not at h
  obtain ⟨h1, h2⟩ := h
  simp only [ne_eq, Bool.not_eq_false, Bool.or_eq_true, decide_eq_true_eq, Bool.and_eq_true] at h1 h2
  rcases h1 with h1 | ⟨h1, h1'⟩ <;> rcases h2 with h2 | ⟨h2, h2'⟩
  · exact absurd h1 (not_lt.2 h2.le)
  · exact absurd h2 h1.ne'
  · exact absurd h1 h2.ne'
  · exact absurd h1' (not_lt.2 h2'.le)

theorem pointLess_trans (a b c : α × α) (h1 : pointLess b a = false) (h2 : pointLess c b = false) : pointLess c a = false := by
  unfold pointLess at *
  simp only [Bool.or_eq_false_iff, decide_eq_false_iff_not, Bool.and_eq_false_iff, not_lt] at *
  refine ⟨le_trans h1.1 h2.1, ?_⟩
  by_cases hc : c.1 = a.1
  · right
    have e1 : b.1 = a.1 := le_antisymm (by rw [← hc]; exact h2.1) h1.1
    have e2 : c.1 = b.1 := by rw [e1, hc]
    exact le_trans (h1.2.resolve_left (not_not.2 e1)) (h2.2.resolve_left (not_not.2 e2))
  · exact .inl hc

theorem pointLess_antisymm (a b : α × α) (h1 : pointLess b a = false) (h2 : pointLess a b = false) : a = b := by
  unfold pointLess at *
  simp only [Bool.or_eq_false_iff, decide_eq_false_iff_not, Bool.and_eq_false_iff, not_lt] at *
  have e : a.1 = b.1 := le_antisymm h1.1 h2.1
  exact Prod.ext e (le_antisymm (h1.2.resolve_left (not_not.2 e.symm)) (h2.2.resolve_left (not_not.2 e)))

/-- Cleaned diagrams are equal if and only if they have the same points. -/
theorem clean_eq (D E : Diagram α) : (clean D).eq (clean E) = true ↔ SamePoints D E := by
  haveI : Std.Total (fun a b : α × α => pointLess b a = false) := ⟨pointLess_total⟩
  haveI : IsTrans (α × α) (fun a b => pointLess b a = false) := ⟨pointLess_trans⟩
  haveI : Std.Antisymm (fun a b : α × α => pointLess b a = false) := ⟨pointLess_antisymm⟩
  have hf : ∀ D : Diagram α, (clean D).points.Perm (D.points.filter fun p => p.1 ≠ p.2) := by
    intro D
    refine (List.perm_insertionSort _ _).trans (List.Perm.of_eq ?_)
    unfold Diagram.removeDiagonal
    exact List.filter_congr fun p _ => by simp
  have hs : ∀ D : Diagram α, (clean D).points.Pairwise (fun a b : α × α => pointLess b a = false) := fun D => List.pairwise_insertionSort _ _
  unfold Diagram.eq SamePoints
  rw [beq_iff_eq]
  constructor
  · intro h
    exact (hf D).symm.trans ((List.Perm.of_eq h).trans (hf E))
  · intro h
    exact ((hf D).trans (h.trans (hf E).symm)).eq_of_pairwise (fun a b _ _ => pointLess_antisymm a b) (hs D) (hs E)

theorem mem_pairs {n i j : ℕ} : (i, j) ∈ pairs n ↔ i < j ∧ j < n := by
  unfold pairs
  simp only [List.mem_flatMap, List.mem_range, List.mem_map, List.mem_range'_1, Prod.mk.injEq]
  constructor
  · rintro ⟨a, ha, b, hb, rfl, rfl⟩
    omega
  · intro h
    exact ⟨i, by omega, j, by omega, rfl, rfl⟩

theorem runOps_append (p : ParentMap) (a b : List Op) : p.runOps (a ++ b) = (p.runOps a).bind fun p' => p'.runOps b := by
  unfold runOps
  rw [List.foldlM_append]
  rfl

theorem mergesOf_append (a b : List Op) (hb : mergesOf b = []) : mergesOf (a ++ b) = mergesOf a := by
  unfold mergesOf at *
  rw [List.filterMap_append, List.reverse_append, hb, List.nil_append]

/-- The loops as calls on the structure. -/
theorem steps (leftFirst : Bool) (Ds : List (Diagram α)) : ∀ (l : List (ℕ × ℕ)), (∀ e ∈ l, e.1 < Ds.length ∧ e.2 < Ds.length) → ∀ (vs : List ℕ) (ops0 : List Op) (p : ParentMap), (ParentMap.ofRange vs).runOps ops0 = some p →
    (∀ e ∈ l, e.1 ∈ vs ∧ e.2 ∈ vs) →
    ∃ p' ops, l.foldlM (step leftFirst Ds) p = some p' ∧ (ParentMap.ofRange vs).runOps ops = some p' ∧
      ∀ u v, (u, v) ∈ mergesOf ops ↔ (u, v) ∈ mergesOf ops0 ∨ ((v, u) ∈ l ∧ ∃ D E, Ds[v]? = some D ∧ Ds[u]? = some E ∧ D.eq E = true) := by
  intro l
  induction l with
  | nil => intro _ vs ops0 p h _; exact ⟨p, ops0, rfl, h, fun u v => by simp⟩
  | cons e l ih =>
    intro hl vs ops0 p h hvs
    obtain ⟨he1, he2⟩ := hl e List.mem_cons_self
    have hl' := fun e' he' => hl e' (List.mem_cons_of_mem _ he')
    have hvs' := fun e' he' => hvs e' (List.mem_cons_of_mem _ he')
    rw [List.foldlM_cons]
    have hstep : step leftFirst Ds p e = if Ds[e.1].eq Ds[e.2] then p.merge leftFirst e.2 e.1 else some p := by
      unfold step
      rw [List.getElem?_eq_getElem he1, List.getElem?_eq_getElem he2]
    by_cases heq : Ds[e.1].eq Ds[e.2] = true
    · obtain ⟨p1, hp1, -⟩ := C14_merge_directional vs ops0 p h leftFirst e.2 e.1 (hvs e List.mem_cons_self).2 (hvs e List.mem_cons_self).1
      rw [hstep, if_pos heq, hp1]
      have hrun : (ParentMap.ofRange vs).runOps (ops0 ++ [.merge leftFirst e.2 e.1]) = some p1 := by
        rw [runOps_append, h]
        show runOps p [Op.merge leftFirst e.2 e.1] = some p1
        simp [runOps, exec, hp1]
      obtain ⟨p', ops, g1, g2, g3⟩ := ih hl' vs _ p1 hrun hvs'
      refine ⟨p', ops, g1, g2, fun u v => ?_⟩
      rw [g3]
      have hm : mergesOf (ops0 ++ [.merge leftFirst e.2 e.1]) = (e.2, e.1) :: mergesOf ops0 := by simp [mergesOf]
      rw [hm, List.mem_cons, List.mem_cons]
      constructor
      · rintro ((h | h) | h)
        · rw [Prod.mk.injEq] at h
          obtain ⟨rfl, rfl⟩ := h
          exact .inr ⟨.inl rfl, _, _, List.getElem?_eq_getElem he1, List.getElem?_eq_getElem he2, heq⟩
        · exact .inl h
        · exact .inr ⟨.inr h.1, h.2⟩
      · rintro (h | ⟨h | h, h'⟩)
        · exact .inl (.inr h)
        · rw [← h]; exact .inl (.inl rfl)
        · exact .inr ⟨h, h'⟩
    · rw [hstep, if_neg heq]
      obtain ⟨p', ops, g1, g2, g3⟩ := ih hl' vs ops0 p h hvs'
      refine ⟨p', ops, g1, g2, fun u v => ?_⟩
      rw [g3, List.mem_cons]
      refine or_congr_right ⟨fun h => ⟨.inr h.1, h.2⟩, ?_⟩
      rintro ⟨h | h, D, E, hD, hE, hDE⟩
      · exfalso
        subst h
        apply heq
        rw [List.getElem?_eq_getElem he1] at hD
        rw [List.getElem?_eq_getElem he2] at hE
        rw [Option.some.injEq] at hD hE
        rw [hD, hE]; exact hDE
      · exact ⟨h, D, E, hD, hE, hDE⟩

theorem output_spec (vs : List ℕ) (R : ℕ → ℕ → Prop) : ∀ (roots : List ℕ) (ops : List Op) (p : ParentMap), (ParentMap.ofRange vs).runOps ops = some p → (∀ r ∈ roots, r ∈ vs) → Connected (mergesOf ops) = R →
    ∃ ls, List.Forall₂ (fun r l => l.Nodup ∧ ∀ u, u ∈ l ↔ u ∈ vs ∧ R u r) roots ls ∧ output p roots = some (ls.filter fun l => decide (l.length > 1)) := by
  intro roots
  induction roots with
  | nil => intro ops p _ _ _; exact ⟨[], .nil, rfl⟩
  | cons r roots ih =>
    intro ops p h hr hR
    obtain ⟨p', l, h1, h2, h3⟩ := (C14_roots_get vs ops p h).2 r (hr r List.mem_cons_self)
    have hrun : (ParentMap.ofRange vs).runOps (ops ++ [.get r]) = some p' := by
      rw [runOps_append, h]
      show runOps p [Op.get r] = some p'
      simp [runOps, exec, h1]
    obtain ⟨ls, g1, g2⟩ := ih (ops ++ [.get r]) p' hrun (fun r' hr' => hr r' (List.mem_cons_of_mem _ hr')) (by rw [mergesOf_append _ _ (by simp [mergesOf])]; exact hR)
    refine ⟨l :: ls, .cons ⟨h2, fun u => by rw [h3, hR]⟩ g1, ?_⟩
    unfold output
    rw [h1]
    dsimp only
    rw [g2]
    dsimp only
    rw [List.filter_cons]
    simp only [decide_eq_true_eq]

theorem forall₂_right {β γ : Type} {R : β → γ → Prop} {xs : List β} {ys : List γ} (h : List.Forall₂ R xs ys) : ∀ y ∈ ys, ∃ x ∈ xs, R x y := by
  induction h with
  | nil => simp
  | cons h _ ih =>
    intro y hy
    rcases List.mem_cons.1 hy with rfl | hy
    · exact ⟨_, List.mem_cons_self, h⟩
    · obtain ⟨x, hx, hxy⟩ := ih y hy
      exact ⟨x, List.mem_cons_of_mem _ hx, hxy⟩

theorem forall₂_left {β γ : Type} {R : β → γ → Prop} {xs : List β} {ys : List γ} (h : List.Forall₂ R xs ys) : ∀ x ∈ xs, ∃ y ∈ ys, R x y := by
  induction h with
  | nil => simp
  | cons h _ ih =>
    intro y hy
    rcases List.mem_cons.1 hy with rfl | hy
    · exact ⟨_, List.mem_cons_self, h⟩
    · obtain ⟨x, hx, hxy⟩ := ih y hy
      exact ⟨x, List.mem_cons_of_mem _ hx, hxy⟩

theorem forall₂_pairwise {β γ : Type} {R : β → γ → Prop} {xs : List β} {ys : List γ} (h : List.Forall₂ R xs ys) (P : β → β → Prop) {Q : γ → γ → Prop} (hP : xs.Pairwise P) (hQ : ∀ a b x y, R a x → R b y → P a b → Q x y) :
    ys.Pairwise Q := by
  induction h with
  | nil => exact .nil
  | cons h hs ih =>
    rw [List.pairwise_cons] at hP ⊢
    refine ⟨fun y hy => ?_, ih hP.2⟩
    obtain ⟨b, hb, hby⟩ := forall₂_right hs y hy
    exact hQ _ b _ y h hby (hP.1 b hb)

/-- C194. The classification of diagrams: every class has at least two different indices of diagrams, all diagrams with the same points (apart from the diagonal) as one of its diagrams belong to it, and no others.  The classes are
disjoint, and different indices of diagrams with the same points are in one of them.  The reported number is the number of different diagrams. -/
theorem _root_.Aleph.C194_classes (leftFirst : Bool) (Ds : List (Diagram α)) :
    ∃ cs N, classify leftFirst (Ds.map clean) = some (cs, N) ∧
      (∀ c ∈ cs, 2 ≤ c.length ∧ c.Nodup ∧ ∀ i ∈ c, ∃ D, Ds[i]? = some D ∧ ∀ j : ℕ, j ∈ c ↔ ∃ E, Ds[j]? = some E ∧ SamePoints D E) ∧
      cs.Pairwise List.Disjoint ∧
      (∀ (i j : ℕ) D E, i ≠ j → Ds[i]? = some D → Ds[j]? = some E → SamePoints D E → ∃ c ∈ cs, i ∈ c ∧ j ∈ c) ∧
      ∃ rs : List ℕ, rs.Nodup ∧ rs.length = N ∧ (∀ r ∈ rs, r < Ds.length) ∧ ∀ (i : ℕ) D, Ds[i]? = some D → ∃! r : ℕ, r ∈ rs ∧ ∃ E, Ds[r]? = some E ∧ SamePoints D E := by
  have hlen : (Ds.map clean).length = Ds.length := List.length_map _
  obtain ⟨p, ops, h1, h2, h3⟩ := steps leftFirst (Ds.map clean) (pairs Ds.length) (by
    rintro ⟨i, j⟩ h
    have := mem_pairs.1 h
    rw [hlen]
    dsimp only
    omega) (List.range Ds.length) [] _ rfl (by
    rintro ⟨i, j⟩ h
    have := mem_pairs.1 h
    simp only [List.mem_range]
    omega)
  have hmerge : ∀ u v, (u, v) ∈ mergesOf ops ↔ v < u ∧ ∃ D E, Ds[v]? = some D ∧ Ds[u]? = some E ∧ SamePoints D E := by
    intro u v
    rw [h3, mem_pairs]
    simp only [mergesOf, List.filterMap_nil, List.reverse_nil, List.not_mem_nil, false_or, List.getElem?_map]
    constructor
    · rintro ⟨h, D, E, hD, hE, hDE⟩
      obtain ⟨D', hD', rfl⟩ := Option.map_eq_some_iff.1 hD
      obtain ⟨E', hE', rfl⟩ := Option.map_eq_some_iff.1 hE
      exact ⟨h.1, D', E', hD', hE', (clean_eq _ _).1 hDE⟩
    · rintro ⟨h, D, E, hD, hE, hDE⟩
      exact ⟨⟨h, (List.getElem?_eq_some_iff.1 hE).1⟩, _, _, by rw [hD]; rfl, by rw [hE]; rfl, (clean_eq _ _).2 hDE⟩
  have hconn : ∀ u v, Connected (mergesOf ops) u v → u = v ∨ ∃ D E, Ds[u]? = some D ∧ Ds[v]? = some E ∧ SamePoints D E := by
    intro u v h
    induction h with
    | rel u v h =>
      obtain ⟨_, D, E, hD, hE, hDE⟩ := (hmerge u v).1 h
      exact .inr ⟨E, D, hE, hD, hDE.symm⟩
    | refl u => exact .inl rfl
    | symm u v _ ih =>
      rcases ih with rfl | ⟨D, E, hD, hE, h⟩
      · exact .inl rfl
      · exact .inr ⟨E, D, hE, hD, h.symm⟩
    | trans u v w _ _ ih1 ih2 =>
      rcases ih1 with rfl | ⟨D, E, hD, hE, h⟩
      · exact ih2
      · rcases ih2 with rfl | ⟨D', E', hD', hE', h'⟩
        · exact .inr ⟨D, E, hD, hE, h⟩
        · rw [hE, Option.some.injEq] at hD'
          subst hD'
          exact .inr ⟨D, E', hD, hE', h.trans h'⟩
  have hconn' : ∀ u v D E, Ds[u]? = some D → Ds[v]? = some E → (Connected (mergesOf ops) u v ↔ SamePoints D E) := by
    intro u v D E hD hE
    constructor
    · intro h
      rcases hconn u v h with rfl | ⟨D', E', hD', hE', h'⟩
      · rw [hD, Option.some.injEq] at hE
        rw [hE]
        exact List.Perm.refl _
      · rw [hD, Option.some.injEq] at hD'
        rw [hE, Option.some.injEq] at hE'
        rw [hD', hE']; exact h'
    · intro h
      rcases lt_trichotomy u v with hlt | rfl | hlt
      · exact .symm _ _ (.rel _ _ ((hmerge v u).2 ⟨hlt, D, E, hD, hE, h⟩))
      · exact .refl _
      · exact .rel _ _ ((hmerge u v).2 ⟨hlt, E, D, hE, hD, h.symm⟩)
  obtain ⟨p', rs, r1, r2, r3, r4⟩ := (C14_roots_get _ ops p h2).1
  have hrun : (ParentMap.ofRange (List.range Ds.length)).runOps (ops ++ [.roots]) = some p' := by
    rw [runOps_append, h2]
    show runOps p [Op.roots] = some p'
    simp [runOps, exec, r1]
  obtain ⟨ls, g1, g2⟩ := output_spec (List.range Ds.length) (Connected (mergesOf ops)) rs _ p' hrun (fun r hr => (r3 r hr).1) (by rw [mergesOf_append _ _ (by simp [mergesOf])])
  have hex : ∀ i < Ds.length, ∃ D, Ds[i]? = some D := fun i hi => ⟨_, List.getElem?_eq_getElem hi⟩
  have hlt : ∀ {i D}, Ds[i]? = some D → i < Ds.length := fun h => (List.getElem?_eq_some_iff.1 h).1
  have hcover : ∀ i < Ds.length, ∃ r ∈ rs, Connected (mergesOf ops) i r := by
    intro i hi
    obtain ⟨r, hr, -⟩ := r4 i (List.mem_range.2 hi)
    exact ⟨r, hr⟩
  have huniq : ∀ a b u, a ∈ rs → b ∈ rs → u ∈ List.range Ds.length → Connected (mergesOf ops) u a → Connected (mergesOf ops) u b → a = b :=
    fun a b u ha hb hu hua hub => (r4 u hu).unique ⟨ha, hua⟩ ⟨hb, hub⟩
  have hnd : rs.Pairwise fun a b => a ≠ b := r2
  refine ⟨ls.filter fun l => decide (l.length > 1), rs.length, ?_, ?_, ?_, ?_, rs, r2, rfl, ?_, ?_⟩
  · unfold classify
    rw [hlen, h1]
    dsimp only
    rw [r1]
    dsimp only
    rw [g2]
  · intro c hc
    rw [List.mem_filter, decide_eq_true_eq] at hc
    obtain ⟨r, hr, hcn, hcm⟩ := forall₂_right g1 c hc.1
    refine ⟨hc.2, hcn, fun i hi => ?_⟩
    obtain ⟨hi1, hi2⟩ := (hcm i).1 hi
    obtain ⟨D, hD⟩ := hex i (List.mem_range.1 hi1)
    refine ⟨D, hD, fun j => ?_⟩
    rw [hcm]
    constructor
    · rintro ⟨hj1, hj2⟩
      obtain ⟨E, hE⟩ := hex j (List.mem_range.1 hj1)
      exact ⟨E, hE, (hconn' i j D E hD hE).1 (.trans _ _ _ hi2 (.symm _ _ hj2))⟩
    · rintro ⟨E, hE, hDE⟩
      exact ⟨List.mem_range.2 (hlt hE), .trans _ _ _ (.symm _ _ ((hconn' i j D E hD hE).2 hDE)) hi2⟩
  · refine List.Pairwise.filter _ (forall₂_pairwise g1 (fun a b => a ∈ rs ∧ b ∈ rs ∧ a ≠ b) ?_ ?_)
    · exact List.Pairwise.imp_of_mem (fun ha hb h => ⟨ha, hb, h⟩) hnd
    · rintro a b x y ⟨-, hx⟩ ⟨-, hy⟩ ⟨ha, hb, hab⟩ u hu hu'
      exact hab (huniq a b u ha hb ((hx u).1 hu).1 ((hx u).1 hu).2 ((hy u).1 hu').2)
  · intro i j D E hij hD hE hDE
    obtain ⟨r, hr, hir⟩ := hcover i (hlt hD)
    obtain ⟨c, hc, hcn, hcm⟩ := forall₂_left g1 r hr
    have hi : i ∈ c := (hcm i).2 ⟨List.mem_range.2 (hlt hD), hir⟩
    have hj : j ∈ c := (hcm j).2 ⟨List.mem_range.2 (hlt hE), .trans _ _ _ (.symm _ _ ((hconn' i j D E hD hE).2 hDE)) hir⟩
    refine ⟨c, List.mem_filter.2 ⟨hc, ?_⟩, hi, hj⟩
    rw [decide_eq_true_eq]
    have : [i, j].Subperm c := List.subperm_of_subset (by simpa using hij) (by intro x hx; simp only [List.mem_cons, List.not_mem_nil, or_false] at hx; rcases hx with rfl | rfl <;> assumption)
    exact this.length_le
  · intro r hr
    exact List.mem_range.1 (r3 r hr).1
  · intro i D hD
    obtain ⟨r, hr, hir⟩ := hcover i (hlt hD)
    obtain ⟨E, hE⟩ := hex r (List.mem_range.1 (r3 r hr).1)
    refine ⟨r, ⟨hr, E, hE, (hconn' i r D E hD hE).1 hir⟩, ?_⟩
    rintro r' ⟨hr', E', hE', h'⟩
    exact huniq r' r i hr' hr (List.mem_range.2 (hlt hD)) ((hconn' i r' D E' hD hE').2 h') hir

/-- Three of four diagrams have the same points: one in another order, one with a point on the diagonal. -/
def sampleDiagrams : List (Diagram ℤ) := [⟨0, [(0, 3), (0, 1)]⟩, ⟨0, [(0, 1)]⟩, ⟨0, [(0, 1), (2, 2), (0, 3)]⟩, ⟨0, [(0, 1), (0, 3)]⟩]

example : classify true (sampleDiagrams.map clean) = some ([[0, 2, 3]], 2) := by decide +kernel

example : SamePoints (⟨0, [(0, 3), (0, 1)]⟩ : Diagram ℤ) ⟨0, [(0, 1), (2, 2), (0, 3)]⟩ := by unfold SamePoints; decide

end Aleph.DiagramClasses
